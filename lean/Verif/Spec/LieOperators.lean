import Verif.Model.LieOperators
import Verif.Spec.Linear
import Mathlib.LinearAlgebra.Span.Basic
import Mathlib.Algebra.Lie.OfAssociative
import Mathlib.Algebra.Lie.Subalgebra

/-!
# Specification: the list of operators returned by `generate_lie_algebra`

Operators are compared by their coefficients, functions from strings to numbers.
-/

namespace Qosy

-- the Lie bracket of a ring is the commutator
attribute [local instance 100] LieRing.ofAssociativeRing

/-- the space spanned by operators -/
def coefSpan (ops : List (Operator ℂ)) : Submodule ℂ (OpString → ℂ) := Submodule.span ℂ {f | ∃ A ∈ ops, f = A.coef}

open Classical in
/-- the coefficients above the tolerance -/
noncomputable def trimCoef (tol : ℝ) (A : Operator ℂ) : OpString → ℂ := fun s => if tol < ‖A.coef s‖ then A.coef s else 0

/-- the space spanned by operators when the coefficients of the first `n` of them that are not above the tolerance are replaced by zero -/
noncomputable def trimmedSpan (tol : ℝ) (n : ℕ) (ops : List (Operator ℂ)) : Submodule ℂ (OpString → ℂ) :=
  Submodule.span ℂ {f | ∃ A ∈ ops.take n, f = trimCoef tol A} ⊔ coefSpan (ops.drop n)

/-- the operators of a list are linearly independent -/
def IndependentOperators (ops : List (Operator ℂ)) : Prop := LinearIndependent ℂ fun i : Fin ops.length => ops[i].coef

/-- the squared distance of a vector of coefficients to a space is at most `ε` -/
def WithinSq (ε : ℝ) (f : OpString → ℂ) (V : Submodule ℂ (OpString → ℂ)) : Prop :=
  ∃ g ∈ V, ∀ F : Finset OpString, ∑ s ∈ F, ‖f s - g s‖ ^ 2 ≤ ε

/-- the computed commutator is small, or close (relative to its norm) to a space -/
def CommutatorWithin (tol : ℝ) (V : Submodule ℂ (OpString → ℂ)) (A B : Operator ℂ) : Prop :=
  ∃ C, commutatorO A B = .ok C ∧ (C.norm .l2 ≤ tol ∨ WithinSq (tol * C.norm .l2 ^ 2) C.coef V)

/-- `r` is a closure of `gens` under commutators, up to a tolerance; `V` is the space that operators are compared with -/
structure LieClosure (V : List (Operator ℂ) → Submodule ℂ (OpString → ℂ)) (tol : ℝ) (gens r : List (Operator ℂ)) : Prop where
  /-- the generators come first -/
  start : gens <+: r
  /-- every other member is a normalised commutator of two earlier members, times `-i` -/
  derived : ∀ (k : ℕ) (D : Operator ℂ), gens.length ≤ k → r[k]? = some D → ∃ i j A B C, i < k ∧ j < k ∧ r[i]? = some A ∧ r[j]? = some B ∧ commutatorO A B = .ok C ∧
    D.norm .l2 = 1 ∧ ∃ c : ℝ, 0 < c ∧ ∀ s, D.coef s = c * (-Complex.I * C.coef s)
  /-- and is not close to the space spanned by the earlier members -/
  fresh : ∀ (k : ℕ) (D : Operator ℂ), gens.length ≤ k → r[k]? = some D → ¬ WithinSq tol D.coef (V (r.take k))
  /-- the commutator of two different members is small or close to the space spanned by the members -/
  closed : ∀ (i j : ℕ) (A B : Operator ℂ), i ≠ j → r[i]? = some A → r[j]? = some B → CommutatorWithin tol (V r) A B ∨ CommutatorWithin tol (V r) B A

/-- a non-empty list of Operators of one type, with valid strings -/
def ValidOps (t : OpType) (Str : OpString → Prop) (ops : List (Operator ℂ)) : Prop :=
  ops ≠ [] ∧ ∀ A ∈ ops, A.WF ∧ A.opType = t ∧ ∀ s ∈ A.basis.strs, Str s

/-- the coefficients are zero or above the tolerance -/
def NoSmallCoefficients (tol : ℝ) (ops : List (Operator ℂ)) : Prop := ∀ A ∈ ops, ∀ s, A.coef s = 0 ∨ tol < ‖A.coef s‖

/-- `generate_lie_algebra(gens, tol)` returns `r` -/
def LieOpsReturns (gens : List (Operator ℂ)) (tol : ℝ) (r : List (Operator ℂ)) : Prop :=
  ∃ m, ∀ n, m ≤ n → generateLieAlgebraOps gens n tol = .ok (some r)

/-- no product of coefficients of two members is dropped by `commutator` -/
def NothingDropped (r : List (Operator ℂ)) : Prop :=
  ∀ A ∈ r, ∀ B ∈ r, ∀ ta ∈ A.terms, ∀ tb ∈ B.terms, ta.1 * tb.1 = 0 ∨ 1 / 10 ^ 16 ≤ ‖ta.1 * tb.1‖ * 2

/-- the tolerance separates: a commutator of two members that is small is zero, and one that is close to the space of the members is in it -/
def ToleranceSeparates (tol : ℝ) (r : List (Operator ℂ)) : Prop :=
  ∀ A ∈ r, ∀ B ∈ r, ∀ C, commutatorO A B = .ok C → (C.norm .l2 ≤ tol → ∀ s, C.coef s = 0) ∧
    (WithinSq (tol * C.norm .l2 ^ 2) C.coef (coefSpan r) → C.coef ∈ coefSpan r)

/-- the operators that a list of `Operator`s stands for -/
def operatorsOf {𝔸 : Type} [Ring 𝔸] [Algebra ℂ 𝔸] (den : OpString → 𝔸) (ops : List (Operator ℂ)) : Set 𝔸 := {x | ∃ A ∈ ops, x = A.den den}

/-- the Lie algebra generated by operators: the smallest linear space that contains them and all commutators of its members -/
def generatedLieAlgebra {𝔸 : Type} [Ring 𝔸] [Algebra ℂ 𝔸] (den : OpString → 𝔸) (ops : List (Operator ℂ)) : LieSubalgebra ℂ 𝔸 :=
  LieSubalgebra.lieSpan ℂ 𝔸 (operatorsOf den ops)

end Qosy
