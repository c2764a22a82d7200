import Verif.Model.Basis
import Verif.Spec.Rep
import Mathlib.LinearAlgebra.Finsupp.LinearCombination

/-!
# Specification: the linear combination an `Operator` stands for

Everything is defined from the iteration `for (coeff, op_string) in operator`, i.e. from `Operator.terms`.
-/

namespace Qosy
variable {K : Type} [Field K]

/-- the coefficient of a string in a linear combination: the sum of the coefficients it is listed with -/
def coefT (ts : List (K × OpString)) (s : OpString) : K := (ts.map (fun t => if t.2 = s then t.1 else 0)).sum

/-- the operator a linear combination denotes when each string `s` denotes `den s` -/
def denT {M : Type} [AddCommMonoid M] [Module K M] (den : OpString → M) (ts : List (K × OpString)) : M :=
  (ts.map (fun t => t.1 • den t.2)).sum

/-- the coefficient of a string in an `Operator` (zero when it does not occur) -/
def Operator.coef (A : Operator K) (s : OpString) : K := coefT A.terms s

/-- the operator an `Operator` denotes -/
def Operator.den {M : Type} [AddCommMonoid M] [Module K M] (den : OpString → M) (A : Operator K) : M :=
  denT den A.terms

/-- A `Basis` is an indexed set: no repetitions; membership and `index` describe the list of strings. -/
structure IndexedSet (b : Basis) : Prop where
  nodup : b.strs.Nodup
  index_iff : ∀ s i, b.index s = .ok i ↔ b.strs[i]? = some s
  index_err : ∀ s, s ∉ b.strs → b.index s = .error .keyError
  contains_iff : ∀ s, b.contains s = true ↔ s ∈ b.strs

/-- the basis holding a list of strings, as the code builds it -/
def Basis.ofList (strs : List OpString) : Basis := ⟨strs, strs.zipIdx⟩

/-- The invariant of `Basis` objects: no repetitions, and the dictionary lists the positions.  It implies
`IndexedSet` (`Basis.Inv.indexedSet`) and holds for every basis the constructor accepts. -/
def Basis.Inv (b : Basis) : Prop := b = Basis.ofList b.strs ∧ b.strs.Nodup

/-- A well-formed `Operator`: its basis satisfies the invariant, there is one coefficient for each string and
all strings have the operator's type. -/
structure Operator.WF (A : Operator K) : Prop where
  basis : A.basis.Inv
  len : A.coeffs.length = A.basis.strs.length
  type : ∀ s ∈ A.basis.strs, s.opType = A.opType

/-- the true product, commutator and anticommutator of two operators -/
def bracketOf {𝔸 : Type} [Ring 𝔸] (mode : Mode) (x y : 𝔸) : 𝔸 :=
  match mode with
  | .product => x * y
  | .commutator => x * y - y * x
  | .anticommutator => x * y + y * x

/-- the factor a bracket of strings carries besides the phase -/
def bracketFactor : Mode → ℚ
  | .product => 1
  | _ => 2

end Qosy
