import Verif.Model.Generator
import Verif.Spec.Core
import Verif.Lemmas.Sends

/-! # Specification: operators with several symmetries -/

namespace Qosy
variable {𝔸 : Type} [Ring 𝔸] [Algebra ℂ 𝔸]

/-- operators that commute with a transformation are invariant, those that anticommute change sign -/
def Mode.sign : Mode → ℤ
  | .anticommutator => -1
  | _ => 1

/-- `A` has the symmetry: its (anti)commutator with the given Operator vanishes, or the given Transformation maps it to `± A` -/
def SymmetryInput.Holds (den : OpString → 𝔸) (inp : SymmetryInput) (A : Operator ℂ) : Prop :=
  match inp.symmetry with
  | .operator O => bracketOf inp.mode (A.den den) (O.den den) = 0
  | .transformation T => ∃ B, T.apply A = .ok B ∧ ∀ s, B.coef s = inp.mode.sign * A.coef s
  | .other => False

/-- the symmetries considered: Operators on the strings `V`, and Transformations that send every string in `V` to plus or minus a
string in `V`, injectively -/
def SymmetryInput.Valid (t : OpType) (V : OpString → Prop) (inp : SymmetryInput) : Prop :=
  match inp.symmetry with
  | .operator O => ∀ s ∈ O.basis.strs, V s
  | .transformation T => inp.mode ≠ .product ∧ ∃ ε f, SignRule T t V ε f ∧ Set.InjOn f {s | V s}
  | .other => False

/-- a Basis, or a list of Operators, on the strings `V` -/
def BasisArg.On (t : OpType) (V : OpString → Prop) : BasisArg ℂ → Prop
  | .strings b => b.Inv ∧ ∀ s ∈ b.strs, V s
  | .operators l => ∀ o ∈ l, o.On t V

/-- `A = ∑ v_j x_j` for the elements `x_j` of a Basis or a list of Operators -/
def BasisArg.Combines (x : BasisArg ℂ) (v : Fin x.len → ℂ) (A : Operator ℂ) : Prop := ∀ s, A.coef s = ∑ j, v j * x.coef j s

/-- the elements are linearly independent -/
def BasisArg.Independent (x : BasisArg ℂ) : Prop := ∀ v : Fin x.len → ℂ, (∀ s, ∑ j, v j * x.coef j s = 0) → v = 0

/-- the coefficients of the operators with the property `P` among the combinations of the elements of `x` -/
def BasisArg.coefficients (x : BasisArg ℂ) (t : OpType) (V : OpString → Prop) (P : Operator ℂ → Prop) : Set (Fin x.len → ℂ) :=
  {v | ∃ A : Operator ℂ, A.On t V ∧ x.Combines v A ∧ P A}

/-- The principal angles between the two spaces are zero, or not small: unit vectors `v`, `w` realise a principal angle with cosine `c` if
`w - c v` is orthogonal to the first and `v - c w` to the second space. -/
def AngleGap {n : ℕ} (V W : Set (Fin n → ℂ)) (tol : ℝ) : Prop :=
  ∀ v ∈ V, ∀ w ∈ W, ∀ c : ℝ, v ≠ 0 ∨ w ≠ 0 → (∀ a ∈ V, vdot a (w - (c : ℂ) • v) = 0) → (∀ b ∈ W, vdot b (v - (c : ℂ) • w) = 0) →
    |1 - c| < tol → c = 1

/-- the columns are an orthonormal basis of the coefficients of the operators with the property `P` -/
def IsBasisOf (t : OpType) (V : OpString → Prop) (x : BasisArg ℂ) (P : Operator ℂ → Prop) (c : Columns) : Prop :=
  ∃ q : List (Fin x.len → ℂ), c = ⟨x.len, q⟩ ∧ OrthonormalColumns q ∧
    ∀ (v : Fin x.len → ℂ) (A : Operator ℂ), A.On t V → x.Combines v A → (v ∈ colSpan q ↔ P A)

/-- `A` has the first `i` symmetries -/
def HasSymmetries (den : OpString → 𝔸) (inputs : List SymmetryInput) (i : ℕ) (A : Operator ℂ) : Prop := ∀ inp ∈ inputs.take i, inp.Holds den A

/-- What the noncumulative mode has to leave in the attributes `output_operators` and `projected_output_operators`: the operators with
each single symmetry, and those with the first symmetries. -/
structure NoncumulativeState.Correct (den : OpString → 𝔸) (t : OpType) (V : OpString → Prop) (x : BasisArg ℂ) (inputs : List SymmetryInput)
    (st : NoncumulativeState) : Prop where
  outputs : List.Forall₂ (fun inp g => IsBasisOf t V x (inp.Holds den) ⟨g.dim, g.vecs⟩) inputs st.outputs
  length : st.projected.length = inputs.length
  projected : ∀ i c, st.projected[i]? = some c → IsBasisOf t V x (HasSymmetries den inputs (i + 1)) c

/-- The Operators are normalized and linearly independent, and their combinations are those combinations of the elements of `x` that have
the property `P`. -/
structure SpansSymmetric (t : OpType) (V : OpString → Prop) (x : BasisArg ℂ) (P : Operator ℂ → Prop) (ops : List (Operator ℂ)) : Prop where
  on : ∀ o ∈ ops, o.On t V
  norm : ∀ o ∈ ops, o.norm .l2 = 1
  independent : (BasisArg.operators ops).Independent
  span : ∀ A : Operator ℂ, A.On t V → ((∃ w, (BasisArg.operators ops).Combines w A) ↔ (∃ v, x.Combines v A) ∧ P A)

/-- What the cumulative mode has to leave in the attribute `projected_output_operators`: for each number of symmetries, the operators
with those symmetries.  The list ends when no operator is left. -/
structure CumulativeCorrect (den : OpString → 𝔸) (t : OpType) (V : OpString → Prop) (x : BasisArg ℂ) (inputs : List SymmetryInput)
    (p : List (List (Operator ℂ))) : Prop where
  spans : ∀ i ops, p[i]? = some ops → SpansSymmetric t V x (HasSymmetries den inputs (i + 1)) ops
  length : p.length ≤ inputs.length
  stop : p.length < inputs.length → p.getLast? = some []

end Qosy
