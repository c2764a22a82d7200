import Verif.Spec.Generator

/-! # Specification: the noncumulative mode with `orthogonalization=True` -/

namespace Qosy
variable {𝔸 : Type} [Ring 𝔸] [Algebra ℂ 𝔸]

/-- the columns are orthonormal and are coefficients of operators with the property `P` -/
def IsPartOf (t : OpType) (V : OpString → Prop) (x : BasisArg ℂ) (P : Operator ℂ → Prop) (c : Columns) : Prop :=
  ∃ q : List (Fin x.len → ℂ), c = ⟨x.len, q⟩ ∧ OrthonormalColumns q ∧
    ∀ (v : Fin x.len → ℂ) (A : Operator ℂ), A.On t V → x.Combines v A → v ∈ colSpan q → P A

/-- every vector in the span of the columns of `c` is in the span of the columns of `d` -/
def Columns.Within (c d : Columns) : Prop :=
  ∃ (n : ℕ) (p q : List (Fin n → ℂ)), c = ⟨n, p⟩ ∧ d = ⟨n, q⟩ ∧ colSpan p ≤ colSpan q

/-- What is left of `NoncumulativeState.Correct` with `orthogonalization=True`: the operators with each single symmetry; orthonormal operators with the
first symmetries, whose span contains the next result; and all operators with all symmetries. -/
structure NoncumulativeState.Nested (den : OpString → 𝔸) (t : OpType) (V : OpString → Prop) (x : BasisArg ℂ) (inputs : List SymmetryInput)
    (st : NoncumulativeState) : Prop where
  outputs : List.Forall₂ (fun inp g => IsBasisOf t V x (inp.Holds den) ⟨g.dim, g.vecs⟩) inputs st.outputs
  length : st.projected.length = inputs.length
  projected : ∀ i c, st.projected[i]? = some c → IsPartOf t V x (HasSymmetries den inputs (i + 1)) c
  nested : ∀ i c d, st.projected[i]? = some c → st.projected[i + 1]? = some d → d.Within c
  last : ∀ c, st.projected.getLast? = some c → IsBasisOf t V x (HasSymmetries den inputs inputs.length) c

end Qosy
