import Verif.Model.GeneratorVecs
import Verif.Spec.Generator
import Verif.Spec.Lanczos
import Verif.Spec.Sparsify

/-! # Specification: operators with several symmetries, found with `num_vecs` -/

namespace Qosy
variable {𝔸 : Type} [Ring 𝔸] [Algebra ℂ 𝔸]

/-- What the noncumulative mode has to leave in the attributes `output_operators` and `projected_output_operators`: the operators with
each single symmetry, and those with the first symmetries. -/
structure FoundState.Correct (den : OpString → 𝔸) (t : OpType) (V : OpString → Prop) (x : BasisArg ℂ) (inputs : List SymmetryInput)
    (st : FoundState) : Prop where
  outputs : List.Forall₂ (fun inp g => IsBasisOf t V x (inp.Holds den) ⟨g.dim, g.vecs⟩) inputs st.outputs
  length : st.projected.length = inputs.length
  projected : ∀ i c, st.projected[i]? = some c → IsBasisOf t V x (HasSymmetries den inputs (i + 1)) c

/-- fewer than `k` independent combinations of the elements of `x` have the property `P` -/
def FewerThan (t : OpType) (V : OpString → Prop) (x : BasisArg ℂ) (P : Operator ℂ → Prop) (k : ℕ) : Prop :=
  ∀ q : List (Fin x.len → ℂ), IndependentColumns q → (∀ v ∈ q, v ∈ x.coefficients t V P) → q.length < k

/-- The Operators are normalized and linearly independent, and their combinations are combinations of the elements of `x` that have
the property `P`, but possibly not all of them. -/
structure SpansPart (t : OpType) (V : OpString → Prop) (x : BasisArg ℂ) (P : Operator ℂ → Prop) (ops : List (Operator ℂ)) : Prop where
  on : ∀ o ∈ ops, o.On t V
  norm : ∀ o ∈ ops, o.norm .l2 = 1
  independent : (BasisArg.operators ops).Independent
  span : ∀ A : Operator ℂ, A.On t V → (∃ w, (BasisArg.operators ops).Combines w A) → (∃ v, x.Combines v A) ∧ P A

/-- What the cumulative mode has to leave in the attribute `projected_output_operators`, and when it warns.  `p[i]` are operators with the
first `i + 1` symmetries, at most `num_vecs` of them; they are all of them if there was no warning. -/
structure CumulativeVecsCorrect (den : OpString → 𝔸) (t : OpType) (V : OpString → Prop) (x : BasisArg ℂ) (inputs : List SymmetryCall)
    (p : List (List (Operator ℂ))) (warned : Bool) : Prop where
  part : ∀ i ops, p[i]? = some ops → SpansPart t V x (HasSymmetries den (inputs.map (·.toSymmetryInput)) (i + 1)) ops
  length : p.length ≤ inputs.length
  stop : p.length < inputs.length → p.getLast? = some []
  few : ∀ (i : ℕ) (ops : List (Operator ℂ)) (inp : SymmetryCall) (k : ℕ), p[i]? = some ops → inputs[i]? = some inp → inp.numVecs = some k → ops.length ≤ k
  warning : warned = true ↔ ∃ (i : ℕ) (ops : List (Operator ℂ)) (inp : SymmetryCall), p[i]? = some ops ∧ inputs[i]? = some inp ∧ inp.numVecs = some ops.length
  all : warned = false → CumulativeCorrect den t V x (inputs.map (·.toSymmetryInput)) p

end Qosy
