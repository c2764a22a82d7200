import Verif.Spec.Transformation
import Verif.Spec.AlgebraLaws
import Verif.Spec.Perm

/-! # Symmetries of brackets (C102) -/

namespace Qosy

section
variable {K : Type} [Field K] [StarRing K] [Coef K]

/-- The Transformations of strings of type `t` on `n` sites that can be made with `*` from label permutations, `time_reversal()` and, for Majorana
strings, `particle_hole()`.  The boolean says whether time is reversed (an odd number of times). -/
inductive StringSymmetry (n : ℕ) (t : OpType) : Transformation K → Bool → Prop
  | permutation {p : List ℕ} (hp : IsPermArray p) (hn : p.length = n) : StringSymmetry n t (labelPermutation (labelsOf p)) false
  | timeReversal : StringSymmetry n t timeReversal true
  | particleHole (ht : t = .majorana) : StringSymmetry n t particleHole false
  | mul {T U : Transformation K} {a b : Bool} (hT : StringSymmetry n t T a) (hU : StringSymmetry n t U b) : StringSymmetry n t (T.mul U) (a != b)

/-- the sign with which time reversal, which is applied linearly to coefficients, passes through brackets -/
def bracketSign (mode : Mode) (reverses : Bool) : K :=
  match mode, reverses with
  | .commutator, true => -1
  | _, _ => 1

/-- `T.apply(H)` is `H` up to a sign -/
def InvariantUpToSign (T : Transformation K) (H : Operator K) : Prop :=
  ∃ (H' : Operator K) (σ : K), T.apply H = .ok H' ∧ (σ = 1 ∨ σ = -1) ∧ ∀ s, H'.coef s = σ * H.coef s

end

end Qosy
