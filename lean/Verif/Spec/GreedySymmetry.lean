import Verif.Spec.Greedy
import Verif.Spec.Transformation

/-! # Specification: `selected_ci_greedy` with transformations -/

namespace Qosy
variable {K : Type} [Field K] [StarRing K] [Coef K] [RealCoef K]

/-- the set of strings is closed under the transformations: it contains every string that occurs in the image of one of its strings with a coefficient of
magnitude above `1e-16` -/
def ClosedUnderAll (Ts : List (Transformation K)) (strs : List OpString) : Prop :=
  ∀ s ∈ strs, ∀ T ∈ Ts, ∃ A, T s = .ok A ∧ ∀ t ∈ A.terms, (1 : ℝ) / 10 ^ 16 < ‖Coef.toC t.1‖ → t.2 ∈ strs

/-- the transformation sends every valid string to plus or minus a valid string, and different ones to different ones -/
def PermutesUpToSign (T : Transformation K) (Str : OpString → Prop) : Prop :=
  ∃ (ε : OpString → K) (f : OpString → OpString), (∀ s, Str s → T.Sends s (ε s) (f s) ∧ (ε s = 1 ∨ ε s = -1) ∧ Str (f s)) ∧ Set.InjOn f {s | Str s}

/-- `∑_T ‖T(w) - w‖²` for the operator with coefficients `w` over the strings `strs` -/
noncomputable def symmetryDefect (Ts : List (Transformation K)) (strs : List OpString) (w : OpString → K) : ℝ :=
  (Ts.map (fun T => (strs.map (fun s' => ‖Coef.toC ((strs.map (fun s => T.entry s' s * w s)).sum - w s')‖ ^ 2)).sum)).sum

/-- the arguments: one operator `H`, a well-formed initial operator, transformations that permute the valid strings up to signs, neither `orth_ops` nor a target -/
structure SymmetricOK (Str : OpString → Prop) (H : Operator K) (Ts : List (Transformation K)) (args : GreedyArgs K) : Prop where
  com : args.comOps = [H]
  str : ∀ s ∈ H.basis.strs, Str s
  nodup : H.basis.strs.Nodup
  transformations : args.transformations = some Ts
  permutes : ∀ T ∈ Ts, PermutesUpToSign T Str
  initial : args.initialOperator.WF
  initialStr : ∀ s ∈ args.initialOperator.basis.strs, Str s
  nonempty : args.initialOperator.basis.strs ≠ []
  vecs : 1 ≤ args.numVecs
  orth : args.orthOps = none
  target : args.targetOperator = none

/-- what is recorded for a step: a well-formed real normalised operator `O` of valid strings that are closed under the transformations, and the number
`c = ‖[O, H]‖² + ½ 10¹⁰ ∑_T ‖T(O) - O‖²`, the smallest one that a normalised real combination of these strings has -/
structure IsSymmetricRecord {𝔸 : Type} [Ring 𝔸] [Algebra K 𝔸] (Str : OpString → Prop) (den : OpString → 𝔸) (H : 𝔸) (Ts : List (Transformation K))
    (O : Operator K) (c : K) : Prop where
  wf : O.WF
  str : ∀ s ∈ O.basis.strs, Str s
  closed : ClosedUnderAll Ts O.basis.strs
  real : ∀ x ∈ O.coeffs, IsReal x
  unit : O.IsUnit
  value : IsReal c ∧ ∃ d : K, IsComNorm Str den (O.den den) H d ∧ toR c = toR d + 10 ^ 10 / 2 * symmetryDefect Ts O.basis.strs O.coef
  least : Nontrivial 𝔸 → ∀ (w : OpString → K) (d : K), (∀ s, IsReal (w s)) → (O.basis.strs.map (fun s => star (w s) * w s)).sum = 1 →
    IsComNorm Str den (O.basis.strs.map (fun s => w s • den s)).sum H d → toR c ≤ toR d + 10 ^ 10 / 2 * symmetryDefect Ts O.basis.strs w

end Qosy
