import Verif.Lemmas.TiltedNumerics
import Verif.Props.Greedy

/-! # Property C58 of `selected_ci_greedy` with a target operator together with several operators `com_ops` or with `orth_ops` -/

namespace Qosy
open Coef
variable {𝔸 : Type} [Ring 𝔸]

/-- `4 X_1 + 51 Z_1` -/
def opTilt : Operator QI := ⟨[4, 51], Basis.ofList [siteX, siteZ], .pauli⟩

/-- the squared commutator norm of `X_1` with `4 X_1 + 51 Z_1` -/
theorem comNorm_tilt [Algebra QI 𝔸] (R : PauliRep QI 𝔸 Set.univ) {O : Operator QI} (h1 : O.basis.strs = [siteX, siteZ]) (h2 : O.coeffs = [1, 0]) :
    IsComNorm (fun s => PauliString Set.univ s ∧ s.Canonical) R.den (O.den R.den) (opTilt.den R.den) (⟨10404, 0⟩ : QI) := by
  have e1 : O.den R.den = R.den siteX := by simp [Operator.den, denT, Operator.terms, h1, h2]
  have e2 : opTilt.den R.den = (4 : QI) • R.den siteX + (51 : QI) • R.den siteZ := by simp [opTilt, Operator.den, denT, Operator.terms, Basis.ofList]
  have h := comNorm_strings R site_valid.1 site_valid.2.2 (C := siteY) (c := (⟨0, -2⟩ : QI)) ⟨by decide, by decide⟩ 51 (by decide +kernel)
  rw [show star ((51 : QI) * ⟨0, -2⟩) * (51 * ⟨0, -2⟩) = ⟨10404, 0⟩ by decide +kernel] at h
  obtain ⟨strs, w, q1, q2, q3, q4⟩ := h
  refine ⟨strs, w, q1, q2, ?_, q4⟩
  rw [← q3, e1, e2]
  simp only [bracketOf, mul_add, add_mul, mul_smul_comm, smul_mul_assoc]
  abel

/-- **C58 refuted** for a target operator with two operators `com_ops`: for `4 X_1 + 51 Z_1`, `52 X_1` and the target `X_1` the operator reported is `X_1` with the number
3387492/625, though its squared commutator norm with the first operator is 10404. -/
theorem C58_refuted_target [Algebra QI 𝔸] (R : PauliRep QI 𝔸 Set.univ) : ∃ args best c ops norms,
    IsNumericsOn Mat.IsTilted tiltedNumerics ∧ args.comOps = [opTilt, ⟨[52], Basis.ofList [siteX], .pauli⟩] ∧ args.transformations = none ∧ args.orthOps = none ∧
    args.targetOperator = some opX ∧ selectedCiGreedy tiltedNumerics args 10 = .ok (some (best, some c, ops, norms)) ∧ c = ⟨3387492 / 625, 0⟩ ∧
    IsComNorm (fun s => PauliString Set.univ s ∧ s.Canonical) R.den (best.den R.den) (opTilt.den R.den) (⟨10404, 0⟩ : QI) := by
  refine ⟨{ initialOperator := opXZ, comOps := [opTilt, ⟨[52], Basis.ofList [siteX], .pauli⟩], numSteps := 1, numHTerms := [1], maxSizes := [5], targetOperator := some opX },
    ⟨[1, 0], Basis.ofList [siteX, siteZ], .pauli⟩, _, [⟨[1, 0], Basis.ofList [siteX, siteZ], .pauli⟩], [⟨3387492 / 625, 0⟩], tiltedNumerics_ok, rfl, rfl, rfl, rfl, ?_,
    rfl, comNorm_tilt R rfl rfl⟩
  decide +kernel

/-- **C58 refuted** for a target operator with `orth_ops`: the same with the operator `4 X_1 + 51 Z_1` alone and `orth_ops = [0.00104 Z_1]` -/
theorem C58_refuted_target_orth [Algebra QI 𝔸] (R : PauliRep QI 𝔸 Set.univ) : ∃ args best c ops norms,
    IsNumericsOn Mat.IsTilted tiltedNumerics ∧ args.comOps = [opTilt] ∧ args.transformations = none ∧
    args.orthOps = some [⟨[104 / 10 ^ 5], Basis.ofList [siteZ], .pauli⟩] ∧
    args.targetOperator = some opX ∧ selectedCiGreedy tiltedNumerics args 10 = .ok (some (best, some c, ops, norms)) ∧ c = ⟨3387492 / 625, 0⟩ ∧
    IsComNorm (fun s => PauliString Set.univ s ∧ s.Canonical) R.den (best.den R.den) (opTilt.den R.den) (⟨10404, 0⟩ : QI) := by
  refine ⟨
    { initialOperator := opXZ, comOps := [opTilt], numSteps := 1, numHTerms := [1], maxSizes := [5],
      orthOps := some [⟨[104 / 10 ^ 5], Basis.ofList [siteZ], .pauli⟩], targetOperator := some opX },
    ⟨[1, 0], Basis.ofList [siteX, siteZ], .pauli⟩, _, [⟨[1, 0], Basis.ofList [siteX, siteZ], .pauli⟩], [⟨3387492 / 625, 0⟩], tiltedNumerics_ok, rfl, rfl, rfl, rfl, ?_,
    rfl, comNorm_tilt R rfl rfl⟩
  decide +kernel

end Qosy
