import Verif.Lemmas.GreedyGeneral
import Verif.Props.Greedy

/-!
# Properties C63, C64 of `selected_ci_greedy` for all arguments

These theorems need no contract: they hold for all numerical routines, several operators in `com_ops`, and all contents of the cache.
-/

namespace Qosy
open Coef
variable {K : Type} [Field K] [StarRing K] [Coef K] [RealCoef K]

/-! ### C63 -/

/-- **C63** (all arguments but transformations): a step either rejects its operator and restores the previous basis, which needs a target operator and a target
fidelity; or the operator recorded is a combination of the strings of the step's basis and of at most `num_H_terms` more for each operator in `com_ops`, and
`2 num_O_terms` more, and the next basis has at most `max_basis_size` strings. -/
theorem C63_partial {num : Numerics K} {args : GreedyArgs K} (ht : args.transformations = none) {s s' : GreedyState K} {fuel : ℕ} {stop : Bool}
    (h : greedyStep num args fuel s = .ok (some (s', stop))) :
    (s.step ≠ 0 ∧ args.targetOperator ≠ none ∧ args.targetFidelity ≠ none ∧ s'.operators = s.operators ∧ s'.comNorms = s.comNorms ∧ s'.basis = s.previousBasis) ∨
      ∃ O numH size, s'.operators = s.operators ++ [O] ∧ args.numHTerms[s.step]? = some numH ∧ args.maxSizes[s.step]? = some size ∧ s.basis.strs <+: O.basis.strs ∧
        O.basis.strs.length ≤ s.basis.strs.length + args.comOps.length * numH + 2 * args.numOTerms ∧ s'.basis.strs.length ≤ size :=
  (greedyStep_general ht h).imp (fun ⟨h1, h2, h3, h4, h5, h6, _⟩ => ⟨h1, h2, h3, h4, h5, h6⟩)
    fun ⟨O, numH, size, h1, h2, h3, h4, h5, h6, _⟩ => ⟨O, numH, size, h1, h2, h3, h4, h5, h6⟩

/-- **C63** (result): every operator in the history has at most that many strings. -/
theorem C63_result_partial {num : Numerics K} {args : GreedyArgs K} (ht : args.transformations = none) {size terms : ℕ}
    (h1 : args.initialOperator.basis.strs.length ≤ size) (h2 : ∀ z ∈ args.maxSizes, z ≤ size) (h3 : ∀ t ∈ args.numHTerms, t ≤ terms) {fuel : ℕ} {best : Operator K}
    {c : Option K} {ops : List (Operator K)} {norms : List K} (h : selectedCiGreedy num args fuel = .ok (some (best, c, ops, norms))) :
    ∀ O ∈ ops, O.basis.strs.length ≤ size + args.comOps.length * terms + 2 * args.numOTerms :=
  selectedCiGreedy_size ht h1 h2 h3 h

/-- non-vacuity of these theorems and of `C64_partial`: two operators `com_ops` -/
example : ∃ best c ops, selectedCiGreedy diagNumerics { initialOperator := opXZ, comOps := [opZ, opTwoX], numSteps := 1, numHTerms := [1], maxSizes := [5] } 10 =
    .ok (some (best, c, ops, [0])) ∧ ops.map (fun O => O.basis.strs.length) = [2] ∧ ∀ c ∈ [(0 : QI)], IsReal c ∧ 0 ≤ toR c := by
  refine ⟨⟨[0, 1], Basis.ofList [siteX, siteZ], .pauli⟩, some 0, [⟨[0, 1], Basis.ofList [siteX, siteZ], .pauli⟩], by decide +kernel, rfl, ?_⟩
  simp only [List.mem_singleton, forall_eq]
  exact ⟨IsReal.zero, by rw [toR_zero]⟩

/-! ### C64 -/

/-- **C64** (all arguments without a target operator or without a target fidelity): if the norms reported are non-negative, then the best operator is the first
one with the smallest norm, and the search ends as soon as `target_com_norm` or `min_relative_change` asks for it, and not earlier. -/
theorem C64_partial {num : Numerics K} {args : GreedyArgs K} (ht : args.targetOperator = none ∨ args.targetFidelity = none) {fuel : ℕ}
    {best : Operator K} {c : Option K} {ops : List (Operator K)} {norms : List K} (h : selectedCiGreedy num args fuel = .ok (some (best, c, ops, norms)))
    (hpos : ∀ c ∈ norms, IsReal c ∧ 0 ≤ toR c) :
    IsBest args.initialOperator ops norms best c ∧ ops.length = norms.length ∧ norms.length ≤ args.numSteps ∧
      (∀ l, l <+: norms → l ≠ norms → ¬ StopsAfter args.targetComNorm args.minRelativeChange l) ∧
      (norms.length = args.numSteps ∨ StopsAfter args.targetComNorm args.minRelativeChange norms) :=
  selectedCiGreedy_stops ht h hpos

end Qosy
