import Verif.Lemmas.ExpansionLoop
import Verif.Props.ManyOps

/-!
# Property C88: the strings that `selected_ci_greedy` and `selected_ci_greedy_many_ops2` add to their basis

`IsNumerics` is the contract of the numerical routines (see C58).
-/

namespace Qosy
open Coef
variable {K : Type} [Field K] [StarRing K] [Coef K] [RealCoef K]
variable {𝔸 : Type} [Ring 𝔸] [Algebra K 𝔸] {S : Set ℤ}

/-- **C88** (Pauli strings): the first operator of the result of `selected_ci_greedy` is a combination of the strings of the initial operator, of the
`num_H_terms` strongest new terms of its double commutator with `H`, or of all if there are not so many, and of at most `2 num_O_terms` more strings. -/
theorem C88_pauli (R : PauliRep K 𝔸 S) {num : Numerics K} (hnum : IsNumerics num) {H : Operator K} {args : GreedyArgs K} (ha : GreedyOK (PauliString S) H args)
    (he : args.explored = Explored.empty) {fuel : ℕ} {best : Operator K} {c : Option K} {O : Operator K} {ops : List (Operator K)} {norms : List K}
    (h : selectedCiGreedy num args fuel = .ok (some (best, c, O :: ops, norms))) :
    ∃ numH mid, args.numHTerms[0]? = some numH ∧
      IsCommutatorStep (K := K) (PauliString S) R.den (H.den R.den) (args.initialOperator.den R.den) numH args.initialOperator.basis.strs mid ∧
      (∀ t ∈ mid, t ∈ O.basis.strs) ∧ O.basis.strs.length ≤ mid.length + 2 * args.numOTerms ∧ (args.numOTerms = 0 → O.basis.strs = mid) :=
  selectedCiGreedy_first R.strAlg hnum ha (by rw [he]; exact Explored.empty_coherent _ _) h

/-- **C88** (Majorana strings) -/
theorem C88_majorana (R : MajoranaRep K 𝔸 S) {num : Numerics K} (hnum : IsNumerics num) {H : Operator K} {args : GreedyArgs K} (ha : GreedyOK (MajoranaString S) H args)
    (he : args.explored = Explored.empty) {fuel : ℕ} {best : Operator K} {c : Option K} {O : Operator K} {ops : List (Operator K)} {norms : List K}
    (h : selectedCiGreedy num args fuel = .ok (some (best, c, O :: ops, norms))) :
    ∃ numH mid, args.numHTerms[0]? = some numH ∧
      IsCommutatorStep (K := K) (MajoranaString S) R.den (H.den R.den) (args.initialOperator.den R.den) numH args.initialOperator.basis.strs mid ∧
      (∀ t ∈ mid, t ∈ O.basis.strs) ∧ O.basis.strs.length ≤ mid.length + 2 * args.numOTerms ∧ (args.numOTerms = 0 → O.basis.strs = mid) :=
  selectedCiGreedy_first R.strAlg hnum ha (by rw [he]; exact Explored.empty_coherent _ _) h

/-- **C88** (every step, Pauli strings): each step, also one with a target, extends the basis by the strongest new terms of the double commutator of its current
operator, and records an operator over the extended basis unless the step is not the first and the operator is rejected. -/
theorem C88_step_pauli (R : PauliRep K 𝔸 S) {num : Numerics K} (hnum : IsNumerics num) {H : Operator K} {args : GreedyArgs K} (ha : GreedyOK (PauliString S) H args)
    (he : args.explored = Explored.empty) {fuel : ℕ} {s s' : GreedyState K} {stop : Bool} (hs : GreedyReach num args fuel s)
    (h : greedyStep num args fuel s = .ok (some (s', stop))) :
    ∃ numH mid, args.numHTerms[s.step]? = some numH ∧
      IsCommutatorStep (K := K) (PauliString S) R.den (H.den R.den) ((if s.step = 0 then args.initialOperator else s.operator).den R.den) numH s.basis.strs mid ∧
      ((s'.operators = s.operators ∧ s.step ≠ 0) ∨ ∃ O, s'.operators = s.operators ++ [O] ∧ (∀ t ∈ mid, t ∈ O.basis.strs) ∧
        O.basis.strs.length ≤ mid.length + 2 * args.numOTerms ∧ (args.numOTerms = 0 → O.basis.strs = mid)) :=
  greedyStep_expands R.strAlg hnum ha (greedyReach_inv R.strAlg hnum ha (by rw [he]; exact Explored.empty_coherent _ _) hs) h

/-- **C88** (every step, Majorana strings) -/
theorem C88_step_majorana (R : MajoranaRep K 𝔸 S) {num : Numerics K} (hnum : IsNumerics num) {H : Operator K} {args : GreedyArgs K} (ha : GreedyOK (MajoranaString S) H args)
    (he : args.explored = Explored.empty) {fuel : ℕ} {s s' : GreedyState K} {stop : Bool} (hs : GreedyReach num args fuel s)
    (h : greedyStep num args fuel s = .ok (some (s', stop))) :
    ∃ numH mid, args.numHTerms[s.step]? = some numH ∧
      IsCommutatorStep (K := K) (MajoranaString S) R.den (H.den R.den) ((if s.step = 0 then args.initialOperator else s.operator).den R.den) numH s.basis.strs mid ∧
      ((s'.operators = s.operators ∧ s.step ≠ 0) ∨ ∃ O, s'.operators = s.operators ++ [O] ∧ (∀ t ∈ mid, t ∈ O.basis.strs) ∧
        O.basis.strs.length ≤ mid.length + 2 * args.numOTerms ∧ (args.numOTerms = 0 → O.basis.strs = mid)) :=
  greedyStep_expands R.strAlg hnum ha (greedyReach_inv R.strAlg hnum ha (by rw [he]; exact Explored.empty_coherent _ _) hs) h

/-- **C88** (`selected_ci_greedy_many_ops2`, Pauli strings): all operators of the first step are combinations of the same strings: those of the initial operators,
extended for one initial operator after the other by the strongest new terms of its double commutator with `H`. -/
theorem C88_many_pauli (R : PauliRep K 𝔸 S) {num : Numerics K} (hnum : IsNumerics num) {args : ManyOps2Args K} (hH : args.H.WF)
    (hs : ∀ s ∈ args.H.basis.strs, PauliString S s) (hi : ∀ A ∈ args.initialOperators, A.WF ∧ ∀ s ∈ A.basis.strs, PauliString S s) (hx : args.explored = Explored.empty)
    {best : List (Operator K)} {ops : List (List (Operator K))} {norms : List (List K)} (h : manyOps2 num args = .ok (best :: ops, norms)) {numH : ℕ}
    (hn : args.numHTerms.at 0 = .ok numH) :
    ∃ b b', b.Nodup ∧ (∀ s, s ∈ b ↔ ∃ A ∈ args.initialOperators, s ∈ A.basis.strs) ∧
      IsCommutatorSteps K (PauliString S) R.den (args.H.den R.den) numH (args.initialOperators.map fun A => A.den R.den) b b' ∧ ∀ O ∈ best, O.basis.strs = b' :=
  manyOps2_first R.strAlg hnum.argsort hs hH.basis.2 (by rw [hx]; exact Explored.empty_coherent _ _) hi h hn

/-- **C88** (`selected_ci_greedy_many_ops2`, Majorana strings) -/
theorem C88_many_majorana (R : MajoranaRep K 𝔸 S) {num : Numerics K} (hnum : IsNumerics num) {args : ManyOps2Args K} (hH : args.H.WF)
    (hs : ∀ s ∈ args.H.basis.strs, MajoranaString S s) (hi : ∀ A ∈ args.initialOperators, A.WF ∧ ∀ s ∈ A.basis.strs, MajoranaString S s) (hx : args.explored = Explored.empty)
    {best : List (Operator K)} {ops : List (List (Operator K))} {norms : List (List K)} (h : manyOps2 num args = .ok (best :: ops, norms)) {numH : ℕ}
    (hn : args.numHTerms.at 0 = .ok numH) :
    ∃ b b', b.Nodup ∧ (∀ s, s ∈ b ↔ ∃ A ∈ args.initialOperators, s ∈ A.basis.strs) ∧
      IsCommutatorSteps K (MajoranaString S) R.den (args.H.den R.den) numH (args.initialOperators.map fun A => A.den R.den) b b' ∧ ∀ O ∈ best, O.basis.strs = b' :=
  manyOps2_first R.strAlg hnum.argsort hs hH.basis.2 (by rw [hx]; exact Explored.empty_coherent _ _) hi h hn

/-- non-vacuity: the first operator of the search of `cArgs` -/
example : ∃ (num : Numerics ℂ) (best : Operator ℂ) (c : Option ℂ) (O : Operator ℂ) (ops : List (Operator ℂ)) (norms : List ℂ), IsNumerics num ∧
    selectedCiGreedy num cArgs 3 = .ok (some (best, c, O :: ops, norms)) ∧ ∃ mid,
    IsCommutatorStep (K := ℂ) (PauliString Set.univ) (waveRep ℂ).den (cX.den (waveRep ℂ).den) (cArgs.initialOperator.den (waveRep ℂ).den) 1 [siteZ, siteY] mid ∧
    ∀ t ∈ mid, t ∈ O.basis.strs := by
  obtain ⟨num, hnum⟩ := exists_numerics
  rcases selectedCiGreedy_total (waveRep ℂ).strAlg hnum cArgs_ok rfl ⟨siteX, by simp [cX], by decide⟩ rfl (le_refl 3) (le_refl 3) (size := 5) (terms := 2) (by simp [cArgs, Basis.len])
    (by simp [cArgs]) (by simp [cArgs]) (le_refl 3) with ⟨⟨b, c, ops, norms⟩, h⟩ | ⟨_, h⟩
  · have hlen := (C64_pauli_partial (waveRep ℂ) hnum cArgs_ok rfl rfl h).2.resolve_right (by
      rintro (⟨_, _, h, _⟩ | ⟨_, _, _, _, h, _⟩) <;> simp [cArgs] at h)
    cases ops with
    | nil =>
      have := (C58_pauli_partial (waveRep ℂ) hnum cArgs_ok rfl h).1.length_eq
      rw [hlen] at this
      simp [cArgs] at this
    | cons O ops =>
      obtain ⟨numH, mid, h1, h2, h3, _⟩ := C88_pauli (waveRep ℂ) hnum cArgs_ok rfl h
      refine ⟨num, b, c, O, ops, norms, hnum, h, mid, ?_, h3⟩
      have : numH = 1 := by simpa [cArgs] using h1.symm
      subst this
      exact h2
  · rcases h with ⟨z, hz, rfl⟩ | h
    · simp [cArgs] at hz
    · simp [cArgs] at h

/-- non-vacuity: with `H = Z_1`, the initial operator `X_1` and one term, the strings of the first operator are those of `X_1` only, since
`[[X_1, Z_1], Z_1] = 4 X_1`. -/
example : ∃ A c n, selectedCiGreedy diagNumerics { initialOperator := opX, comOps := [opZ], numSteps := 1, numHTerms := [1], maxSizes := [5], threshold := -1 } 1
    = .ok (some (A, c, [A], n)) ∧ A.basis.strs = [siteX] :=
  ⟨⟨[1], Basis.ofList [siteX], .pauli⟩, some 4, [4], by decide +kernel, rfl⟩

end Qosy
