import Verif.Lemmas.GreedySeveral
import Verif.Props.GreedySymmetry

/-!
# Properties C58, C59 and C62 of `selected_ci_greedy` with several operators in `com_ops`

The cache is extended with the strings of the first operator `H` only, so the other operators act through the strings that they share with `H` (`Operator.within`).
-/

namespace Qosy
open Coef
variable {K : Type} [Field K] [StarRing K] [Coef K] [RealCoef K]
variable {𝔸 : Type} [Ring 𝔸] [Algebra K 𝔸] {S : Set ℤ}

/-- **C58, C59** (several operators, Pauli strings): every operator reported is real and normalised, and the number reported with it is its squared commutator norm with the
first operator.  Without `orth_ops` this number is at most the sum of the squared commutator norms, with the parts of all operators in the first one, of any real normalised
combination of the same strings; with at least 20 strings and `num_vecs = 1` the operator has the smallest sum. -/
theorem C58_several_pauli_partial (R : PauliRep K 𝔸 S) {num : Numerics K} (hnum : IsNumerics num) {H : Operator K} {rest : List (Operator K)} {args : GreedyArgs K}
    (ha : SeveralOK (PauliString S) H rest args) (he : args.explored = Explored.empty) {fuel : ℕ} {best : Operator K} {c : Option K} {ops : List (Operator K)}
    {norms : List K} (h : selectedCiGreedy num args fuel = .ok (some (best, c, ops, norms))) :
    List.Forall₂ (IsSeveralRecord (PauliString S) R.den H rest args) ops norms ∧ (∀ O ∈ ops.head?, ∀ s ∈ args.initialOperator.basis.strs, s ∈ O.basis.strs) ∧
      IsBest args.initialOperator ops norms best c ∧ norms.length ≤ args.numSteps ∧
      (norms.length = args.numSteps ∨ StopsAfter args.targetComNorm args.minRelativeChange norms) := by
  obtain ⟨h1, h2⟩ := selectedCiGreedy_several (R := R.strAlg) hnum ha he h
  obtain ⟨q1, -, q3, -, q5⟩ := selectedCiGreedy_stops (Or.inl ha.target) h (fun c hc => by
    obtain ⟨O, _, hO⟩ := forall₂_mem_right h1 hc
    exact hO.norm.nonneg)
  exact ⟨h1, h2, q1, q3, q5⟩

/-- **C58, C59** (several operators, Majorana strings) -/
theorem C58_several_majorana_partial (R : MajoranaRep K 𝔸 S) {num : Numerics K} (hnum : IsNumerics num) {H : Operator K} {rest : List (Operator K)} {args : GreedyArgs K}
    (ha : SeveralOK (MajoranaString S) H rest args) (he : args.explored = Explored.empty) {fuel : ℕ} {best : Operator K} {c : Option K} {ops : List (Operator K)}
    {norms : List K} (h : selectedCiGreedy num args fuel = .ok (some (best, c, ops, norms))) :
    List.Forall₂ (IsSeveralRecord (MajoranaString S) R.den H rest args) ops norms ∧ (∀ O ∈ ops.head?, ∀ s ∈ args.initialOperator.basis.strs, s ∈ O.basis.strs) ∧
      IsBest args.initialOperator ops norms best c ∧ norms.length ≤ args.numSteps ∧
      (norms.length = args.numSteps ∨ StopsAfter args.targetComNorm args.minRelativeChange norms) := by
  obtain ⟨h1, h2⟩ := selectedCiGreedy_several (R := R.strAlg) hnum ha he h
  obtain ⟨q1, -, q3, -, q5⟩ := selectedCiGreedy_stops (Or.inl ha.target) h (fun c hc => by
    obtain ⟨O, _, hO⟩ := forall₂_mem_right h1 hc
    exact hO.norm.nonneg)
  exact ⟨h1, h2, q1, q3, q5⟩

/-- **C59** (several operators): nothing is lost of an operator whose strings all occur in the first one. -/
theorem C59_several_shared {M : Type} [AddCommMonoid M] [Module K M] {A H : Operator K} (h : ∀ s ∈ A.termStrs, s ∈ H.termStrs) (den : OpString → M) :
    (A.within H).den den = A.den den := by
  unfold Operator.den
  rw [Operator.within_terms, List.filter_eq_self.mpr]
  intro t ht
  exact decide_eq_true (h _ (List.mem_map_of_mem ht))

/-- **C64** (several operators, Pauli strings): the search ends after the first step that calls for it, and after `num_steps` steps otherwise. -/
theorem C64_several_pauli_partial (R : PauliRep K 𝔸 S) {num : Numerics K} (hnum : IsNumerics num) {H : Operator K} {rest : List (Operator K)} {args : GreedyArgs K}
    (ha : SeveralOK (PauliString S) H rest args) (he : args.explored = Explored.empty) {fuel : ℕ} {best : Operator K} {c : Option K} {ops : List (Operator K)}
    {norms : List K} (h : selectedCiGreedy num args fuel = .ok (some (best, c, ops, norms))) :
    (∀ l, l <+: norms → l ≠ norms → ¬ StopsAfter args.targetComNorm args.minRelativeChange l) ∧
      (norms.length = args.numSteps ∨ StopsAfter args.targetComNorm args.minRelativeChange norms) := by
  obtain ⟨h1, _⟩ := selectedCiGreedy_several (R := R.strAlg) hnum ha he h
  exact (selectedCiGreedy_stops (Or.inl ha.target) h (fun c hc => by
    obtain ⟨O, _, hO⟩ := forall₂_mem_right h1 hc
    exact hO.norm.nonneg)).2.2.2

/-- **C64** (several operators, Majorana strings) -/
theorem C64_several_majorana_partial (R : MajoranaRep K 𝔸 S) {num : Numerics K} (hnum : IsNumerics num) {H : Operator K} {rest : List (Operator K)} {args : GreedyArgs K}
    (ha : SeveralOK (MajoranaString S) H rest args) (he : args.explored = Explored.empty) {fuel : ℕ} {best : Operator K} {c : Option K} {ops : List (Operator K)}
    {norms : List K} (h : selectedCiGreedy num args fuel = .ok (some (best, c, ops, norms))) :
    (∀ l, l <+: norms → l ≠ norms → ¬ StopsAfter args.targetComNorm args.minRelativeChange l) ∧
      (norms.length = args.numSteps ∨ StopsAfter args.targetComNorm args.minRelativeChange norms) := by
  obtain ⟨h1, _⟩ := selectedCiGreedy_several (R := R.strAlg) hnum ha he h
  exact (selectedCiGreedy_stops (Or.inl ha.target) h (fun c hc => by
    obtain ⟨O, _, hO⟩ := forall₂_mem_right h1 hc
    exact hO.norm.nonneg)).2.2.2

/-- **C59** (several operators with the strings of the first one, Pauli strings): with at least 20 strings and `num_vecs = 1`, the operator reported has the smallest sum
of squared commutator norms with all of `com_ops` among all real normalised combinations of its strings. -/
theorem C59_several_partial [Nontrivial 𝔸] (R : PauliRep K 𝔸 S) {num : Numerics K} (hnum : IsNumerics num) {H : Operator K} {rest : List (Operator K)} {args : GreedyArgs K}
    (ha : SeveralOK (PauliString S) H rest args) (he : args.explored = Explored.empty) (horth : args.orthOps = none) (hvecs : args.numVecs = 1)
    (hshare : ∀ A ∈ rest, ∀ s ∈ A.termStrs, s ∈ H.termStrs) {fuel : ℕ} {best : Operator K} {c : Option K} {ops : List (Operator K)}
    {norms : List K} (h : selectedCiGreedy num args fuel = .ok (some (best, c, ops, norms))) :
    ∀ O ∈ ops, 20 ≤ O.basis.strs.length →
      ∃ es : List K, List.Forall₂ (fun A (e : K) => IsComNorm (fun s => PauliString S s ∧ s.Canonical) R.den (O.den R.den) (A.den R.den) e) args.comOps es ∧
        ∀ (w : OpString → K) (ds : List K), (∀ s, IsReal (w s)) → (O.basis.strs.map (fun s => star (w s) * w s)).sum = 1 →
          List.Forall₂ (fun A d => IsComNorm (fun s => PauliString S s ∧ s.Canonical) R.den (O.basis.strs.map (fun s => w s • R.den s)).sum (A.den R.den) d) args.comOps ds →
          (es.map toR).sum ≤ (ds.map toR).sum := by
  intro O hO h20
  obtain ⟨c', _, hrec⟩ := forall₂_mem_right (C58_several_pauli_partial R hnum ha he h).1.flip hO
  have hsame : ∀ A ∈ H :: rest, (A.within H).den R.den = A.den R.den := by
    intro A hA
    rcases List.mem_cons.mp hA with rfl | hA
    · exact C59_several_shared (fun _ h => h) _
    · exact C59_several_shared (hshare A hA) _
  have hiff : ∀ (X : 𝔸) (l : List (Operator K)) (ds : List K), (∀ A ∈ l, A ∈ H :: rest) → (AreComNorms (PauliString S) R.den X H l ds ↔
      List.Forall₂ (fun A d => IsComNorm (fun s => PauliString S s ∧ s.Canonical) R.den X (A.den R.den) d) l ds) := by
    intro X l
    induction l with
    | nil => intro ds _; simp [AreComNorms]
    | cons A l ih =>
      intro ds hl
      unfold AreComNorms at ih ⊢
      rw [List.forall₂_cons_left_iff, List.forall₂_cons_left_iff]
      refine exists_congr fun d => exists_congr fun ds' => ?_
      rw [hsame A (hl A (List.mem_cons_self ..)), ih ds' fun B hB => hl B (List.mem_cons_of_mem _ hB)]
  obtain ⟨es, e1, e2⟩ := hrec.least inferInstance horth hvecs h20
  rw [ha.com]
  refine ⟨es, (hiff _ _ _ fun _ h => h).mp e1, fun w ds hw hu hd => e2 w ds hw hu ((hiff _ _ _ fun _ h => h).mpr hd)⟩

/-- **C62** (several operators): on finitely many labels the search ends without an exception if `num_H_terms` and `max_basis_size` are given for every step, the sizes are
positive and the threshold is small enough. -/
theorem C62_several_partial (R : PauliRep K 𝔸 S) {num : Numerics K} (hnum : IsNumerics num) {H : Operator K} {rest : List (Operator K)} {args : GreedyArgs K}
    (ha : SeveralOK (fun s => PauliString S s ∧ s.Canonical) H rest args) (he : args.explored = Explored.empty) (hlab : ∃ s ∈ H.basis.strs, s.labels ≠ [])
    (hn : args.numSteps ≤ args.numHTerms.length) (hm : args.numSteps ≤ args.maxSizes.length) (hz : ∀ z ∈ args.maxSizes, 0 < z)
    (hθ : args.threshold ≤ 0 ∨ S.Finite ∧ {s | PauliString S s ∧ s.Canonical}.ncard * args.threshold ^ 2 < 1) {fuel : ℕ} (hf : args.numSteps ≤ fuel) :
    ∃ r, selectedCiGreedy num args fuel = .ok (some r) := by
  rcases hθ with hθ | ⟨hS, hθ⟩
  · exact selectedCiGreedy_several_total (R := R.strAlg.canonical) hnum ha he none (by simp) hlab hn hm hz (Or.inl hθ) hf
  · refine selectedCiGreedy_several_total (R := R.strAlg.canonical) hnum ha he (some {s | PauliString S s ∧ s.Canonical}.ncard) ?_ hlab hn hm hz (Or.inr ⟨_, rfl, hθ⟩) hf
    rintro m hm b hb
    cases hm
    have hfin := pauliStrings_finite hS
    rw [Set.ncard_eq_toFinset_card _ hfin, Basis.len, ← List.toFinset_card_of_nodup hb.1.2]
    exact Finset.card_le_card fun s hs => by rw [Set.Finite.mem_toFinset]; exact hb.2 s (List.mem_toFinset.mp hs)

/-- **C62** (several operators, Majorana strings) -/
theorem C62_several_majorana_partial (R : MajoranaRep K 𝔸 S) {num : Numerics K} (hnum : IsNumerics num) {H : Operator K} {rest : List (Operator K)} {args : GreedyArgs K}
    (ha : SeveralOK (fun s => MajoranaString S s ∧ s.Canonical) H rest args) (he : args.explored = Explored.empty) (hlab : ∃ s ∈ H.basis.strs, s.labels ≠ [])
    (hn : args.numSteps ≤ args.numHTerms.length) (hm : args.numSteps ≤ args.maxSizes.length) (hz : ∀ z ∈ args.maxSizes, 0 < z)
    (hθ : args.threshold ≤ 0 ∨ S.Finite ∧ {s | MajoranaString S s ∧ s.Canonical}.ncard * args.threshold ^ 2 < 1) {fuel : ℕ} (hf : args.numSteps ≤ fuel) :
    ∃ r, selectedCiGreedy num args fuel = .ok (some r) := by
  rcases hθ with hθ | ⟨hS, hθ⟩
  · exact selectedCiGreedy_several_total (R := R.strAlg.canonical) hnum ha he none (by simp) hlab hn hm hz (Or.inl hθ) hf
  · refine selectedCiGreedy_several_total (R := R.strAlg.canonical) hnum ha he (some {s | MajoranaString S s ∧ s.Canonical}.ncard) ?_ hlab hn hm hz (Or.inr ⟨_, rfl, hθ⟩) hf
    rintro m hm b hb
    cases hm
    have hfin := majoranaStrings_finite hS
    rw [Set.ncard_eq_toFinset_card _ hfin, Basis.len, ← List.toFinset_card_of_nodup hb.1.2]
    exact Finset.card_le_card fun s hs => by rw [Set.Finite.mem_toFinset]; exact hb.2 s (List.mem_toFinset.mp hs)

/-! ### non-vacuity -/

/-- two steps from the sum of `X` on 20 sites with `com_ops = [Z_0 + Z_1, Z_1]` -/
noncomputable def severalArgs : GreedyArgs ℂ :=
  { initialOperator := ⟨List.replicate 20 1, Basis.ofList ((List.range 20).map (fun i => onSite .X i)), .pauli⟩
    comOps := [⟨[1, 1], Basis.ofList [onSite .Z 0, onSite .Z 1], .pauli⟩, ⟨[1], Basis.ofList [onSite .Z 1], .pauli⟩]
    numSteps := 2
    numHTerms := [1, 1]
    maxSizes := [30, 30]
    threshold := 0 }

theorem onSite_pauli {o : Op} (ho : o = .X ∨ o = .Y ∨ o = .Z) (l : ℤ) : PauliString Set.univ (onSite o l) ∧ (onSite o l).Canonical :=
  ⟨⟨rfl, by simpa [onSite] using ho, rfl, by simp [onSite], by simp, by simp [onSite]⟩, by simp [onSite], Or.inr rfl⟩

theorem severalArgs_ok {P : OpString → Prop} (hP : ∀ s, PauliString Set.univ s ∧ s.Canonical → P s) :
    SeveralOK P (⟨[1, 1], Basis.ofList [onSite .Z 0, onSite .Z 1], .pauli⟩ : Operator ℂ) [⟨[1], Basis.ofList [onSite .Z 1], .pauli⟩] severalArgs where
  com := rfl
  several := by simp
  str := by
    simp only [Basis.ofList, List.mem_cons, List.not_mem_nil, or_false, forall_eq_or_imp, forall_eq]
    exact ⟨⟨hP _ (onSite_pauli (by simp) _), hP _ (onSite_pauli (by simp) _)⟩, hP _ (onSite_pauli (by simp) _)⟩
  nodup := by
    simp only [Basis.ofList, List.mem_cons, List.not_mem_nil, or_false, forall_eq_or_imp, forall_eq]
    decide
  transformations := rfl
  initial := by
    refine Operator.WF.mk' (by decide) rfl ?_
    intro s hs
    obtain ⟨i, _, rfl⟩ := List.mem_map.mp hs
    rfl
  initialStr := by
    intro s hs
    obtain ⟨i, _, rfl⟩ := List.mem_map.mp hs
    exact hP _ (onSite_pauli (by simp) _)
  nonempty := by simp only [severalArgs, Basis.ofList]; decide
  vecs := le_refl 1
  target := rfl

/-- non-vacuity: the search of `severalArgs` ends after two steps and its first operator has at least 20 strings; the strings of the second operator in `com_ops` occur in
the first one. -/
example : ∃ (num : Numerics ℂ) (best : Operator ℂ) (c : Option ℂ) (O : Operator ℂ) (ops : List (Operator ℂ)) (norms : List ℂ), IsNumerics num ∧
    selectedCiGreedy num severalArgs 2 = .ok (some (best, c, O :: ops, norms)) ∧ norms.length = 2 ∧ 20 ≤ O.basis.strs.length ∧
    severalArgs.orthOps = none ∧ severalArgs.numVecs = 1 ∧ ∀ s ∈ (⟨[1], Basis.ofList [onSite .Z 1], .pauli⟩ : Operator ℂ).termStrs,
      s ∈ (⟨[1, 1], Basis.ofList [onSite .Z 0, onSite .Z 1], .pauli⟩ : Operator ℂ).termStrs := by
  obtain ⟨num, hnum⟩ := exists_numerics
  obtain ⟨⟨best, c, ops, norms⟩, h⟩ := C62_several_partial (waveRep ℂ) hnum (severalArgs_ok fun _ h => h) rfl ⟨onSite .Z 0, by simp [Basis.ofList], by simp [onSite]⟩ (le_refl _)
    (le_refl _) (by simp [severalArgs]) (Or.inl (le_refl _)) (fuel := 2) (le_refl _)
  obtain ⟨h1, h2, -, -, h5⟩ := C58_several_pauli_partial (waveRep ℂ) hnum (severalArgs_ok fun _ h => h.1) rfl h
  replace h5 : norms.length = 2 := h5.resolve_right (by rintro (⟨_, _, h, _⟩ | ⟨_, _, _, _, h, _⟩) <;> simp [severalArgs] at h)
  cases ops with
  | nil =>
    rw [List.forall₂_nil_left_iff] at h1
    simp [h1] at h5
  | cons O ops =>
    refine ⟨num, best, c, O, ops, norms, hnum, h, h5, ?_, rfl, rfl, ?_⟩
    · have hs : severalArgs.initialOperator.basis.strs ⊆ O.basis.strs := h2 O (by simp)
      have hn : severalArgs.initialOperator.basis.strs.Nodup := by
        show ((List.range 20).map (fun i : ℕ => onSite .X i)).Nodup
        decide
      have := (hn.subperm hs).length_le
      simpa [severalArgs, Basis.ofList] using this
    · simp [Operator.termStrs, Operator.terms, Basis.ofList]

end Qosy
