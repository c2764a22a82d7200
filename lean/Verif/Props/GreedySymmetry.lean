import Verif.Lemmas.GreedySymmetry
import Verif.Props.GreedyGeneral

/-!
# Property C89 of `selected_ci_greedy` with transformations, and C63 refuted for them
-/

namespace Qosy
open Coef
variable {K : Type} [Field K] [StarRing K] [Coef K] [RealCoef K]
variable {𝔸 : Type} [Ring 𝔸] [Algebra K 𝔸] {S : Set ℤ}

theorem IsSymmetricRecord.nonneg {Str : OpString → Prop} {den : OpString → 𝔸} {H : 𝔸} {Ts : List (Transformation K)} {O : Operator K} {c : K}
    (h : IsSymmetricRecord Str den H Ts O c) : IsReal c ∧ 0 ≤ toR c := by
  obtain ⟨h1, d, h2, h3⟩ := h.value
  refine ⟨h1, ?_⟩
  have := h2.nonneg.2
  have := symmetryDefect_nonneg Ts O.basis.strs O.coef
  rw [h3]
  positivity

/-! ### C89 -/

/-- **C89** (closure, all transformations): the basis of a step is extended to the smallest set of strings that contains it and is closed under the transformations.
Its first strings remain the first ones. -/
theorem C89_closure {Ts : List (Transformation K)} {fuel : ℕ} {b b' : Basis} (hb : b.Inv) (h : closeUnderTransformations Ts fuel 0 b = .ok (some b')) :
    b'.Inv ∧ b.strs <+: b'.strs ∧ ClosedUnderAll Ts b'.strs ∧ ∀ l : List OpString, (∀ s ∈ b.strs, s ∈ l) → ClosedUnderAll Ts l → ∀ s ∈ b'.strs, s ∈ l := by
  obtain ⟨h1, h2, h3, h4⟩ := closeUnder_inv hb h (by omega)
  refine ⟨h1, h2, ?_, ?_⟩
  · intro t ht T hT
    obtain ⟨⟨A, a1⟩, a2⟩ := h3 t ht T hT
    exact ⟨A, a1, fun x hx hlt => a2 x.2 ⟨A, a1, x, hx, by rw [absGt_iff]; push_cast; exact hlt, rfl⟩⟩
  · intro l hl hc
    refine h4 (· ∈ l) hl ?_
    rintro s s' T hT hs ⟨A, a1, t, a2, a3, rfl⟩
    obtain ⟨A', e, h'⟩ := hc s hs T hT
    rw [a1] at e
    cases e
    rw [absGt_iff] at a3
    push_cast at a3
    exact h' t a2 a3

/-- **C89** (Pauli strings): with transformations, every operator reported is real and normalised and its strings are closed under the transformations.  The number
reported with it is its squared commutator norm plus `½ 10¹⁰ ∑_T ‖T(O) - O‖²`, and this is the smallest value of all real normalised combinations of these strings.  The
first operator may use the strings of the initial operator.  The best operator is the first one with the smallest number. -/
theorem C89_pauli (R : PauliRep K 𝔸 S) {num : Numerics K} (hnum : IsNumerics num) {H : Operator K} {Ts : List (Transformation K)} {args : GreedyArgs K}
    (ha : SymmetricOK (fun s => PauliString S s ∧ s.Canonical) H Ts args) (he : args.explored = Explored.empty) {fuel : ℕ} {best : Operator K} {c : Option K}
    {ops : List (Operator K)} {norms : List K} (h : selectedCiGreedy num args fuel = .ok (some (best, c, ops, norms))) :
    List.Forall₂ (IsSymmetricRecord (fun s => PauliString S s ∧ s.Canonical) R.den (H.den R.den) Ts) ops norms ∧
      (∀ O ∈ ops.head?, ∀ s ∈ args.initialOperator.basis.strs, s ∈ O.basis.strs) ∧ IsBest args.initialOperator ops norms best c ∧ norms.length ≤ args.numSteps ∧
      (norms.length = args.numSteps ∨ StopsAfter args.targetComNorm args.minRelativeChange norms) := by
  obtain ⟨h1, h2⟩ := selectedCiGreedy_symmetric (R := R.strAlg.canonical) (fun _ h => h.2) hnum ha he h
  obtain ⟨q1, -, q3, -, q5⟩ := selectedCiGreedy_stops (Or.inl ha.target) h (fun c hc => by
    obtain ⟨O, _, hO⟩ := forall₂_mem_right h1 hc
    exact hO.nonneg)
  exact ⟨h1, h2, q1, q3, q5⟩

/-- **C89** (Majorana strings) -/
theorem C89_majorana (R : MajoranaRep K 𝔸 S) {num : Numerics K} (hnum : IsNumerics num) {H : Operator K} {Ts : List (Transformation K)} {args : GreedyArgs K}
    (ha : SymmetricOK (fun s => MajoranaString S s ∧ s.Canonical) H Ts args) (he : args.explored = Explored.empty) {fuel : ℕ} {best : Operator K} {c : Option K}
    {ops : List (Operator K)} {norms : List K} (h : selectedCiGreedy num args fuel = .ok (some (best, c, ops, norms))) :
    List.Forall₂ (IsSymmetricRecord (fun s => MajoranaString S s ∧ s.Canonical) R.den (H.den R.den) Ts) ops norms ∧
      (∀ O ∈ ops.head?, ∀ s ∈ args.initialOperator.basis.strs, s ∈ O.basis.strs) ∧ IsBest args.initialOperator ops norms best c ∧ norms.length ≤ args.numSteps ∧
      (norms.length = args.numSteps ∨ StopsAfter args.targetComNorm args.minRelativeChange norms) := by
  obtain ⟨h1, h2⟩ := selectedCiGreedy_symmetric (R := R.strAlg.canonical) (fun _ h => h.2) hnum ha he h
  obtain ⟨q1, -, q3, -, q5⟩ := selectedCiGreedy_stops (Or.inl ha.target) h (fun c hc => by
    obtain ⟨O, _, hO⟩ := forall₂_mem_right h1 hc
    exact hO.nonneg)
  exact ⟨h1, h2, q1, q3, q5⟩

/-- **C64** (with transformations, Pauli strings): the search ends after the first step that calls for it, and after `num_steps` steps otherwise. -/
theorem C64_symmetric_pauli_partial (R : PauliRep K 𝔸 S) {num : Numerics K} (hnum : IsNumerics num) {H : Operator K} {Ts : List (Transformation K)}
    {args : GreedyArgs K} (ha : SymmetricOK (fun s => PauliString S s ∧ s.Canonical) H Ts args) (he : args.explored = Explored.empty) {fuel : ℕ} {best : Operator K}
    {c : Option K} {ops : List (Operator K)} {norms : List K} (h : selectedCiGreedy num args fuel = .ok (some (best, c, ops, norms))) :
    (∀ l, l <+: norms → l ≠ norms → ¬ StopsAfter args.targetComNorm args.minRelativeChange l) ∧
      (norms.length = args.numSteps ∨ StopsAfter args.targetComNorm args.minRelativeChange norms) := by
  obtain ⟨h1, -⟩ := selectedCiGreedy_symmetric (R := R.strAlg.canonical) (fun _ h => h.2) hnum ha he h
  exact (selectedCiGreedy_stops (Or.inl ha.target) h (fun c hc => by
    obtain ⟨O, _, hO⟩ := forall₂_mem_right h1 hc
    exact hO.nonneg)).2.2.2

/-- **C64** (with transformations, Majorana strings): the search ends after the first step that calls for it, and after `num_steps` steps otherwise. -/
theorem C64_symmetric_majorana_partial (R : MajoranaRep K 𝔸 S) {num : Numerics K} (hnum : IsNumerics num) {H : Operator K} {Ts : List (Transformation K)}
    {args : GreedyArgs K} (ha : SymmetricOK (fun s => MajoranaString S s ∧ s.Canonical) H Ts args) (he : args.explored = Explored.empty) {fuel : ℕ} {best : Operator K}
    {c : Option K} {ops : List (Operator K)} {norms : List K} (h : selectedCiGreedy num args fuel = .ok (some (best, c, ops, norms))) :
    (∀ l, l <+: norms → l ≠ norms → ¬ StopsAfter args.targetComNorm args.minRelativeChange l) ∧
      (norms.length = args.numSteps ∨ StopsAfter args.targetComNorm args.minRelativeChange norms) := by
  obtain ⟨h1, -⟩ := selectedCiGreedy_symmetric (R := R.strAlg.canonical) (fun _ h => h.2) hnum ha he h
  exact (selectedCiGreedy_stops (Or.inl ha.target) h (fun c hc => by
    obtain ⟨O, _, hO⟩ := forall₂_mem_right h1 hc
    exact hO.nonneg)).2.2.2

/-- **C89** (the operators are almost symmetric): compared with any symmetric combination `w` of the same strings, the operator reported has at most its commutator
norm, and it differs from its images by at most `2 · 10⁻¹⁰` times that norm. -/
theorem C89_symmetric [Nontrivial 𝔸] {Str : OpString → Prop} {den : OpString → 𝔸} {H : 𝔸} {Ts : List (Transformation K)} {O : Operator K} {c : K}
    (h : IsSymmetricRecord Str den H Ts O c) {w : OpString → K} {d : K} (hw : ∀ s, IsReal (w s)) (hu : (O.basis.strs.map (fun s => star (w s) * w s)).sum = 1)
    (hd : IsComNorm Str den (O.basis.strs.map (fun s => w s • den s)).sum H d) (hsym : symmetryDefect Ts O.basis.strs w = 0) :
    symmetryDefect Ts O.basis.strs O.coef ≤ 2 / 10 ^ 10 * toR d ∧ ∃ e : K, IsComNorm Str den (O.den den) H e ∧ toR e ≤ toR d := by
  obtain ⟨_, e, e1, e2⟩ := h.value
  have h1 := h.least inferInstance w d hw hu hd
  rw [hsym, mul_zero, add_zero, e2] at h1
  have h2 := e1.nonneg.2
  have h3 := symmetryDefect_nonneg Ts O.basis.strs O.coef
  refine ⟨?_, e, e1, ?_⟩
  · have : (10 : ℝ) ^ 10 / 2 * symmetryDefect Ts O.basis.strs O.coef ≤ toR d := by linarith
    have h4 : symmetryDefect Ts O.basis.strs O.coef = 2 / 10 ^ 10 * (10 ^ 10 / 2 * symmetryDefect Ts O.basis.strs O.coef) := by ring
    rw [h4]
    exact mul_le_mul_of_nonneg_left this (by positivity)
  · have : 0 ≤ (10 : ℝ) ^ 10 / 2 * symmetryDefect Ts O.basis.strs O.coef := by positivity
    linarith

/-- **C89** (no exception): on finitely many labels the search with transformations ends without an exception if `num_H_terms` and `max_basis_size` are given for every
step, the sizes are positive and the threshold is small enough. -/
theorem C89_total (R : PauliRep K 𝔸 S) (hS : S.Finite) {num : Numerics K} (hnum : IsNumerics num) {H : Operator K} {Ts : List (Transformation K)} {args : GreedyArgs K}
    (ha : SymmetricOK (fun s => PauliString S s ∧ s.Canonical) H Ts args) (he : args.explored = Explored.empty) (hlab : ∃ s ∈ H.basis.strs, s.labels ≠ [])
    (hn : args.numSteps ≤ args.numHTerms.length) (hm : args.numSteps ≤ args.maxSizes.length) (hz : ∀ z ∈ args.maxSizes, 0 < z)
    (hθ : args.threshold ≤ 0 ∨ {s | PauliString S s ∧ s.Canonical}.ncard * args.threshold ^ 2 < 1) {fuel : ℕ}
    (hf : {s | PauliString S s ∧ s.Canonical}.ncard ≤ fuel) (hf' : args.numSteps ≤ fuel) :
    ∃ r, selectedCiGreedy num args fuel = .ok (some r) := by
  have hfin := pauliStrings_finite hS
  have e := Set.ncard_eq_toFinset_card _ hfin
  rw [e] at hθ hf
  exact selectedCiGreedy_symmetric_total (R := R.strAlg.canonical) (fun _ h => h.2) hnum ha he hfin hlab hn hm hz hθ hf hf'

/-- **C89** (no exception, Majorana strings) -/
theorem C89_total_majorana (R : MajoranaRep K 𝔸 S) (hS : S.Finite) {num : Numerics K} (hnum : IsNumerics num) {H : Operator K} {Ts : List (Transformation K)}
    {args : GreedyArgs K} (ha : SymmetricOK (fun s => MajoranaString S s ∧ s.Canonical) H Ts args) (he : args.explored = Explored.empty)
    (hlab : ∃ s ∈ H.basis.strs, s.labels ≠ []) (hn : args.numSteps ≤ args.numHTerms.length) (hm : args.numSteps ≤ args.maxSizes.length)
    (hz : ∀ z ∈ args.maxSizes, 0 < z) (hθ : args.threshold ≤ 0 ∨ {s | MajoranaString S s ∧ s.Canonical}.ncard * args.threshold ^ 2 < 1) {fuel : ℕ}
    (hf : {s | MajoranaString S s ∧ s.Canonical}.ncard ≤ fuel) (hf' : args.numSteps ≤ fuel) :
    ∃ r, selectedCiGreedy num args fuel = .ok (some r) := by
  have hfin := majoranaStrings_finite hS
  have e := Set.ncard_eq_toFinset_card _ hfin
  rw [e] at hθ hf
  exact selectedCiGreedy_symmetric_total (R := R.strAlg.canonical) (fun _ h => h.2) hnum ha he hfin hlab hn hm hz hθ hf hf'

theorem typedPauli {S : Set ℤ} {s : OpString} : TypedString .pauli S s ↔ PauliString S s := by
  constructor
  · rintro (⟨_, h⟩ | ⟨h, _⟩)
    · exact h
    · simp at h
  · exact fun h => Or.inl ⟨rfl, h⟩

theorem typedMajorana {S : Set ℤ} {s : OpString} : TypedString .majorana S s ↔ MajoranaString S s := by
  constructor
  · rintro (⟨h, _⟩ | ⟨_, h⟩)
    · simp at h
    · exact h
  · exact fun h => Or.inr ⟨rfl, h⟩

/-- **C89** (label permutations permute the strings up to signs) -/
theorem C89_permutation {p : List ℕ} (hp : IsPermArray p) :
    PermutesUpToSign (labelPermutation (labelsOf p) : Transformation K) (fun s => PauliString (siteLabels p.length) s ∧ s.Canonical) ∧
    PermutesUpToSign (labelPermutation (labelsOf p) : Transformation K) (fun s => MajoranaString (siteLabels p.length) s ∧ s.Canonical) := by
  have h1 := labelPermutation_permutes (K := K) hp .pauli
  have h2 := labelPermutation_permutes (K := K) hp .majorana
  simp only [typedPauli] at h1
  simp only [typedMajorana] at h2
  exact ⟨h1, h2⟩

/-- **C89** (so does time reversal) -/
theorem C89_timeReversal (S : Set ℤ) : PermutesUpToSign (timeReversal : Transformation K) (fun s => PauliString S s ∧ s.Canonical) ∧
    PermutesUpToSign (timeReversal : Transformation K) (fun s => MajoranaString S s ∧ s.Canonical) := by
  have h1 := timeReversal_permutes (K := K) .pauli S
  have h2 := timeReversal_permutes (K := K) .majorana S
  simp only [typedPauli] at h1
  simp only [typedMajorana] at h2
  exact ⟨h1, h2⟩

/-! ### non-vacuity and C63 refuted -/

/-- `X` and `Z` on a site -/
def onSite (o : Op) (l : ℤ) : OpString := ⟨[o], [l], .pauli, .float1⟩

/-- one step from `X_0` with `H = Z_0 + Z_1 + Z_2 + Z_3` and the translation of the four sites -/
noncomputable def ringArgs : GreedyArgs ℂ :=
  { initialOperator := ⟨[1], Basis.ofList [onSite .X 0], .pauli⟩
    comOps := [⟨[1, 1, 1, 1], Basis.ofList [onSite .Z 0, onSite .Z 1, onSite .Z 2, onSite .Z 3], .pauli⟩]
    numSteps := 1
    numHTerms := [1]
    maxSizes := [1]
    threshold := 0
    transformations := some [labelPermutation (labelsOf [1, 2, 3, 0])] }

theorem onSite_valid {o : Op} (ho : o = .X ∨ o = .Y ∨ o = .Z) {l : ℤ} (h0 : 0 ≤ l) (h4 : l < 4) : PauliString (siteLabels 4) (onSite o l) ∧ (onSite o l).Canonical := by
  refine ⟨⟨rfl, ?_, rfl, by simp [onSite], ?_, by simp [onSite]⟩, by simp [onSite], Or.inr rfl⟩
  · simpa [onSite] using ho
  · simp only [onSite, List.mem_singleton, forall_eq]
    exact ⟨h0, by exact_mod_cast h4⟩

theorem ring_perm : IsPermArray [1, 2, 3, 0] := by
  show List.Perm [1, 2, 3, 0] (List.range 4)
  decide

theorem ringArgs_ok : SymmetricOK (fun s => PauliString (siteLabels 4) s ∧ s.Canonical) (⟨[1, 1, 1, 1], Basis.ofList [onSite .Z 0, onSite .Z 1, onSite .Z 2, onSite .Z 3], .pauli⟩ : Operator ℂ)
    [labelPermutation (labelsOf [1, 2, 3, 0])] ringArgs where
  com := rfl
  str := by
    simp only [Basis.ofList, List.mem_cons, List.not_mem_nil, or_false, forall_eq_or_imp, forall_eq]
    exact ⟨onSite_valid (by simp) (by norm_num) (by norm_num), onSite_valid (by simp) (by norm_num) (by norm_num), onSite_valid (by simp) (by norm_num) (by norm_num),
      onSite_valid (by simp) (by norm_num) (by norm_num)⟩
  nodup := by decide
  transformations := rfl
  permutes := by
    simp only [List.mem_singleton, forall_eq]
    exact (C89_permutation (p := [1, 2, 3, 0]) ring_perm).1
  initial := Operator.WF.mk' (by simp) rfl (by simp [onSite])
  initialStr := by
    simp only [ringArgs, Basis.ofList, List.mem_singleton, forall_eq]
    exact onSite_valid (by simp) (by norm_num) (by norm_num)
  nonempty := by simp [ringArgs, Basis.ofList]
  vecs := le_refl 1
  orth := rfl
  target := rfl

theorem ring_runs {num : Numerics ℂ} (hnum : IsNumerics num) : ∃ best c ops norms fuel, selectedCiGreedy num ringArgs fuel = .ok (some (best, c, ops, norms)) := by
  obtain ⟨⟨best, c, ops, norms⟩, h⟩ := C89_total (waveOn ℂ (siteLabels 4)) (Set.finite_Ico (0 : ℤ) 4 |>.subset fun l hl => by exact_mod_cast hl) hnum ringArgs_ok rfl
    ⟨onSite .Z 0, by simp [Basis.ofList], by simp [onSite]⟩ (le_refl _) (le_refl _) (by simp [ringArgs]) (Or.inl (le_refl _))
    (fuel := {s | PauliString (siteLabels 4) s ∧ s.Canonical}.ncard + 1) (by omega) (by simp [ringArgs])
  exact ⟨best, c, ops, norms, _, h⟩

theorem ring_next {l : List OpString} (hl : ClosedUnderAll [(labelPermutation (labelsOf [1, 2, 3, 0]) : Transformation ℂ)] l) {i j : ℤ} (h0 : 0 ≤ i) (h4 : i < 4)
    (hij : relabelString (relabelMap (labelsOf [1, 2, 3, 0])) (onSite .X i) = onSite .X j) (h : onSite .X i ∈ l) : onSite .X j ∈ l := by
  obtain ⟨A, a1, a2⟩ := hl _ h _ (List.mem_singleton.mpr rfl)
  have e := labelPermutation_sends (K := ℂ) ring_perm (typedPauli.mpr (onSite_valid (o := .X) (by simp) h0 h4).1)
  rw [Transformation.Sends, a1, hij] at e
  cases e
  refine a2 (((relabelSign (relabelMap (labelsOf [1, 2, 3, 0])) (onSite .X i) : ℤ) : ℂ), onSite .X j) (by simp [Operator.terms, Basis.ofList]) ?_
  have : relabelSign (relabelMap (labelsOf [1, 2, 3, 0])) (onSite .X i) = 1 := by simp [relabelSign, onSite]
  simp only [this, Int.cast_one, map_one, norm_one]
  norm_num

/-- non-vacuity: the translation by one site and `H = Z_0 + Z_1 + Z_2 + Z_3`; the search makes its step. -/
example : ∃ (num : Numerics ℂ) (best : Operator ℂ) (c : Option ℂ) (ops : List (Operator ℂ)) (norms : List ℂ) (fuel : ℕ), IsNumerics num ∧
    selectedCiGreedy num ringArgs fuel = .ok (some (best, c, ops, norms)) ∧ norms.length = 1 ∧ ∃ H Ts, Ts ≠ [] ∧
    SymmetricOK (fun s => PauliString (siteLabels 4) s ∧ s.Canonical) H Ts ringArgs := by
  obtain ⟨num, hnum⟩ := exists_numerics
  obtain ⟨best, c, ops, norms, fuel, h⟩ := ring_runs hnum
  refine ⟨num, best, c, ops, norms, fuel, hnum, h, ?_, _, _, by simp, ringArgs_ok⟩
  refine (C89_pauli (waveOn ℂ (siteLabels 4)) hnum ringArgs_ok rfl h).2.2.2.2.resolve_right ?_
  rintro (⟨_, _, h, _⟩ | ⟨_, _, _, _, h, _⟩) <;> simp [ringArgs] at h

/-- `X_0 X_1` -/
def pairXX : OpString := ⟨[.X, .X], [0, 1], .pauli, .float1⟩

theorem pairXX_valid : PauliString (siteLabels 2) pairXX ∧ pairXX.Canonical := by
  refine ⟨⟨rfl, by simp [pairXX], rfl, by simp [pairXX], ?_, by simp [pairXX]⟩, by simp [pairXX], Or.inr rfl⟩
  simp [pairXX, siteLabels]

theorem pairXX_sends : (labelPermutation (labelsOf [1, 0]) : Transformation ℂ).Sends pairXX 1 pairXX := by
  have hp : IsPermArray [1, 0] := by
    show List.Perm [1, 0] (List.range 2)
    decide
  have e := labelPermutation_sends (K := ℂ) hp (typedPauli.mpr pairXX_valid.1)
  rw [show relabelString (relabelMap (labelsOf [1, 0])) pairXX = pairXX by decide, show relabelSign (relabelMap (labelsOf [1, 0])) pairXX = 1 by decide] at e
  simpa using e

theorem pairXX_defect : symmetryDefect [(labelPermutation (labelsOf [1, 0]) : Transformation ℂ)] [pairXX] (fun _ => 1) = 0 := by
  have e : (labelPermutation (labelsOf [1, 0]) : Transformation ℂ).entry pairXX pairXX = 1 := by
    rw [Transformation.entry, pairXX_sends]
    simp [Operator.coef, Operator.terms, Basis.ofList]
  simp [symmetryDefect, e]

/-- non-vacuity of `C89_symmetric`: `X_0 X_1`, the exchange of the two sites, and `H = X_0 X_1` -/
example : ∃ (O : Operator ℂ) (c d : ℂ) (w : OpString → ℂ),
    IsSymmetricRecord (fun s => PauliString (siteLabels 2) s ∧ s.Canonical) (waveOn ℂ (siteLabels 2)).den ((waveOn ℂ (siteLabels 2)).den pairXX)
      [labelPermutation (labelsOf [1, 0])] O c ∧ (∀ s, IsReal (w s)) ∧ (O.basis.strs.map (fun s => star (w s) * w s)).sum = 1 ∧
    IsComNorm (fun s => PauliString (siteLabels 2) s ∧ s.Canonical) (waveOn ℂ (siteLabels 2)).den (O.basis.strs.map (fun s => w s • (waveOn ℂ (siteLabels 2)).den s)).sum
      ((waveOn ℂ (siteLabels 2)).den pairXX) d ∧ symmetryDefect [labelPermutation (labelsOf [1, 0])] O.basis.strs w = 0 := by
  have hcom : IsComNorm (fun s => PauliString (siteLabels 2) s ∧ s.Canonical) (waveOn ℂ (siteLabels 2)).den ((waveOn ℂ (siteLabels 2)).den pairXX)
      ((waveOn ℂ (siteLabels 2)).den pairXX) (0 : ℂ) := comNorm_commute _ rfl
  refine ⟨⟨[1], Basis.ofList [pairXX], .pauli⟩, 0, 0, fun _ => 1, ⟨Operator.WF.mk' (by simp) rfl (by simp [pairXX]), ?_, ?_, ?_, ?_, ⟨IsReal.zero, 0, ?_, ?_⟩, ?_⟩, ?_, ?_,
    ?_, ?_⟩
  · simpa [Basis.ofList] using pairXX_valid
  · simp only [ClosedUnderAll, Basis.ofList, List.mem_singleton, forall_eq]
    exact ⟨_, pairXX_sends, by simp [Operator.terms, Basis.ofList]⟩
  · simp only [List.mem_singleton, forall_eq]; exact IsReal.one
  · simp [Operator.IsUnit, Operator.coef, Operator.terms, Basis.ofList]
  · simpa [Operator.den, denT, Operator.terms, Basis.ofList] using hcom
  · have e : symmetryDefect [(labelPermutation (labelsOf [1, 0]) : Transformation ℂ)] [pairXX] (fun _ => 1) = _ := rfl
    rw [toR_zero, zero_add]
    have h := pairXX_defect
    simp only [symmetryDefect, Basis.ofList, Operator.coef, Operator.terms] at h ⊢
    simpa using h
  · intro _ w d _ _ hd
    rw [toR_zero]
    have h1 := hd.nonneg.2
    have h2 := symmetryDefect_nonneg [(labelPermutation (labelsOf [1, 0]) : Transformation ℂ)] [pairXX] w
    have : (0 : ℝ) ≤ 10 ^ 10 / 2 * symmetryDefect [(labelPermutation (labelsOf [1, 0]) : Transformation ℂ)] [pairXX] w := by positivity
    exact add_nonneg h1 this
  · exact fun _ => IsReal.one
  · simp [Basis.ofList]
  · simpa [Basis.ofList] using hcom
  · exact pairXX_defect

/-- **C63 refuted** with transformations: one step from the string `X_0` with one string asked for (`num_H_terms = 1`) and `max_basis_size = 1` gives an operator of at
least four strings. -/
theorem C63_refuted : ∃ (num : Numerics ℂ) (args : GreedyArgs ℂ) (fuel : ℕ) (best : Operator ℂ) (c : Option ℂ) (ops : List (Operator ℂ)) (norms : List ℂ),
    IsNumerics num ∧ args.initialOperator.basis.strs.length = 1 ∧ args.comOps.length = 1 ∧ args.numHTerms = [1] ∧ args.numOTerms = 0 ∧ args.maxSizes = [1] ∧
    args.numSteps = 1 ∧ selectedCiGreedy num args fuel = .ok (some (best, c, ops, norms)) ∧ ∃ O ∈ ops, 4 ≤ O.basis.strs.length := by
  obtain ⟨num, hnum⟩ := exists_numerics
  obtain ⟨best, c, ops, norms, fuel, h⟩ := ring_runs hnum
  refine ⟨num, ringArgs, fuel, best, c, ops, norms, hnum, rfl, rfl, rfl, rfl, rfl, rfl, h, ?_⟩
  obtain ⟨h1, h2, -, -, h5⟩ := C89_pauli (waveOn ℂ (siteLabels 4)) hnum ringArgs_ok rfl h
  replace h5 : norms.length = 1 := h5.resolve_right (by rintro (⟨_, _, h, _⟩ | ⟨_, _, _, _, h, _⟩) <;> simp [ringArgs] at h)
  cases ops with
  | nil =>
    rw [List.forall₂_nil_left_iff] at h1
    simp [h1] at h5
  | cons O ops' =>
    obtain ⟨c', norms', hO, -, -⟩ := List.forall₂_cons_left_iff.mp h1
    refine ⟨O, List.mem_cons_self .., ?_⟩
    have m0 : onSite .X 0 ∈ O.basis.strs := h2 O (by simp) _ (by simp [ringArgs, Basis.ofList])
    have m1 := ring_next hO.closed (i := 0) (j := 1) (by norm_num) (by norm_num) (by decide) m0
    have m2 := ring_next hO.closed (i := 1) (j := 2) (by norm_num) (by norm_num) (by decide) m1
    have m3 := ring_next hO.closed (i := 2) (j := 3) (by norm_num) (by norm_num) (by decide) m2
    have hs : [onSite .X 0, onSite .X 1, onSite .X 2, onSite .X 3] ⊆ O.basis.strs := by
      intro x hx
      simp only [List.mem_cons, List.not_mem_nil, or_false] at hx
      rcases hx with rfl | rfl | rfl | rfl <;> assumption
    have hn : [onSite .X 0, onSite .X 1, onSite .X 2, onSite .X 3].Nodup := by decide
    exact (hn.subperm hs).length_le

end Qosy
