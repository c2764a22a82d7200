import Verif.Lemmas.SelectedCi
import Verif.Props.Algorithms
import Verif.Props.Greedy

/-!
# Properties C51 (the extended basis) and C83: the searches `selected_ci`, `selected_ci_simple`, `selected_ci_sweep`, `selected_ci_greedy_simple`

`rest` is whatever the functions do with the commutant matrix.  `Reached … t` says that `t` is the string of a non-zero commutator.
-/

namespace Qosy
open Coef
variable {K : Type} [Field K] [StarRing K] [Coef K]
variable {𝔸 : Type} [Ring 𝔸] [Algebra K 𝔸] {S : Set ℤ}

/-! ### C51: the extended basis -/

/-- **C51** (the extended basis, Pauli strings): it holds exactly the strings of the non-zero commutators of the basis with the (allowed) terms. -/
theorem C51_extended_pauli [Nontrivial 𝔸] (R : PauliRep K 𝔸 S) (calls : List (ExploreCall K))
    (h : ∀ c ∈ calls, c.1.strs.Nodup ∧ (∀ s ∈ c.1.strs, PauliString S s) ∧ c.2.1.basis.strs.Nodup ∧ ∀ s ∈ c.2.1.basis.strs, PauliString S s)
    (hp : calls.Pairwise (fun c c' => ∀ s ∈ c'.2.1.termStrs, s ∈ c.2.1.termStrs)) :
    ∃ rs, exploreAll Explored.empty calls = .ok rs ∧
      List.Forall₂ (fun c r => ∀ t, t ∈ r.2.strs ↔ Reached (PauliString S) R.den c.1.strs c.2.1 c.2.2 t) calls rs :=
  exploreAll_reached R.strAlg calls (fun _ => True) Explored.empty (Explored.empty_coherent _ _)
    (fun c hc => let ⟨h1, h2, h3, h4⟩ := h c hc; ⟨h1, h2, h3, h4, fun _ _ => trivial⟩) hp

/-- **C51** (the extended basis, Majorana strings) -/
theorem C51_extended_majorana [Nontrivial 𝔸] (R : MajoranaRep K 𝔸 S) (calls : List (ExploreCall K))
    (h : ∀ c ∈ calls, c.1.strs.Nodup ∧ (∀ s ∈ c.1.strs, MajoranaString S s) ∧ c.2.1.basis.strs.Nodup ∧ ∀ s ∈ c.2.1.basis.strs, MajoranaString S s)
    (hp : calls.Pairwise (fun c c' => ∀ s ∈ c'.2.1.termStrs, s ∈ c.2.1.termStrs)) :
    ∃ rs, exploreAll Explored.empty calls = .ok rs ∧
      List.Forall₂ (fun c r => ∀ t, t ∈ r.2.strs ↔ Reached (MajoranaString S) R.den c.1.strs c.2.1 c.2.2 t) calls rs :=
  exploreAll_reached R.strAlg calls (fun _ => True) Explored.empty (Explored.empty_coherent _ _)
    (fun c hc => let ⟨h1, h2, h3, h4⟩ := h c hc; ⟨h1, h2, h3, h4, fun _ _ => trivial⟩) hp

/-! ### C83 -/

variable [RealCoef K]

/-- **C83 refuted** (all inputs): whatever the operators, the number of steps and the code after the commutant matrix, none of the four
functions ever returns an operator it has found: if one returns at all, it returns the initial operator with an infinite norm and empty records. -/
theorem C83_refuted_nothing_found (rest : CiState K → Mat K → Py (CiState K)) (args : SweepArgs K) (initial H : Operator K) (n : ℕ) (x : Explored K)
    (r : CiResult K) (h : selectedCi rest initial H n x = .ok r ∨ selectedCiSimple initial H n = .ok r ∨ selectedCiSweep rest args initial H n x = .ok r ∨
      selectedCiGreedySimple rest initial H n x = .ok r) : r = (initial, none, [], []) := by
  rcases h with h | h | h | h
  · rw [selectedCi] at h
    cases h1 : ciLoop rest H n (ciInit initial x) with
    | error e => simp [h1, bind, Except.bind] at h
    | ok s =>
      simp only [h1, bind, Except.bind, Except.ok.injEq] at h
      rw [← h, ciLoop_idle rest H n _ s h1]; rfl
  · cases n with
    | zero => simp only [selectedCiSimple, Except.ok.injEq] at h; exact h.symm
    | succ n =>
      simp only [selectedCiSimple, bind, Except.bind] at h
      cases h1 : (structureConstants (emptyBasis.iadd initial.basis) H.basis .commutator : Py (Dict (Mat K) × Basis)) with
      | error e => simp only [h1, reduceCtorEq] at h
      | ok r1 =>
        simp only [h1] at h
        cases h2 : (structureConstants ((emptyBasis.iadd initial.basis).iadd r1.2) H.basis .commutator : Py (Dict (Mat K) × Basis)) with
        | error e => simp only [h2, reduceCtorEq] at h
        | ok r2 => simp only [h2, reduceCtorEq] at h
  · rw [selectedCiSweep] at h
    cases h0 : npMax H.basis.allLabels with
    | error e => simp [h0, bind, Except.bind] at h
    | ok m =>
      cases h1 : sweepLoop rest args H m n true (ciInit initial x) with
      | error e => simp [h0, h1, bind, Except.bind] at h
      | ok s =>
        simp only [h0, h1, bind, Except.bind, Except.ok.injEq] at h
        rw [← h, sweepLoop_idle rest args H m n true _ s h1]; rfl
  · rw [selectedCiGreedySimple] at h
    cases h0 : npMax H.basis.allLabels with
    | error e => simp [h0, bind, Except.bind] at h
    | ok m =>
      cases h1 : greedySimpleLoop rest H n (ciInit initial x) with
      | error e => simp [h0, h1, bind, Except.bind] at h
      | ok s =>
        simp only [h0, h1, bind, Except.bind, Except.ok.injEq] at h
        rw [← h, greedySimpleLoop_idle rest H n _ s h1]; rfl

/-- what `selected_ci` does in its first step -/
theorem selectedCi_first [Nontrivial 𝔸] (R : StrAlg K 𝔸) (rest : CiState K → Mat K → Py (CiState K)) {initial H : Operator K} (hi : initial.WF)
    (his : ∀ s ∈ initial.basis.strs, R.Str s) (hH : ∀ s ∈ H.basis.strs, R.Str s) (hHn : H.basis.strs.Nodup) (n : ℕ) :
    ((∀ t, ReachedTwice R.Str R.den initial.basis.strs H t → t ∈ initial.basis.strs) → selectedCi rest initial H (n + 1) = .ok (initial, none, [], [])) ∧
    ((∃ t, ReachedTwice R.Str R.den initial.basis.strs H t ∧ t ∉ initial.basis.strs) → selectedCi rest initial H (n + 1) = .error .indexError) := by
  obtain ⟨L1, e1, x1, L2, e2, x2, l', h1, h2, h3, h4, h5, h6, h7⟩ := expand_twice R hH hHn hi.basis.2 his
  obtain ⟨b1, b2⟩ := ciInit_basis hi (Explored.empty : Explored K)
  have b3 : (ciInit initial (Explored.empty : Explored K)).explored = Explored.empty := rfl
  have b4 : (ciInit initial (Explored.empty : Explored K)).previous2 = none := rfl
  constructor
  · intro hc
    have hsame : sameStrings (Basis.ofList l') (Basis.ofList initial.basis.strs) = true := by
      rw [sameStrings_iff]
      intro s
      rw [h7]
      exact ⟨fun h => h.elim id (hc s), Or.inl⟩
    rw [selectedCi, ciLoop]
    simp only [b1, b2, b3, b4, h1, h2, h4, bind, Except.bind, hsame, Bool.true_or, if_true]
    rfl
  · rintro ⟨t, ht, htn⟩
    have hsame : sameStrings (Basis.ofList l') (Basis.ofList initial.basis.strs) = false := by
      rw [Bool.eq_false_iff, ne_eq, sameStrings_iff]
      intro h
      exact htn ((h t).mp ((h7 t).mpr (Or.inr ht)))
    obtain ⟨L3, e3, x3, k1, _⟩ := explore_ok R h3 none (b := Basis.ofList l') h5 h6 hH hHn (fun s hs => hs)
    obtain ⟨e, k2, k3⟩ := comMatrix_error L3 H
    have hne : H.terms ≠ [] := by
      obtain ⟨u, ⟨_, s, _, h, hh, _⟩, _⟩ := ht
      intro h0
      rw [Operator.termStrs, h0] at hh
      simp at hh
    rw [k3 hne] at k2
    rw [selectedCi, ciLoop]
    simp only [b1, b2, b3, b4, h1, h2, h4, bind, Except.bind, hsame, inCycle, Bool.or_false, Bool.false_eq_true, if_false, k1, k2]

/-- **C83 refuted** (`selected_ci`, Pauli strings): with at least one step, it returns the initial operator and an infinite norm if all strings
of the double commutators with `H` already are strings of the initial operator, and raises IndexError otherwise. -/
theorem C83_refuted_pauli [Nontrivial 𝔸] (R : PauliRep K 𝔸 S) (rest : CiState K → Mat K → Py (CiState K)) {initial H : Operator K} (hi : initial.WF)
    (his : ∀ s ∈ initial.basis.strs, PauliString S s) (hH : H.WF) (hHs : ∀ s ∈ H.basis.strs, PauliString S s) (n : ℕ) :
    ((∀ t, ReachedTwice (PauliString S) R.den initial.basis.strs H t → t ∈ initial.basis.strs) →
      selectedCi rest initial H (n + 1) = .ok (initial, none, [], [])) ∧
    ((∃ t, ReachedTwice (PauliString S) R.den initial.basis.strs H t ∧ t ∉ initial.basis.strs) →
      selectedCi rest initial H (n + 1) = .error .indexError) :=
  selectedCi_first R.strAlg rest hi his hHs hH.basis.2 n

/-- **C83 refuted** (`selected_ci`, Majorana strings) -/
theorem C83_refuted_majorana [Nontrivial 𝔸] (R : MajoranaRep K 𝔸 S) (rest : CiState K → Mat K → Py (CiState K)) {initial H : Operator K} (hi : initial.WF)
    (his : ∀ s ∈ initial.basis.strs, MajoranaString S s) (hH : H.WF) (hHs : ∀ s ∈ H.basis.strs, MajoranaString S s) (n : ℕ) :
    ((∀ t, ReachedTwice (MajoranaString S) R.den initial.basis.strs H t → t ∈ initial.basis.strs) →
      selectedCi rest initial H (n + 1) = .ok (initial, none, [], [])) ∧
    ((∃ t, ReachedTwice (MajoranaString S) R.den initial.basis.strs H t ∧ t ∉ initial.basis.strs) →
      selectedCi rest initial H (n + 1) = .error .indexError) :=
  selectedCi_first R.strAlg rest hi his hHs hH.basis.2 n

/-- **C83 refuted** (`selected_ci_simple` and `selected_ci_greedy_simple`): with at least one step they raise an exception for all operators of
Pauli strings. -/
theorem C83_refuted_simple [Nontrivial 𝔸] (R : PauliRep K 𝔸 S) (rest : CiState K → Mat K → Py (CiState K)) {initial H : Operator K} (hi : initial.WF)
    (his : ∀ s ∈ initial.basis.strs, PauliString S s) (hH : H.WF) (hHs : ∀ s ∈ H.basis.strs, PauliString S s) (n : ℕ) :
    selectedCiSimple initial H (n + 1) = .error .nameError ∧
    selectedCiGreedySimple rest initial H (n + 1) = .error (if ∀ s ∈ H.basis.strs, s.labels = [] then .valueError else .indexError) := by
  obtain ⟨b1, b2⟩ := ciInit_basis hi (Explored.empty : Explored K)
  have hb : emptyBasis.iadd initial.basis = Basis.ofList initial.basis.strs := b1
  constructor
  · obtain ⟨sc, strs, k1, k2, _, _, k5⟩ := R.strAlg.structureConstants_ok .commutator (tol := 1 / 10 ^ 16) (by norm_num) (by norm_num)
      (A := Basis.ofList initial.basis.strs) (B := H.basis) his hHs
    have hi2 : (Basis.ofList initial.basis.strs).iadd (Basis.ofList strs) = Basis.ofList (unionList initial.basis.strs strs) := Basis.iadd_ofList hi.basis.2 ..
    have hs2 : ∀ s ∈ (Basis.ofList (unionList initial.basis.strs strs)).strs, R.strAlg.Str s := by
      intro s hs
      rcases mem_unionList.mp hs with hs | hs
      · exact his s hs
      · exact (R.strAlg.scProd_res his hHs (k5 s hs)).1
    obtain ⟨sc', strs', j1, _⟩ := R.strAlg.structureConstants_ok .commutator (tol := 1 / 10 ^ 16) (by norm_num) (by norm_num)
      (A := Basis.ofList (unionList initial.basis.strs strs)) (B := H.basis) hs2 hHs
    simp only [selectedCiSimple, hb, bind, Except.bind, k1, hi2, j1]
  · by_cases hlab : ∀ s ∈ H.basis.strs, s.labels = []
    · rw [if_pos hlab]
      have : H.basis.allLabels = [] := by
        rw [Basis.allLabels, List.flatMap_eq_nil_iff]; exact hlab
      rw [selectedCiGreedySimple, this]
      rfl
    · rw [if_neg hlab]
      push Not at hlab
      obtain ⟨s, hs, hsl⟩ := hlab
      obtain ⟨m, hm⟩ : ∃ m, npMax H.basis.allLabels = .ok m := by
        cases h : H.basis.allLabels with
        | nil =>
          rw [Basis.allLabels, List.flatMap_eq_nil_iff] at h
          exact absurd (h s hs) hsl
        | cons a l => exact ⟨_, rfl⟩
      obtain ⟨L, e, x, h1, _⟩ := explore_ok R.strAlg (Explored.empty_coherent R.strAlg fun _ => True) none (b := Basis.ofList initial.basis.strs)
        hi.basis.2 his hHs hH.basis.2 (by simp)
      obtain ⟨e', h2, h3⟩ := lMatrix_error L H
      have hne : H.terms ≠ [] := by
        intro h0
        have h4 : H.terms.length = H.basis.strs.length := by rw [Operator.terms, List.length_zip, hH.len]; exact min_self _
        rw [h0] at h4
        rw [List.length_eq_zero_iff.mp h4.symm] at hs
        simp at hs
      rw [h3 hne] at h2
      have b3 : (ciInit initial (Explored.empty : Explored K)).explored = Explored.empty := rfl
      rw [selectedCiGreedySimple, greedySimpleLoop]
      simp only [hm, b1, b3, h1, h2, bind, Except.bind]

/-! ### witnesses -/

theorem opXZ_wf : opXZ.WF ∧ opX.WF := by
  refine ⟨⟨?_, rfl, ?_⟩, ⟨?_, rfl, ?_⟩⟩
  all_goals first | exact Basis.Inv.ofList (by decide) | (intro s hs; fin_cases hs <;> rfl) | skip

theorem opXZ_strings : (∀ s ∈ opXZ.basis.strs, PauliString Set.univ s) ∧ ∀ s ∈ opX.basis.strs, PauliString Set.univ s := by
  constructor
  · intro s hs; simp [opXZ] at hs; rcases hs with rfl | rfl; exacts [site_valid.1, site_valid.2.2]
  · intro s hs; simp [opX] at hs; subst hs; exact site_valid.1

/-- **C83 refuted** (witness): the search for an operator that commutes with `3/5 X_1 + 4/5 Z_1`, started from `X_1`, raises IndexError for every
number of steps, although this operator itself is a combination of the strings of the expanded basis. -/
theorem C83_refuted [Algebra QI 𝔸] [Nontrivial 𝔸] (R : PauliRep QI 𝔸 Set.univ) (rest : CiState QI → Mat QI → Py (CiState QI)) (n : ℕ) :
    selectedCi rest opX opXZ (n + 1) = .error .indexError ∧
    (∀ s ∈ opXZ.basis.strs, s ∈ opX.basis.strs ∨ ReachedTwice (PauliString Set.univ) R.den opX.basis.strs opXZ s) ∧
    bracketOf .commutator (opXZ.den R.den) (opXZ.den R.den) = 0 := by
  have hcom : ∀ {s h t : OpString}, R.strAlg.Str s → R.strAlg.Str h → (∃ c : QI, operationOpString .commutator s h = .ok (c, some t)) →
      (PauliString Set.univ t ∧ t.Canonical) ∧ ∃ c : QI, c ≠ 0 ∧ bracketOf .commutator (R.den s) (R.den h) = c • R.den t := by
    intro s h t hs hh hc
    exact (R.strAlg.commutator_string hs hh t).mp hc
  have hZ : ReachedTwice (PauliString Set.univ) R.den opX.basis.strs opXZ siteZ := by
    obtain ⟨g1, g2⟩ := hcom (s := siteX) (h := siteZ) (t := siteY) site_valid.1 site_valid.2.2 ⟨⟨0, -2⟩, by decide +kernel⟩
    obtain ⟨k1, k2⟩ := hcom (s := siteY) (h := siteX) (t := siteZ) site_valid.2.1 site_valid.1 ⟨⟨0, -2⟩, by decide +kernel⟩
    exact ⟨siteY, ⟨g1, siteX, by simp [opX], siteZ, by simp [opXZ, Operator.termStrs, Operator.terms], by simp, g2⟩,
      ⟨k1, siteY, by simp, siteX, by simp [opXZ, Operator.termStrs, Operator.terms], by simp, k2⟩⟩
  refine ⟨?_, ?_, by simp [bracketOf]⟩
  · exact (C83_refuted_pauli R rest opXZ_wf.2 opXZ_strings.2 opXZ_wf.1 opXZ_strings.1 n).2 ⟨siteZ, hZ, by decide⟩
  · intro s hs
    simp [opXZ] at hs
    rcases hs with rfl | rfl
    · exact Or.inl (by simp [opX])
    · exact Or.inr hZ

/-- non-vacuity: a search that returns, with the initial operator and an infinite norm. -/
example (rest : CiState QI → Mat QI → Py (CiState QI)) : selectedCi rest opX opY 5 = .ok (opX, none, [], []) := by
  have hcom : ∀ {s h t t' : OpString} {c : QI}, PauliString Set.univ s → PauliString Set.univ h →
      ((PauliString Set.univ t ∧ t.Canonical) ∧ ∃ c : QI, c ≠ 0 ∧ bracketOf .commutator ((waveRep QI).den s) ((waveRep QI).den h) = c • (waveRep QI).den t) →
      operationOpString .commutator s h = .ok (c, some t') → t = t' := by
    intro s h t t' c hs hh h1 h2
    obtain ⟨d, h3⟩ := ((waveRep QI).strAlg.commutator_string hs hh t).mpr h1
    rw [h2] at h3
    simp only [Except.ok.injEq, Prod.mk.injEq, Option.some.injEq] at h3
    exact h3.2.symm
  refine (C83_refuted_pauli (waveRep QI) rest opXZ_wf.2 opXZ_strings.2 ⟨Basis.Inv.ofList (by decide), rfl, by intro s hs; fin_cases hs; rfl⟩
    (by intro s hs; simp [opY] at hs; subst hs; exact site_valid.2.1) 4).1 ?_
  rintro t ⟨u, ⟨u1, s, hs, h, hh, _, u2⟩, ⟨t1, s', hs', h', hh', _, t2⟩⟩
  simp only [opX, Basis.ofList_strs, List.mem_singleton] at hs
  simp only [List.mem_singleton] at hs'
  simp only [opY, Operator.termStrs, Operator.terms, Basis.ofList_strs, List.zip_cons_cons, List.zip_nil_right, List.map_cons, List.map_nil, List.mem_singleton] at hh hh'
  subst hs hh hs' hh'
  have e1 := hcom (c := ⟨0, 2⟩) (t' := siteZ) site_valid.1 site_valid.2.1 ⟨u1, u2⟩ (by decide +kernel)
  subst e1
  have e2 := hcom (c := ⟨0, -2⟩) (t' := siteX) site_valid.2.2 site_valid.2.1 ⟨t1, t2⟩ (by decide +kernel)
  subst e2
  simp [opX]

/-- non-vacuity of C51: the strings reached from `{X_1}` with `3/5 X_1 + 4/5 Z_1`. -/
example : ∃ rs, exploreAll (K := QI) Explored.empty [(opX.basis, opXZ, none), (opX.basis, opXZ, some [7])] = .ok rs ∧
    List.Forall₂ (fun c r => ∀ t, t ∈ r.2.strs ↔ Reached (PauliString Set.univ) (waveRep QI).den c.1.strs c.2.1 c.2.2 t)
      [(opX.basis, opXZ, none), (opX.basis, opXZ, some [7])] rs :=
  C51_extended_pauli (waveRep QI) _ (by
    intro c hc
    simp only [List.mem_cons, List.not_mem_nil, or_false] at hc
    rcases hc with rfl | rfl <;>
      exact ⟨opXZ_wf.2.basis.2, opXZ_strings.2, opXZ_wf.1.basis.2, opXZ_strings.1⟩) (by simp)

/-- **C83** (the sites of a sweep): a sweep visits every site from the smallest to the largest label of the basis it starts with once, in increasing
order or in decreasing order, and the next sweep starts with the result of this one and runs in the other direction. -/
theorem C83_sites (rest : CiState K → Mat K → Py (CiState K)) (args : SweepArgs K) (H : Operator K) (m : ℤ) (n : ℕ) (up : Bool) (s s' : CiState K)
    (h : sweepLoop rest args H m (n + 1) up s = .ok s') :
    ∃ (sites : List ℤ) (s1 : CiState K), sites.foldlM (sweepSite rest args H m) s = .ok s1 ∧ sweepLoop rest args H m n (!up) s1 = .ok s' ∧
      sites.Pairwise (fun i j => if up then i < j else j < i) ∧
      ∀ i, i ∈ sites ↔ (∃ x ∈ s.basis.strs, ∃ l ∈ x.labels, l ≤ i) ∧ ∃ x ∈ s.basis.strs, ∃ l ∈ x.labels, i ≤ l := by
  rw [sweepLoop] at h
  have hne : s.basis.allLabels ≠ [] := by
    intro h0
    simp [h0, npMin, bind, Except.bind] at h
  obtain ⟨lo, l1, l2, l3⟩ := npMin_spec hne
  obtain ⟨hi, h1, h2, h3⟩ := npMax_spec hne
  simp only [l1, h1, bind, Except.bind] at h
  have lab : ∀ l, l ∈ s.basis.allLabels ↔ ∃ x ∈ s.basis.strs, l ∈ x.labels := fun l => by simp [Basis.allLabels]
  have mem : ∀ i, i ∈ sweepSites lo hi ↔ lo ≤ i ∧ i ≤ hi := by
    intro i
    simp only [sweepSites, List.mem_map, List.mem_range]
    constructor
    · rintro ⟨k, hk, rfl⟩; omega
    · rintro ⟨a, b⟩; exact ⟨(i - lo).toNat, by omega, by omega⟩
  have pw : (sweepSites lo hi).Pairwise (· < ·) := by
    rw [sweepSites, List.pairwise_map]
    exact List.pairwise_lt_range.imp (fun h => by omega)
  have mem' : ∀ i, (lo ≤ i ∧ i ≤ hi) ↔ (∃ x ∈ s.basis.strs, ∃ l ∈ x.labels, l ≤ i) ∧ ∃ x ∈ s.basis.strs, ∃ l ∈ x.labels, i ≤ l := by
    intro i
    obtain ⟨x, hx, hx'⟩ := (lab lo).mp l2
    obtain ⟨y, hy, hy'⟩ := (lab hi).mp h2
    constructor
    · exact fun ⟨a, b⟩ => ⟨⟨x, hx, lo, hx', a⟩, y, hy, hi, hy', b⟩
    · rintro ⟨⟨x, hx, l, hl, a⟩, y, hy, l', hl', b⟩
      exact ⟨(l3 l ((lab l).mpr ⟨x, hx, hl⟩)).trans a, b.trans (h3 l' ((lab l').mpr ⟨y, hy, hl'⟩))⟩
  cases h4 : (if up = true then sweepSites lo hi else (sweepSites lo hi).reverse).foldlM (sweepSite rest args H m) s with
  | error e => simp [h4] at h
  | ok s1 =>
    simp only [h4] at h
    refine ⟨_, s1, h4, h, ?_, fun i => ?_⟩
    · cases up
      · simpa [List.pairwise_reverse] using pw
      · simpa using pw
    · rw [← mem', ← mem]
      cases up <;> simp

example : sweepSites 2 4 = [2, 3, 4] := by decide

end Qosy
