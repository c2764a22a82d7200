import Verif.Spec.SelectedCi
import Verif.Lemmas.Explore
import Verif.Lemmas.JordanWigner

/-! # Lemmas: the searches that fail at the commutant matrix -/

namespace Qosy
open Coef
variable {K : Type} [Field K] [StarRing K] [Coef K]
variable {𝔸 : Type} [Ring 𝔸] [Algebra K 𝔸]

/-- the string of the commutator of two strings, in terms of what the strings mean -/
theorem StrAlg.commutator_string [Nontrivial 𝔸] (R : StrAlg K 𝔸) {s h : OpString} (hs : R.Str s) (hh : R.Str h) (t : OpString) :
    (∃ c : K, operationOpString .commutator s h = .ok (c, some t)) ↔
      (R.Str t ∧ t.Canonical) ∧ ∃ c : K, c ≠ 0 ∧ bracketOf .commutator (R.den s) (R.den h) = c • R.den t := by
  have hne : ∀ {t}, R.Str t → R.den t ≠ 0 := by
    intro t ht h0
    have := R.sq t ht
    rw [h0, mul_zero] at this
    exact zero_ne_one this
  rcases R.op_string .commutator hs hh with ⟨h1, h2⟩ | ⟨c, C, h1, h2, h3, h4, h5, h6, h7⟩
  · constructor
    · rintro ⟨c, hc⟩
      rw [h1] at hc
      simp at hc
    · rintro ⟨⟨ht, _⟩, c, hc, he⟩
      rw [h2] at he
      rcases smul_eq_zero.mp he.symm with h' | h'
      · exact absurd h' hc
      · exact absurd h' (hne ht)
  · have hc0 : c ≠ 0 := by
      rintro rfl
      simp [bracketFactor] at h4
    constructor
    · rintro ⟨c', hc'⟩
      rw [h1] at hc'
      simp only [Except.ok.injEq, Prod.mk.injEq, Option.some.injEq] at hc'
      obtain ⟨rfl, rfl⟩ := hc'
      exact ⟨⟨h2, h5, h7⟩, c, hc0, h3⟩
    · rintro ⟨⟨ht, ht'⟩, c', hc', he⟩
      rw [h3] at he
      have : R.den C = (c⁻¹ * c') • R.den t := by rw [mul_smul, ← he, smul_smul, inv_mul_cancel₀ hc0, one_smul]
      obtain ⟨rfl, _⟩ := R.same_string h2 ht ⟨h5, h7⟩ ht' this
      exact ⟨c, h1⟩

/-- the extended basis of an exploration holds the strings reached by one commutator -/
theorem explore_reached [Nontrivial 𝔸] (R : StrAlg K 𝔸) {S : OpString → Prop} {st : Explored K} (h : st.Coherent R S) {b : Basis} {H : Operator K}
    (allowed : Option (List ℤ)) (hbn : b.strs.Nodup) (hb : ∀ s ∈ b.strs, R.Str s) (hH : ∀ s ∈ H.basis.strs, R.Str s) (hHn : H.basis.strs.Nodup)
    (hS : ∀ s ∈ H.termStrs, S s) :
    ∃ L ext st', explore b H allowed st = .ok ((L, ext), st') ∧ st'.Coherent R (fun s => S s ∧ s ∈ H.termStrs) ∧
      IsLiouvillian R.den .commutator (b.strs.map R.den) (H.partDen allowed R.den) L ext ∧
      (∀ t, t ∈ ext.strs ↔ Reached R.Str R.den b.strs H allowed t) := by
  obtain ⟨L, ext, st', h1, h2, h3, h4⟩ := explore_full R h allowed hbn hb hH hHn hS
  refine ⟨L, ext, st', h1, h2, ?_, ?_⟩
  · rw [allowedDen_eq] at h3
    exact LiouvilleOK.isLiouvillian (x := b.strs.map R.den) (by simpa [Basis.len] using h3)
  · intro t
    rw [h4, Reached]
    have hsub := H.termStrs_sublist.subset
    have hal : ∀ u : OpString, allowedTerm allowed u = true ↔ ∀ ls ∈ allowed, ∃ l ∈ u.labels, l ∈ ls := by
      intro u
      cases allowed with
      | none => simp [allowedTerm]
      | some ls => simp [allowedTerm]
    constructor
    · rintro ⟨s, hs, u, hu, ha, hc⟩
      obtain ⟨k1, k2⟩ := (R.commutator_string (hb s hs) (hH u (hsub hu)) t).mp hc
      exact ⟨k1, s, hs, u, hu, (hal u).mp ha, k2⟩
    · rintro ⟨k1, s, hs, u, hu, ha, k2⟩
      exact ⟨s, hs, u, hu, (hal u).mpr ha, (R.commutator_string (hb s hs) (hH u (hsub hu)) t).mpr ⟨k1, k2⟩⟩

theorem exploreAll_reached [Nontrivial 𝔸] (R : StrAlg K 𝔸) : ∀ (calls : List (ExploreCall K)) (S : OpString → Prop) (st : Explored K), st.Coherent R S →
    (∀ c ∈ calls, c.1.strs.Nodup ∧ (∀ s ∈ c.1.strs, R.Str s) ∧ c.2.1.basis.strs.Nodup ∧ (∀ s ∈ c.2.1.basis.strs, R.Str s) ∧ ∀ s ∈ c.2.1.termStrs, S s) →
    calls.Pairwise (fun c c' => ∀ s ∈ c'.2.1.termStrs, s ∈ c.2.1.termStrs) →
    ∃ rs, exploreAll st calls = .ok rs ∧ List.Forall₂ (fun c r => ∀ t, t ∈ r.2.strs ↔ Reached R.Str R.den c.1.strs c.2.1 c.2.2 t) calls rs := by
  intro calls
  induction calls with
  | nil => intro S st _ _ _; exact ⟨[], rfl, .nil⟩
  | cons c calls ih =>
    intro S st h hc hp
    obtain ⟨b, H, allowed⟩ := c
    obtain ⟨h1, h2, h3, h4, h5⟩ := hc _ (List.mem_cons_self ..)
    rw [List.pairwise_cons] at hp
    obtain ⟨L, ext, st', g1, g2, _, g3⟩ := explore_reached R h allowed h1 h2 h4 h3 h5
    obtain ⟨rs, k1, k2⟩ := ih _ st' g2 (fun c hcm => by
      obtain ⟨i1, i2, i3, i4, i5⟩ := hc c (List.mem_cons_of_mem _ hcm)
      exact ⟨i1, i2, i3, i4, fun s hs => ⟨i5 s hs, hp.1 c hcm s hs⟩⟩) hp.2
    exact ⟨(L, ext) :: rs, by simp only [exploreAll, g1, bind, Except.bind, k1], .cons g3 k2⟩

variable [RealCoef K]

theorem comMatrix_error (L : Mat K) (H : Operator K) : ∃ e, comMatrix (.matrix L) H = .error e ∧ (H.terms ≠ [] → e = .indexError) := by
  cases h : H.terms with
  | nil => exact ⟨.valueError, by simp [comMatrix, lMatrix, h, inferredCsr, bind, Except.bind, pure, Except.pure], by simp⟩
  | cons t l => exact ⟨.indexError, by simp [comMatrix, lMatrix, h, StructureData.lookup, bind, Except.bind], fun _ => rfl⟩

theorem lMatrix_error (L : Mat K) (H : Operator K) : ∃ e, lMatrix (.matrix L) H = .error e ∧ (H.terms ≠ [] → e = .indexError) := by
  cases h : H.terms with
  | nil => exact ⟨.valueError, by simp [lMatrix, h, inferredCsr, bind, Except.bind, pure, Except.pure], by simp⟩
  | cons t l => exact ⟨.indexError, by simp [lMatrix, h, StructureData.lookup, bind, Except.bind], fun _ => rfl⟩

/-- a computation either fails or leaves the records alone -/
def Idle (s : CiState K) (r : Py (CiState K)) : Prop := ∀ s', r = .ok s' → s'.result = s.result

theorem ciLoop_idle (rest : CiState K → Mat K → Py (CiState K)) (H : Operator K) (n : ℕ) (s : CiState K) : Idle s (ciLoop rest H n s) := by
  intro s' h
  cases n with
  | zero => simp only [ciLoop, Except.ok.injEq] at h; rw [h]
  | succ n =>
    rw [ciLoop] at h
    cases h1 : explore s.basis H none s.explored with
    | error e => simp [h1, bind, Except.bind] at h
    | ok r1 =>
      obtain ⟨⟨L1, e1⟩, x1⟩ := r1
      cases h2 : explore e1 H none x1 with
      | error e => simp [h1, h2, bind, Except.bind] at h
      | ok r2 =>
        obtain ⟨⟨L2, e2⟩, x2⟩ := r2
        simp only [h1, h2, bind, Except.bind] at h
        split at h
        · simp only [Except.ok.injEq] at h
          rw [← h]; rfl
        · cases h3 : explore (s.basis.iadd e2) H none x2 with
          | error e => simp [h3] at h
          | ok r3 =>
            obtain ⟨⟨L3, e3⟩, x3⟩ := r3
            obtain ⟨e, he, _⟩ := comMatrix_error L3 H
            simp [h3, he] at h

theorem greedySimpleLoop_idle (rest : CiState K → Mat K → Py (CiState K)) (H : Operator K) (n : ℕ) (s : CiState K) : Idle s (greedySimpleLoop rest H n s) := by
  intro s' h
  cases n with
  | zero => simp only [greedySimpleLoop, Except.ok.injEq] at h; rw [h]
  | succ n =>
    rw [greedySimpleLoop] at h
    cases h1 : explore s.basis H none s.explored with
    | error e => simp [h1, bind, Except.bind] at h
    | ok r1 =>
      obtain ⟨⟨L1, e1⟩, x1⟩ := r1
      obtain ⟨e, he, _⟩ := lMatrix_error L1 H
      simp [h1, he, bind, Except.bind] at h

theorem sweepSite_idle (rest : CiState K → Mat K → Py (CiState K)) (args : SweepArgs K) (H : Operator K) (m : ℤ) (s : CiState K)
    (site : ℤ) : Idle s (sweepSite rest args H m s site) := by
  intro s' h
  rw [sweepSite] at h
  cases h1 : explore s.basis H (some [site, min (site + 1) m]) s.explored with
  | error e => simp [h1, bind, Except.bind] at h
  | ok r1 =>
    obtain ⟨⟨L1, e1⟩, x1⟩ := r1
    cases h2 : explore e1 H (some [max 0 (site - 1), site, min (site + 1) m, min (site + 2) m]) x1 with
    | error e => simp [h1, h2, bind, Except.bind] at h
    | ok r2 =>
      obtain ⟨⟨L2, e2⟩, x2⟩ := r2
      simp only [h1, h2, bind, Except.bind] at h
      cases h3 : args.expand s.operators (s.basis.iadd e2) x2 with
      | error e => simp [h3] at h
      | ok r3 =>
        obtain ⟨b, x⟩ := r3
        simp only [h3] at h
        generalize args.filter b = b' at h
        split at h
        · simp only [Except.ok.injEq] at h
          rw [← h]; rfl
        · cases h4 : explore b' H none x with
          | error e => simp [h4] at h
          | ok r4 =>
            obtain ⟨⟨L4, e4⟩, x4⟩ := r4
            obtain ⟨e, he, _⟩ := comMatrix_error L4 H
            simp [h4, he] at h

theorem sweepSites_idle (rest : CiState K → Mat K → Py (CiState K)) (args : SweepArgs K) (H : Operator K) (m : ℤ) : ∀ (l : List ℤ) (s : CiState K),
    Idle s (l.foldlM (sweepSite rest args H m) s) := by
  intro l
  induction l with
  | nil =>
    intro s s' h
    simp only [List.foldlM_nil, pure, Except.pure, Except.ok.injEq] at h
    rw [h]
  | cons site l ih =>
    intro s s' h
    rw [List.foldlM_cons] at h
    cases h1 : sweepSite rest args H m s site with
    | error e => simp [h1, bind, Except.bind] at h
    | ok s1 =>
      simp only [h1, bind, Except.bind] at h
      exact (ih s1 s' h).trans (sweepSite_idle rest args H m s site s1 h1)

theorem sweepLoop_idle (rest : CiState K → Mat K → Py (CiState K)) (args : SweepArgs K) (H : Operator K) (m : ℤ) : ∀ (n : ℕ) (up : Bool) (s : CiState K),
    Idle s (sweepLoop rest args H m n up s) := by
  intro n
  induction n with
  | zero => intro up s s' h; simp only [sweepLoop, Except.ok.injEq] at h; rw [h]
  | succ n ih =>
    intro up s s' h
    rw [sweepLoop] at h
    cases h1 : npMin s.basis.allLabels with
    | error e => simp [h1, bind, Except.bind] at h
    | ok lo =>
      cases h2 : npMax s.basis.allLabels with
      | error e => simp [h1, h2, bind, Except.bind] at h
      | ok hi =>
        simp only [h1, h2, bind, Except.bind] at h
        cases h3 : (if up = true then sweepSites lo hi else (sweepSites lo hi).reverse).foldlM (sweepSite rest args H m) s with
        | error e => simp [h3] at h
        | ok s1 =>
          simp only [h3] at h
          exact (ih _ s1 s' h).trans (sweepSites_idle rest args H m _ s s1 h3)

theorem sameStrings_iff {l l' : List OpString} : sameStrings (Basis.ofList l) (Basis.ofList l') = true ↔ ∀ s, s ∈ l ↔ s ∈ l' := by
  simp only [sameStrings, Bool.and_eq_true, List.all_eq_true, Basis.ofList_strs, Basis.contains_ofList, decide_eq_true_eq]
  exact ⟨fun h s => ⟨h.1 s, h.2 s⟩, fun h => ⟨fun s => (h s).mp, fun s => (h s).mpr⟩⟩

theorem ciInit_basis {initial : Operator K} (h : initial.WF) (x : Explored K) :
    (ciInit initial x).basis = Basis.ofList initial.basis.strs ∧ (ciInit initial x).previous = Basis.ofList initial.basis.strs := by
  have e0 : (emptyBasis : Basis) = Basis.ofList [] := rfl
  have hn := h.basis.2
  have : emptyBasis.iadd initial.basis = Basis.ofList initial.basis.strs := by
    rw [e0, Basis.iadd_ofList (by simp), unionList_eq_filter _ hn]
    congr 1
    rw [List.nil_append, List.filter_eq_self]
    intro s _; simp
  exact ⟨this, this⟩

/-- the two expansions of the first step -/
theorem expand_twice [Nontrivial 𝔸] (R : StrAlg K 𝔸) {H : Operator K} (hH : ∀ s ∈ H.basis.strs, R.Str s) (hHn : H.basis.strs.Nodup) {l : List OpString}
    (hl : l.Nodup) (hs : ∀ s ∈ l, R.Str s) :
    ∃ L1 e1 x1 L2 e2 x2 l', explore (Basis.ofList l) H none Explored.empty = .ok ((L1, e1), x1) ∧ explore e1 H none x1 = .ok ((L2, e2), x2) ∧
      x2.Coherent R (fun s => s ∈ H.termStrs) ∧ (Basis.ofList l).iadd e2 = Basis.ofList l' ∧ l'.Nodup ∧ (∀ s ∈ l', R.Str s) ∧
      ∀ t, t ∈ l' ↔ t ∈ l ∨ ReachedTwice R.Str R.den l H t := by
  obtain ⟨L1, e1, x1, h1, h2, h3, h4⟩ := explore_reached R (Explored.empty_coherent R fun _ => True) none (b := Basis.ofList l) hl hs hH hHn (by simp)
  have he1 : ∀ s ∈ e1.strs, R.Str s := fun s hs => ((h4 s).mp hs).1.1
  obtain ⟨L2, e2, x2, k1, k2, k3, k4⟩ := explore_reached R h2 none h3.indexed.nodup he1 hH hHn (fun s hs => ⟨trivial, hs⟩)
  have he2 : ∀ s ∈ e2.strs, R.Str s := fun s hs => ((k4 s).mp hs).1.1
  refine ⟨L1, e1, x1, L2, e2, x2, unionList l e2.strs, h1, k1, ?_, Basis.iadd_ofList hl .., unionList_nodup hl _, ?_, ?_⟩
  · obtain ⟨i1, i2, i3, i4⟩ := k2
    exact ⟨i1, i2, i3, fun s hs => i4 s ⟨⟨trivial, hs⟩, hs⟩⟩
  · intro s h
    rcases mem_unionList.mp h with h | h
    · exact hs s h
    · exact he2 s h
  · intro t
    rw [mem_unionList, k4]
    refine or_congr Iff.rfl ?_
    rw [ReachedTwice]
    constructor
    · rintro ⟨g1, u, hu, g2⟩
      exact ⟨u, (h4 u).mp hu, g1, u, by simp, g2⟩
    · rintro ⟨u, hu, g1, u', hu', g2⟩
      rw [List.mem_singleton.mp hu'] at g2
      exact ⟨g1, u, (h4 u).mpr hu, g2⟩

theorem npMin_spec {l : List ℤ} (h : l ≠ []) : ∃ m, npMin l = .ok m ∧ m ∈ l ∧ ∀ x ∈ l, m ≤ x := by
  cases l with
  | nil => exact absurd rfl h
  | cons a l =>
    refine ⟨_, rfl, ?_⟩
    clear h
    induction l generalizing a with
    | nil => simp
    | cons b l ih =>
      obtain ⟨h1, h2⟩ := ih (min a b)
      rw [List.foldl_cons]
      have hm := h2 _ (List.mem_cons_self)
      refine ⟨?_, ?_⟩
      · rcases List.mem_cons.mp h1 with e | e
        · rw [e]
          rcases min_choice a b with e' | e' <;> rw [e'] <;> simp
        · simp [e]
      · intro x hx
        rcases List.mem_cons.mp hx with rfl | hx
        · exact hm.trans (min_le_left _ _)
        · rcases List.mem_cons.mp hx with rfl | hx
          · exact hm.trans (min_le_right _ _)
          · exact h2 x (List.mem_cons_of_mem _ hx)

end Qosy
