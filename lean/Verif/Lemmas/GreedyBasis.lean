import Verif.Lemmas.RealMat
import Verif.Lemmas.Explore
import Verif.Lemmas.Truncate
import Verif.Lemmas.Basis

/-! # `selected_ci_greedy`: the expansion of the basis -/

namespace Qosy
open Coef RealOps
variable {K : Type} [Field K] [StarRing K] [Coef K] [RealCoef K]
variable {𝔸 : Type} [Ring 𝔸] [Algebra K 𝔸]

/-- a basis of valid strings -/
def GoodBasis (R : StrAlg K 𝔸) (b : Basis) : Prop := b.Inv ∧ ∀ s ∈ b.strs, R.Str s

theorem GoodBasis.iaddString {R : StrAlg K 𝔸} {b : Basis} (h : GoodBasis R b) {s : OpString} (hs : R.Str s) : GoodBasis R (b.iaddString s) := by
  obtain ⟨⟨h1, h2⟩, h3⟩ := h
  rw [h1, Basis.iaddString_ofList]
  have e : unionList b.strs [s] = if s ∈ b.strs then b.strs else b.strs ++ [s] := rfl
  rw [e]
  split
  · exact ⟨Basis.Inv.ofList h2, h3⟩
  · rename_i hn
    refine ⟨Basis.Inv.ofList (List.nodup_append.mpr ⟨h2, by simp, by simpa using fun a ha (e : a = s) => hn (e ▸ ha)⟩), fun t ht => ?_⟩
    rcases List.mem_append.mp ht with h | h
    · exact h3 t h
    · simp at h; exact h ▸ hs

theorem iaddString_subset {b : Basis} (h : b.Inv) (s : OpString) {t : OpString} (ht : t ∈ b.strs) : t ∈ (b.iaddString s).strs := by
  rw [h.1, Basis.iaddString_ofList]
  have e : unionList b.strs [s] = if s ∈ b.strs then b.strs else b.strs ++ [s] := rfl
  rw [e]
  show t ∈ ite _ _ _
  split
  · exact ht
  · exact List.mem_append_left _ ht

theorem insertTerms_subset {R : StrAlg K 𝔸} (num : ℕ) {l : List OpString} (hl : ∀ s ∈ l, R.Str s) {b : Basis} (h : GoodBasis R b) (c : ℕ) {t : OpString}
    (ht : t ∈ b.strs) : t ∈ (insertTerms num l b c).strs := by
  induction l generalizing b c with
  | nil => exact ht
  | cons s l ih =>
    have hs := hl s (List.mem_cons_self ..)
    have ih := @ih (fun t ht => hl t (List.mem_cons_of_mem _ ht))
    unfold insertTerms
    split
    · split
      · exact ht
      · exact ih h _ ht
    · split
      · exact iaddString_subset h.1 s ht
      · exact ih (h.iaddString hs) _ (iaddString_subset h.1 s ht)

theorem insertTerms_good {R : StrAlg K 𝔸} (num : ℕ) {l : List OpString} (hl : ∀ s ∈ l, R.Str s) {b : Basis} (h : GoodBasis R b) (c : ℕ) :
    GoodBasis R (insertTerms num l b c) := by
  induction l generalizing b c with
  | nil => exact h
  | cons s l ih =>
    have hs := hl s (List.mem_cons_self ..)
    have ih := @ih (fun t ht => hl t (List.mem_cons_of_mem _ ht))
    unfold insertTerms
    split
    · split
      · exact h
      · exact ih h _
    · split
      · exact h.iaddString hs
      · exact ih (h.iaddString hs) _

theorem iaddString_length {b : Basis} (h : b.Inv) (s : OpString) : (b.iaddString s).len ≤ b.len + 1 := by
  rw [h.1, Basis.iaddString_ofList]
  have e : unionList b.strs [s] = if s ∈ b.strs then b.strs else b.strs ++ [s] := rfl
  rw [e]
  show (ite _ _ _ : List OpString).length ≤ b.strs.length + 1
  split
  · omega
  · simp

theorem insertTerms_length {R : StrAlg K 𝔸} (num : ℕ) {l : List OpString} (hl : ∀ s ∈ l, R.Str s) {b : Basis} (h : GoodBasis R b) (c : ℕ)
    (hc : l = [] ∨ c < num) : (insertTerms num l b c).len ≤ b.len + (num - c) := by
  induction l generalizing b c with
  | nil => exact Nat.le_add_right _ _
  | cons s l ih =>
    have hs := hl s (List.mem_cons_self ..)
    have hc : c < num := hc.resolve_left (by simp)
    have ih := @ih (fun t ht => hl t (List.mem_cons_of_mem _ ht))
    have h1 := iaddString_length h.1 s
    unfold insertTerms
    split
    · split
      · omega
      · exact ih h _ (Or.inr hc)
    · split
      · omega
      · have := ih (h.iaddString hs) (c + 1) (Or.inr (by omega))
        omega

theorem insertAnticommutators_ok {R : StrAlg K 𝔸} (n : ℕ) {l : List (OpString × OpString)} (hl : ∀ p ∈ l, R.Str p.1 ∧ R.Str p.2) {b : Basis}
    (h : GoodBasis R b) {added : List OpString} (ha : ∀ s ∈ added, R.Str s) (c : ℕ) :
    ∃ b' added', insertAnticommutators (K := K) n l b added c = .ok (b', added') ∧ GoodBasis R b' ∧ (∀ s ∈ added', R.Str s) ∧
      (∀ t ∈ b.strs, t ∈ b'.strs) ∧ (c < n → b'.len ≤ b.len + (n - c)) := by
  induction l generalizing b added c with
  | nil => exact ⟨b, added, rfl, h, ha, fun _ h => h, fun _ => Nat.le_add_right _ _⟩
  | cons p l ih =>
    have hp := hl p (List.mem_cons_self ..)
    have ih := @ih (fun t ht => hl t (List.mem_cons_of_mem _ ht))
    rcases R.op_string .anticommutator hp.1 hp.2 with ⟨h1, _⟩ | ⟨x, C, h1, h2, _⟩
    · have h1' : (anticommutatorS p.1 p.2 : Py (K × Option OpString)) = .ok (0, none) := h1
      unfold insertAnticommutators
      simp only [h1', bind, Except.bind]
      split
      · exact ⟨_, _, rfl, h, ha, fun _ h => h, fun _ => Nat.le_add_right _ _⟩
      · exact ih h ha _
    · have h1' : (anticommutatorS p.1 p.2 : Py (K × Option OpString)) = .ok (x, some C) := h1
      have ha' : ∀ s ∈ added ++ [C], R.Str s := by
        intro s hs
        rcases List.mem_append.mp hs with h | h
        · exact ha s h
        · simp at h; exact h ▸ h2
      unfold insertAnticommutators
      simp only [h1', bind, Except.bind]
      have hlen := iaddString_length h.1 C
      split
      · split
        · exact ⟨_, _, rfl, h.iaddString h2, ha', fun _ => iaddString_subset h.1 C, fun _ => by omega⟩
        · obtain ⟨b', ad, g1, g2, g3, g4, g5⟩ := ih (h.iaddString h2) ha' (c + 1)
          refine ⟨b', ad, g1, g2, g3, fun t ht => g4 t (iaddString_subset h.1 C ht), fun hc => ?_⟩
          have := g5 (by omega)
          omega
      · split
        · exact ⟨_, _, rfl, h, ha, fun _ h => h, fun _ => Nat.le_add_right _ _⟩
        · exact ih h ha _

theorem mapM_forall₂ {α β : Type} {f : α → Py β} {Q : α → β → Prop} : ∀ {l : List α}, (∀ x ∈ l, ∃ y, f x = .ok y ∧ Q x y) →
    ∃ ys, l.mapM f = .ok ys ∧ List.Forall₂ Q l ys := by
  intro l
  induction l with
  | nil => intro _; exact ⟨[], rfl, .nil⟩
  | cons x l ih =>
    intro h
    obtain ⟨y, h1, h2⟩ := h x (List.mem_cons_self ..)
    obtain ⟨ys, h3, h4⟩ := ih (fun z hz => h z (List.mem_cons_of_mem _ hz))
    exact ⟨y :: ys, by rw [List.mapM_cons, h1, h3]; rfl, .cons h2 h4⟩

theorem pyGet_lt {α : Type} {l : List α} {i : ℕ} (h : i < l.length) : pyGet l i = .ok l[i] := by
  rw [pyGet, List.getElem?_eq_getElem h]

theorem argsort_lt {argsort : List K → List ℕ} (ha : IsArgsort argsort) {v : List K} {i : ℕ} (hi : i ∈ argsort v) : i < v.length := by
  simpa using (ha v).1.mem_iff.mp hi

theorem argsort_nodup {argsort : List K → List ℕ} (ha : IsArgsort argsort) (v : List K) : (argsort v).Nodup :=
  (ha v).1.nodup_iff.mpr List.nodup_range

theorem forall₂_mem_right {α β : Type} {Q : α → β → Prop} {l : List α} {m : List β} (h : List.Forall₂ Q l m) {y : β} (hy : y ∈ m) : ∃ x ∈ l, Q x y := by
  induction h with
  | nil => simp at hy
  | cons h1 _ ih =>
    rcases List.mem_cons.mp hy with rfl | hy
    · exact ⟨_, List.mem_cons_self .., h1⟩
    · obtain ⟨x, hx, h⟩ := ih hy
      exact ⟨x, List.mem_cons_of_mem _ hx, h⟩

theorem forall₂_nodup {α : Type} {l : List α} {inds : List ℕ} {m : List α} (h : List.Forall₂ (fun i s => l[i]? = some s) inds m)
    (hi : inds.Nodup) (hl : l.Nodup) : m.Nodup := by
  induction h with
  | nil => simp
  | @cons i s inds m h1 h2 ih =>
    rw [List.nodup_cons] at hi
    refine List.nodup_cons.mpr ⟨fun hs => ?_, ih hi.2⟩
    obtain ⟨j, hj, h⟩ := forall₂_mem_right h2 hs
    have hi' : i < l.length := (List.getElem?_eq_some_iff.mp h1).1
    have : i = j := (List.getElem?_inj hi' hl).mp (h1.trans h.symm)
    exact hi.1 (this ▸ hj)

theorem greedyExpandO_ok {R : StrAlg K 𝔸} {num : Numerics K} (ha : IsArgsort num.argsort) (numO : ℕ) {A : Operator K}
    (hl : A.coeffs.length = A.basis.strs.length) (hA : ∀ s ∈ A.basis.strs, R.Str s) {b : Basis} (h : GoodBasis R b) :
    ∃ b', greedyExpandO num numO A b = .ok b' ∧ GoodBasis R b' ∧ (∀ t ∈ b.strs, t ∈ b'.strs) ∧ b'.len ≤ b.len + 2 * numO := by
  unfold greedyExpandO
  dsimp only
  split
  · exact ⟨b, rfl, h, fun _ h => h, Nat.le_add_right _ _⟩
  · rename_i hn0
    obtain ⟨strs, h1, h2⟩ := mapM_forall₂ (l := (num.argsort A.coeffs).reverse) (f := fun i => (do
        let s ← pyGet A.basis.strs i
        .ok (i, s) : Py (ℕ × OpString))) (Q := fun _ p => R.Str p.2) (by
      intro i hi
      have hi' : i < A.basis.strs.length := by rw [← hl]; exact argsort_lt ha (List.mem_reverse.mp hi)
      exact ⟨(i, A.basis.strs[i]), by simp only [pyGet_lt hi', bind, Except.bind], hA _ (List.getElem_mem _)⟩)
    have h3 : ∀ p ∈ strs, R.Str p.2 := fun p hp => let ⟨_, _, h⟩ := forall₂_mem_right h2 hp; h
    obtain ⟨b1, ad1, e1, g1, g2, g5, l1⟩ := insertAnticommutators_ok (R := R) (min A.coeffs.length numO)
      (l := strs.flatMap (fun a => (strs.filter (fun b => b.1 ≠ a.1)).map (fun b => (a.2, b.2)))) (by
        intro p hp
        obtain ⟨a, ha, hp⟩ := List.mem_flatMap.mp hp
        obtain ⟨c, hc, rfl⟩ := List.mem_map.mp hp
        exact ⟨h3 a ha, h3 c (List.mem_of_mem_filter hc)⟩) h (added := []) (by simp) 0
    obtain ⟨b2, ad2, e2, g3, g4, g6, l2⟩ := insertAnticommutators_ok (R := R) (min A.coeffs.length numO)
      (l := strs.flatMap (fun a => ad1.map (fun s => (a.2, s)))) (by
        intro p hp
        obtain ⟨a, ha, hp⟩ := List.mem_flatMap.mp hp
        obtain ⟨c, hc, rfl⟩ := List.mem_map.mp hp
        exact ⟨h3 a ha, g2 c hc⟩) g1 (added := []) (by simp) 0
    refine ⟨b2, ?_, g3, fun t ht => g6 t (g5 t ht), by have := l1 (by omega); have := l2 (by omega); omega⟩
    simp only [bind, Except.bind] at h1 ⊢
    rw [h1]
    simp only []
    rw [e1]
    simp only []
    rw [e2]

/-- exploring a basis with one operator throughout -/
theorem explore_one (R : StrAlg K 𝔸) {H : Operator K} (hH : ∀ s ∈ H.basis.strs, R.Str s) (hHn : H.basis.strs.Nodup) {st : Explored K}
    (h : st.Coherent R (· ∈ H.termStrs)) {b : Basis} (hb : GoodBasis R b) :
    ∃ L ext st', explore b H none st = .ok ((L, ext), st') ∧ st'.Coherent R (· ∈ H.termStrs) ∧
      LiouvilleOK R.den R.Str .commutator b.len (fun j => ((b.strs[j]?).map R.den).getD 0) (H.den R.den) L ext := by
  obtain ⟨L, ext, st', h1, h2, h3⟩ := explore_ok R h none hb.1.2 hb.2 hH hHn (fun _ h => h)
  refine ⟨L, ext, st', h1, ?_, ?_⟩
  · simpa only [and_self] using h2
  · rw [allowedDen_eq] at h3; exact h3

/-- nothing is reached from an empty basis -/
theorem explore_empty {b : Basis} (hb : b.strs = []) {H : Operator K} {allowed : Option (List ℤ)} {st st' : Explored K} {L : Mat K} {ext : Basis}
    (h : explore b H allowed st = .ok ((L, ext), st')) : ext.strs = [] := by
  have hin : ∀ (st : Explored K) (d : List (ℕ × ℕ × K)) (acc : Basis × List ℕ), d.foldlM (exploreExtStep st []) acc = .ok acc := by
    intro st d
    induction d with
    | nil => intro acc; rfl
    | cons e d ih =>
      intro acc
      rw [List.foldlM_cons]
      show (do let s' ← (.ok acc : Py _); List.foldlM (exploreExtStep st []) s' d) = _
      exact ih acc
  have hout : ∀ (st : Explored K) (l : List (K × OpString)) (acc r : Basis × List ℕ), l.foldlM (fun acc t => (do
      let d ← st.data.lookup t.2
      d.foldlM (exploreExtStep st []) acc : Py _)) acc = .ok r → r = acc := by
    intro st l
    induction l with
    | nil => intro acc r h; cases h; rfl
    | cons t l ih =>
      intro acc r h
      rw [List.foldlM_cons] at h
      cases hd : st.data.lookup t.2 with
      | error e => simp [hd, bind, Except.bind] at h
      | ok d =>
        rw [hd] at h
        change (do let r1 ← d.foldlM (exploreExtStep st []) acc; l.foldlM _ r1) = _ at h
        rw [hin] at h
        exact ih acc r h
  unfold explore at h
  cases hu : exploreUpdate b H st with
  | error e => simp [hu, bind, Except.bind] at h
  | ok st1 =>
    rw [hb] at h
    have hm : ([] : List OpString).mapM st1.basis.index = .ok [] := rfl
    have hp : positions ([] : List ℕ) = [] := rfl
    simp only [hu, hm, hp, bind, Except.bind] at h
    cases he : exploreExt H st1 allowed [] with
    | error e => simp [he] at h
    | ok p =>
      have := hout st1 _ _ _ he
      subst this
      simp only [he] at h
      split at h
      · simp at h
      · split at h
        · simp at h
        · simp only [Except.ok.injEq, Prod.mk.injEq] at h
          rw [← h.1.2]; rfl

theorem greedyInsert_ok (R : StrAlg K 𝔸) {num : Numerics K} (ha : IsArgsort num.argsort) {H : Operator K} (hH : ∀ s ∈ H.basis.strs, R.Str s)
    (hHn : H.basis.strs.Nodup) (numH : ℕ) {A : Basis} (hA : GoodBasis R A) {v : List K} (hv : v.length = A.len) {b : Basis} (hb : GoodBasis R b)
    {st : Explored K} (h : st.Coherent R (· ∈ H.termStrs)) :
    ∃ b' st', greedyInsert num numH A v (b, st) H = .ok (b', st') ∧ GoodBasis R b' ∧ st'.Coherent R (· ∈ H.termStrs) ∧ (∀ t ∈ b.strs, t ∈ b'.strs) ∧
      ((numH = 0 → A.strs = []) → b'.len ≤ b.len + numH) := by
  obtain ⟨L, ext, st', h1, h2, h3⟩ := explore_one R hH hHn h hA
  obtain ⟨w, w1, w2, _⟩ := dotVec_ok (M := L) (v := v) (by rw [h3.ncols, hv])
  obtain ⟨strs, s1, s2⟩ := mapM_forall₂ (l := (num.argsort w).reverse) (f := pyGet ext.strs) (Q := fun _ s => R.Str s) (by
    intro i hi
    have hi' : i < ext.strs.length := by
      have := argsort_lt ha (List.mem_reverse.mp hi)
      rw [w2, h3.nrows] at this; exact this
    exact ⟨_, pyGet_lt hi', (h3.ext_str _ (List.getElem_mem _)).1⟩)
  refine ⟨insertTerms (min w.length numH) strs b 0, st', ?_, insertTerms_good _ (fun s hs => let ⟨_, _, h⟩ := forall₂_mem_right s2 hs; h) hb _, h2,
    fun t ht => insertTerms_subset _ (fun s hs => let ⟨_, _, h⟩ := forall₂_mem_right s2 hs; h) hb _ ht, fun hA0 => ?_⟩
  · unfold greedyInsert
    simp only [h1, w1, s1, bind, Except.bind]
  · have hsl : strs.length = w.length := by
      rw [← s2.length_eq, List.length_reverse]
      simpa using (ha w).1.length_eq
    have := insertTerms_length (R := R) (min w.length numH) (fun s hs => let ⟨_, _, h⟩ := forall₂_mem_right s2 hs; h) hb 0 (by
      by_cases hw : w.length = 0
      · left
        exact List.length_eq_zero_iff.mp (hsl.trans hw)
      · by_cases hn : numH = 0
        · exfalso
          apply hw
          rw [w2, h3.nrows]
          show ext.strs.length = 0
          rw [explore_empty (hA0 hn) h1]; rfl
        · right; omega)
    omega

theorem greedyExpandH_ok (R : StrAlg K 𝔸) {num : Numerics K} (ha : IsArgsort num.argsort) {H : Operator K} (hH : ∀ s ∈ H.basis.strs, R.Str s)
    (hHn : H.basis.strs.Nodup) (numH : ℕ) {b : Basis} (hb : GoodBasis R b) {O : Operator K} (hO : O.coeffs.length = b.len)
    {st : Explored K} (h : st.Coherent R (· ∈ H.termStrs)) :
    ∃ b' st', greedyExpandH num [H] numH b O st = .ok (b', st') ∧ GoodBasis R b' ∧ st'.Coherent R (· ∈ H.termStrs) ∧ (∀ t ∈ b.strs, t ∈ b'.strs) ∧
      b'.len ≤ b.len + numH := by
  obtain ⟨L, ext, st1, h1, h2, h3⟩ := explore_one R hH hHn h hb
  obtain ⟨w, w1, w2, _⟩ := dotVec_ok (M := L) (v := O.coeffs) (by rw [h3.ncols, hO])
  set inds := (num.argsort w).reverse.take (min (num.argsort w).reverse.length numH) with hinds
  have hlt : ∀ i ∈ inds, i < w.length := fun i hi => argsort_lt ha (List.mem_reverse.mp (List.mem_of_mem_take hi))
  have hnd : inds.Nodup := (List.nodup_reverse.mpr (argsort_nodup ha w)).sublist (List.take_sublist _ _)
  have hlt' : ∀ i ∈ inds, i < ext.strs.length := fun i hi => by
    have := hlt i hi
    rw [w2, h3.nrows] at this; exact this
  obtain ⟨strs, s1, s2⟩ := mapM_forall₂ (l := inds) (f := pyGet ext.strs) (Q := fun i s => ext.strs[i]? = some s) (by
    intro i hi
    exact ⟨_, pyGet_lt (hlt' i hi), List.getElem?_eq_getElem _⟩)
  obtain ⟨v, v1, v2⟩ := mapM_forall₂ (l := inds) (f := pyGet w) (Q := fun _ _ => True) (by
    intro i hi
    exact ⟨_, pyGet_lt (hlt i hi), trivial⟩)
  have hstr : ∀ s ∈ strs, R.Str s := fun s hs => by
    obtain ⟨i, _, h⟩ := forall₂_mem_right s2 hs
    exact (h3.ext_str _ (List.mem_of_getElem? h)).1
  have hsn : strs.Nodup := forall₂_nodup s2 hnd h3.ext_inv.2
  have hA : GoodBasis R (Basis.ofList strs) := ⟨Basis.Inv.ofList hsn, hstr⟩
  obtain ⟨b', st', g1, g2, g3, g4, g5⟩ := greedyInsert_ok R ha hH hHn numH hA (v := v) (by
    rw [← v2.length_eq, s2.length_eq]; rfl) hb h2
  refine ⟨b', st', ?_, g2, g3, g4, g5 fun h0 => ?_⟩
  swap
  · show strs = []
    apply List.length_eq_zero_iff.mp
    rw [← s2.length_eq, hinds, h0]
    simp
  unfold greedyExpandH
  simp only [h1, w1, bind, Except.bind]
  rw [← hinds, s1]
  simp only [mkBasis_ok hsn, v1]
  rw [List.foldlM_cons, g1]
  rfl

end Qosy
