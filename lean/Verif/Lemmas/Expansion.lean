import Verif.Lemmas.GreedyBasis
import Verif.Lemmas.ManyOps2
import Verif.Spec.Expansion

/-! # The strings added in a step are the strongest ones -/

namespace Qosy
open Coef RealOps
variable {K : Type} [Field K] [StarRing K] [Coef K] [RealCoef K]
variable {𝔸 : Type} [Ring 𝔸] [Algebra K 𝔸]

theorem Basis.Inv.contains_iff {b : Basis} (h : b.Inv) (s : OpString) : b.contains s = true ↔ s ∈ b.strs := by
  rw [h.1, Basis.contains_ofList, decide_eq_true_iff]
  rfl

theorem Basis.Inv.iaddString_new {b : Basis} (h : b.Inv) {s : OpString} (hs : s ∉ b.strs) : (b.iaddString s).strs = b.strs ++ [s] ∧ (b.iaddString s).Inv := by
  have e : unionList b.strs [s] = if s ∈ b.strs then b.strs else b.strs ++ [s] := rfl
  have e2 : b.iaddString s = Basis.ofList (b.strs ++ [s]) := by
    conv_lhs => rw [h.1]
    rw [Basis.iaddString_ofList, e, if_neg hs]
  rw [e2]
  exact ⟨rfl, Basis.Inv.ofList (List.nodup_append.mpr ⟨h.2, by simp, by simpa using fun a ha (e : a = s) => hs (e ▸ ha)⟩)⟩

/-- what is inserted: the new strings of a beginning of the list -/
structure Inserted (k : ℕ) (l b new : List OpString) : Prop where
  split : ∃ l1 l2, l = l1 ++ l2 ∧ (∀ s ∈ new, s ∈ l1) ∧ (∀ s ∈ l1, s ∈ b ∨ s ∈ new) ∧ (l2 = [] ∨ new.length = k)
  nodup : new.Nodup
  fresh : ∀ s ∈ new, s ∉ b
  bound : new.length ≤ k

theorem Inserted.skip {k : ℕ} {l b new : List OpString} (h : Inserted k l b new) {s : OpString} (hs : s ∈ b) : Inserted k (s :: l) b new := by
  obtain ⟨⟨l1, l2, h1, h2, h3, h4⟩, h5, h6, h7⟩ := h
  refine ⟨⟨s :: l1, l2, by rw [h1]; rfl, fun t ht => List.mem_cons_of_mem _ (h2 t ht), fun t ht => ?_, h4⟩, h5, h6, h7⟩
  rcases List.mem_cons.mp ht with rfl | ht
  · exact Or.inl hs
  · exact h3 t ht

theorem Inserted.last {l b : List OpString} {s : OpString} (hs : s ∉ b) : Inserted 1 (s :: l) b [s] :=
  ⟨⟨[s], l, rfl, fun _ h => h, fun t ht => Or.inr ht, Or.inr rfl⟩, by simp, by simpa using hs, le_rfl⟩

theorem Inserted.next {k : ℕ} {l b new : List OpString} {s : OpString} (h : Inserted k l (b ++ [s]) new) (hs : s ∉ b) : Inserted (k + 1) (s :: l) b (s :: new) := by
  obtain ⟨⟨l1, l2, h1, h2, h3, h4⟩, h5, h6, h7⟩ := h
  refine ⟨⟨s :: l1, l2, by rw [h1]; rfl, ?_, ?_, h4.imp id (by simp)⟩, ?_, ?_, by simpa using h7⟩
  · intro t ht
    rcases List.mem_cons.mp ht with rfl | ht
    · exact List.mem_cons_self ..
    · exact List.mem_cons_of_mem _ (h2 t ht)
  · intro t ht
    rcases List.mem_cons.mp ht with rfl | ht
    · exact Or.inr (List.mem_cons_self ..)
    · rcases h3 t ht with h | h
      · rcases List.mem_append.mp h with h | h
        · exact Or.inl h
        · exact Or.inr (by rw [List.mem_singleton.mp h]; exact List.mem_cons_self ..)
      · exact Or.inr (List.mem_cons_of_mem _ h)
  · exact List.nodup_cons.mpr ⟨fun h => h6 s h (by simp), h5⟩
  · intro t ht hb
    rcases List.mem_cons.mp ht with rfl | ht
    · exact hs hb
    · exact h6 t ht (List.mem_append_left _ hb)

theorem insertTerms_inserted (num : ℕ) {l : List OpString} {b : Basis} (hb : b.Inv) (c : ℕ) (hc : l = [] ∨ c < num) :
    ∃ new, (insertTerms num l b c).strs = b.strs ++ new ∧ Inserted (num - c) l b.strs new := by
  induction l generalizing b c with
  | nil => exact ⟨[], by simp [insertTerms], ⟨[], [], rfl, by simp, by simp, Or.inl rfl⟩, by simp, by simp, by simp⟩
  | cons s l ih =>
    have hc : c < num := hc.resolve_left (by simp)
    unfold insertTerms
    by_cases hs : s ∈ b.strs
    · rw [if_pos ((hb.contains_iff s).mpr hs), if_neg (by omega)]
      obtain ⟨new, h1, h2⟩ := ih hb c (Or.inr hc)
      exact ⟨new, h1, h2.skip hs⟩
    · rw [if_neg (fun h => hs ((hb.contains_iff s).mp h))]
      obtain ⟨e1, e2⟩ := hb.iaddString_new hs
      by_cases hn : num ≤ c + 1
      · rw [if_pos hn]
        refine ⟨[s], e1, ?_⟩
        rw [show num - c = 1 by omega]
        exact Inserted.last hs
      · rw [if_neg hn]
        obtain ⟨new, h1, h2⟩ := ih e2 (c + 1) (Or.inr (by omega))
        rw [e1] at h1 h2
        refine ⟨s :: new, by rw [h1]; simp, ?_⟩
        rw [show num - c = (num - (c + 1)) + 1 by omega]
        exact h2.next hs

theorem many2Insert_inserted (num : ℕ) {l : List OpString} {b new : Basis} (hb : b.Inv) (hnew : new.Inv) (c : ℕ) (hc : l = [] ∨ c < num) :
    ∃ add, (many2Insert num b l new c).strs = new.strs ++ add ∧ (many2Insert num b l new c).Inv ∧ Inserted (num - c) l (b.strs ++ new.strs) add := by
  induction l generalizing new c with
  | nil => exact ⟨[], by simp [many2Insert], hnew, ⟨[], [], rfl, by simp, by simp, Or.inl rfl⟩, by simp, by simp, by simp⟩
  | cons s l ih =>
    have hc : c < num := hc.resolve_left (by simp)
    unfold many2Insert
    by_cases hs : s ∈ b.strs ++ new.strs
    · rw [if_pos (by rw [Bool.or_eq_true, hb.contains_iff, hnew.contains_iff]; exact List.mem_append.mp hs), if_neg (by omega)]
      obtain ⟨add, h1, h0, h2⟩ := ih hnew c (Or.inr hc)
      exact ⟨add, h1, h0, h2.skip hs⟩
    · rw [if_neg (fun h => hs (by rw [Bool.or_eq_true, hb.contains_iff, hnew.contains_iff] at h; exact List.mem_append.mpr h))]
      obtain ⟨e1, e2⟩ := hnew.iaddString_new (s := s) (fun h => hs (List.mem_append_right _ h))
      by_cases hn : num ≤ c + 1
      · rw [if_pos hn]
        refine ⟨[s], e1, e2, ?_⟩
        rw [show num - c = 1 by omega]
        exact Inserted.last hs
      · rw [if_neg hn]
        obtain ⟨add, h1, h0, h2⟩ := ih e2 (c + 1) (Or.inr (by omega))
        rw [e1] at h1
        rw [e1, ← List.append_assoc] at h2
        refine ⟨s :: add, by rw [h1]; simp, h0, ?_⟩
        rw [show num - c = (num - (c + 1)) + 1 by omega]
        exact h2.next hs

/-- the strings in the order of their coefficients -/
structure Sorted (strs : List OpString) (w : OpString → K) (S : List OpString) : Prop where
  perm : S.Perm strs
  sorted : S.Pairwise (fun s t => ‖toC (w t)‖ ≤ ‖toC (w s)‖)

theorem Sorted.strongest {strs S : List OpString} {w : OpString → K} (h : Sorted strs w S) (hn : strs.Nodup) (n : ℕ) : IsStrongest n strs w (S.take (min S.length n)) := by
  have hS : S.Nodup := h.perm.nodup_iff.mpr hn
  refine ⟨hS.sublist (List.take_sublist _ _), fun s hs => h.perm.mem_iff.mp (List.mem_of_mem_take hs), by simp [h.perm.length_eq], fun s hs t ht hnt => ?_⟩
  have ht' : t ∈ S.drop (min S.length n) := by
    have : t ∈ S.take (min S.length n) ++ S.drop (min S.length n) := by rw [List.take_append_drop]; exact h.perm.mem_iff.mpr ht
    exact (List.mem_append.mp this).resolve_left hnt
  have := h.sorted
  rw [← List.take_append_drop (min S.length n) S] at this
  exact (List.pairwise_append.mp this).2.2 s hs t ht'

theorem Inserted.extended {n : ℕ} {strs S : List OpString} {w : OpString → K} (h : Sorted strs w S) (hn : strs.Nodup) {b new : List OpString}
    (hi : Inserted (min strs.length n) S b new) : IsExtendedBy n strs w b (b ++ new) := by
  obtain ⟨⟨l1, l2, h1, h2, h3, h4⟩, h5, h6, h7⟩ := hi
  have hmem : ∀ s ∈ new, s ∈ strs := fun s hs => h.perm.mem_iff.mp (by rw [h1]; exact List.mem_append_left _ (h2 s hs))
  have hsub : new ⊆ strs.filter (fun s => s ∉ b) := fun s hs => List.mem_filter.mpr ⟨hmem s hs, by simpa using h6 s hs⟩
  have hle : new.length ≤ (strs.filter (fun s => s ∉ b)).length := (h5.subperm hsub).length_le
  have hall : (∀ s ∈ strs, s ∈ b ∨ s ∈ new) → (strs.filter (fun s => s ∉ b)).length ≤ new.length := by
    intro hall
    refine ((hn.filter _).subperm fun s hs => ?_).length_le
    obtain ⟨g1, g2⟩ := List.mem_filter.mp hs
    exact (hall s g1).resolve_left (by simpa using g2)
  refine ⟨new, rfl, h5, hsub, ?_, ?_⟩
  · rcases h4 with h4 | h4
    · have := hall fun s hs => h3 s (by have := h.perm.mem_iff.mpr hs; rwa [h1, h4, List.append_nil] at this)
      omega
    · have : (strs.filter (fun s => s ∉ b)).length ≤ strs.length := List.length_filter_le ..
      omega
  · intro s hs t ht hnt
    obtain ⟨g1, g2⟩ := List.mem_filter.mp ht
    have ht2 : t ∈ l2 := by
      have := h.perm.mem_iff.mpr g1
      rw [h1] at this
      refine (List.mem_append.mp this).resolve_left fun h => ?_
      rcases h3 t h with h | h
      · simp [h] at g2
      · exact hnt h
    have := h.sorted
    rw [h1] at this
    exact (List.pairwise_append.mp this).2.2 s (h2 s hs) t ht2

theorem sum_coefAt {den : OpString → 𝔸} {ext : Basis} (hn : ext.strs.Nodup) (w : List K) :
    (ext.strs.map (fun s => coefAt ext w s • den s)).sum = linComb den ext.strs (fun i => w.getD i 0) := by
  rw [← Fin.sum_univ_fun_getElem, linComb]
  refine Finset.sum_congr rfl fun i _ => ?_
  rw [coefAt, hn.idxOf_getElem]
  rfl

/-- the coefficients a commutator has in the extended basis -/
theorem LiouvilleOK.expansion {R : StrAlg K 𝔸} {b : Basis} {y : 𝔸} {L : Mat K} {ext : Basis}
    (h : LiouvilleOK R.den R.Str .commutator b.len (fun j => ((b.strs[j]?).map R.den).getD 0) y L ext) {v w : List K} (hv : v.length = b.len) (hw : L.dotVec v = .ok w) :
    IsExpansion R.Str R.den (linComb R.den b.strs (fun j => v.getD j 0) * y - y * linComb R.den b.strs (fun j => v.getD j 0)) ext.strs (coefAt ext w) := by
  obtain ⟨w', w1, w2, w3⟩ := dotVec_ok (M := L) (v := v) (by rw [h.ncols, hv])
  rw [w1] at hw
  cases hw
  refine ⟨h.ext_str, h.ext_inv.2, ?_⟩
  rw [sum_coefAt h.ext_inv.2]
  have := h.mulVec (fun j => v.getD j 0)
  have e1 : linComb R.den ext.strs (fun i => w.getD i 0) = linComb R.den ext.strs (L.mulVec (fun j => v.getD j 0)) := by
    refine Finset.sum_congr rfl fun i _ => ?_
    congr 1
    exact w3 i (by rw [h.nrows]; exact i.2)
  have e2 : ∑ j : Fin b.len, v.getD j 0 • ((b.strs[(j : ℕ)]?).map R.den).getD 0 = linComb R.den b.strs (fun j => v.getD j 0) := by
    refine Finset.sum_congr rfl fun j _ => ?_
    rw [List.getElem?_eq_getElem (show (j : ℕ) < b.strs.length from j.2)]
    rfl
  rw [e1, this, e2]
  rfl

theorem mapM_pyGet {α : Type} {xs : List α} (d : α) {l : List ℕ} {r : List α} (h : l.mapM (pyGet xs) = .ok r) : r = l.map (xs.getD · d) := by
  have := mapM_ok_inv h
  clear h
  induction this with
  | nil => rfl
  | cons h _ ih =>
    rw [List.map_cons, ← ih]
    congr 1
    unfold pyGet at h
    split at h
    · rename_i y hy
      cases h
      rw [List.getD_eq_getElem?_getD, hy]
      rfl
    · simp at h

theorem sorted_of_argsort {argsort : List K → List ℕ} (ha : IsArgsort argsort) {ext : Basis} (hn : ext.strs.Nodup) {w : List K} (hw : w.length = ext.strs.length) (d : OpString) :
    Sorted ext.strs (coefAt ext w) ((argsort w).reverse.map (ext.strs.getD · d)) := by
  obtain ⟨h1, h2⟩ := ha w
  have hget : ∀ i ∈ argsort w, ∃ h : i < ext.strs.length, ext.strs.getD i d = ext.strs[i] := fun i hi => by
    have := argsort_lt ha hi
    exact ⟨by omega, List.getD_eq_getElem _ _ (by omega)⟩
  constructor
  · refine (((List.reverse_perm _).trans h1).map _).trans ?_
    rw [hw]
    have : (List.range ext.strs.length).map (ext.strs.getD · d) = ext.strs := by
      apply List.ext_getElem
      · simp
      · intro i h1 h2
        simp at h1 ⊢
        rw [List.getElem?_eq_getElem h1]
        rfl
    rw [this]
  · rw [List.pairwise_map, List.pairwise_reverse]
    refine List.Pairwise.imp_of_mem (fun {i j} hi hj h => ?_) h2
    obtain ⟨hi', ei⟩ := hget i hi
    obtain ⟨hj', ej⟩ := hget j hj
    rw [ei, ej, coefAt, coefAt, hn.idxOf_getElem, hn.idxOf_getElem]
    exact h

/-- the part common to both functions: the strongest terms of the first commutator -/
theorem selected_terms {argsort : List K → List ℕ} (ha : IsArgsort argsort) {den : OpString → 𝔸} {ext : Basis} (hn : ext.strs.Nodup) {w : List K} (hw : w.length = ext.strs.length)
    (n : ℕ) {inds : List ℕ} (hinds : inds = (argsort w).reverse.take (min (argsort w).reverse.length n)) {sel : List OpString} {v : List K}
    (h1 : inds.mapM (pyGet ext.strs) = .ok sel) (h2 : inds.mapM (pyGet w) = .ok v) :
    IsStrongest n ext.strs (coefAt ext w) sel ∧ v.length = sel.length ∧
      linComb den sel (fun j => v.getD j 0) = (sel.map (fun s => coefAt ext w s • den s)).sum := by
  obtain ⟨d, -⟩ : ∃ d : OpString, True := ⟨⟨[], [], .pauli, .float1⟩, trivial⟩
  have e1 := mapM_pyGet d h1
  have e2 := mapM_pyGet 0 h2
  have hlt : ∀ i ∈ inds, i < ext.strs.length := fun i hi => by
    rw [hinds] at hi
    have := argsort_lt ha (List.mem_reverse.mp (List.mem_of_mem_take hi))
    omega
  refine ⟨?_, by rw [e1, e2]; simp, ?_⟩
  · have := (sorted_of_argsort ha hn hw d).strongest hn n
    rwa [← List.map_take, List.length_map, ← hinds, ← e1] at this
  · rw [linComb, ← Fin.sum_univ_fun_getElem]
    refine Finset.sum_congr rfl fun i _ => ?_
    have hi : (i : ℕ) < inds.length := by
      have hl := congrArg List.length e1
      rw [List.length_map] at hl
      omega
    have hs : sel[(i : ℕ)] = ext.strs[inds[(i : ℕ)]]'(hlt _ (List.getElem_mem _)) := by
      have : sel[(i : ℕ)]? = (inds.map (ext.strs.getD · d))[(i : ℕ)]? := by rw [← e1]
      rw [List.getElem?_eq_getElem i.2, List.getElem?_eq_getElem (by simpa using hi)] at this
      have := Option.some.inj this
      rw [List.getElem_map, List.getD_eq_getElem _ _ (hlt _ (List.getElem_mem _))] at this
      exact this
    have hv : v.getD i 0 = w.getD inds[(i : ℕ)] 0 := by
      rw [e2, List.getD_eq_getElem _ _ (by simpa using hi), List.getElem_map]
    show v.getD i 0 • den sel[(i : ℕ)] = coefAt ext w sel[(i : ℕ)] • den sel[(i : ℕ)]
    rw [hs, hv, coefAt, hn.idxOf_getElem]

theorem insert_guard {A : Basis} {H : Operator K} {st st' : Explored K} {L : Mat K} {ext : Basis}
    (h : explore A H none st = .ok ((L, ext), st')) {u : List K} (hu : u.length = ext.strs.length) {numH : ℕ} (hA : numH = 0 → A.strs = []) {S : List OpString}
    (hS : S.length = u.length) : S = [] ∨ 0 < min u.length numH := by
  by_cases hw : u.length = 0
  · exact Or.inl (List.length_eq_zero_iff.mp (hS.trans hw))
  · by_cases hn : numH = 0
    · exact absurd (by rw [hu, explore_empty (hA hn) h]; rfl) hw
    · right; omega

/-- the basis extended by the terms of `[[O, H], H]` -/
theorem greedyExpandH_step (R : StrAlg K 𝔸) {num : Numerics K} (ha : IsArgsort num.argsort) {H : Operator K} (hH : ∀ s ∈ H.basis.strs, R.Str s)
    (hHn : H.basis.strs.Nodup) {numH : ℕ} {b : Basis} (hb : GoodBasis R b) {O : Operator K} (hO : O.coeffs.length = b.len)
    {st : Explored K} (h : st.Coherent R (· ∈ H.termStrs)) {b' : Basis} {st' : Explored K} (he : greedyExpandH num [H] numH b O st = .ok (b', st')) :
    IsCommutatorStep (K := K) R.Str R.den (H.den R.den) (linComb R.den b.strs (fun j => O.coeffs.getD j 0)) numH b.strs b'.strs := by
  obtain ⟨L, ext, st1, h1, h2, h3⟩ := explore_one R hH hHn h hb
  unfold greedyExpandH at he
  simp only [h1] at he
  replace he : (L.dotVec O.coeffs >>= _) = _ := he
  obtain ⟨w, w1, he⟩ := py_bind_ok he
  obtain ⟨sel, s1, he⟩ := py_bind_ok he
  obtain ⟨A, a1, he⟩ := py_bind_ok he
  obtain ⟨v, v1, he⟩ := py_bind_ok he
  have hw : w.length = ext.strs.length := by
    obtain ⟨w', e1, e2, _⟩ := dotVec_ok (M := L) (v := O.coeffs) (by rw [h3.ncols, hO])
    rw [e1] at w1
    cases w1
    rw [e2, h3.nrows]; rfl
  obtain ⟨t1, t2, t3⟩ := selected_terms ha (den := R.den) h3.ext_inv.2 hw numH rfl s1 v1
  rw [mkBasis_ok t1.nodup] at a1
  cases a1
  have hA : GoodBasis R (Basis.ofList sel) := ⟨Basis.Inv.ofList t1.nodup, fun s hs => (h3.ext_str s (t1.subset hs)).1⟩
  rw [List.foldlM_cons] at he
  obtain ⟨⟨b1, st3⟩, he, hlast⟩ := py_bind_ok he
  cases hlast
  obtain ⟨L2, ext2, st2, g1, g2, g3⟩ := explore_one R hH hHn h2 hA
  unfold greedyInsert at he
  simp only [g1] at he
  replace he : (L2.dotVec v >>= _) = _ := he
  obtain ⟨u, u1, he⟩ := py_bind_ok he
  obtain ⟨S, S1, he⟩ := py_bind_ok he
  cases he
  have hu : u.length = ext2.strs.length := by
    obtain ⟨w', e1, e2, _⟩ := dotVec_ok (M := L2) (v := v) (by rw [g3.ncols, t2]; rfl)
    rw [e1] at u1
    cases u1
    rw [e2, g3.nrows]; rfl
  obtain ⟨d, -⟩ : ∃ d : OpString, True := ⟨⟨[], [], .pauli, .float1⟩, trivial⟩
  have hS := mapM_pyGet d S1
  have hsort := sorted_of_argsort ha g3.ext_inv.2 hu d
  rw [← hS] at hsort
  obtain ⟨new, n1, n2⟩ := insertTerms_inserted (min u.length numH) (l := S) hb.1 0
    (insert_guard g1 hu (fun h0 => List.length_eq_zero_iff.mp (by show sel.length = 0; rw [t1.length, h0]; exact Nat.min_zero _)) (by rw [hsort.perm.length_eq, hu]))
  refine ⟨ext.strs, sel, ext2.strs, coefAt ext w, coefAt ext2 u, h3.expansion hO w1, t1, ?_, ?_⟩
  · have := g3.expansion (v := v) t2 u1
    rw [← t3]
    exact this
  · rw [n1]
    rw [Nat.sub_zero, hu] at n2
    exact n2.extended hsort g3.ext_inv.2

/-- the same for one operator of `selected_ci_greedy_many_ops2` -/
theorem many2Expand_step (R : StrAlg K 𝔸) {num : Numerics K} (ha : IsArgsort num.argsort) {H : Operator K} (hH : ∀ s ∈ H.basis.strs, R.Str s)
    (hHn : H.basis.strs.Nodup) {numH : ℕ} {b new : Basis} (hb : GoodBasis R b) (hnew : new.Inv) {O : Operator K} (hO : O.coeffs.length = b.len)
    {st : Explored K} (h : st.Coherent R (· ∈ H.termStrs)) {new' : Basis} {st' : Explored K} (he : many2Expand num H numH b (new, st) O = .ok (new', st')) :
    IsCommutatorStep (K := K) R.Str R.den (H.den R.den) (linComb R.den b.strs (fun j => O.coeffs.getD j 0)) numH (b.strs ++ new.strs) (b.strs ++ new'.strs) ∧
      new'.Inv ∧ ((∀ s ∈ new.strs, s ∉ b.strs) → ∀ s ∈ new'.strs, s ∉ b.strs) := by
  obtain ⟨L, ext, st1, h1, h2, h3⟩ := explore_one R hH hHn h hb
  unfold many2Expand at he
  simp only [h1] at he
  replace he : (L.dotVec O.coeffs >>= _) = _ := he
  obtain ⟨w, w1, he⟩ := py_bind_ok he
  obtain ⟨sel, s1, he⟩ := py_bind_ok he
  obtain ⟨A, a1, he⟩ := py_bind_ok he
  have hw : w.length = ext.strs.length := by
    obtain ⟨w', e1, e2, _⟩ := dotVec_ok (M := L) (v := O.coeffs) (by rw [h3.ncols, hO])
    rw [e1] at w1
    cases w1
    rw [e2, h3.nrows]; rfl
  obtain ⟨⟨⟨L2, ext2⟩, st2⟩, a2, he'⟩ := py_bind_ok he
  clear he
  obtain ⟨v, v1, he2⟩ := py_bind_ok he'
  obtain ⟨t1, t2, t3⟩ := selected_terms ha (den := R.den) h3.ext_inv.2 hw numH rfl s1 v1
  rw [mkBasis_ok t1.nodup] at a1
  cases a1
  have hA : GoodBasis R (Basis.ofList sel) := ⟨Basis.Inv.ofList t1.nodup, fun s hs => (h3.ext_str s (t1.subset hs)).1⟩
  obtain ⟨L3, ext3, st3, g1, g2, g3⟩ := explore_one R hH hHn h2 hA
  rw [g1] at a2
  cases a2
  obtain ⟨u, u1, he3⟩ := py_bind_ok he2
  obtain ⟨S, S1, he4⟩ := py_bind_ok he3
  cases he4
  have hu : u.length = ext2.strs.length := by
    obtain ⟨w', e1, e2, _⟩ := dotVec_ok (M := L2) (v := v) (by rw [g3.ncols, t2]; rfl)
    rw [e1] at u1
    cases u1
    rw [e2, g3.nrows]; rfl
  obtain ⟨d, -⟩ : ∃ d : OpString, True := ⟨⟨[], [], .pauli, .float1⟩, trivial⟩
  have hS := mapM_pyGet d S1
  have hsort := sorted_of_argsort ha g3.ext_inv.2 hu d
  rw [← hS] at hsort
  obtain ⟨add, n1, n0, n2⟩ := many2Insert_inserted (min u.length numH) (l := S) hb.1 hnew 0
    (insert_guard g1 hu (fun h0 => List.length_eq_zero_iff.mp (by show sel.length = 0; rw [t1.length, h0]; exact Nat.min_zero _)) (by rw [hsort.perm.length_eq, hu]))
  refine ⟨⟨ext.strs, sel, ext2.strs, coefAt ext w, coefAt ext2 u, h3.expansion hO w1, t1, ?_, ?_⟩, n0, ?_⟩
  · have := g3.expansion (v := v) t2 u1
    rw [← t3]
    exact this
  · rw [n1, ← List.append_assoc]
    rw [Nat.sub_zero, hu] at n2
    exact n2.extended hsort g3.ext_inv.2
  · intro hdis s hs
    rw [n1] at hs
    rcases List.mem_append.mp hs with hs | hs
    · exact hdis s hs
    · exact fun hb => n2.fresh s hs (List.mem_append_left _ hb)

end Qosy
