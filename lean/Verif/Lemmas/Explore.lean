import Verif.Lemmas.Liouvillian
import Verif.Lemmas.Lattice
import Verif.Lemmas.Distance
import Verif.Spec.Algorithms

/-! # Exploring bases: the cache of structure constants -/

namespace Qosy
open Coef
variable {K : Type} [Field K] [StarRing K] [Coef K]
variable {𝔸 : Type} [Ring 𝔸] [Algebra K 𝔸]

theorem tget_map {D : List (ℕ × ℕ × K)} {f : ℕ × ℕ × K → ℕ × ℕ × K} {a : K} {i j i' j' : ℕ}
    (h : ∀ e ∈ D, ((f e).1 = i ∧ (f e).2.1 = j ↔ e.1 = i' ∧ e.2.1 = j') ∧ (f e).2.2 = a * e.2.2) : tget (D.map f) i j = a * tget D i' j' := by
  induction D with
  | nil => simp
  | cons e D ih =>
    rw [List.map_cons, tget_cons, tget_cons, ih (fun e he => h e (List.mem_cons_of_mem _ he)), mul_add]
    obtain ⟨h1, h2⟩ := h e (by simp)
    congr 1
    by_cases h3 : e.1 = i' ∧ e.2.1 = j'
    · rw [if_pos h3, if_pos (h1.mpr h3), h2]
    · rw [if_neg h3, if_neg (fun h => h3 (h1.mp h)), mul_zero]

/-- the position in `l'` of the element at position `i` of `l` -/
def transfer (l l' : List OpString) (i : ℕ) : ℕ := ((l[i]?).map l'.idxOf).getD 0

theorem transfer_spec {l l' : List OpString} {i : ℕ} (hi : i < l.length) (h : ∀ s ∈ l, s ∈ l') :
    l'[transfer l l' i]? = l[i]? := by
  rw [transfer, List.getElem?_eq_getElem hi, Option.map_some, Option.getD_some,
    List.getElem?_eq_getElem (List.idxOf_lt_length_of_mem (h _ (List.getElem_mem hi))), List.getElem_idxOf]

theorem transfer_lt {l l' : List OpString} {i : ℕ} (hi : i < l.length) (h : ∀ s ∈ l, s ∈ l') : transfer l l' i < l'.length := by
  rw [transfer, List.getElem?_eq_getElem hi, Option.map_some, Option.getD_some]
  exact List.idxOf_lt_length_of_mem (h _ (List.getElem_mem hi))

theorem transferIndex_ok {l l' : List OpString} {i : ℕ} (hi : i < l.length) (h : ∀ s ∈ l, s ∈ l') :
    transferIndex (Basis.ofList l) (Basis.ofList l') i = .ok (transfer l l' i) := by
  simp only [transferIndex, pyGet, Basis.ofList_strs, List.getElem?_eq_getElem hi, bind, Except.bind, Basis.index_ofList,
    if_pos (h _ (List.getElem_mem hi)), transfer, Option.map_some, Option.getD_some]

/-- equal entries of a list without repetitions have equal positions -/
theorem getElem?_inj {l : List OpString} (h : l.Nodup) {i j : ℕ} {s : OpString} (hi : l[i]? = some s) (hj : l[j]? = some s) : i = j := by
  obtain ⟨h1, h2⟩ := List.getElem?_eq_some_iff.mp hi
  obtain ⟨h3, h4⟩ := List.getElem?_eq_some_iff.mp hj
  exact (List.Nodup.getElem_inj_iff h).mp (h2.trans h4.symm)

theorem transfer_append {l l' : List OpString} (hn : (l ++ l').Nodup) {i : ℕ} (hi : i < l'.length) : transfer l' (l ++ l') i = l.length + i := by
  apply getElem?_inj hn (s := l'[i])
  · rw [transfer_spec hi (fun s hs => List.mem_append_right _ hs), List.getElem?_eq_getElem hi]
  · rw [List.getElem?_append_right (by omega), Nat.add_sub_cancel_left, List.getElem?_eq_getElem hi]

/-- the new data of one string, in terms of the enlarged bases -/
def transferData (ue xe' un xb' : List OpString) (D : List (ℕ × ℕ × K)) : List (ℕ × ℕ × K) :=
  D.map fun e => (transfer ue xe' e.1, transfer un xb' e.2.1, e.2.2)

theorem exploreRecord_ok {mode : Mode} {un ue xb' xe' : List OpString} {unData d : Dict (List (ℕ × ℕ × K))} {s : OpString} {D : List (ℕ × ℕ × K)}
    (h1 : unData.get? s = some D) (h2 : ScInv mode s un ue D) (hb : ∀ s ∈ un, s ∈ xb') (he : ∀ s ∈ ue, s ∈ xe') :
    exploreRecord (Basis.ofList un) (Basis.ofList ue) unData (Basis.ofList xb') (Basis.ofList xe') d s =
      .ok (d.set s ((d.get? s).getD [] ++ transferData ue xe' un xb' D)) := by
  have h3 : D.mapM (fun e => (do
    let r ← transferIndex (Basis.ofList ue) (Basis.ofList xe') e.1
    let c ← transferIndex (Basis.ofList un) (Basis.ofList xb') e.2.1
    .ok (r, c, e.2.2) : Py (ℕ × ℕ × K))) = .ok (transferData ue xe' un xb' D) := by
    apply mapM_ok
    intro e hmem
    obtain ⟨g1, g2⟩ := h2.range e hmem
    rw [transferIndex_ok g1 he, transferIndex_ok g2 hb]
    rfl
  simp only [exploreRecord, Dict.lookup, h1, bind, Except.bind] at h3 ⊢
  rw [h3]
  cases d.get? s <;> rfl

/-- old and new data of one string together -/
theorem ScInv.merge {mode : Mode} {s : OpString} {xb xe un ue xe' : List OpString} {D D' : List (ℕ × ℕ × K)} (h : ScInv mode s xb xe D)
    (h' : ScInv mode s un ue D') (hp : xe <+: xe') (hn : xe'.Nodup) (hb : (xb ++ un).Nodup) (he : ∀ s ∈ ue, s ∈ xe') (hue : ue.Nodup) :
    ScInv mode s (xb ++ un) xe' (D ++ transferData ue xe' un (xb ++ un) D') := by
  have h1 := h.extend hp hn
  have hun : ∀ s ∈ un, s ∈ xb ++ un := fun s hs => List.mem_append_right _ hs
  refine ⟨?_, ?_, ?_, ?_⟩
  · intro c a
    rw [tget_append]
    by_cases ha : a < xb.length
    · rw [h1.entry, List.getElem?_append_left ha]
      have : tget (transferData ue xe' un (xb ++ un) D') c a = 0 := by
        apply tget_eq_zero
        intro e hmem
        obtain ⟨e0, h0, rfl⟩ := List.mem_map.mp hmem
        right
        show transfer un (xb ++ un) e0.2.1 ≠ a
        rw [transfer_append hb (h'.range e0 h0).2]
        omega
      rw [this, add_zero]
    · have hx : xb[a]? = none := List.getElem?_eq_none (by omega)
      have h2 : tget D c a = 0 := by
        rw [h1.entry, hx]; cases xe'[c]? <;> rfl
      rw [h2, zero_add, List.getElem?_append_right (by omega)]
      cases hc : xe'[c]? with
      | none =>
        apply tget_eq_zero
        intro e hmem
        obtain ⟨e0, h0, rfl⟩ := List.mem_map.mp hmem
        left
        show transfer ue xe' e0.1 ≠ c
        have := transfer_lt (h'.range e0 h0).1 he
        rw [List.getElem?_eq_none_iff] at hc
        omega
      | some C =>
        by_cases hC : C ∈ ue
        · obtain ⟨i, hi, rfl⟩ := List.getElem_of_mem hC
          have h3 := h'.entry i (a - xb.length)
          rw [List.getElem?_eq_getElem hi] at h3
          have : tget (transferData ue xe' un (xb ++ un) D') c a = 1 * tget D' i (a - xb.length) := by
            apply tget_map
            intro e hmem
            obtain ⟨g1, g2⟩ := h'.range e hmem
            refine ⟨?_, (one_mul _).symm⟩
            have e1 : transfer ue xe' e.1 = c ↔ e.1 = i := by
              constructor
              · intro h4
                have := transfer_spec g1 he
                rw [h4, hc] at this
                exact getElem?_inj hue this.symm (List.getElem?_eq_getElem hi)
              · rintro rfl
                have := transfer_spec g1 he
                rw [List.getElem?_eq_getElem hi] at this
                exact getElem?_inj hn this hc
            show transfer ue xe' e.1 = c ∧ transfer un (xb ++ un) e.2.1 = a ↔ _
            rw [e1, transfer_append hb g2]
            constructor
            · rintro ⟨h, h'⟩; exact ⟨h, by omega⟩
            · rintro ⟨h, h'⟩; exact ⟨h, by omega⟩
          rw [this, one_mul, h3]
        · have : tget (transferData ue xe' un (xb ++ un) D') c a = 0 := by
            apply tget_eq_zero
            intro e hmem
            obtain ⟨e0, h0, rfl⟩ := List.mem_map.mp hmem
            left
            show transfer ue xe' e0.1 ≠ c
            intro h4
            have := transfer_spec (h'.range e0 h0).1 he
            rw [h4, hc] at this
            exact hC (List.mem_of_getElem? this.symm)
          rw [this]
          cases hu : un[a - xb.length]? with
          | none => rfl
          | some sA => exact (scEntry_eq_zero (h'.mem sA (List.mem_of_getElem? hu)) hC).symm
  · intro e hmem
    rcases List.mem_append.mp hmem with hmem | hmem
    · have := h1.range e hmem
      simp; omega
    · obtain ⟨e0, h0, rfl⟩ := List.mem_map.mp hmem
      exact ⟨transfer_lt (h'.range e0 h0).1 he, transfer_lt (h'.range e0 h0).2 hun⟩
  · intro sA hs
    rcases List.mem_append.mp hs with hs | hs
    · exact h1.mem sA hs
    · intro c C hC
      exact he _ (h'.mem sA hs c C hC)
  · intro e hmem
    rcases List.mem_append.mp hmem with hmem | hmem
    · obtain ⟨sA, C, g1, g2, g3⟩ := h1.sound e hmem
      exact ⟨sA, C, by rw [List.getElem?_append_left (h1.range e hmem).2]; exact g1, g2, g3⟩
    · obtain ⟨e0, h0, rfl⟩ := List.mem_map.mp hmem
      obtain ⟨sA, C, g1, g2, g3⟩ := h'.sound e0 h0
      exact ⟨sA, C, (transfer_spec (h'.range e0 h0).2 hun).trans g1, (transfer_spec (h'.range e0 h0).1 he).trans g2, g3⟩

/-- the explored data are complete and correct for the strings satisfying `S` -/
structure Explored.Coherent (R : StrAlg K 𝔸) (S : OpString → Prop) (st : Explored K) : Prop where
  basis_inv : st.basis = Basis.ofList st.basis.strs ∧ st.basis.strs.Nodup
  ext_inv : st.ext = Basis.ofList st.ext.strs ∧ st.ext.strs.Nodup
  str : ∀ s ∈ st.ext.strs, R.Str s ∧ s.Canonical
  inv : ∀ s, S s → ScInv .commutator s st.basis.strs st.ext.strs ((st.data.get? s).getD [])

theorem Explored.empty_coherent (R : StrAlg K 𝔸) (S : OpString → Prop) : (Explored.empty : Explored K).Coherent R S := by
  refine ⟨⟨rfl, by simp [Explored.empty, emptyBasis]⟩, ⟨rfl, by simp [Explored.empty, emptyBasis]⟩, by simp [Explored.empty, emptyBasis], ?_⟩
  intro s _
  refine ⟨?_, ?_, ?_, ?_⟩
  · intro c a
    show (0 : K) = match ([] : List OpString)[c]?, ([] : List OpString)[a]? with | some C, some sA => scEntry K .commutator sA s C | _, _ => 0
    rw [List.getElem?_nil]
  · intro e he; exact absurd he (by simp [Explored.empty, Dict.get?])
  · intro s hs; exact absurd hs (by simp [Explored.empty, emptyBasis])
  · intro e he; exact absurd he (by simp [Explored.empty, Dict.get?])

theorem Operator.termStrs_sublist (A : Operator K) : A.termStrs.Sublist A.basis.strs := by
  rw [Operator.termStrs, Operator.terms]
  have : ∀ (a : List K) (b : List OpString), ((a.zip b).map Prod.snd).Sublist b := by
    intro a
    induction a with
    | nil => intro b; simp
    | cons x a ih =>
      intro b
      cases b with
      | nil => simp
      | cons y b => simpa using ih b
  exact this _ _

theorem exploreUpdate_ok (R : StrAlg K 𝔸) {S : OpString → Prop} {st : Explored K} (h : st.Coherent R S) {b : Basis} {H : Operator K}
    (hbn : b.strs.Nodup) (hb : ∀ s ∈ b.strs, R.Str s) (hH : ∀ s ∈ H.basis.strs, R.Str s) (hHn : H.basis.strs.Nodup) :
    ∃ st', exploreUpdate b H st = .ok st' ∧ st'.Coherent R (fun s => S s ∧ s ∈ H.termStrs) ∧ (∀ s ∈ b.strs, s ∈ st'.basis.strs) ∧
      ∀ s ∈ H.termStrs, (st'.data.get? s).isSome := by
  obtain ⟨sb, se, sd⟩ := st
  obtain ⟨⟨hb1, hb2⟩, ⟨he1, he2⟩, hstr, hinv⟩ := h
  simp only at hb1 hb2 he1 he2 hstr hinv
  generalize hxb : sb.strs = xb at *
  generalize hxe : se.strs = xe at *
  subst hb1 he1
  set un := b.strs.filter (fun s => decide (s ∉ xb)) with hun
  have hunn : un.Nodup := hbn.filter _
  have hunstr : ∀ s ∈ un, R.Str s := fun s hs => hb s (List.mem_of_mem_filter hs)
  have hfil : b.strs.filter (fun s => !(Basis.ofList xb).contains s) = un := by
    apply List.filter_congr
    intro s _
    rw [Basis.contains_ofList]; simp
  obtain ⟨ue, unData, k1, -, k3, k4, k5⟩ := R.scOuter .commutator (tol := 1 / 10 ^ 16) (by norm_num) (by norm_num) (A := Basis.ofList un) hunstr
    H.basis.strs [] [] [] hH (by simp) (by simp)
  simp only [List.nil_append, Basis.ofList_strs] at k4 k5
  have hbun : unionList xb un = xb ++ un := by
    rw [unionList_eq_filter _ hunn]
    congr 1
    rw [List.filter_eq_self]
    intro s hs
    exact (List.mem_filter.mp hs).2
  have hnb : (xb ++ un).Nodup := hbun ▸ unionList_nodup hb2 un
  set xe' := unionList xe ue with hxe'
  have hne : xe'.Nodup := unionList_nodup he2 ue
  have hpre : xe <+: xe' := let ⟨t, ht⟩ := unionList_prefix xe ue; ⟨t, ht.symm⟩
  have hue : ∀ s ∈ ue, s ∈ xe' := fun s hs => mem_unionList.mpr (Or.inr hs)
  have hunx : ∀ s ∈ un, s ∈ xb ++ un := fun s hs => List.mem_append_right _ hs
  -- the loop over the terms
  have loop : ∀ (l : List (K × OpString)) (d : Dict (List (ℕ × ℕ × K))), (l.map Prod.snd).Nodup → (∀ t ∈ l, t.2 ∈ H.basis.strs) →
      ∃ d', l.foldlM (fun d t => exploreRecord (Basis.ofList un) (Basis.ofList ue) unData (Basis.ofList (xb ++ un)) (Basis.ofList xe') d t.2) d = .ok d' ∧
        (∀ s, s ∉ l.map Prod.snd → d'.get? s = d.get? s) ∧
        ∀ s ∈ l.map Prod.snd, ∃ D, ScInv .commutator s un ue D ∧
          d'.get? s = some ((d.get? s).getD [] ++ transferData ue xe' un (xb ++ un) D) := by
    intro l
    induction l with
    | nil => intro d _ _; exact ⟨d, rfl, fun _ _ => rfl, by simp⟩
    | cons t l ih =>
      intro d hnd hl
      rw [List.map_cons, List.nodup_cons] at hnd
      obtain ⟨D, g1, g2⟩ := k4 t.2 (hl t (by simp))
      have hrec := exploreRecord_ok (d := d) g1 g2 hunx hue
      obtain ⟨d', i1, i2, i3⟩ := ih (d.set t.2 ((d.get? t.2).getD [] ++ transferData ue xe' un (xb ++ un) D)) hnd.2
        (fun t ht => hl t (List.mem_cons_of_mem _ ht))
      refine ⟨d', ?_, ?_, ?_⟩
      · rw [List.foldlM_cons, hrec]
        exact i1
      · intro s hs
        rw [List.map_cons, List.mem_cons, not_or] at hs
        rw [i2 s hs.2, Dict.get?_set, if_neg (fun e => hs.1 e.symm)]
      · intro s hs
        rw [List.map_cons, List.mem_cons] at hs
        rcases hs with rfl | hs
        · refine ⟨D, g2, ?_⟩
          rw [i2 _ hnd.1, Dict.get?_set, if_pos rfl]
        · obtain ⟨D', j1, j2⟩ := i3 s hs
          refine ⟨D', j1, ?_⟩
          rw [j2, Dict.get?_set, if_neg]
          rintro rfl
          exact hnd.1 hs
  obtain ⟨d', l1, l2, l3⟩ := loop H.terms sd (H.termStrs_sublist.nodup hHn) (fun t ht => mem_terms ht)
  refine ⟨⟨Basis.ofList (xb ++ un), Basis.ofList xe', d'⟩, ?_, ⟨⟨rfl, hnb⟩, ⟨rfl, hne⟩, ?_, ?_⟩, ?_, ?_⟩
  · have e0 : (emptyBasis : Basis) = Basis.ofList [] := rfl
    simp only [exploreUpdate, hfil, mkBasis_ok hunn, bind, Except.bind, structureConstantsData, e0, k1]
    rw [Basis.iadd_ofList hb2, Basis.iadd_ofList he2]
    simp only [Basis.ofList_strs, hbun]
    rw [l1]
  · intro s hs
    rcases mem_unionList.mp hs with hs | hs
    · exact hstr s hs
    · rcases k5 s hs with h' | h'
      · simp at h'
      · exact R.scProd_res hunstr hH h'
  · intro s hs
    obtain ⟨D, g1, g2⟩ := l3 s hs.2
    show ScInv .commutator s (xb ++ un) xe' ((d'.get? s).getD [])
    rw [g2, Option.getD_some]
    exact (hinv s hs.1).merge g1 hpre hne hnb hue k3
  · intro s hs
    show s ∈ xb ++ un
    by_cases h' : s ∈ xb
    · exact List.mem_append_left _ h'
    · exact List.mem_append_right _ (List.mem_filter.mpr ⟨hs, by simpa using h'⟩)
  · intro s hs
    obtain ⟨D, _, g2⟩ := l3 s hs
    show (d'.get? s).isSome
    rw [g2]; rfl

/-! ### the result -/

theorem positions_get? {l : List ℕ} (h : l.Nodup) (i j : ℕ) : (positions l).get? i = some j ↔ l[j]? = some i := by
  have key : ∀ (l : List ℕ) (n : ℕ) (d : Assoc ℕ ℕ), l.Nodup → ∀ i, ((l.zipIdx n).foldl (fun d e => d.set e.1 e.2) d).get? i =
      if i ∈ l then some (n + l.idxOf i) else d.get? i := by
    intro l
    induction l with
    | nil => intro n d _ i; simp
    | cons x l ih =>
      intro n d hn i
      rw [List.nodup_cons] at hn
      rw [List.zipIdx_cons, List.foldl_cons, ih _ _ hn.2, Assoc.get?_set]
      by_cases hx : x = i
      · subst hx
        simp [hn.1]
      · have hx' : ¬ i = x := fun h => hx h.symm
        by_cases hi : i ∈ l
        · rw [if_pos hi, if_pos (List.mem_cons_of_mem _ hi), List.idxOf_cons_ne _ hx, Option.some.injEq]
          omega
        · simp [hi, hx, hx']
  rw [positions, key l 0 [] h]
  constructor
  · intro h1
    by_cases hi : i ∈ l
    · rw [if_pos hi] at h1
      obtain rfl : l.idxOf i = j := by simpa using h1
      rw [List.getElem?_eq_getElem (List.idxOf_lt_length_of_mem hi), List.getElem_idxOf]
    · rw [if_neg hi] at h1; simp [Assoc.get?] at h1
  · intro h1
    obtain ⟨h2, h3⟩ := List.getElem?_eq_some_iff.mp h1
    rw [if_pos (h3 ▸ List.getElem_mem h2), ← h3, List.Nodup.idxOf_getElem h]
    simp

theorem positions_isSome {l : List ℕ} (h : l.Nodup) {i : ℕ} (hi : i ∈ l) : ∃ j, (positions l).get? i = some j := by
  obtain ⟨j, hj, rfl⟩ := List.getElem_of_mem hi
  exact ⟨j, (positions_get? h _ _).mpr (List.getElem?_eq_getElem hj)⟩

/-- the strings of the extended basis with their positions in the explored one -/
structure ExtOK (xe e : List OpString) (inds : List ℕ) : Prop where
  nodup : e.Nodup
  eq : inds.map (fun i => xe[i]?) = e.map some

theorem ExtOK.length {xe e : List OpString} {inds : List ℕ} (h : ExtOK xe e inds) : inds.length = e.length := by
  have := congrArg List.length h.eq
  simpa using this

theorem ExtOK.get {xe e : List OpString} {inds : List ℕ} (h : ExtOK xe e inds) {k i : ℕ} (hk : inds[k]? = some i) : ∃ s, e[k]? = some s ∧ xe[i]? = some s := by
  have := congrArg (fun l => l[k]?) h.eq
  simp only [List.getElem?_map, hk, Option.map_some] at this
  cases hs : e[k]? with
  | none => rw [hs] at this; simp at this
  | some s => rw [hs] at this; exact ⟨s, rfl, by simpa using this⟩

theorem ExtOK.inds_nodup {xe e : List OpString} {inds : List ℕ} (h : ExtOK xe e inds) : inds.Nodup := by
  have : (inds.map (fun i => xe[i]?)).Nodup := by rw [h.eq]; exact h.nodup.map (Option.some_injective _)
  exact List.Nodup.of_map _ this

theorem ExtOK.mem {xe e : List OpString} {inds : List ℕ} (h : ExtOK xe e inds) (hx : xe.Nodup) {i : ℕ} {s : OpString} (hi : xe[i]? = some s)
    (hs : s ∈ e) : i ∈ inds := by
  have : some s ∈ inds.map (fun i => xe[i]?) := by rw [h.eq]; exact List.mem_map_of_mem hs
  obtain ⟨j, hj, hjs⟩ := List.mem_map.mp this
  rw [getElem?_inj hx hi hjs]; exact hj

theorem ExtOK.subset {xe e : List OpString} {inds : List ℕ} (h : ExtOK xe e inds) {s : OpString} (hs : s ∈ e) : s ∈ xe := by
  have : some s ∈ inds.map (fun i => xe[i]?) := by rw [h.eq]; exact List.mem_map_of_mem hs
  obtain ⟨j, _, hjs⟩ := List.mem_map.mp this
  exact List.mem_of_getElem? hjs

theorem exploreExtStep_ok {st : Explored K} {xToB : Assoc ℕ ℕ} {e : List OpString} {inds : List ℕ} (h : ExtOK st.ext.strs e inds)
    {x : ℕ × ℕ × K} (hx : x.1 < st.ext.strs.length) :
    ∃ e' inds', exploreExtStep st xToB (Basis.ofList e, inds) x = .ok (Basis.ofList e', inds') ∧ ExtOK st.ext.strs e' inds' ∧ e <+: e' ∧
      ((xToB.get? x.2.1).isSome → st.ext.strs[x.1] ∈ e') ∧ ∀ s ∈ e', s ∈ e ∨ ((xToB.get? x.2.1).isSome ∧ st.ext.strs[x.1]? = some s) := by
  rw [exploreExtStep]
  cases hg : xToB.get? x.2.1 with
  | none => exact ⟨e, inds, rfl, h, List.prefix_refl _, by simp, fun s hs => Or.inl hs⟩
  | some j =>
    simp only [pyGet, List.getElem?_eq_getElem hx, bind, Except.bind, Basis.contains_ofList]
    by_cases hm : st.ext.strs[x.1] ∈ e
    · exact ⟨e, inds, by simp [hm], h, List.prefix_refl _, fun _ => hm, fun s hs => Or.inl hs⟩
    · refine ⟨e ++ [st.ext.strs[x.1]], inds ++ [x.1], ?_, ⟨?_, ?_⟩, List.prefix_append _ _, fun _ => by simp, ?_⟩
      · simp only [hm, decide_false, Bool.false_eq_true, if_false, Basis.iaddString_ofList]
        have : unionList e [st.ext.strs[x.1]] = e ++ [st.ext.strs[x.1]] := by
          show (if st.ext.strs[x.1] ∈ e then e else e ++ [st.ext.strs[x.1]]) = _
          rw [if_neg hm]
        rw [this]
      · exact h.nodup.append (by simp) (by simpa using hm)
      · rw [List.map_append, List.map_append, h.eq]
        simp [List.getElem?_eq_getElem hx]
      · intro s hs
        rcases List.mem_append.mp hs with hs | hs
        · exact Or.inl hs
        · exact Or.inr ⟨rfl, by rw [List.mem_singleton.mp hs]⟩

theorem exploreExt_inner {st : Explored K} {xToB : Assoc ℕ ℕ} : ∀ (D : List (ℕ × ℕ × K)) (e : List OpString) (inds : List ℕ), ExtOK st.ext.strs e inds →
    (∀ x ∈ D, x.1 < st.ext.strs.length) →
    ∃ e' inds', D.foldlM (exploreExtStep st xToB) (Basis.ofList e, inds) = .ok (Basis.ofList e', inds') ∧ ExtOK st.ext.strs e' inds' ∧ e <+: e' ∧
      (∀ x ∈ D, (xToB.get? x.2.1).isSome → ∀ s, st.ext.strs[x.1]? = some s → s ∈ e') ∧
      ∀ s ∈ e', s ∈ e ∨ ∃ x ∈ D, (xToB.get? x.2.1).isSome ∧ st.ext.strs[x.1]? = some s := by
  intro D
  induction D with
  | nil => intro e inds h _; exact ⟨e, inds, rfl, h, List.prefix_refl _, by simp, fun s hs => Or.inl hs⟩
  | cons x D ih =>
    intro e inds h hD
    obtain ⟨e1, i1, g1, g2, g3, g4, g5⟩ := exploreExtStep_ok (xToB := xToB) h (hD x (by simp))
    obtain ⟨e2, i2, k1, k2, k3, k4, k5⟩ := ih e1 i1 g2 (fun x hx => hD x (List.mem_cons_of_mem _ hx))
    refine ⟨e2, i2, ?_, k2, g3.trans k3, ?_, ?_⟩
    · rw [List.foldlM_cons, g1]; exact k1
    · intro y hy hsome s hs
      rcases List.mem_cons.mp hy with rfl | hy
      · rw [List.getElem?_eq_getElem (hD y (by simp)), Option.some.injEq] at hs
        rw [← hs]
        exact k3.subset (g4 hsome)
      · exact k4 y hy hsome s hs
    · intro s hs
      rcases k5 s hs with hs | ⟨y, hy, hy'⟩
      · rcases g5 s hs with hs | hs
        · exact Or.inl hs
        · exact Or.inr ⟨x, by simp, hs⟩
      · exact Or.inr ⟨y, List.mem_cons_of_mem _ hy, hy'⟩

theorem exploreExt_ok {st : Explored K} {xToB : Assoc ℕ ℕ} : ∀ (l : List (K × OpString)) (e : List OpString) (inds : List ℕ), ExtOK st.ext.strs e inds →
    (∀ t ∈ l, ∃ D, st.data.get? t.2 = some D ∧ ∀ x ∈ D, x.1 < st.ext.strs.length) →
    ∃ e' inds', l.foldlM (fun acc t => do
        let d ← st.data.lookup t.2
        d.foldlM (exploreExtStep st xToB) acc) (Basis.ofList e, inds) = .ok (Basis.ofList e', inds') ∧ ExtOK st.ext.strs e' inds' ∧ e <+: e' ∧
      (∀ t ∈ l, ∀ D, st.data.get? t.2 = some D → ∀ x ∈ D, (xToB.get? x.2.1).isSome → ∀ s, st.ext.strs[x.1]? = some s → s ∈ e') ∧
      ∀ s ∈ e', s ∈ e ∨ ∃ t ∈ l, ∃ D, st.data.get? t.2 = some D ∧ ∃ x ∈ D, (xToB.get? x.2.1).isSome ∧ st.ext.strs[x.1]? = some s := by
  intro l
  induction l with
  | nil => intro e inds h _; exact ⟨e, inds, rfl, h, List.prefix_refl _, by simp, fun s hs => Or.inl hs⟩
  | cons t l ih =>
    intro e inds h hl
    obtain ⟨D, d1, d2⟩ := hl t (by simp)
    obtain ⟨e1, i1, g1, g2, g3, g4, g5⟩ := exploreExt_inner (xToB := xToB) D e inds h d2
    obtain ⟨e2, i2, k1, k2, k3, k4, k5⟩ := ih e1 i1 g2 (fun t ht => hl t (List.mem_cons_of_mem _ ht))
    refine ⟨e2, i2, ?_, k2, g3.trans k3, ?_, ?_⟩
    · rw [List.foldlM_cons]
      simp only [Dict.lookup, d1, bind, Except.bind, g1] at k1 ⊢
      exact k1
    · intro u hu D' hD' x hx hsome s hs
      rcases List.mem_cons.mp hu with rfl | hu
      · rw [d1, Option.some.injEq] at hD'
        subst hD'
        exact k3.subset (g4 x hx hsome s hs)
      · exact k4 u hu D' hD' x hx hsome s hs
    · intro s hs
      rcases k5 s hs with hs | ⟨u, hu, hu'⟩
      · rcases g5 s hs with hs | hs
        · exact Or.inl hs
        · exact Or.inr ⟨t, by simp, D, d1, hs⟩
      · exact Or.inr ⟨u, List.mem_cons_of_mem _ hu, hu'⟩

theorem tget_flatten (l : List (List (ℕ × ℕ × K))) (i j : ℕ) : tget l.flatten i j = (l.map fun D => tget D i j).sum := by
  induction l with
  | nil => rfl
  | cons D l ih => rw [List.flatten_cons, tget_append, ih, List.map_cons, List.sum_cons]

theorem tget_filterMap {D : List (ℕ × ℕ × K)} {f : ℕ × ℕ × K → Option (ℕ × ℕ × K)} {a : K} {i j i' j' : ℕ}
    (h0 : ∀ e ∈ D, f e = none → ¬ (e.1 = i' ∧ e.2.1 = j'))
    (h : ∀ e ∈ D, ∀ e', f e = some e' → (e'.1 = i ∧ e'.2.1 = j ↔ e.1 = i' ∧ e.2.1 = j') ∧ e'.2.2 = a * e.2.2) :
    tget (D.filterMap f) i j = a * tget D i' j' := by
  induction D with
  | nil => simp
  | cons e D ih =>
    have ih := ih (fun e he => h0 e (List.mem_cons_of_mem _ he)) (fun e he => h e (List.mem_cons_of_mem _ he))
    rw [tget_cons, mul_add, ← ih]
    cases hf : f e with
    | none => rw [List.filterMap_cons_none hf, if_neg (h0 e (by simp) hf), mul_zero, zero_add]
    | some e' =>
      obtain ⟨h1, h2⟩ := h e (by simp) e' hf
      rw [List.filterMap_cons_some hf, tget_cons]
      congr 1
      by_cases h3 : e.1 = i' ∧ e.2.1 = j'
      · rw [if_pos h3, if_pos (h1.mpr h3), h2]
      · rw [if_neg h3, if_neg (fun h => h3 (h1.mp h)), mul_zero]

/-- the part of an operator with one of the allowed labels -/
def Operator.allowedDen (A : Operator K) (allowed : Option (List ℤ)) (den : OpString → 𝔸) : 𝔸 :=
  ((A.terms.filter (fun t => allowedTerm allowed t.2)).map (fun t => t.1 • den t.2)).sum

theorem explore_full (R : StrAlg K 𝔸) {S : OpString → Prop} {st : Explored K} (h : st.Coherent R S) {b : Basis} {H : Operator K} (allowed : Option (List ℤ))
    (hbn : b.strs.Nodup) (hb : ∀ s ∈ b.strs, R.Str s) (hH : ∀ s ∈ H.basis.strs, R.Str s) (hHn : H.basis.strs.Nodup) (hS : ∀ s ∈ H.termStrs, S s) :
    ∃ L ext st', explore b H allowed st = .ok ((L, ext), st') ∧ st'.Coherent R (fun s => S s ∧ s ∈ H.termStrs) ∧
      LiouvilleOK R.den R.Str .commutator b.len (fun j => ((b.strs[j]?).map R.den).getD 0) (H.allowedDen allowed R.den) L ext ∧
      ∀ C, C ∈ ext.strs ↔ ∃ s ∈ b.strs, ∃ t ∈ H.termStrs, allowedTerm allowed t = true ∧ ∃ c : K, operationOpString .commutator s t = .ok (c, some C) := by
  obtain ⟨st', u1, u2, u3, u4⟩ := exploreUpdate_ok R h hbn hb hH hHn
  obtain ⟨⟨hb1, hb2⟩, ⟨he1, he2⟩, hstr, hinv⟩ := id u2
  -- the positions of the basis
  have hind : b.strs.mapM st'.basis.index = .ok (b.strs.map st'.basis.strs.idxOf) := by
    apply mapM_ok
    intro s hs
    rw [hb1, Basis.index_ofList, if_pos (u3 s hs)]
    rfl
  set bi := b.strs.map st'.basis.strs.idxOf with hbi
  have hbin : bi.Nodup := by
    refine List.Nodup.map_on ?_ hbn
    intro x hx y _ hxy
    exact (List.idxOf_inj (u3 x hx)).mp hxy
  have hbiget : ∀ (j : ℕ) (s : OpString), b.strs[j]? = some s → ∃ i : ℕ, bi[j]? = some i ∧ st'.basis.strs[i]? = some s := by
    intro j s hs
    refine ⟨st'.basis.strs.idxOf s, by rw [hbi, List.getElem?_map, hs]; rfl, ?_⟩
    have := u3 s (List.mem_of_getElem? hs)
    rw [List.getElem?_eq_getElem (List.idxOf_lt_length_of_mem this), List.getElem_idxOf]
  set ts := H.terms.filter (fun t => allowedTerm allowed t.2) with hts
  have htH : ∀ t ∈ ts, t ∈ H.terms := fun t ht => List.mem_of_mem_filter ht
  have hterm : ∀ t ∈ ts, ∃ D, st'.data.get? t.2 = some D ∧ ScInv .commutator t.2 st'.basis.strs st'.ext.strs D := by
    intro t ht
    have hm : t.2 ∈ H.termStrs := List.mem_map_of_mem (htH t ht)
    obtain ⟨D, hD⟩ := Option.isSome_iff_exists.mp (u4 t.2 hm)
    refine ⟨D, hD, ?_⟩
    have := hinv t.2 ⟨hS t.2 hm, hm⟩
    rwa [hD, Option.getD_some] at this
  obtain ⟨e, inds, x1, x2, -, x4, x5⟩ := exploreExt_ok (st := st') (xToB := positions bi) ts [] [] ⟨by simp, rfl⟩
    (fun t ht => by obtain ⟨D, g1, g2⟩ := hterm t ht; exact ⟨D, g1, fun x hx => (g2.range x hx).1⟩)
  -- the data of the matrix
  let f : K → ℕ × ℕ × K → Option (ℕ × ℕ × K) := exploreEntry (positions bi) (positions inds)
  let g : K × OpString → List (ℕ × ℕ × K) := fun t => ((st'.data.get? t.2).getD []).filterMap (f t.1)
  have hdata : exploreData H st' allowed (positions bi) (positions inds) = .ok (ts.map g).flatten := by
    have : ts.mapM (fun t => (do
      let d ← st'.data.lookup t.2
      .ok (d.filterMap (f t.1)) : Py (List (ℕ × ℕ × K)))) = .ok (ts.map g) := by
      apply mapM_ok
      intro t ht
      obtain ⟨D, g1, _⟩ := hterm t ht
      simp only [Dict.lookup, g1, bind, Except.bind, g, Option.getD_some]
    simp only [exploreData, bind, Except.bind, f] at this ⊢
    rw [← hts]
    rw [this]
  have hf : ∀ c x x', f c x = some x' → inds[x'.1]? = some x.1 ∧ bi[x'.2.1]? = some x.2.1 ∧ x'.2.2 = c * x.2.2 := by
    intro c x x' hx
    simp only [f, exploreEntry] at hx
    split at hx
    · rename_i j i hj hi
      rw [Option.some.injEq] at hx
      subst hx
      exact ⟨(positions_get? x2.inds_nodup _ _).mp hi, (positions_get? hbin _ _).mp hj, rfl⟩
    · exact absurd hx (by simp)
  have hrange : ∀ x ∈ (ts.map g).flatten, x.1 < e.length ∧ x.2.1 < b.strs.length := by
    intro x hx
    obtain ⟨D, hD, hxD⟩ := List.mem_flatten.mp hx
    obtain ⟨t, _, rfl⟩ := List.mem_map.mp hD
    obtain ⟨x0, _, hx0⟩ := List.mem_filterMap.mp hxD
    obtain ⟨h1, h2, _⟩ := hf _ _ _ hx0
    obtain ⟨h3, _⟩ := List.getElem?_eq_some_iff.mp h1
    obtain ⟨h4, _⟩ := List.getElem?_eq_some_iff.mp h2
    rw [x2.length] at h3
    rw [hbi, List.length_map] at h4
    exact ⟨h3, h4⟩
  -- the results of brackets with the terms are in the extended basis
  have hmemb : ∀ (j : ℕ) (sj : OpString), b.strs[j]? = some sj → ∀ t ∈ ts, scMem K .commutator sj t.2 e := by
    intro j sj hjs
    obtain ⟨i, hi1, hi2⟩ := hbiget j sj hjs
    have hposi : (positions bi).get? i = some j := (positions_get? hbin _ _).mpr hi1
    have hstrj := hb sj (List.mem_of_getElem? hjs)
    intro t ht c C hC
    obtain ⟨D, g1, g2⟩ := hterm t ht
    have hCx := g2.mem sj (List.mem_of_getElem? hi2) c C hC
    obtain ⟨r, hr, hrC⟩ := List.getElem_of_mem hCx
    have hr' : st'.ext.strs[r]? = some C := by rw [List.getElem?_eq_getElem hr, hrC]
    have hent := g2.entry r i
    rw [hr', hi2] at hent
    have hne : tget D r i ≠ 0 := by
      rw [hent]
      simp only [scEntry, hC, if_true]
      rcases R.op_string .commutator hstrj (hH _ (mem_terms (htH t ht))) with ⟨o1, _⟩ | ⟨c', C', o1, _, _, o4, _⟩
      · rw [o1] at hC; simp at hC
      · rw [o1] at hC
        simp only [Except.ok.injEq, Prod.mk.injEq, Option.some.injEq] at hC
        obtain ⟨rfl, rfl⟩ := hC
        rintro rfl
        simp [bracketFactor] at o4
    have : ∃ x ∈ D, x.1 = r ∧ x.2.1 = i := by
      by_contra hcon
      apply hne
      apply tget_eq_zero
      intro x hx
      by_contra h'
      exact hcon ⟨x, hx, by tauto⟩
    obtain ⟨x, hx, rfl, rfl⟩ := this
    exact x4 t ht D g1 x hx (by rw [hposi]; rfl) C hr'
  have hcsr := mkCsr_ok hrange
  refine ⟨⟨e.length, b.strs.length, (ts.map g).flatten⟩, Basis.ofList e, st', ?_, u2, ⟨rfl, rfl, hrange, Basis.Inv.ofList x2.nodup,
    fun s hs => hstr s (x2.subset hs), ?_⟩, ?_⟩
  · have e0 : (emptyBasis : Basis) = Basis.ofList [] := rfl
    simp only [explore, u1, bind, Except.bind, hind, exploreExt, ← hts, e0]
    simp only [bind, Except.bind] at x1
    rw [x1]
    simp only [hdata, Basis.ofList_len, Basis.len, Basis.ofList_strs, hcsr]
  · intro j hj
    have hj' : j < b.strs.length := hj
    set sj := b.strs[j] with hsj
    have hjs : b.strs[j]? = some sj := List.getElem?_eq_getElem hj'
    obtain ⟨i, hi1, hi2⟩ := hbiget j sj hjs
    have hposi : (positions bi).get? i = some j := (positions_get? hbin _ _).mpr hi1
    have hstrj := hb sj (List.getElem_mem hj')
    have hmem := hmemb j sj hjs
    -- the entries
    have hentry : ∀ (k : Fin e.length), ∀ t ∈ ts, tget (g t) k j = t.1 * scEntry K .commutator sj t.2 e[k] := by
      intro k t ht
      obtain ⟨D, g1, g2⟩ := hterm t ht
      have hk : (k : ℕ) < inds.length := by rw [x2.length]; exact k.2
      obtain ⟨r, hr⟩ : ∃ r, inds[(k : ℕ)]? = some r := ⟨_, List.getElem?_eq_getElem hk⟩
      obtain ⟨s, hs1, hs2⟩ := x2.get hr
      have hs3 : e[k] = s := by
        rw [List.getElem?_eq_getElem k.2, Option.some.injEq] at hs1
        exact hs1
      have hent := g2.entry r i
      rw [hs2, hi2] at hent
      rw [hs3, ← show tget D r i = scEntry K .commutator sj t.2 s from hent]
      simp only [g, g1, Option.getD_some]
      apply tget_filterMap
      · rintro x hx hnone ⟨rfl, rfl⟩
        obtain ⟨k', hk'⟩ := positions_isSome x2.inds_nodup (List.mem_of_getElem? hr)
        simp only [f, exploreEntry, hposi, hk'] at hnone
        exact absurd hnone (by simp)
      · intro x hx x' hx'
        obtain ⟨h1, h2, h3⟩ := hf _ _ _ hx'
        refine ⟨?_, h3⟩
        constructor
        · rintro ⟨e1, e2⟩
          rw [e1, hr, Option.some.injEq] at h1
          rw [e2, hi1, Option.some.injEq] at h2
          exact ⟨h1.symm, h2.symm⟩
        · rintro ⟨e1, e2⟩
          rw [e1] at h1
          rw [e2] at h2
          constructor
          · obtain ⟨h4, h5⟩ := List.getElem?_eq_some_iff.mp h1
            obtain ⟨h6, h7⟩ := List.getElem?_eq_some_iff.mp hr
            exact (List.Nodup.getElem_inj_iff x2.inds_nodup).mp (h5.trans h7.symm)
          · obtain ⟨h4, h5⟩ := List.getElem?_eq_some_iff.mp h2
            obtain ⟨h6, h7⟩ := List.getElem?_eq_some_iff.mp hi1
            exact (List.Nodup.getElem_inj_iff hbin).mp (h5.trans h7.symm)
    simp only [Basis.ofList_strs, Mat.get_eq, tget_flatten, List.map_map, hjs, Option.map_some, Option.getD_some]
    have hsum : ∀ k : Fin e.length, (ts.map ((fun D => tget D k j) ∘ g)).sum = (ts.map (fun t => t.1 * scEntry K .commutator sj t.2 e[k])).sum := by
      intro k
      congr 1
      exact List.map_congr_left (fun t ht => hentry k t ht)
    simp only [hsum]
    refine (sum_list_smul (fun (k : Fin e.length) (t : K × OpString) => t.1 * scEntry K .commutator sj t.2 e[k]) (fun k => R.den e[k]) ts).trans ?_
    rw [Operator.allowedDen, ← hts]
    have hbr := bracketOf_denT_right (K := K) .commutator R.den (R.den sj) ts
    rw [denT] at hbr
    rw [hbr]
    congr 1
    apply List.map_congr_left
    intro t ht
    rw [← R.scEntry_sum .commutator hstrj (hH _ (mem_terms (htH t ht))) x2.nodup (hmem t ht), Finset.smul_sum]
    exact Finset.sum_congr rfl fun k _ => mul_smul _ _ _
  · intro C
    constructor
    · intro hC
      rcases x5 C hC with hC | ⟨t, ht, D, g1, x, hx, hsome, hxC⟩
      · simp at hC
      · obtain ⟨D', g1', g2⟩ := hterm t ht
        rw [g1, Option.some.injEq] at g1'
        subst g1'
        obtain ⟨sA, C', k1, k2, k3⟩ := g2.sound x hx
        obtain ⟨j, hj⟩ := Option.isSome_iff_exists.mp hsome
        have hj' := (positions_get? hbin _ _).mp hj
        rw [hbi, List.getElem?_map, Option.map_eq_some_iff] at hj'
        obtain ⟨s, hs1, hs2⟩ := hj'
        have hs3 := u3 s (List.mem_of_getElem? hs1)
        have : st'.basis.strs[x.2.1]? = some s := by
          rw [← hs2, List.getElem?_eq_getElem (List.idxOf_lt_length_of_mem hs3), List.getElem_idxOf]
        rw [k1, Option.some.injEq] at this
        rw [hxC, Option.some.injEq] at k2
        subst this k2
        exact ⟨sA, List.mem_of_getElem? hs1, t.2, List.mem_map_of_mem (htH t ht), (List.mem_filter.mp ht).2, k3⟩
    · rintro ⟨s, hs, t, ht, hal, c, hc⟩
      obtain ⟨u, hu, rfl⟩ := List.mem_map.mp ht
      obtain ⟨j, hj, rfl⟩ := List.getElem_of_mem hs
      exact hmemb j _ (List.getElem?_eq_getElem hj) u (List.mem_filter.mpr ⟨hu, hal⟩) c C hc

theorem explore_ok (R : StrAlg K 𝔸) {S : OpString → Prop} {st : Explored K} (h : st.Coherent R S) {b : Basis} {H : Operator K} (allowed : Option (List ℤ))
    (hbn : b.strs.Nodup) (hb : ∀ s ∈ b.strs, R.Str s) (hH : ∀ s ∈ H.basis.strs, R.Str s) (hHn : H.basis.strs.Nodup) (hS : ∀ s ∈ H.termStrs, S s) :
    ∃ L ext st', explore b H allowed st = .ok ((L, ext), st') ∧ st'.Coherent R (fun s => S s ∧ s ∈ H.termStrs) ∧
      LiouvilleOK R.den R.Str .commutator b.len (fun j => ((b.strs[j]?).map R.den).getD 0) (H.allowedDen allowed R.den) L ext := by
  obtain ⟨L, ext, st', h1, h2, h3, _⟩ := explore_full R h allowed hbn hb hH hHn hS
  exact ⟨L, ext, st', h1, h2, h3⟩

theorem allowedDen_eq (A : Operator K) (allowed : Option (List ℤ)) (den : OpString → 𝔸) : A.allowedDen allowed den = A.partDen allowed den := by
  cases allowed with
  | none =>
    rw [Operator.allowedDen, Operator.partDen, Operator.den, denT]
    simp [allowedTerm]
  | some ls =>
    rw [Operator.allowedDen, Operator.partDen, denT]
    have : (fun t : K × OpString => allowedTerm (some ls) t.2) = fun t => decide (∃ l ∈ t.2.labels, l ∈ ls) := by
      funext t
      rw [Bool.eq_iff_iff]
      simp [allowedTerm]
    simp only [this]

theorem exploreAll_ok (R : StrAlg K 𝔸) : ∀ (calls : List (ExploreCall K)) (S : OpString → Prop) (st : Explored K), st.Coherent R S →
    (∀ c ∈ calls, c.1.strs.Nodup ∧ (∀ s ∈ c.1.strs, R.Str s) ∧ c.2.1.basis.strs.Nodup ∧ (∀ s ∈ c.2.1.basis.strs, R.Str s) ∧ ∀ s ∈ c.2.1.termStrs, S s) →
    calls.Pairwise (fun c c' => ∀ s ∈ c'.2.1.termStrs, s ∈ c.2.1.termStrs) →
    ∃ rs, exploreAll st calls = .ok rs ∧ List.Forall₂ (fun c r =>
      IsLiouvillian R.den .commutator (c.1.strs.map R.den) (c.2.1.partDen c.2.2 R.den) r.1 r.2) calls rs := by
  intro calls
  induction calls with
  | nil => intro S st _ _ _; exact ⟨[], rfl, .nil⟩
  | cons c calls ih =>
    intro S st h hc hp
    obtain ⟨b, H, allowed⟩ := c
    obtain ⟨h1, h2, h3, h4, h5⟩ := hc _ (List.mem_cons_self ..)
    rw [List.pairwise_cons] at hp
    obtain ⟨L, ext, st', g1, g2, g3⟩ := explore_ok R h allowed h1 h2 h4 h3 h5
    obtain ⟨rs, k1, k2⟩ := ih _ st' g2 (fun c hcm => by
      obtain ⟨i1, i2, i3, i4, i5⟩ := hc c (List.mem_cons_of_mem _ hcm)
      exact ⟨i1, i2, i3, i4, fun s hs => ⟨i5 s hs, hp.1 c hcm s hs⟩⟩) hp.2
    refine ⟨(L, ext) :: rs, ?_, .cons ?_ k2⟩
    · simp only [exploreAll, g1, bind, Except.bind, k1]
    · rw [allowedDen_eq] at g3
      exact LiouvilleOK.isLiouvillian (x := b.strs.map R.den) (by simpa [Basis.len] using g3)

end Qosy
