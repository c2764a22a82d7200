import Verif.Spec.GreedySeveral
import Verif.Lemmas.GreedyBasis
import Verif.Lemmas.ManyOps2

/-! # Lemmas: `_explore` with several operators, one of which always comes first -/

namespace Qosy
open Coef
variable {K : Type} [Field K] [StarRing K] [Coef K] [RealCoef K]
variable {𝔸 : Type} [Ring 𝔸] [Algebra K 𝔸]

theorem Operator.within_terms (A H : Operator K) : (A.within H).terms = A.terms.filter (fun t => t.2 ∈ H.termStrs) := by
  show List.zip (List.map Prod.fst _) (List.map Prod.snd _) = _
  rw [List.zip_map', List.map_id'']
  intro x; rfl

theorem Operator.within_termStrs (A H : Operator K) : (A.within H).termStrs = (A.terms.filter (fun t => t.2 ∈ H.termStrs)).map Prod.snd := by
  rw [Operator.termStrs, Operator.within_terms]

theorem Operator.within_strs (A H : Operator K) : (A.within H).basis.strs = (A.terms.filter (fun t => t.2 ∈ H.termStrs)).map Prod.snd := rfl

theorem Operator.within_sublist (A H : Operator K) : (A.within H).basis.strs.Sublist A.basis.strs :=
  ((List.filter_sublist (l := A.terms)).map Prod.snd).trans A.termStrs_sublist

theorem Operator.within_mem {A H : Operator K} : ∀ s ∈ (A.within H).termStrs, s ∈ H.termStrs := by
  intro s hs
  rw [Operator.within_termStrs] at hs
  obtain ⟨t, ht, rfl⟩ := List.mem_map.mp hs
  simpa using (List.mem_filter.mp ht).2

theorem scData_empty (B : Basis) : ∃ d : Dict (List (ℕ × ℕ × K)), structureConstantsData (Basis.ofList []) B = .ok (emptyBasis, d) ∧ ∀ s ∈ B.strs, d.get? s = some [] := by
  have key : ∀ (l : List OpString) (d : Dict (List (ℕ × ℕ × K))), ∃ d', l.foldlM (scOuter .commutator (1 / 10 ^ 16) (Basis.ofList [])) (emptyBasis, d) = .ok (emptyBasis, d') ∧
      (∀ s, d.get? s = some [] → d'.get? s = some []) ∧ ∀ s ∈ l, d'.get? s = some [] := by
    intro l
    induction l with
    | nil => intro d; exact ⟨d, rfl, fun _ h => h, by simp⟩
    | cons t l ih =>
      intro d
      obtain ⟨d', h1, h2, h3⟩ := ih (d.set t [])
      refine ⟨d', ?_, fun s hs => h2 s ?_, ?_⟩
      · rw [List.foldlM_cons]
        exact h1
      · rw [Dict.get?_set]
        split
        · rfl
        · exact hs
      · intro s hs
        rcases List.mem_cons.mp hs with rfl | hs
        · exact h2 s (by rw [Dict.get?_set, if_pos rfl])
        · exact h3 s hs
  obtain ⟨d', h1, -, h3⟩ := key B.strs []
  exact ⟨d', h1, h3⟩

/-- nothing but empty entries is added if the basis is already explored -/
theorem exploreUpdate_again {st : Explored K} (hb : st.basis = Basis.ofList st.basis.strs) {b : Basis} (hs : ∀ s ∈ b.strs, s ∈ st.basis.strs) (A : Operator K) :
    ∃ d, exploreUpdate b A st = .ok ⟨st.basis, st.ext, d⟩ ∧ (∀ s, (d.get? s).getD [] = (st.data.get? s).getD []) ∧ ∀ s ∈ A.termStrs, (d.get? s).isSome := by
  have hfil : b.strs.filter (fun s => !st.basis.contains s) = [] := by
    rw [List.filter_eq_nil_iff]
    intro s h
    rw [hb, Basis.contains_ofList]
    simp [hs s h]
  obtain ⟨u, u1, u2⟩ := scData_empty (K := K) A.basis
  have loop : ∀ (l : List (K × OpString)) (d : Dict (List (ℕ × ℕ × K))), (∀ t ∈ l, t.2 ∈ A.basis.strs) →
      ∃ d', l.foldlM (fun d t => exploreRecord (Basis.ofList []) emptyBasis u (st.basis.iadd (Basis.ofList [])) (st.ext.iadd emptyBasis) d t.2) d = .ok d' ∧
        (∀ s, (d'.get? s).getD [] = (d.get? s).getD []) ∧ (∀ s, (d.get? s).isSome → (d'.get? s).isSome) ∧ ∀ s ∈ l.map Prod.snd, (d'.get? s).isSome := by
    intro l
    induction l with
    | nil => intro d _; exact ⟨d, rfl, fun _ => rfl, fun _ h => h, by simp⟩
    | cons t l ih =>
      intro d hl
      have e : exploreRecord (Basis.ofList []) emptyBasis u (st.basis.iadd (Basis.ofList [])) (st.ext.iadd emptyBasis) d t.2 = .ok (d.set t.2 ((d.get? t.2).getD [])) := by
        unfold exploreRecord
        simp only [Dict.lookup, u2 t.2 (hl t (List.mem_cons_self ..)), bind, Except.bind]
        cases d.get? t.2 <;> simp [pure, Except.pure]
      obtain ⟨d', i1, i2, i3, i4⟩ := ih (d.set t.2 ((d.get? t.2).getD [])) (fun t ht => hl t (List.mem_cons_of_mem _ ht))
      refine ⟨d', ?_, fun s => ?_, fun s h => i3 s ?_, ?_⟩
      · rw [List.foldlM_cons, e]; exact i1
      · rw [i2, Dict.get?_set]
        split
        · rename_i h; rw [h]; rfl
        · rfl
      · rw [Dict.get?_set]
        split
        · rfl
        · exact h
      · intro s hs
        rw [List.map_cons] at hs
        rcases List.mem_cons.mp hs with rfl | hs
        · exact i3 _ (by rw [Dict.get?_set, if_pos rfl]; rfl)
        · exact i4 s hs
  obtain ⟨d', l1, l2, -, l4⟩ := loop A.terms st.data (fun t ht => mem_terms ht)
  refine ⟨d', ?_, l2, l4⟩
  unfold exploreUpdate
  rw [hfil, mkBasis_ok List.nodup_nil]
  simp only [u1, bind, Except.bind, l1]
  rfl

theorem exploreExt_filter {basis ext : Basis} {d d' : Dict (List (ℕ × ℕ × K))} {x : Assoc ℕ ℕ} (p : K × OpString → Bool) : ∀ (l : List (K × OpString)) (acc : Basis × List ℕ),
    (∀ t ∈ l, (p t = true ∧ d.get? t.2 = d'.get? t.2) ∨ (p t = false ∧ d.get? t.2 = some [])) →
    (l.foldlM (fun acc t => do
      let e ← d.lookup t.2
      e.foldlM (exploreExtStep ⟨basis, ext, d⟩ x) acc) acc : Py _) =
    (l.filter p).foldlM (fun acc t => do
      let e ← d'.lookup t.2
      e.foldlM (exploreExtStep ⟨basis, ext, d'⟩ x) acc) acc := by
  have hstep : exploreExtStep (⟨basis, ext, d⟩ : Explored K) x = exploreExtStep ⟨basis, ext, d'⟩ x := rfl
  intro l
  induction l with
  | nil => intro acc _; rfl
  | cons t l ih =>
    intro acc h
    have ih := fun acc => ih acc (fun t ht => h t (List.mem_cons_of_mem _ ht))
    rcases h t (List.mem_cons_self ..) with ⟨h1, h2⟩ | ⟨h1, h2⟩
    · rw [List.filter_cons_of_pos h1, List.foldlM_cons, List.foldlM_cons, Dict.lookup, Dict.lookup, h2, hstep]
      congr 1
      funext acc
      exact ih acc
    · rw [List.filter_cons_of_neg (by simp [h1]), List.foldlM_cons, Dict.lookup, h2]
      exact ih acc

theorem exploreData_filter {d d' : Dict (List (ℕ × ℕ × K))} {x y : Assoc ℕ ℕ} (p : K × OpString → Bool) : ∀ (l : List (K × OpString)),
    (∀ t ∈ l, (p t = true ∧ d.get? t.2 = d'.get? t.2) ∨ (p t = false ∧ d.get? t.2 = some [])) →
    (do
      let r ← l.mapM (fun t => do
        let e ← d.lookup t.2
        .ok (e.filterMap (exploreEntry x y t.1)))
      .ok r.flatten : Py (List (ℕ × ℕ × K))) =
    (do
      let r ← (l.filter p).mapM (fun t => do
        let e ← d'.lookup t.2
        .ok (e.filterMap (exploreEntry x y t.1)))
      .ok r.flatten) := by
  intro l
  induction l with
  | nil => intro _; rfl
  | cons t l ih =>
    intro h
    have ih := ih (fun t ht => h t (List.mem_cons_of_mem _ ht))
    have hflat : ∀ (m : Py (List (List (ℕ × ℕ × K)))) (a : List (ℕ × ℕ × K)), (do
        let r ← (do
          let r ← m
          .ok (a :: r) : Py (List (List (ℕ × ℕ × K))))
        .ok r.flatten : Py (List (ℕ × ℕ × K))) = (do
        let r ← (do
          let r ← m
          .ok r.flatten : Py (List (ℕ × ℕ × K)))
        .ok (a ++ r)) := by
      intro m a
      cases m <;> rfl
    rcases h t (List.mem_cons_self ..) with ⟨h1, h2⟩ | ⟨h1, h2⟩
    · rw [List.filter_cons_of_pos h1, List.mapM_cons, List.mapM_cons]
      cases hg : d'.get? t.2 with
      | none => simp only [Dict.lookup, h2, hg, bind, Except.bind]
      | some e =>
        simp only [Dict.lookup, h2, hg]
        have := hflat (l.mapM (fun t => (do
          let e ← d.lookup t.2
          .ok (e.filterMap (exploreEntry x y t.1)) : Py _))) (e.filterMap (exploreEntry x y t.1))
        have h' := hflat ((l.filter p).mapM (fun t => (do
          let e ← d'.lookup t.2
          .ok (e.filterMap (exploreEntry x y t.1)) : Py _))) (e.filterMap (exploreEntry x y t.1))
        rw [ih, ← h'] at this
        exact this
    · rw [List.filter_cons_of_neg (by simp [h1]), ← ih, List.mapM_cons]
      have := hflat (l.mapM (fun t => (do
          let e ← d.lookup t.2
          .ok (e.filterMap (exploreEntry x y t.1)) : Py _))) []
      simp only [List.nil_append] at this
      have e : ∀ m : Py (List (ℕ × ℕ × K)), (m >>= fun r => .ok r) = m := by intro m; cases m <;> rfl
      rw [e] at this
      simp only [Dict.lookup, h2]
      exact this

/-- the cache knows nothing about other strings than those of `H` -/
def Explored.Only (H : Operator K) (st : Explored K) : Prop := ∀ s, s ∉ H.termStrs → (st.data.get? s).getD [] = []

theorem Explored.empty_only (H : Operator K) : (Explored.empty : Explored K).Only H := fun _ _ => rfl

/-- the first operator -/
theorem explore_first (R : StrAlg K 𝔸) {H : Operator K} (hH : ∀ s ∈ H.basis.strs, R.Str s) (hHn : H.basis.strs.Nodup) {st : Explored K}
    (h : st.Coherent R (· ∈ H.termStrs)) (ho : st.Only H) {b : Basis} (hb : GoodBasis R b) :
    ∃ L ext st', explore b H none st = .ok ((L, ext), st') ∧ st'.Coherent R (· ∈ H.termStrs) ∧ st'.Only H ∧ (∀ s ∈ b.strs, s ∈ st'.basis.strs) ∧
      LiouvilleOK R.den R.Str .commutator b.len (fun j => ((b.strs[j]?).map R.den).getD 0) (H.den R.den) L ext := by
  obtain ⟨L, ext, st', h1, h2, h3⟩ := explore_one R hH hHn h hb
  obtain ⟨st2, u1, -, u3, -⟩ := exploreUpdate_ok R h hb.1.2 hb.2 hH hHn
  have hst : st2 = st' := by
    unfold explore at h1
    rw [u1] at h1
    obtain ⟨_, e, h1⟩ := py_bind_ok h1
    cases e
    obtain ⟨_, _, h1⟩ := py_bind_ok h1
    obtain ⟨_, _, h1⟩ := py_bind_ok h1
    obtain ⟨_, _, h1⟩ := py_bind_ok h1
    obtain ⟨_, _, h1⟩ := py_bind_ok h1
    cases h1
    rfl
  subst hst
  refine ⟨L, ext, st2, h1, h2, ?_, u3, h3⟩
  intro s hs
  refine Eq.trans ?_ (ho s hs)
  unfold exploreUpdate at u1
  obtain ⟨un, _, u1⟩ := py_bind_ok u1
  obtain ⟨⟨ue, ud⟩, _, u1⟩ := py_bind_ok u1
  obtain ⟨d, hd, u1⟩ := py_bind_ok u1
  cases u1
  show (d.get? s).getD [] = _
  have : ∀ (l : List (K × OpString)) (d0 d : Dict (List (ℕ × ℕ × K))), s ∉ l.map Prod.snd →
      l.foldlM (fun d t => exploreRecord un ue ud (st.basis.iadd un) (st.ext.iadd ue) d t.2) d0 = .ok d → d.get? s = d0.get? s := by
    intro l
    induction l with
    | nil => intro d0 d _ h; cases h; rfl
    | cons t l ih =>
      intro d0 d hn h
      rw [List.map_cons, List.mem_cons, not_or] at hn
      rw [List.foldlM_cons] at h
      obtain ⟨d1, e1, h⟩ := py_bind_ok h
      rw [ih d1 d hn.2 h]
      unfold exploreRecord at e1
      obtain ⟨_, _, e1⟩ := py_bind_ok e1
      obtain ⟨_, _, e1⟩ := py_bind_ok e1
      cases e1
      rw [Dict.get?_set, if_neg (fun e => hn.1 e.symm)]
  rw [this H.terms st.data d hs hd]

/-- another operator in a basis that is already explored: the result is the one for its part with the strings of `H` -/
theorem explore_again (R : StrAlg K 𝔸) {H : Operator K} {st : Explored K} (h : st.Coherent R (· ∈ H.termStrs)) (ho : st.Only H) {b : Basis} (hb : GoodBasis R b)
    (hs : ∀ s ∈ b.strs, s ∈ st.basis.strs) {A : Operator K} (hA : ∀ s ∈ A.basis.strs, R.Str s) (hAn : A.basis.strs.Nodup) :
    ∃ L ext st', explore b A none st = .ok ((L, ext), st') ∧ st'.Coherent R (· ∈ H.termStrs) ∧ st'.Only H ∧ (∀ s ∈ b.strs, s ∈ st'.basis.strs) ∧
      LiouvilleOK R.den R.Str .commutator b.len (fun j => ((b.strs[j]?).map R.den).getD 0) ((A.within H).den R.den) L ext := by
  obtain ⟨L, ext, st2, h1, -, h3⟩ := explore_ok R h none (H := A.within H) hb.1.2 hb.2 (fun s hs => hA s ((A.within_sublist H).subset hs)) ((A.within_sublist H).nodup hAn)
    Operator.within_mem
  rw [allowedDen_eq] at h3
  obtain ⟨d, d1, d2, d3⟩ := exploreUpdate_again h.basis_inv.1 hs A
  obtain ⟨d', e1, e2, e3⟩ := exploreUpdate_again h.basis_inv.1 hs (A.within H)
  refine ⟨L, ext, ⟨st.basis, st.ext, d⟩, ?_, ⟨h.basis_inv, h.ext_inv, h.str, fun s hs => by rw [d2]; exact h.inv s hs⟩, fun s hs => (d2 s).trans (ho s hs), hs, h3⟩
  have hcond : ∀ t ∈ A.terms, (decide (t.2 ∈ H.termStrs) = true ∧ d.get? t.2 = d'.get? t.2) ∨ (decide (t.2 ∈ H.termStrs) = false ∧ d.get? t.2 = some []) := by
    intro t ht
    obtain ⟨D, hD⟩ := Option.isSome_iff_exists.mp (d3 t.2 (List.mem_map_of_mem ht))
    by_cases hm : t.2 ∈ H.termStrs
    · left
      refine ⟨by simp [hm], ?_⟩
      obtain ⟨D', hD'⟩ := Option.isSome_iff_exists.mp (e3 t.2 (by
        rw [Operator.within_termStrs]
        exact List.mem_map_of_mem (List.mem_filter.mpr ⟨ht, by simp [hm]⟩)))
      have := (d2 t.2).trans (e2 t.2).symm
      rw [hD, hD', Option.getD_some, Option.getD_some] at this
      rw [hD, hD', this]
    · right
      refine ⟨by simp [hm], ?_⟩
      have := (d2 t.2).trans (ho t.2 hm)
      rw [hD, Option.getD_some] at this
      rw [hD, this]
  have hfil : ∀ l : List (K × OpString), l.filter (fun t => allowedTerm none t.2) = l := fun l => List.filter_eq_self.mpr fun _ _ => rfl
  unfold explore at h1 ⊢
  rw [e1] at h1
  rw [d1]
  obtain ⟨_, e, h1⟩ := py_bind_ok h1
  cases e
  obtain ⟨inds, i1, h1⟩ := py_bind_ok h1
  obtain ⟨⟨ex, exi⟩, i2, h1⟩ := py_bind_ok h1
  obtain ⟨data, i3, h1⟩ := py_bind_ok h1
  obtain ⟨L', i4, h1⟩ := py_bind_ok h1
  cases h1
  have k2 : exploreExt A ⟨st.basis, st.ext, d⟩ none (positions inds) = .ok (ext, exi) := by
    unfold exploreExt at i2 ⊢
    rw [hfil, Operator.within_terms] at i2
    rw [hfil, ← i2]
    exact exploreExt_filter _ _ _ hcond
  have k3 : exploreData A ⟨st.basis, st.ext, d⟩ none (positions inds) (positions exi) = .ok data := by
    unfold exploreData at i3 ⊢
    rw [hfil, Operator.within_terms] at i3
    rw [hfil, ← i3]
    exact exploreData_filter _ _ hcond
  have k1 : b.strs.mapM (Explored.basis ⟨st.basis, st.ext, d⟩).index = .ok inds := i1
  simp only [k1, k2, k3, i4, bind, Except.bind]

end Qosy
