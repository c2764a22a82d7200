import Verif.Lemmas.Operator
import Mathlib.Data.List.Basic

/-! # Lemmas for `to_vector` and `remove_zeros` -/

namespace Qosy
variable {K : Type} [Field K]

theorem toVectorLoop_ok {l : List OpString} (ts : List (K × OpString)) (v : List K) (h : ∀ t ∈ ts, t.2 ∈ l) :
    toVectorLoop (Basis.ofList l) ts v =
      .ok (((ts.map (fun t => l.idxOf t.2)).zip (ts.map Prod.fst)).foldl (fun v e => v.set e.1 e.2) v) := by
  induction ts generalizing v with
  | nil => rfl
  | cons t ts ih =>
    obtain ⟨c, s⟩ := t
    rw [toVectorLoop, Basis.index_ofList, if_pos (h _ (List.mem_cons_self ..))]
    simp only [bind, Except.bind]
    rw [ih _ (fun t ht => h t (List.mem_cons_of_mem _ ht))]
    rfl

theorem toVectorLoop_err {l : List OpString} (ts : List (K × OpString)) (v : List K) (h : ∃ t ∈ ts, t.2 ∉ l) :
    toVectorLoop (Basis.ofList l) ts v = .error .keyError := by
  induction ts generalizing v with
  | nil => simp at h
  | cons t ts ih =>
    obtain ⟨c, s⟩ := t
    rw [toVectorLoop, Basis.index_ofList]
    by_cases hs : s ∈ l
    · rw [if_pos hs]
      simp only [bind, Except.bind]
      apply ih
      obtain ⟨u, hu, hul⟩ := h
      rcases List.mem_cons.mp hu with rfl | hu
      · exact absurd hs hul
      · exact ⟨u, hu, hul⟩
    · rw [if_neg hs]; rfl

theorem Operator.WF.terms_fst {A : Operator K} (h : A.WF) : A.terms.map Prod.fst = A.coeffs := by
  rw [Operator.terms, List.map_fst_zip (by rw [h.len])]
theorem Operator.WF.terms_snd {A : Operator K} (h : A.WF) : A.terms.map Prod.snd = A.basis.strs := by
  rw [Operator.terms, List.map_snd_zip (by rw [h.len])]

theorem Operator.toVector_ok {A : Operator K} (hA : A.WF) {b : Basis} (hb : b.Inv) (h : ∀ s ∈ A.basis.strs, s ∈ b.strs) :
    ∃ v, A.toVector b = .ok v ∧ v.length = b.strs.length ∧ ∀ s ∈ b.strs, v.getD (b.strs.idxOf s) 0 = A.coef s := by
  set l := b.strs with hl
  have hbl : b = Basis.ofList l := hb.1
  have hin : ∀ t ∈ A.terms, t.2 ∈ l := fun t ht => h _ (List.of_mem_zip ht).2
  refine ⟨((A.terms.map (fun t => l.idxOf t.2)).zip (A.terms.map Prod.fst)).foldl (fun v e => v.set e.1 e.2)
    (List.replicate l.length 0), ?_, ?_, ?_⟩
  · rw [Operator.toVector, hbl]; exact toVectorLoop_ok _ _ hin
  · rw [foldl_set_length]; simp
  · intro s hs
    have e1 : A.terms.map (fun t => l.idxOf t.2) = A.basis.strs.map l.idxOf := by
      rw [← hA.terms_snd, List.map_map]; rfl
    rw [e1, hA.terms_fst, foldl_set_getD]
    · rw [hA.coef_eq]
      by_cases hsA : s ∈ A.basis.strs
      · rw [if_pos (List.mem_map_of_mem hsA), if_pos hsA, idxOf_map_idxOf h hsA]
      · rw [if_neg hsA, if_neg]
        · rw [List.getD_eq_getElem?_getD, List.getElem?_replicate]; split <;> rfl
        · intro hm
          obtain ⟨x, hx, hxs⟩ := List.mem_map.mp hm
          exact hsA (idxOf_injOn l (h x hx) hxs ▸ hx)
    · apply List.Nodup.map_on _ hA.basis.2
      intro x hx y _ hxy
      exact idxOf_injOn l (h x hx) hxy
    · simp [hA.len]
    · intro i hi
      obtain ⟨x, hx, rfl⟩ := List.mem_map.mp hi
      simp only [List.length_replicate]
      exact List.idxOf_lt_length_iff.mpr (h x hx)

theorem foldl_addAt_length (es : List (ℕ × K)) (v : List K) :
    (es.foldl (fun v e => v.set e.1 (v.getD e.1 0 + e.2)) v).length = v.length := by
  induction es generalizing v with
  | nil => rfl
  | cons e es ih => rw [List.foldl_cons, ih, List.length_set]

theorem foldl_addAt (es : List (ℕ × K)) (v : List K) (h : ∀ e ∈ es, e.1 < v.length) (j : ℕ) :
    (es.foldl (fun v e => v.set e.1 (v.getD e.1 0 + e.2)) v).getD j 0 =
      v.getD j 0 + (es.map (fun e => if e.1 = j then e.2 else 0)).sum := by
  induction es generalizing v with
  | nil => simp
  | cons e es ih =>
    have he := h e (List.mem_cons_self ..)
    rw [List.foldl_cons, ih _ (by intro e' he'; rw [List.length_set]; exact h e' (List.mem_cons_of_mem _ he')),
      List.map_cons, List.sum_cons, ← add_assoc]
    congr 1
    by_cases hj : e.1 = j
    · subst hj; simp [List.getD_eq_getElem?_getD, he]
    · simp [List.getD_eq_getElem?_getD, hj]

theorem Operator.toVectorCsc_eq {A : Operator K} (hA : A.WF) {b : Basis} (hb : b.Inv) :
    A.toVectorCsc b = A.toVector b := by
  set l := b.strs with hl
  have hbl : b = Basis.ofList l := hb.1
  by_cases h : ∀ s ∈ A.basis.strs, s ∈ l
  · obtain ⟨v, h1, h2, h3⟩ := Operator.toVector_ok hA hb h
    rw [h1]
    have hin : ∀ t ∈ A.terms, t.2 ∈ l := fun t ht => h _ (List.of_mem_zip ht).2
    have e : ∀ ts : List (K × OpString), (∀ t ∈ ts, t.2 ∈ l) →
        ts.mapM (fun t => do let i ← b.index t.2; Except.ok (i, t.1)) = (.ok (ts.map (fun t => (l.idxOf t.2, t.1))) : Py _) := by
      intro ts
      induction ts with
      | nil => intro _; rfl
      | cons t ts ih =>
        intro ht
        rw [List.mapM_cons, ih (fun t h' => ht t (List.mem_cons_of_mem _ h')), hbl, Basis.index_ofList,
          if_pos (ht t (List.mem_cons_self ..))]
        rfl
    rw [Operator.toVectorCsc, e _ hin]
    simp only [bind, Except.bind, Except.ok.injEq]
    apply List.ext_getElem
    · rw [foldl_addAt_length]; simp [h2, Basis.len, ← hl]
    · intro i hi hi'
      rw [← List.getD_eq_getElem _ 0 hi, ← List.getD_eq_getElem _ 0 hi', foldl_addAt]
      · have hi2 : i < l.length := by rw [h2] at hi'; exact hi'
        have := h3 l[i] (List.getElem_mem hi2)
        rw [hb.2.idxOf_getElem i hi2] at this
        rw [this, Operator.coef, coefT, List.map_map]
        have h0 : (List.replicate b.len (0 : K)).getD i 0 = 0 := by
          rw [List.getD_eq_getElem?_getD, List.getElem?_replicate]; split <;> rfl
        rw [h0, zero_add]
        congr 1
        apply List.map_congr_left
        intro t ht
        simp only [Function.comp]
        have : l.idxOf t.2 = i ↔ t.2 = l[i] := by
          constructor
          · intro h5; subst h5; simp
          · intro h5; rw [h5]; exact hb.2.idxOf_getElem i hi2
        simp only [this]
      · intro e' he'
        obtain ⟨t, ht, rfl⟩ := List.mem_map.mp he'
        simp only [List.length_replicate]
        exact List.idxOf_lt_length_iff.mpr (hin t ht)
  · push Not at h
    obtain ⟨s, hs, hsl⟩ := h
    have hex : ∃ t ∈ A.terms, t.2 ∉ l := by
      rw [← hA.terms_snd] at hs
      obtain ⟨t, ht, rfl⟩ := List.mem_map.mp hs
      exact ⟨t, ht, hsl⟩
    rw [Operator.toVector, hbl, toVectorLoop_err _ _ hex, Operator.toVectorCsc]
    have e : ∀ ts : List (K × OpString), (∃ t ∈ ts, t.2 ∉ l) →
        ts.mapM (fun t => do let i ← (Basis.ofList l).index t.2; Except.ok (i, t.1)) = (.error .keyError : Py _) := by
      intro ts
      induction ts with
      | nil => intro h; simp at h
      | cons t ts ih =>
        intro ht
        rw [List.mapM_cons, Basis.index_ofList]
        by_cases hs : t.2 ∈ l
        · rw [if_pos hs, ih]
          · rfl
          · obtain ⟨u, hu, hul⟩ := ht
            rcases List.mem_cons.mp hu with rfl | hu
            · exact absurd hs hul
            · exact ⟨u, hu, hul⟩
        · rw [if_neg hs]; rfl
    rw [e _ hex]; rfl

/-! ### remove_zeros -/

theorem range_filter_map {α : Type} (cs : List K) (p : K → Bool) (f : ℕ → α) :
    ((List.range cs.length).filter (fun i => p (cs.getD i 0))).map f =
      ((cs.zipIdx).filter (fun t => p t.1)).map (fun t => f t.2) := by
  induction cs generalizing f with
  | nil => rfl
  | cons c cs ih =>
    rw [List.length_cons, List.range_succ_eq_map, List.filter_cons, List.filter_map, List.zipIdx_cons, List.filter_cons]
    have h1 := ih (fun i => f (i + 1))
    have h2 : (cs.zipIdx (0 + 1)) = cs.zipIdx.map (fun t => (t.1, t.2 + 1)) := by
      rw [List.zipIdx_succ]
    have h3 : (List.range cs.length).filter ((fun i => p ((c :: cs).getD i 0)) ∘ Nat.succ)
        = (List.range cs.length).filter (fun i => p (cs.getD i 0)) := by
      apply List.filter_congr; intro i _; simp
    rw [h2, List.filter_map, h3]
    by_cases hc : p c
    · simpa [hc, List.map_map, Function.comp_def] using h1
    · simpa [hc, List.map_map, Function.comp_def] using h1

theorem filter_zipIdx_getD {α : Type} (p : K → Bool) : ∀ (cs : List K) (strs : List α), cs.length = strs.length →
    ∀ n, ((cs.zipIdx n).filter (fun t => p t.1)).map (fun t => (strs)[t.2 - n]?) =
      ((cs.zip strs).filter (fun t => p t.1)).map (fun t => some t.2) := by
  intro cs
  induction cs with
  | nil => intro strs _ n; simp
  | cons c cs ih =>
    intro strs hl n
    cases strs with
    | nil => simp at hl
    | cons s strs =>
      have h1 := ih strs (by simpa using hl) (n + 1)
      have h2 : ∀ t ∈ (cs.zipIdx (n + 1)).filter (fun t => p t.1), (s :: strs)[t.2 - n]? = strs[t.2 - (n + 1)]? := by
        intro t ht
        have := (List.mem_zipIdx (List.mem_of_mem_filter ht)).1
        rw [show t.2 - n = (t.2 - (n + 1)) + 1 by omega, List.getElem?_cons_succ]
      rw [List.zipIdx_cons, List.zip_cons_cons, List.filter_cons, List.filter_cons]
      by_cases hc : p c
      · simp only [hc, if_true, List.map_cons, Nat.sub_self, List.getElem?_cons_zero]
        rw [List.map_congr_left h2, h1]
      · rw [if_neg hc, if_neg hc, List.map_congr_left h2, h1]

theorem mapM_pyGet_ok {α : Type} {l : List ℕ} {m r : List α} (h : l.map (fun i => m[i]?) = r.map some) :
    l.mapM (pyGet m) = .ok r := by
  induction l generalizing r with
  | nil =>
    cases r with
    | nil => rfl
    | cons _ _ => simp at h
  | cons i l ih =>
    cases r with
    | nil => simp at h
    | cons x r =>
      simp only [List.map_cons, List.cons.injEq] at h
      rw [List.mapM_cons, ih h.2, pyGet, h.1]; rfl

theorem Operator.removeZeros_ok [CoefOps K] {A : Operator K} (hA : A.WF) (tol : ℚ) :
    ∃ C, A.removeZeros tol = .ok C ∧ C.WF ∧ C.opType = A.opType ∧
      C.terms = A.terms.filter (fun t => absGt t.1 tol) := by
  set ts := A.terms.filter (fun t => absGt t.1 tol) with hts
  have hsub : ts.Sublist A.terms := List.filter_sublist
  have hsub2 : (ts.map Prod.snd).Sublist A.basis.strs := by
    rw [← hA.terms_snd]; exact hsub.map _
  have hnd : (ts.map Prod.snd).Nodup := hA.basis.2.sublist hsub2
  have hty : ∀ s ∈ ts.map Prod.snd, s.opType = A.opType := fun s hs => hA.type s (hsub2.subset hs)
  have e1 : ((List.range A.coeffs.length).filter (fun i => absGt (A.coeffs.getD i 0) tol)).map (fun i => A.coeffs.getD i 0)
      = ts.map Prod.fst := by
    have h1 := range_filter_map A.coeffs (fun c => absGt c tol) (fun i => A.coeffs[i]?)
    have h2 := filter_zipIdx_getD (fun c => absGt c tol) A.coeffs A.coeffs rfl 0
    have h3 : ∀ (cs : List K) (l : List OpString), cs.length = l.length → ((cs.zip cs).filter (fun t => absGt t.1 tol)).map (fun t => some t.2)
        = ((cs.zip l).filter (fun t => absGt t.1 tol)).map (fun t => some t.1) := by
      intro cs
      induction cs with
      | nil => intro l _; rfl
      | cons c cs ih =>
        intro l hl
        cases l with
        | nil => simp at hl
        | cons s l =>
          have := ih l (by simpa using hl)
          simp only [List.zip_cons_cons, List.filter_cons]
          by_cases hc : absGt c tol <;> simp only [hc, if_true, List.map_cons, this] <;> simp [this]
    simp only [Nat.sub_zero] at h2
    rw [h2, h3 _ _ hA.len] at h1
    have h4 := congrArg (List.map (fun o : Option K => o.getD 0)) h1
    simp only [List.map_map] at h4
    rw [show (A.coeffs.zip A.basis.strs) = A.terms from rfl, ← hts] at h4
    rw [show (Prod.fst : K × OpString → K) = (fun o : Option K => o.getD 0) ∘ fun t => some t.1 from rfl, ← h4]
    apply List.map_congr_left
    intro i _
    simp [List.getD_eq_getElem?_getD]
  have e2 : ((List.range A.coeffs.length).filter (fun i => absGt (A.coeffs.getD i 0) tol)).map (fun i => A.basis.strs[i]?)
      = (ts.map Prod.snd).map some := by
    have h1 := range_filter_map A.coeffs (fun c => absGt c tol) (fun i => A.basis.strs[i]?)
    have h2 := filter_zipIdx_getD (fun c => absGt c tol) A.coeffs A.basis.strs hA.len 0
    simp only [Nat.sub_zero] at h2
    rw [h1, h2, List.map_map]; rfl
  refine ⟨⟨ts.map Prod.fst, Basis.ofList (ts.map Prod.snd), A.opType⟩, ?_, Operator.WF.mk' hnd (by simp) hty, rfl, ?_⟩
  · rw [Operator.removeZeros]
    simp only [bind, Except.bind, mapM_pyGet_ok e2, e1]
    exact mkOperator_ok (K := K) hnd hty
  · show (ts.map Prod.fst).zip (ts.map Prod.snd) = ts
    clear_value ts
    clear hts hsub hsub2 hnd hty e1 e2
    induction ts with
    | nil => rfl
    | cons t ts ih => simp [ih]

end Qosy
