import Verif.Lemmas.LieProjector
import Verif.Lemmas.MatOf
import Verif.Spec.LieOperators

/-! # The projector of `generate_lie_algebra` before the loops -/

namespace Qosy

theorem trimCoef_of {tol : ℝ} {A : Operator ℂ} (h : ∀ s, A.coef s = 0 ∨ tol < ‖A.coef s‖) : trimCoef tol A = A.coef := by
  funext s
  rw [trimCoef]
  split
  · rfl
  · rename_i h'; rcases h s with h | h
    · rw [h]
    · exact absurd h h'

open Classical in
theorem coefT_filter {tol : ℝ} : ∀ {ts : List (ℂ × OpString)}, (ts.map Prod.snd).Nodup → ∀ s,
    coefT (ts.filter fun t => tol < ‖t.1‖) s = if tol < ‖coefT ts s‖ then coefT ts s else 0
  | [], _, s => by simp
  | t :: ts, hn, s => by
    have hn' := List.nodup_cons.mp hn
    have ih := coefT_filter (tol := tol) hn'.2 s
    rw [List.filter_cons]
    by_cases hs : t.2 = s
    · have h0 : coefT ts s = 0 := coefT_of_not_mem (by rw [← hs]; exact hn'.1)
      rw [h0, ite_self] at ih
      by_cases ht : tol < ‖t.1‖
      · simp [ht, hs, ih, h0]
      · simp [ht, hs, ih, h0]
    · by_cases ht : tol < ‖t.1‖ <;> simp [ht, hs, ih]

theorem mapM_terms_index {l : List OpString} : ∀ ts : List (ℂ × OpString), (∀ t ∈ ts, t.2 ∈ l) →
    ts.mapM (fun t => do let i ← (Basis.ofList l).index t.2; Except.ok (i, t.1)) = (.ok (ts.map (fun t => (l.idxOf t.2, t.1))) : Py _) := by
  intro ts
  induction ts with
  | nil => intro _; rfl
  | cons t ts ih =>
    intro ht
    rw [List.mapM_cons, ih (fun t h' => ht t (List.mem_cons_of_mem _ h')), Basis.index_ofList, if_pos (ht t (List.mem_cons_self ..))]
    rfl

open Classical in
theorem operatorColumn_ok {tol : ℝ} {A : Operator ℂ} (hA : A.WF) {l : List OpString} (hl : l.Nodup) (h : ∀ s ∈ A.basis.strs, s ∈ l) :
    ∃ v, operatorColumn tol (Basis.ofList l) A = .ok v ∧ ∀ i : Fin l.length, v.getD i 0 = trimCoef tol A l[i] := by
  have hin : ∀ t ∈ A.terms, t.2 ∈ l := fun t ht => h _ (List.of_mem_zip ht).2
  refine ⟨((A.terms.map fun t => (l.idxOf t.2, t.1)).filter fun e => tol < ‖e.2‖).foldl (fun v e => v.set e.1 (v.getD e.1 0 + e.2)) (List.replicate (Basis.ofList l).len 0), ?_, ?_⟩
  · rw [operatorColumn, mapM_terms_index _ hin]
    rfl
  · rintro ⟨i, hi⟩
    rw [foldl_addAt]
    · have h0 : (List.replicate (Basis.ofList l).len (0 : ℂ)).getD i 0 = 0 := by
        rw [List.getD_eq_getElem?_getD, List.getElem?_replicate]; split <;> rfl
      simp only [h0, zero_add, Fin.getElem_fin]
      rw [List.filter_map, List.map_map]
      have := coefT_filter (tol := tol) (by rw [hA.terms_snd]; exact hA.basis.2) l[i]
      rw [trimCoef]
      refine Eq.trans ?_ this
      rw [coefT]
      congr 1
      apply List.map_congr_left
      intro t ht
      simp only [Function.comp]
      have : l.idxOf t.2 = i ↔ t.2 = l[i] := by
        constructor
        · intro h5; subst h5; simp
        · intro h5; rw [h5]; exact hl.idxOf_getElem i hi
      simp only [this]
    · intro e he
      obtain ⟨t, ht, rfl⟩ := List.mem_map.mp (List.mem_of_mem_filter he)
      simp only [List.length_replicate]
      exact List.idxOf_lt_length_iff.mpr (hin t ht)

/-! ### gram_schmidt of a sparse matrix -/

variable {n : ℕ}

theorem gsProject_zero (es : List (Fin n → ℂ)) (v : Fin n → ℂ) : gsProject (0 :: es) v = gsProject es v := by
  rw [gsProject]; simp

theorem gsLoop_zero {tol : ℝ} : ∀ (cols found : List (Fin n → ℂ)), gsLoop tol cols (0 :: found) = 0 :: gsLoop tol cols found
  | [], _ => rfl
  | c :: cols, found => by
    rw [gsLoop, gsLoop, gsProject_zero]
    split
    · exact gsLoop_zero cols _
    · exact gsLoop_zero cols found

theorem gsLoop_span {cols found : List (Fin n → ℂ)} (h : Ortho found) : Ortho (gsLoop 0 cols found) ∧ colSpan (gsLoop 0 cols found) = colSpan (found ++ cols) := by
  obtain ⟨h1, h2, h3, h4⟩ := gsLoop_spec (le_refl 0) cols found h
  refine ⟨h1, le_antisymm h3 (Submodule.span_le.mpr fun x hx => ?_)⟩
  rcases List.mem_append.mp hx with hx | hx
  · exact Submodule.subset_span (h2.subset hx)
  · obtain ⟨w, hw, hle⟩ := h4 x hx
    have : x - w = 0 := vnorm_eq_zero.mp (le_antisymm hle (vnorm_nonneg _))
    rw [sub_eq_zero.mp this]
    exact hw

theorem gramSchmidtSparse_ok (cols : List (Fin n → ℂ)) : ∃ q' : List (Fin n → ℂ), Ortho q' ∧ colSpan q' = colSpan cols ∧
    ∀ i j : Fin n, ((gramSchmidtSparse cols).map fun e => e i * star (e j)).sum = (q'.map fun e => e i * star (e j)).sum := by
  cases cols with
  | nil => exact ⟨[], ⟨by simp, List.Pairwise.nil⟩, rfl, fun i j => rfl⟩
  | cons c rest =>
    rw [gramSchmidtSparse]
    by_cases hn : n = 0
    · subst hn
      refine ⟨[], ⟨by simp, List.Pairwise.nil⟩, ?_, fun i => i.elim0⟩
      have : Subsingleton (Submodule ℂ (Fin 0 → ℂ)) := inferInstance
      exact Subsingleton.elim _ _
    rw [if_neg hn]
    by_cases hc : vnorm c = 0
    · rw [if_pos hc, gsLoop_zero]
      have h := gsLoop_span (cols := rest) (found := []) ⟨by simp, List.Pairwise.nil⟩
      refine ⟨_, h.1, ?_, fun i j => by simp⟩
      rw [h.2, List.nil_append, vnorm_eq_zero.mp hc]
      apply le_antisymm (colSpan_mono (fun x hx => List.mem_cons_of_mem _ hx))
      apply Submodule.span_le.mpr
      intro x hx
      rcases List.mem_cons.mp hx with rfl | hx
      · exact Submodule.zero_mem _
      · exact Submodule.subset_span hx
    · rw [if_neg hc]
      have h := gsLoop_span (cols := rest) (found := [vdiv c (vnorm c)]) ⟨by simpa using vdiv_unit hc, List.pairwise_singleton _ _⟩
      refine ⟨_, h.1, ?_, fun i j => rfl⟩
      rw [h.2]
      have hc' : (vnorm c : ℂ) ≠ 0 := by exact_mod_cast hc
      apply le_antisymm <;> apply Submodule.span_le.mpr <;> intro x hx
      · rcases List.mem_cons.mp hx with rfl | hx
        · rw [vdiv_eq]; exact Submodule.smul_mem _ _ (Submodule.subset_span (by simp))
        · exact Submodule.subset_span (List.mem_cons_of_mem _ hx)
      · rcases List.mem_cons.mp hx with rfl | hx
        · have : x = (vnorm x : ℂ) • vdiv x (vnorm x) := by rw [vdiv_eq, smul_smul, mul_inv_cancel₀ hc', one_smul]
          rw [this]
          refine Submodule.smul_mem _ _ (Submodule.subset_span ?_)
          rw [← this]; simp
        · exact Submodule.subset_span (by simp [hx])

/-! ### vectors in the coordinates of a list of strings -/

/-- a vector in the coordinates of a list of strings, as a function on strings -/
def liftVec (l : List OpString) (x : Fin l.length → ℂ) : OpString → ℂ := fun s => if h : l.idxOf s < l.length then x ⟨l.idxOf s, h⟩ else 0

theorem liftVec_get {l : List OpString} (hl : l.Nodup) (x : Fin l.length → ℂ) (i : Fin l.length) : liftVec l x l[i] = x i := by
  have h : l.idxOf l[i] = i := hl.idxOf_getElem i i.2
  rw [liftVec, dif_pos (by rw [h]; exact i.2)]
  congr 1; exact Fin.ext h

theorem liftVec_supp (l : List OpString) (x : Fin l.length → ℂ) : SuppOn l (liftVec l x) := fun s hs => by
  rw [liftVec, dif_neg]; rwa [List.idxOf_lt_length_iff]

/-- `liftVec` as a linear map -/
def liftLin (l : List OpString) : (Fin l.length → ℂ) →ₗ[ℂ] (OpString → ℂ) where
  toFun := liftVec l
  map_add' x y := by funext s; simp only [liftVec, Pi.add_apply]; split <;> simp
  map_smul' c x := by funext s; simp only [liftVec, Pi.smul_apply, RingHom.id_apply]; split <;> simp

theorem liftVec_of {l : List OpString} (hl : l.Nodup) {f : OpString → ℂ} (hf : SuppOn l f) {x : Fin l.length → ℂ} (h : ∀ i : Fin l.length, x i = f l[i]) : liftVec l x = f := by
  funext s
  by_cases hs : s ∈ l
  · have := List.idxOf_lt_length_iff.mpr hs
    have e : l[l.idxOf s] = s := List.getElem_idxOf this
    have h2 := liftVec_get hl x ⟨_, this⟩
    simp only [Fin.getElem_fin, e] at h2
    rw [h2, h]
    simp only [Fin.getElem_fin, e]
  · rw [liftVec_supp l x s hs, hf s hs]

theorem liftVec_inner {T : Finset OpString} {l : List OpString} (hl : l.Nodup) (hT : ∀ s ∈ l, s ∈ T) (x y : Fin l.length → ℂ) :
    inner ℂ (coefVec T (liftVec l x)) (coefVec T (liftVec l y)) = vdot x y := by
  rw [coefVec_inner_strs hl hT _ (liftVec_supp l x), vdot]
  refine Finset.sum_congr rfl fun i _ => ?_
  rw [liftVec_get hl, liftVec_get hl]

theorem columnsMat_wf (cols : List (Fin n → ℂ)) : (columnsMat cols).WF := by
  intro e he
  obtain ⟨k, _, hk⟩ := List.mem_flatMap.mp he
  obtain ⟨i, _, rfl⟩ := List.mem_map.mp hk
  exact ⟨i.2, k.2⟩

theorem columnsMat_get (cols : List (Fin n → ℂ)) (i : Fin n) (k : Fin cols.length) : (columnsMat cols).get i k = (cols.get k) i := by
  rw [Mat.get_eq]
  change tget ((List.finRange cols.length).flatMap fun k => (List.finRange n).map fun i => (i.1, k.1, (cols.get k) i)) i k = _
  rw [tget_flatMap, sum_finRange, Finset.sum_eq_single k]
  · rw [tget, List.map_map, sum_finRange, Finset.sum_eq_single i]
    · simp
    · intro j _ hj
      have : (j : ℕ) ≠ i := fun h => hj (Fin.ext h)
      simp [this]
    · simp
  · intro j _ hj
    have : (j : ℕ) ≠ k := fun h => hj (Fin.ext h)
    apply tget_eq_zero
    intro e he
    obtain ⟨i, _, rfl⟩ := List.mem_map.mp he
    right; exact this
  · simp

theorem combinedBasis_ok (ops : List (Operator ℂ)) : ∃ l : List OpString, combinedBasis ops = Basis.ofList l ∧ l.Nodup ∧
    ∀ s, s ∈ l ↔ ∃ A ∈ ops, s ∈ A.basis.strs := by
  suffices h : ∀ (a : List OpString), a.Nodup → ∃ l : List OpString, ops.foldl (fun b op => b.iadd op.basis) (Basis.ofList a) = Basis.ofList l ∧ l.Nodup ∧
      ∀ s, s ∈ l ↔ s ∈ a ∨ ∃ A ∈ ops, s ∈ A.basis.strs by
    obtain ⟨l, h1, h2, h3⟩ := h [] List.nodup_nil
    exact ⟨l, h1, h2, by simpa using h3⟩
  induction ops with
  | nil => intro a ha; exact ⟨a, rfl, ha, by simp⟩
  | cons A ops ih =>
    intro a ha
    rw [List.foldl_cons, Basis.iadd_ofList ha]
    obtain ⟨l, h1, h2, h3⟩ := ih _ (unionList_nodup ha _)
    refine ⟨l, h1, h2, fun s => ?_⟩
    rw [h3, mem_unionList]
    simp [or_assoc]

theorem forall₂_left {α β : Type} {R : α → β → Prop} {as : List α} {bs : List β} (h : List.Forall₂ R as bs) {a : α} (ha : a ∈ as) : ∃ b ∈ bs, R a b := by
  induction h with
  | nil => simp at ha
  | cons h _ ih =>
    rcases List.mem_cons.mp ha with rfl | ha
    · exact ⟨_, List.mem_cons_self .., h⟩
    · obtain ⟨b, hb, h⟩ := ih ha
      exact ⟨b, List.mem_cons_of_mem _ hb, h⟩

/-- the projector before the loops -/
theorem initialProjector_ok {tol : ℝ} {T : Finset OpString} {ops : List (Operator ℂ)} (hops : ∀ A ∈ ops, A.WF) {l : List OpString} (hl : l.Nodup)
    (hmem : ∀ A ∈ ops, ∀ s ∈ A.basis.strs, s ∈ l) (hT : ∀ s ∈ l, s ∈ T) :
    ∃ (P : Mat ℂ) (m : ℕ) (q : Fin m → OpString → ℂ), initialProjector tol (Basis.ofList l) ops = .ok P ∧ RepProj T l P q ∧
      Submodule.span ℂ (Set.range q) = Submodule.span ℂ {f | ∃ A ∈ ops, f = trimCoef tol A} := by
  have hcols : ∃ cols, ops.mapM (operatorColumn tol (Basis.ofList l)) = .ok cols ∧
      List.Forall₂ (fun A (v : List ℂ) => ∀ i : Fin l.length, v.getD i 0 = trimCoef tol A l[i]) ops cols := by
    clear hT
    induction ops with
    | nil => exact ⟨[], rfl, .nil⟩
    | cons A ops ih =>
      obtain ⟨cols, h1, h2⟩ := ih (fun A h => hops A (List.mem_cons_of_mem _ h)) (fun A h => hmem A (List.mem_cons_of_mem _ h))
      obtain ⟨v, h3, h4⟩ := operatorColumn_ok (tol := tol) (hops A (List.mem_cons_self ..)) hl (hmem A (List.mem_cons_self ..))
      exact ⟨v :: cols, by rw [List.mapM_cons, h3, h1]; rfl, .cons h4 h2⟩
  obtain ⟨cols, hc1, hc2⟩ := hcols
  set cs : List (Fin l.length → ℂ) := cols.map fun c i => c.getD i 0 with hcs
  obtain ⟨q', hq1, hq2, hq3⟩ := gramSchmidtSparse_ok cs
  have hgs := columnsMat_wf (gramSchmidtSparse cs)
  obtain ⟨P, hp1, hp2, hp3, hp4, hp5⟩ := Mat.dot_ok hgs (Mat.getH_wf hgs) rfl
  refine ⟨P, q'.length, fun k => liftVec l (q'.get k), ?_, ⟨hl, hT, hp4, hp2, hp3, fun k => liftVec_supp l _, ?_, ?_⟩, ?_⟩
  · rw [initialProjector, hc1]
    exact hp1
  · rw [orthonormal_iff_ite]
    intro i j
    rw [liftVec_inner hl hT]
    have := hq1.columns i j i.2 j.2
    simp only [Fin.val_inj] at this
    exact this
  · intro i j
    rw [hp5]
    have e1 : ∑ k : Fin (columnsMat (gramSchmidtSparse cs)).ncols, (columnsMat (gramSchmidtSparse cs)).get i k * (columnsMat (gramSchmidtSparse cs)).getH.get k j =
        ∑ k : Fin (gramSchmidtSparse cs).length, (gramSchmidtSparse cs).get k i * star ((gramSchmidtSparse cs).get k j) := by
      refine Finset.sum_congr rfl fun k _ => ?_
      rw [Mat.getH_get]
      have h1 := columnsMat_get (gramSchmidtSparse cs) i k
      have h2 := columnsMat_get (gramSchmidtSparse cs) j k
      rw [h1, h2]
    rw [e1]
    have e2 : ∀ (L : List (Fin l.length → ℂ)), ∑ k : Fin L.length, L.get k i * star (L.get k j) = (L.map fun e => e i * star (e j)).sum := by
      intro L
      rw [← List.sum_ofFn]
      congr 1
      apply List.ext_getElem <;> simp
    rw [e2, hq3, ← e2]
    refine Finset.sum_congr rfl fun k _ => ?_
    rw [liftVec_get hl, liftVec_get hl]
  · have e1 : Set.range (fun k => liftVec l (q'.get k)) = liftLin l '' {v | v ∈ q'} := by
      ext f
      constructor
      · rintro ⟨k, rfl⟩; exact ⟨_, List.get_mem _ _, rfl⟩
      · rintro ⟨x, hx, rfl⟩
        obtain ⟨k, rfl⟩ := List.get_of_mem hx
        exact ⟨k, rfl⟩
    have e2 : {f | ∃ A ∈ ops, f = trimCoef tol A} = liftLin l '' {v | v ∈ cs} := by
      have hlift : ∀ A ∈ ops, ∀ v : List ℂ, (∀ i : Fin l.length, v.getD i 0 = trimCoef tol A l[i]) → liftVec l (fun i => v.getD i 0) = trimCoef tol A := by
        intro A hA v hv
        refine liftVec_of hl ?_ hv
        intro s hs
        have : A.coef s = 0 := (hops A hA).coef_supp s fun h => hs (hmem A hA s h)
        rw [trimCoef, this, ite_self]
      ext f
      constructor
      · rintro ⟨A, hA, rfl⟩
        obtain ⟨v, hv, hv'⟩ := forall₂_left hc2 hA
        exact ⟨fun i => v.getD i 0, List.mem_map.mpr ⟨v, hv, rfl⟩, hlift A hA v hv'⟩
      · rintro ⟨x, hx, rfl⟩
        obtain ⟨v, hv, rfl⟩ := List.mem_map.mp hx
        obtain ⟨A, hA, hv'⟩ := forall₂_left hc2.flip hv
        exact ⟨A, hA, hlift A hA v hv'⟩
    rw [e1, e2, Submodule.span_image, Submodule.span_image]
    congr 1

end Qosy
