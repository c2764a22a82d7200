import Verif.Lemmas.Basis
import Mathlib.Data.List.GetD

/-! # Lemmas about `Operator` values -/

namespace Qosy
variable {K : Type} [Field K]

/-! ### Linear combinations -/

@[simp] theorem coefT_nil (s : OpString) : coefT ([] : List (K × OpString)) s = 0 := rfl
@[simp] theorem coefT_cons (t : K × OpString) (ts : List (K × OpString)) (s : OpString) :
    coefT (t :: ts) s = (if t.2 = s then t.1 else 0) + coefT ts s := by simp [coefT]
theorem coefT_append (a b : List (K × OpString)) (s : OpString) : coefT (a ++ b) s = coefT a s + coefT b s := by
  simp [coefT]

section
variable {M : Type} [AddCommMonoid M] [Module K M]
@[simp] theorem denT_nil (d : OpString → M) : denT d ([] : List (K × OpString)) = 0 := rfl
@[simp] theorem denT_cons (d : OpString → M) (t : K × OpString) (ts : List (K × OpString)) :
    denT d (t :: ts) = t.1 • d t.2 + denT d ts := by simp [denT]
theorem denT_append (d : OpString → M) (a b : List (K × OpString)) : denT d (a ++ b) = denT d a + denT d b := by
  simp [denT]

/-- the linear combination as a finitely supported function -/
noncomputable def finT (ts : List (K × OpString)) : OpString →₀ K := (ts.map (fun t => Finsupp.single t.2 t.1)).sum

theorem finT_apply (ts : List (K × OpString)) (s : OpString) : finT ts s = coefT ts s := by
  induction ts with
  | nil => simp [finT]
  | cons t ts ih =>
    have e : finT (t :: ts) = Finsupp.single t.2 t.1 + finT ts := by simp [finT]
    rw [e, Finsupp.add_apply, ih, coefT_cons, Finsupp.single_apply]

theorem denT_eq_linearCombination (d : OpString → M) (ts : List (K × OpString)) :
    denT d ts = Finsupp.linearCombination K d (finT ts) := by
  induction ts with
  | nil => simp [finT]
  | cons t ts ih =>
    have e : finT (t :: ts) = Finsupp.single t.2 t.1 + finT ts := by simp [finT]
    rw [e, map_add, denT_cons, ih, Finsupp.linearCombination_single]

/-- what a linear combination denotes depends only on its coefficients -/
theorem denT_congr (d : OpString → M) {a b : List (K × OpString)} (h : ∀ s, coefT a s = coefT b s) :
    denT d a = denT d b := by
  rw [denT_eq_linearCombination, denT_eq_linearCombination]
  congr 1
  ext s; rw [finT_apply, finT_apply, h]

theorem denT_add (d : OpString → M) {a b c : List (K × OpString)} (h : ∀ s, coefT a s = coefT b s + coefT c s) :
    denT d a = denT d b + denT d c := by
  rw [← denT_append]
  exact denT_congr d (fun s => by rw [h, coefT_append])

theorem denT_smul (d : OpString → M) {a b : List (K × OpString)} (x : K) (h : ∀ s, coefT a s = x * coefT b s) :
    denT d a = x • denT d b := by
  have e : denT d (b.map (fun t => (x * t.1, t.2))) = x • denT d b := by
    induction b generalizing a with
    | nil => simp
    | cons t b ih =>
      rw [List.map_cons, denT_cons, denT_cons, smul_add, smul_smul, ih (a := b.map (fun t => (x * t.1, t.2)))]
      intro s
      clear h ih
      induction b with
      | nil => simp
      | cons u b ih => simp only [List.map_cons, coefT_cons, ih, mul_add]; split <;> simp
  rw [← e]
  apply denT_congr
  intro s
  rw [h]
  clear h e
  induction b with
  | nil => simp
  | cons u b ih => simp only [List.map_cons, coefT_cons, ← ih, mul_add]; split <;> simp

end

theorem coefT_of_not_mem {ts : List (K × OpString)} {s : OpString} (h : s ∉ ts.map Prod.snd) : coefT ts s = 0 := by
  induction ts with
  | nil => rfl
  | cons t ts ih =>
    simp only [List.map_cons, List.mem_cons, not_or] at h
    rw [coefT_cons, if_neg (Ne.symm h.1), ih h.2, add_zero]

/-- coefficients of a list of coefficients zipped with distinct strings -/
theorem coefT_zip {cs : List K} {strs : List OpString} (hl : cs.length = strs.length) (hn : strs.Nodup) (s : OpString) :
    coefT (cs.zip strs) s = if s ∈ strs then cs.getD (strs.idxOf s) 0 else 0 := by
  induction strs generalizing cs with
  | nil => simp at hl; simp [hl]
  | cons t strs ih =>
    cases cs with
    | nil => simp at hl
    | cons c cs =>
      rw [List.nodup_cons] at hn
      rw [List.zip_cons_cons, coefT_cons, ih (by simpa using hl) hn.2]
      by_cases h : t = s
      · subst h; simp [hn.1]
      · have h' : s ≠ t := fun e => h e.symm
        simp [h, h', List.idxOf_cons_ne _ h]

theorem coefT_zip_mem {cs : List K} {strs : List OpString} (hl : cs.length = strs.length) (hn : strs.Nodup) (i : ℕ)
    (hi : i < strs.length) : coefT (cs.zip strs) strs[i] = cs[i] := by
  rw [coefT_zip hl hn, if_pos (List.getElem_mem hi), hn.idxOf_getElem, List.getD_eq_getElem]

/-! ### Scatter-add -/

theorem foldl_set_length (es : List (ℕ × K)) (v : List K) : (es.foldl (fun v e => v.set e.1 e.2) v).length = v.length := by
  induction es generalizing v with
  | nil => rfl
  | cons e es ih => rw [List.foldl_cons, ih, List.length_set]

theorem foldl_set_getD {inds : List ℕ} {xs v : List K} (hn : inds.Nodup) (hl : inds.length = xs.length)
    (hv : ∀ i ∈ inds, i < v.length) (i : ℕ) :
    ((inds.zip xs).foldl (fun v e => v.set e.1 e.2) v).getD i 0 =
      if i ∈ inds then xs.getD (inds.idxOf i) 0 else v.getD i 0 := by
  induction inds generalizing xs v with
  | nil => simp
  | cons j inds ih =>
    cases xs with
    | nil => simp at hl
    | cons x xs =>
      rw [List.nodup_cons] at hn
      rw [List.zip_cons_cons, List.foldl_cons, ih hn.2 (by simpa using hl) (by
        intro i hi; rw [List.length_set]; exact hv i (List.mem_cons_of_mem _ hi))]
      have hj := hv j (List.mem_cons_self ..)
      by_cases h : i = j
      · subst h
        simp [hn.1, List.getD_eq_getElem?_getD, hj]
      · have h' : j ≠ i := fun e => h e.symm
        simp [h, List.idxOf_cons_ne _ h', List.getD_eq_getElem?_getD, h']

theorem gather_ok {v : List K} {inds : List ℕ} (h : ∀ i ∈ inds, i < v.length) :
    gather v inds = .ok (inds.map (fun i => v.getD i 0)) := by
  induction inds with
  | nil => rfl
  | cons i inds ih =>
    have hi := h i (List.mem_cons_self ..)
    rw [gather, List.mapM_cons, ← gather, ih (fun j hj => h j (List.mem_cons_of_mem _ hj)), pyGet, List.getElem?_eq_getElem hi]
    simp [bind, Except.bind, pure, Except.pure, List.getD_eq_getElem?_getD, hi]

theorem scatterAdd_ok {v w : List K} {inds : List ℕ} (h : ∀ i ∈ inds, i < v.length) (hl : w.length = inds.length)
    (hn : inds.Nodup) :
    ∃ v', scatterAdd v inds w = .ok v' ∧ v'.length = v.length ∧
      ∀ i, v'.getD i 0 = v.getD i 0 + if i ∈ inds then w.getD (inds.idxOf i) 0 else 0 := by
  refine ⟨_, ?_, foldl_set_length (inds.zip (List.zipWith (· + ·) (inds.map (fun i => v.getD i 0)) w)) v, ?_⟩
  · simp only [scatterAdd, gather_ok h, broadcastTo, hl, if_true, bind, Except.bind]
  · intro i
    rw [foldl_set_getD hn (by simp [hl]) h]
    by_cases hi : i ∈ inds
    · have hlt := List.idxOf_lt_length_iff.mpr hi
      have hlt' : inds.idxOf i < w.length := by omega
      simp [hi, List.getD_eq_getElem?_getD, hlt, hlt', List.getElem?_zipWith]
    · simp [hi]

/-! ### Construction and arithmetic -/

theorem mkOperatorB_ok {cs : List K} {b : Basis} {t : OpType} (ht : ∀ s ∈ b.strs, s.opType = t) :
    mkOperatorB cs b (some t) = .ok ⟨cs, b, t⟩ := by
  obtain ⟨strs, idx⟩ := b
  cases strs with
  | nil => rfl
  | cons s ss => simp only [mkOperatorB]; rw [ht s (List.mem_cons_self ..)]

theorem mkOperator_ok {cs : List K} {strs : List OpString} {t : OpType} (hn : strs.Nodup)
    (ht : ∀ s ∈ strs, s.opType = t) : mkOperator cs strs (some t) = .ok ⟨cs, Basis.ofList strs, t⟩ := by
  rw [mkOperator, mkBasis_ok hn]; exact mkOperatorB_ok ht

theorem Operator.WF.mk' {cs : List K} {strs : List OpString} {t : OpType} (hn : strs.Nodup)
    (hl : cs.length = strs.length) (ht : ∀ s ∈ strs, s.opType = t) :
    (⟨cs, Basis.ofList strs, t⟩ : Operator K).WF := ⟨Basis.Inv.ofList hn, hl, ht⟩

theorem Operator.WF.eq {A : Operator K} (h : A.WF) : A = ⟨A.coeffs, Basis.ofList A.basis.strs, A.opType⟩ := by
  obtain ⟨c, b, t⟩ := A
  have := h.basis.1
  simp only at this ⊢
  rw [← this]

theorem Operator.WF.coef_eq {A : Operator K} (h : A.WF) (s : OpString) :
    A.coef s = if s ∈ A.basis.strs then A.coeffs.getD (A.basis.strs.idxOf s) 0 else 0 :=
  coefT_zip h.len h.basis.2 s

theorem mapM_index_ofList {l strs : List OpString} (h : ∀ s ∈ strs, s ∈ l) :
    strs.mapM (Basis.ofList l).index = .ok (strs.map l.idxOf) := by
  induction strs with
  | nil => rfl
  | cons s strs ih =>
    rw [List.mapM_cons, ih (fun t ht => h t (List.mem_cons_of_mem _ ht)), Basis.index_ofList,
      if_pos (h s (List.mem_cons_self ..))]
    rfl

theorem idxOf_injOn (l : List OpString) {s t : OpString} (hs : s ∈ l) (h : l.idxOf s = l.idxOf t) : s = t := by
  have h1 := List.idxOf_lt_length_iff.mpr hs
  have h2 : l[l.idxOf s]? = some s := by rw [List.getElem?_eq_getElem h1, List.getElem_idxOf]
  have h3 : l.idxOf t < l.length := h ▸ h1
  have h4 : l[l.idxOf t]? = some t := by rw [List.getElem?_eq_getElem h3, List.getElem_idxOf]
  rw [h, h4] at h2
  exact (Option.some.inj h2).symm

theorem idxOf_map_idxOf {l strs : List OpString} (h : ∀ s ∈ strs, s ∈ l) {s : OpString} (hs : s ∈ strs) :
    (strs.map l.idxOf).idxOf (l.idxOf s) = strs.idxOf s := by
  induction strs with
  | nil => simp at hs
  | cons t strs ih =>
    by_cases e : t = s
    · subst e; simp
    · have hne : l.idxOf t ≠ l.idxOf s := fun h' => e (idxOf_injOn l (h t (List.mem_cons_self ..)) h')
      rw [List.map_cons, List.idxOf_cons_ne _ hne, List.idxOf_cons_ne _ e,
        ih (fun u hu => h u (List.mem_cons_of_mem _ hu)) ((List.mem_cons.mp hs).resolve_left (Ne.symm e))]

theorem addInto_ok {cs : List K} {a : List OpString} {t : OpType} (hn : a.Nodup) (hl : cs.length = a.length)
    {B : Operator K} (hB : B.WF) :
    ∃ cs', addInto cs (Basis.ofList a) a.length B = .ok (cs', Basis.ofList (unionList a B.basis.strs)) ∧
      cs'.length = (unionList a B.basis.strs).length ∧
      ∀ s, (⟨cs', Basis.ofList (unionList a B.basis.strs), t⟩ : Operator K).coef s =
        (⟨cs, Basis.ofList a, t⟩ : Operator K).coef s + B.coef s := by
  set u := unionList a B.basis.strs with hu
  have hun : u.Nodup := unionList_nodup hn _
  obtain ⟨tl, htl⟩ : ∃ tl, u = a ++ tl := unionList_prefix a _
  have hsub : ∀ s ∈ B.basis.strs, s ∈ u := fun s hs => mem_unionList.mpr (Or.inr hs)
  set pad := cs ++ List.replicate (u.length - a.length) (0 : K) with hpad
  have hpl : pad.length = u.length := by
    have : a.length ≤ u.length := by rw [htl]; simp
    simp [hpad, hl]; omega
  have hinds : ∀ i ∈ B.basis.strs.map u.idxOf, i < pad.length := by
    intro i hi
    obtain ⟨s, hs, rfl⟩ := List.mem_map.mp hi
    rw [hpl]; exact List.idxOf_lt_length_iff.mpr (hsub s hs)
  have hnod : (B.basis.strs.map u.idxOf).Nodup := by
    apply List.Nodup.map_on _ hB.basis.2
    intro x hx y _ hxy
    exact idxOf_injOn u (hsub x hx) hxy
  obtain ⟨v', h1, h2, h3⟩ := scatterAdd_ok hinds (w := B.coeffs) (by simp [hB.len]) hnod
  refine ⟨v', ?_, by rw [h2, hpl], ?_⟩
  · simp only [addInto, addTail, Basis.iadd_ofList hn, ← hu, Basis.ofList_len, ← hpad, mapM_index_ofList hsub, bind, Except.bind, h1]
  · intro s
    have hlen' : v'.length = u.length := by rw [h2, hpl]
    have e1 : (⟨v', Basis.ofList u, t⟩ : Operator K).coef s = if s ∈ u then v'.getD (u.idxOf s) 0 else 0 :=
      coefT_zip hlen' hun s
    have e2 : (⟨cs, Basis.ofList a, t⟩ : Operator K).coef s = if s ∈ a then cs.getD (a.idxOf s) 0 else 0 :=
      coefT_zip hl hn s
    rw [e1, e2, hB.coef_eq, h3]
    by_cases hsu : s ∈ u
    · rw [if_pos hsu]
      congr 1
      · by_cases hsa : s ∈ a
        · have : u.idxOf s = a.idxOf s := by rw [htl, List.idxOf_append_of_mem hsa]
          have h5 := List.idxOf_lt_length_iff.mpr hsa
          rw [if_pos hsa, this, hpad, List.getD_append _ _ _ _ (by rw [hl]; exact h5)]
        · rw [if_neg hsa]
          have : u.idxOf s = a.length + tl.idxOf s := by rw [htl, List.idxOf_append_of_notMem hsa, Nat.add_comm]
          rw [hpad, List.getD_append_right _ _ _ _ (by omega), List.getD_eq_getElem?_getD, List.getElem?_replicate]
          split <;> rfl
      · by_cases hsb : s ∈ B.basis.strs
        · rw [if_pos hsb, if_pos (List.mem_map_of_mem hsb), idxOf_map_idxOf hsub hsb]
        · rw [if_neg hsb, if_neg]
          intro hm
          obtain ⟨x, hx, hxs⟩ := List.mem_map.mp hm
          exact hsb (idxOf_injOn u (hsub x hx) hxs ▸ hx)
    · have h5 : s ∉ a := fun h => hsu (mem_unionList.mpr (Or.inl h))
      have h6 : s ∉ B.basis.strs := fun h => hsu (hsub s h)
      simp [hsu, h5, h6]

theorem Operator.iadd_ok {A B : Operator K} (hA : A.WF) (hB : B.WF) (ht : A.opType = B.opType) :
    ∃ C, A.iadd B = .ok C ∧ C.WF ∧ C.opType = A.opType ∧ C.basis.strs = unionList A.basis.strs B.basis.strs ∧
      ∀ s, C.coef s = A.coef s + B.coef s := by
  obtain ⟨cs', h1, h2, h3⟩ := addInto_ok (t := A.opType) hA.basis.2 hA.len hB
  refine ⟨⟨cs', Basis.ofList (unionList A.basis.strs B.basis.strs), A.opType⟩, ?_, ?_, rfl, rfl, ?_⟩
  · rw [Operator.iadd, if_neg (not_not.mpr ht)]
    rw [show addInto A.coeffs A.basis A.basis.len B = .ok (cs', Basis.ofList (unionList A.basis.strs B.basis.strs)) by
      conv_lhs => rw [hA.basis.1]
      exact h1]
    rfl
  · refine Operator.WF.mk' (unionList_nodup hA.basis.2 _) h2 ?_
    intro s hs
    rcases mem_unionList.mp hs with h | h
    · exact hA.type s h
    · rw [hB.type s h, ht]
  · intro s
    rw [h3, ← hA.eq]

theorem Operator.add_eq_iadd {A B : Operator K} (hA : A.WF) : A.add B = A.iadd B := by
  rw [Operator.add, Operator.iadd]
  split
  · rfl
  · rw [mkOperator_ok hA.basis.2 hA.type]
    simp only [bind, Except.bind]
    rw [← hA.basis.1]

theorem Operator.smul_ok {A : Operator K} (hA : A.WF) (x : K) :
    ∃ C, A.smul x = .ok C ∧ C.WF ∧ C.opType = A.opType ∧ C.basis.strs = A.basis.strs ∧ ∀ s, C.coef s = x * A.coef s := by
  refine ⟨_, mkOperator_ok hA.basis.2 hA.type, Operator.WF.mk' hA.basis.2 (by simp [hA.len]) hA.type, rfl, rfl, ?_⟩
  intro s
  rw [hA.coef_eq]
  have : (⟨A.coeffs.map (· * x), Basis.ofList A.basis.strs, A.opType⟩ : Operator K).coef s = _ :=
    coefT_zip (by simp [hA.len]) hA.basis.2 s
  rw [this]
  by_cases h : s ∈ A.basis.strs
  · have h5 := List.idxOf_lt_length_iff.mpr h
    rw [← hA.len] at h5
    simp [h, List.getD_eq_getElem?_getD, h5, mul_comm]
  · simp [h]

end Qosy
