import Verif.Lemmas.GeneratorProject
import Verif.Lemmas.FermionToMajorana
import Verif.Props.Operator

/-! # The cumulative mode of the generator -/

namespace Qosy
open Matrix Coef
variable {𝔸 : Type} [Ring 𝔸] [Algebra ℂ 𝔸] {t : OpType} {V : OpString → Prop}

open Classical in
/-- the indices of the non-zero entries -/
noncomputable def supportIndices {n : ℕ} (v : Fin n → ℂ) : List (Fin n) := (List.finRange n).filter (fun i => v i ≠ 0)

theorem keptIndices_support {n : ℕ} (v : Fin n → ℂ) : ∃ δ > 0, ∀ tol : ℝ, 0 < tol → tol ≤ δ → keptIndices tol v = supportIndices v := by
  classical
  by_cases hv : ∃ i, v i ≠ 0
  · obtain ⟨i0, h0⟩ := hv
    obtain ⟨i, hi, hmin⟩ := Finset.exists_min_image (Finset.univ.filter (fun i => v i ≠ 0)) (fun i => ‖v i‖) ⟨i0, by simpa using h0⟩
    have hi' : v i ≠ 0 := by simpa using hi
    refine ⟨‖v i‖ / 2, by positivity, fun tol t1 t2 => ?_⟩
    unfold keptIndices supportIndices
    apply List.filter_congr
    intro j _
    apply Bool.eq_iff_iff.mpr
    simp only [decide_eq_true_eq]
    constructor
    · intro h e
      rw [e, norm_zero] at h
      linarith
    · intro h
      have := hmin j (by simpa using h)
      have := norm_pos_iff.mpr hi'
      linarith
  · push Not at hv
    refine ⟨1, one_pos, fun tol t1 t2 => ?_⟩
    unfold keptIndices supportIndices
    apply List.filter_congr
    intro j _
    simp [hv j, t1.le]

theorem sum_support {n : ℕ} (v f : Fin n → ℂ) (h : ∀ i, v i = 0 → f i = 0) : ((supportIndices v).map f).sum = ∑ i, f i := by
  classical
  have e : ∀ l : List (Fin n), ((l.filter (fun i => v i ≠ 0)).map f).sum = (l.map f).sum := by
    intro l
    induction l with
    | nil => rfl
    | cons i l ih =>
      by_cases hi : v i = 0
      · rw [List.filter_cons_of_neg (by simpa using hi), ih, List.map_cons, List.sum_cons, h i hi, zero_add]
      · rw [List.filter_cons_of_pos (by simpa using hi), List.map_cons, List.sum_cons, ih, List.map_cons, List.sum_cons]
  unfold supportIndices
  rw [e]
  rw [← List.ofFn_eq_map, List.sum_ofFn]

theorem mapM_pyGet_fin {α : Type} (l : List α) : ∀ inds : List (Fin l.length), List.mapM (fun i : Fin l.length => pyGet l i) inds = .ok (inds.map (fun i => l[i]))
  | [] => rfl
  | i :: inds => by
    rw [List.mapM_cons, mapM_pyGet_fin l inds]
    simp [pyGet, bind, Except.bind, pure, Except.pure]

/-- the norm of an Operator in terms of its coefficients -/
theorem Operator.WF.norm_sq {A : Operator ℂ} (h : A.WF) : ∑ s ∈ A.basis.strs.toFinset, star (A.coef s) * A.coef s = ((A.norm .l2 ^ 2 : ℝ) : ℂ) := by
  have h0 : 0 ≤ (A.coeffs.map (fun c => ‖c‖ ^ 2)).sum := List.sum_nonneg (by
    intro x hx
    obtain ⟨c, -, rfl⟩ := List.mem_map.mp hx
    positivity)
  rw [Operator.norm, Real.sq_sqrt h0, List.sum_toFinset _ h.basis.2]
  have e : A.coeffs = A.basis.strs.map A.coef := by
    apply List.ext_getElem (by simp [h.len])
    intro i h1 h2
    rw [List.getElem_map]
    exact (coefT_zip_mem h.len h.basis.2 i _).symm
  conv_rhs => rw [e]
  rw [List.map_map]
  induction A.basis.strs with
  | nil => simp
  | cons s ss ih =>
    rw [List.map_cons, List.sum_cons, ih, List.map_cons, List.sum_cons]
    push_cast
    congr 1
    simp only [Function.comp_apply]
    rw [Complex.star_def, mul_comm, Complex.mul_conj, Complex.normSq_eq_norm_sq]

theorem Operator.norm_eq_one {A : Operator ℂ} (h : A.WF) : A.norm .l2 = 1 ↔ ∑ s ∈ A.basis.strs.toFinset, star (A.coef s) * A.coef s = 1 := by
  rw [h.norm_sq]
  have h0 : 0 ≤ A.norm .l2 := Real.sqrt_nonneg _
  constructor
  · intro e; rw [e]; simp
  · intro e
    have e' : A.norm .l2 ^ 2 = 1 := by exact_mod_cast e
    nlinarith

/-- what `vectorOperator` has to return for the coefficients `v` -/
structure IsCombination (t : OpType) (V : OpString → Prop) (x : BasisArg ℂ) (v : Fin x.len → ℂ) (B : Operator ℂ) : Prop where
  on : B.On t V
  norm : B.norm .l2 = 1
  coef : ∃ r : ℝ, 0 < r ∧ ∀ s, B.coef s = r * ∑ j, v j * x.coef j s

theorem vectorOperator_strings {b : Basis} (hx : (BasisArg.strings b).On t V) (ht : ∀ s, V s → s.opType = t)
    {v : Fin b.strs.length → ℂ} (hv : vnorm v = 1) : ∃ δ > 0, ∃ B, (∀ tol, 0 < tol → tol ≤ δ → vectorOperator (.strings b) tol v = .ok B) ∧
      IsCombination t V (.strings b) v B := by
  classical
  have hn : b.strs.Nodup := hx.1.2
  obtain ⟨δ, hδ, hk⟩ := keptIndices_support v
  obtain ⟨inds, hinds'⟩ : ∃ inds, inds = supportIndices v := ⟨_, rfl⟩
  have hinds : inds.Nodup := hinds' ▸ (List.nodup_finRange _).filter _
  have hmem : ∀ i, i ∈ inds ↔ v i ≠ 0 := by intro i; rw [hinds', supportIndices, List.mem_filter]; simp
  obtain ⟨strs, hstrs⟩ : ∃ strs, strs = inds.map (fun i => b.strs[i]) := ⟨_, rfl⟩
  have hsn : strs.Nodup := hstrs ▸ hinds.map (fun i j e => Fin.ext (hn.getElem_inj_iff.mp e))
  have hsV : ∀ s ∈ strs, V s := by
    intro s hs
    rw [hstrs] at hs
    obtain ⟨i, -, rfl⟩ := List.mem_map.mp hs
    exact hx.2 _ (List.getElem_mem _)
  have hne : strs ≠ [] := by
    have h1 : v ≠ 0 := by rintro rfl; rw [vnorm_eq_zero.mpr rfl] at hv; exact zero_ne_one hv
    obtain ⟨i, hi⟩ := Function.ne_iff.mp h1
    exact hstrs ▸ List.ne_nil_of_mem (List.mem_map.mpr ⟨i, (hmem i).mpr hi, rfl⟩)
  obtain ⟨B, hBe⟩ : ∃ B : Operator ℂ, B = ⟨inds.map v, Basis.ofList strs, t⟩ := ⟨_, rfl⟩
  have hB : B.On t V := hBe ▸ ⟨⟨Basis.Inv.ofList hsn, by simp [hstrs, Basis.ofList], fun s hs => ht s (hsV s hs)⟩, rfl, hsV⟩
  have hcoef : ∀ s, B.coef s = ∑ j : Fin b.strs.length, v j * (if b.strs[j] = s then 1 else 0) := by
    intro s
    have e : B.coef s = (inds.map (fun i => if b.strs[i] = s then v i else 0)).sum := by
      rw [hBe]
      show (((inds.map v).zip strs).map _).sum = _
      rw [hstrs, List.zip_map', List.map_map]
      rfl
    rw [e, hinds', sum_support v (fun i => if b.strs[i] = s then v i else 0) (fun i hi => by simp [hi])]
    apply Finset.sum_congr rfl
    intro j _
    rw [mul_ite, mul_one, mul_zero]
  refine ⟨δ, hδ, B, fun tol t1 t2 => ?_, hB, ?_, 1, one_pos, fun s => ?_⟩
  · show (do
      let strs ← (keptIndices tol v).mapM (fun (i : Fin b.strs.length) => pyGet b.strs i)
      mkOperator ((keptIndices tol v).map v) strs none : Py _) = _
    rw [hk tol t1 t2, ← hinds', mapM_pyGet_fin b.strs inds, ← hstrs, hBe]
    exact mkOperator_none_ok hne hsn (fun s hs => ht s (hsV s hs))
  · rw [Operator.norm_eq_one hB.wf]
    have h1 := vnorm_sq v
    rw [hv] at h1
    have hc : ∀ i : Fin b.strs.length, B.coef b.strs[i] = v i := by
      intro i
      rw [hcoef, Finset.sum_eq_single i]
      · simp
      · intro j _ hj
        rw [if_neg, mul_zero]
        intro e
        exact hj (Fin.ext (hn.getElem_inj_iff.mp e))
      · simp
    have e0 : B.basis.strs = strs := by rw [hBe]; rfl
    have e2 : ((fun s => star (B.coef s) * B.coef s) ∘ fun i : Fin b.strs.length => b.strs[i]) = fun i => star (v i) * v i := by
      funext i
      simp only [Function.comp_apply, hc]
    rw [e0, List.sum_toFinset _ hsn, hstrs, List.map_map, e2, hinds', sum_support v _ (fun i hi => by rw [hi]; simp)]
    simp only [one_pow, Complex.ofReal_one] at h1
    rw [h1]
    rfl
  · rw [hcoef, Complex.ofReal_one, one_mul]
    rfl

theorem addMultiples_ok {l : List (Operator ℂ)} (hl : ∀ o ∈ l, o.On t V) (v : Fin l.length → ℂ) : ∀ (inds : List (Fin l.length)) (A : Operator ℂ), A.On t V →
    ∃ C, addMultiples l v inds A = .ok C ∧ C.On t V ∧ ∀ s, C.coef s = A.coef s + (inds.map (fun i => v i * l[i].coef s)).sum
  | [], A, hA => ⟨A, rfl, hA, by simp⟩
  | i :: inds, A, hA => by
    have ho := hl l[i] (List.getElem_mem _)
    obtain ⟨M, m1, m2, m3, m4, m5⟩ := Operator.smul_ok ho.wf (v i)
    obtain ⟨C, c1, c2, c3, c4, c5⟩ := Operator.iadd_ok hA.wf m2 (hA.type.trans (m3.trans ho.type).symm)
    have hC : C.On t V := by
      refine ⟨c2, c3.trans hA.type, fun s hs => ?_⟩
      rw [c4, mem_unionList, m4] at hs
      exact hs.elim (hA.mem s) (ho.mem s)
    obtain ⟨D, d1, d2, d3⟩ := addMultiples_ok hl v inds C hC
    refine ⟨D, ?_, d2, fun s => ?_⟩
    · have hg : pyGet l (i : ℕ) = .ok l[i] := by simp [pyGet]
      simp only [addMultiples, hg, m1, c1, bind, Except.bind]
      exact d1
    · rw [d3, c5, m5, List.map_cons, List.sum_cons]
      ring

theorem vectorOperator_operators {l : List (Operator ℂ)} (hx : (BasisArg.operators l).On t V) (hind : (BasisArg.operators l).Independent) (hne : l ≠ [])
    {v : Fin l.length → ℂ} (hv : v ≠ 0) : ∃ δ > 0, ∃ B, (∀ tol, 0 < tol → tol ≤ δ → vectorOperator (.operators l) tol v = .ok B) ∧
      IsCombination t V (.operators l) v B := by
  classical
  obtain ⟨δ, hδ, hk⟩ := keptIndices_support v
  obtain ⟨o, l', rfl⟩ := List.exists_cons_of_ne_nil hne
  have hl : ∀ o' ∈ o :: l', o'.On t V := hx
  have ho := hl o (List.mem_cons_self ..)
  have hz : (⟨[], Basis.ofList [], o.opType⟩ : Operator ℂ).On t V := ⟨⟨Basis.Inv.ofList List.nodup_nil, rfl, by simp [Basis.ofList]⟩, ho.type, by simp [Basis.ofList]⟩
  obtain ⟨A, a1, a2, a3⟩ := addMultiples_ok hl v (supportIndices v) _ hz
  have hA : ∀ s, A.coef s = ∑ j, v j * (BasisArg.operators (o :: l')).coef j s := by
    intro s
    rw [a3, sum_support v (fun i => v i * (o :: l')[i].coef s) (fun i hi => by simp [hi])]
    have : (⟨[], Basis.ofList [], o.opType⟩ : Operator ℂ).coef s = 0 := rfl
    rw [this, zero_add]
    rfl
  have hnz : ∃ c ∈ A.coeffs, c ≠ 0 := by
    by_contra hcon
    push Not at hcon
    apply hv
    apply hind v
    intro s
    refine (hA s).symm.trans ?_
    rw [a2.wf.coef_eq]
    split
    · rename_i hs
      rw [List.getD_eq_getElem _ _ (by rw [a2.wf.len]; exact List.idxOf_lt_length_of_mem hs)]
      exact hcon _ (List.getElem_mem _)
    · rfl
  obtain ⟨B, r, b1, b2, b3, b4, b5, b6, -⟩ := C13_normalize A .l2 hnz
  have hB : B.On t V := by
    refine ⟨⟨b4 ▸ a2.wf.basis, ?_, ?_⟩, b5.trans a2.type, ?_⟩
    · rw [b3, b4, List.length_map, a2.wf.len]
    · rw [b4, b5]; exact a2.wf.type
    · rw [b4]; exact a2.mem
  refine ⟨δ, hδ, B, fun tol t1 t2 => ?_, hB, b6, r, b2, fun s => ?_⟩
  · have h0 : mkOperator ([] : List ℂ) [] (some o.opType) = .ok ⟨[], Basis.ofList [], o.opType⟩ := mkOperator_ok List.nodup_nil (by simp)
    simp only [vectorOperator, hk tol t1 t2, pyGet, List.getElem?_cons_zero, h0, bind, Except.bind, a1, b1]
  · refine Eq.trans ?_ (congrArg (fun c => (r : ℂ) * c) (hA s))
    rw [hB.wf.coef_eq, a2.wf.coef_eq, b3, b4]
    split
    · rename_i hs
      have hi : A.basis.strs.idxOf s < A.coeffs.length := by rw [a2.wf.len]; exact List.idxOf_lt_length_of_mem hs
      rw [List.getD_eq_getElem _ _ (by rw [List.length_map]; exact hi), List.getD_eq_getElem _ _ hi, List.getElem_map, mul_comm]
    · simp

theorem vectorOperator_ok {x : BasisArg ℂ} (hx : x.On t V) (ht : ∀ s, V s → s.opType = t) (hind : x.Independent) (hne : x ≠ .operators [])
    {v : Fin x.len → ℂ} (hv : vnorm v = 1) : ∃ δ > 0, ∃ B, (∀ tol, 0 < tol → tol ≤ δ → vectorOperator x tol v = .ok B) ∧ IsCombination t V x v B := by
  cases x with
  | strings b => exact vectorOperator_strings hx ht hv
  | operators l =>
    exact vectorOperator_operators hx hind (fun h => hne (by rw [h])) (fun h0 => zero_ne_one ((vnorm_eq_zero.mpr h0).symm.trans hv))

theorem vectorOperators_ok {x : BasisArg ℂ} (hx : x.On t V) (ht : ∀ s, V s → s.opType = t) (hind : x.Independent) (hne : x ≠ .operators []) :
    ∀ q : List (Fin x.len → ℂ), (∀ v ∈ q, vnorm v = 1) →
      ∃ δ > 0, ∃ ops, (∀ tol, 0 < tol → tol ≤ δ → q.mapM (vectorOperator x tol) = .ok ops) ∧ List.Forall₂ (IsCombination t V x) q ops
  | [], _ => ⟨1, one_pos, [], fun _ _ _ => rfl, .nil⟩
  | v :: q, h => by
    obtain ⟨δ1, d1, B, h1, h2⟩ := vectorOperator_ok hx ht hind hne (h v (List.mem_cons_self ..))
    obtain ⟨δ2, d2, ops, h3, h4⟩ := vectorOperators_ok hx ht hind hne q (fun w hw => h w (List.mem_cons_of_mem _ hw))
    refine ⟨min δ1 δ2, lt_min d1 d2, B :: ops, fun tol t1 t2 => ?_, .cons h2 h4⟩
    rw [List.mapM_cons, h1 tol t1 (t2.trans (min_le_left _ _)), h3 tol t1 (t2.trans (min_le_right _ _))]
    rfl

theorem mem_colSpan_cast {n : ℕ} {q : List (Fin n → ℂ)} {v : Fin n → ℂ} : ∀ {m : ℕ} (h : m = q.length),
    v ∈ colSpan q ↔ ∃ c : Fin m → ℂ, ∑ i, c i • q.get (Fin.cast h i) = v := by
  rintro m rfl
  rw [colSpan_range, Submodule.mem_span_range_iff_exists_fun]
  rfl

theorem IndependentColumns.cast {n : ℕ} {q : List (Fin n → ℂ)} (hq : IndependentColumns q) : ∀ {m : ℕ} (h : m = q.length) (c : Fin m → ℂ),
    ∑ i, c i • q.get (Fin.cast h i) = 0 → ∀ i, c i = 0 := by
  rintro m rfl c hc
  exact Fintype.linearIndependent_iff.mp hq c hc

/-- a combination of combinations -/
theorem combinations_coef {x : BasisArg ℂ} {q : List (Fin x.len → ℂ)} {ops : List (Operator ℂ)} (h : List.Forall₂ (IsCombination t V x) q ops) :
    ∃ r : Fin ops.length → ℝ, (∀ k, 0 < r k) ∧ (∀ (k : Fin ops.length) (s : OpString), ops[k].coef s = r k * ∑ j, q.get (Fin.cast h.length_eq.symm k) j * x.coef j s) ∧
      ∀ (w : Fin ops.length → ℂ) (s : OpString),
        ∑ k : Fin ops.length, w k * ops[k].coef s = ∑ j, (∑ k : Fin ops.length, (w k * (r k : ℂ)) • q.get (Fin.cast h.length_eq.symm k)) j * x.coef j s := by
  have hget : ∀ k : Fin ops.length, IsCombination t V x (q.get (Fin.cast h.length_eq.symm k)) ops[k] :=
    fun k => (List.forall₂_iff_get.mp h).2 k (by rw [h.length_eq]; exact k.2) k.2
  choose r r1 r2 using fun k => (hget k).coef
  refine ⟨r, r1, r2, fun w s => ?_⟩
  have e1 : ∀ k : Fin ops.length, w k * ops[k].coef s = ∑ j, w k * r k * (q.get (Fin.cast h.length_eq.symm k)) j * x.coef j s := by
    intro k
    rw [r2, Finset.mul_sum, Finset.mul_sum]
    exact Finset.sum_congr rfl (fun j _ => by ring)
  simp only [e1]
  rw [Finset.sum_comm]
  apply Finset.sum_congr rfl
  intro j _
  rw [Finset.sum_apply, Finset.sum_mul]
  rfl

theorem BasisArg.Orthonormal.inner {x : BasisArg ℂ} (h : x.Orthonormal t V) {F : Finset OpString} (hF : ∀ s ∈ x.allStrings, s ∈ F) (i j : Fin x.len) :
    ∑ s ∈ F, star (x.coef i s) * x.coef j s = if i = j then 1 else 0 := by
  classical
  cases x with
  | strings b =>
    have hn : b.strs.Nodup := h.1.2
    show ∑ s ∈ F, star (if b.strs[(i : ℕ)]'i.2 = s then (1 : ℂ) else 0) * (if b.strs[(j : ℕ)]'j.2 = s then (1 : ℂ) else 0) = _
    rw [Finset.sum_eq_single (b.strs[(i : ℕ)]'i.2)]
    · rw [if_pos rfl, star_one, one_mul]
      by_cases hij : i = j
      · rw [if_pos hij, if_pos (by rw [hij])]
      · rw [if_neg hij, if_neg]
        intro e
        exact hij (Fin.ext (hn.getElem_inj_iff.mp e).symm)
    · intro s _ hs
      rw [if_neg (Ne.symm hs), star_zero, zero_mul]
    · intro hs
      exact absurd (hF _ (List.getElem_mem _)) hs
  | operators l =>
    have h1 := h.2 i j i.2 j.2
    have hsub : (l[(i : ℕ)]'i.2).basis.strs.toFinset ⊆ F := fun s hs =>
      hF s (List.mem_flatMap.mpr ⟨_, List.getElem_mem i.2, List.mem_toFinset.mp hs⟩)
    rw [Finset.sum_subset hsub (fun s _ hs => by
      rw [coef_zero_of_not_mem (fun hh => hs (List.mem_toFinset.mpr hh)), star_zero, zero_mul])] at h1
    refine Eq.trans h1 ?_
    simp only [Fin.ext_iff]

theorem orthonormal_combinations {x : BasisArg ℂ} (hx : x.Orthonormal t V) {q : List (Fin x.len → ℂ)} (hq : OrthonormalColumns q) {ops : List (Operator ℂ)}
    (h : List.Forall₂ (IsCombination t V x) q ops) : (BasisArg.operators ops).Orthonormal t V := by
  classical
  have hget : ∀ k (hk : k < ops.length), IsCombination t V x (q[k]'(by rw [h.length_eq]; exact hk)) ops[k] :=
    fun k hk => (List.forall₂_iff_get.mp h).2 k (by rw [h.length_eq]; exact hk) hk
  refine ⟨fun o ho => ?_, fun i j hi hj => ?_⟩
  · obtain ⟨k, hk, rfl⟩ := List.getElem_of_mem ho
    exact (hget k hk).on
  · by_cases hij : i = j
    · subst hij
      rw [if_pos rfl]
      exact (Operator.norm_eq_one (hget i hi).on.wf).mp (hget i hi).norm
    · rw [if_neg hij]
      obtain ⟨r, -, hr⟩ := (hget i hi).coef
      obtain ⟨r', -, hr'⟩ := (hget j hj).coef
      have hqij := hq i j (by rw [h.length_eq]; exact hi) (by rw [h.length_eq]; exact hj)
      rw [if_neg hij] at hqij
      generalize q[i]'(by rw [h.length_eq]; exact hi) = a at hr hqij
      generalize q[j]'(by rw [h.length_eq]; exact hj) = b at hr' hqij
      let F : Finset OpString := ops[i].basis.strs.toFinset ∪ x.allStrings.toFinset
      rw [Finset.sum_subset (s₂ := F) Finset.subset_union_left (fun s _ hs => by
        rw [coef_zero_of_not_mem (fun hh => hs (List.mem_toFinset.mpr hh)), star_zero, zero_mul])]
      have e : ∀ s, star (ops[i].coef s) * ops[j].coef s = (r * r' : ℂ) * ∑ k, ∑ l, star (a k) * b l * (star (x.coef k s) * x.coef l s) := by
        intro s
        rw [hr, hr', star_mul', star_sum, Complex.star_def, Complex.conj_ofReal]
        have : ∀ k, star (a k * x.coef k s) = star (a k) * star (x.coef k s) := fun k => by rw [star_mul']
        rw [show (r : ℂ) * (∑ k, (starRingEnd ℂ) (a k * x.coef k s)) * (r' * ∑ j, b j * x.coef j s) =
          r * r' * ((∑ k, star (a k * x.coef k s)) * ∑ j, b j * x.coef j s) by simp only [Complex.star_def]; ring]
        congr 1
        rw [Finset.sum_mul_sum]
        refine Finset.sum_congr rfl (fun k _ => Finset.sum_congr rfl (fun l _ => ?_))
        rw [this]; simp only [Complex.star_def]; ring
      simp only [e]
      rw [← Finset.mul_sum, Finset.sum_comm]
      have e2 : ∀ k : Fin x.len, ∑ s ∈ F, ∑ l, star (a k) * b l * (star (x.coef k s) * x.coef l s) = star (a k) * b k := by
        intro k
        rw [Finset.sum_comm]
        have : ∀ l : Fin x.len, ∑ s ∈ F, star (a k) * b l * (star (x.coef k s) * x.coef l s) = star (a k) * b l * (if k = l then 1 else 0) := by
          intro l
          rw [← Finset.mul_sum, hx.inner (F := F) (fun s hs => Finset.mem_union_right _ (List.mem_toFinset.mpr hs))]
        simp only [this]
        simp
      simp only [e2, hqij, mul_zero]

/-- the combinations of the new Operators -/
theorem combinations_spans {x : BasisArg ℂ} (hind : x.Independent) {P : Operator ℂ → Prop} {q : List (Fin x.len → ℂ)} (hq : IndependentColumns q)
    (hP : ∀ (v : Fin x.len → ℂ) (A : Operator ℂ), A.On t V → x.Combines v A → (v ∈ colSpan q ↔ P A)) {ops : List (Operator ℂ)}
    (h : List.Forall₂ (IsCombination t V x) q ops) : SpansSymmetric t V x P ops := by
  have hget : ∀ o ∈ ops, ∃ v, IsCombination t V x v o := by
    intro o ho
    obtain ⟨k, hk, rfl⟩ := List.getElem_of_mem ho
    exact ⟨_, (List.forall₂_iff_get.mp h).2 k (by rw [h.length_eq]; exact hk) hk⟩
  obtain ⟨r, r1, -, r3⟩ := combinations_coef h
  refine ⟨fun o ho => (hget o ho).choose_spec.on, fun o ho => (hget o ho).choose_spec.norm, ?_, fun A hA => ⟨?_, ?_⟩⟩
  · intro w hw
    have h0 := hind _ (fun s => (r3 w s).symm.trans (hw s))
    funext k
    have := hq.cast h.length_eq.symm _ h0 k
    exact (mul_eq_zero.mp this).resolve_right (by exact_mod_cast (r1 k).ne')
  · rintro ⟨w, hw⟩
    have hc : x.Combines (∑ k : Fin ops.length, (w k * (r k : ℂ)) • q.get (Fin.cast h.length_eq.symm k)) A := fun s => (hw s).trans (r3 w s)
    exact ⟨⟨_, hc⟩, (hP _ A hA hc).mp ((mem_colSpan_cast h.length_eq.symm).mpr ⟨_, rfl⟩)⟩
  · rintro ⟨⟨v, hv⟩, hPA⟩
    obtain ⟨c, hc⟩ := (mem_colSpan_cast h.length_eq.symm).mp ((hP v A hA hv).mpr hPA)
    refine ⟨fun k => c k / r k, fun s => ?_⟩
    refine Eq.trans ?_ (r3 (fun k => c k / r k) s).symm
    rw [hv s, ← hc]
    have : ∀ k, c k / (r k : ℂ) * r k = c k := fun k => div_mul_cancel₀ _ (by exact_mod_cast (r1 k).ne')
    simp only [this]

/-- the vectors after the options of the generator -/
theorem chosenVectors_ok {lu : PermutedLu} (hlu : ExactLu lu) {argsort : List ℕ → List ℕ} (hsort : IsSort argsort) {n : ℕ} {vecs : List (Fin n → ℂ)}
    (hv : OrthonormalColumns vecs) (s o : Bool) : ∃ q, chosenVectors lu argsort s o vecs = .ok q ∧ IndependentColumns q ∧ colSpan q = colSpan vecs ∧ (∀ v ∈ q, vnorm v = 1) ∧
      ((s = false ∨ o = true) → OrthonormalColumns q) := by
  unfold chosenVectors
  cases s with
  | false => exact ⟨vecs, rfl, orthonormal_independent hv, rfl, fun v h => hv.unit h, fun _ => hv⟩
  | true =>
    obtain ⟨q, a, b, c, -⟩ := sparsify_orthonormal hlu hsort hv (1 / 10 ^ 12)
    cases o with
    | true => exact ⟨q, by simp only [a, bind, Except.bind, if_true], orthonormal_independent b, c, fun v h => b.unit h, fun _ => b⟩
    | false =>
      have hi := orthonormal_independent b
      by_cases h1 : q.length ≤ 1
      · refine ⟨q, ?_, hi, c, fun v h => b.unit h, by simp⟩
        simp only [a, bind, Except.bind, if_true, Bool.false_eq_true, if_false]
        exact C66_short q false _ h1
      · obtain ⟨q', a', b', c', d', e', -⟩ := C66_sparsify hlu hsort q false (1 / 10 ^ 12) (by omega) hi.le
        refine ⟨q', ?_, d', ?_, c', by simp⟩
        · simp only [a, bind, Except.bind, if_true, Bool.false_eq_true, if_false]
          exact a'
        · rw [← c]
          exact (Submodule.eq_of_le_of_finrank_eq e' (by rw [hi.finrank, d'.finrank, b'])).symm

theorem IndependentColumns.length_eq {n : ℕ} {q p : List (Fin n → ℂ)} (hq : IndependentColumns q) (hp : IndependentColumns p) (h : colSpan q = colSpan p) :
    q.length = p.length := by
  have key : ∀ {q : List (Fin n → ℂ)}, IndependentColumns q → Module.finrank ℂ (colSpan q) = q.length := by
    intro q hq
    have e : colSpan q = Submodule.span ℂ (Set.range (fun i : Fin q.length => q[i])) := by
      unfold colSpan
      congr 1
      ext v
      simp only [Set.mem_ofPred_eq, Set.mem_range, List.mem_iff_getElem]
      exact ⟨fun ⟨i, hi, h⟩ => ⟨⟨i, hi⟩, h⟩, fun ⟨i, h⟩ => ⟨i, i.2, h⟩⟩
    rw [e, finrank_span_eq_card hq, Fintype.card_fin]
  rw [← key hq, ← key hp, h]

/-- the part of a step after the vectors were found -/
theorem cumulativeOps_ok (htype : ∀ s, V s → s.opType = t) {lu : PermutedLu} (hlu : ExactLu lu) {argsort : List ℕ → List ℕ} (hsort : IsSort argsort)
    {x : BasisArg ℂ} (hx : x.On t V) (hind : x.Independent) (hne : x ≠ .operators []) {P : Operator ℂ → Prop} {vecs : List (Fin x.len → ℂ)}
    (horth : OrthonormalColumns vecs) (hP : ∀ (v : Fin x.len → ℂ) (A : Operator ℂ), A.On t V → x.Combines v A → (v ∈ colSpan vecs ↔ P A)) (s o : Bool) :
    ∃ δ > 0, ∃ ops q, chosenVectors lu argsort s o vecs = .ok q ∧ (∀ tol, 0 < tol → tol ≤ δ → q.mapM (vectorOperator x tol) = .ok ops) ∧
      SpansSymmetric t V x P ops ∧ ((s = false ∨ o = true) → x.Orthonormal t V → (BasisArg.operators ops).Orthonormal t V) ∧ ops.length = vecs.length := by
  obtain ⟨q, q1, q2, q3, q4, q5⟩ := chosenVectors_ok hlu hsort horth s o
  obtain ⟨δ2, d2, ops, h3, h4⟩ := vectorOperators_ok hx htype hind hne q q4
  exact ⟨δ2, d2, ops, q, q1, h3, combinations_spans hind q2 (fun v A hA hc => by rw [q3]; exact hP v A hA hc) h4,
    fun hso hxo => orthonormal_combinations hxo (q5 hso) h4, h4.length_eq.symm.trans (q2.length_eq (orthonormal_independent horth) q3)⟩

theorem cumulativeStep_ok (R : StrAlg ℂ 𝔸) [Nontrivial 𝔸] (hV : ∀ s, V s → R.Str s) {eigh : Eigh} (he : ExactEigh eigh) {pinv : Mat ℂ → Py (Mat ℂ)}
    (hp : IsPinv pinv) {lu : PermutedLu} (hlu : ExactLu lu) {argsort : List ℕ → List ℕ} (hsort : IsSort argsort) {x : BasisArg ℂ} (hx : x.On R.type V)
    (hind : x.Independent) (hne : x ≠ .operators []) {inp : SymmetryInput} (hi : inp.Valid R.type V)
    (ho : (∃ T, inp.symmetry = .transformation T) → x.Orthonormal R.type V) (s o : Bool) :
    ∃ δ > 0, ∃ ops, (∀ tol, 0 < tol → tol ≤ δ → cumulativeStep eigh pinv lu argsort x inp s o tol = .ok ops) ∧
      SpansSymmetric R.type V x (inp.Holds R.den) ops ∧ ((s = false ∨ o = true) → x.Orthonormal R.type V → (BasisArg.operators ops).Orthonormal R.type V) := by
  have htype : ∀ s, V s → s.opType = R.type := fun s hs => R.str_type s (hV s hs)
  obtain ⟨δ1, d1, vecs, M, a, b, h1, h2⟩ := generateOne_ok R hV he hp hx hne hi ho
  obtain ⟨δ2, d2, ops, q, q1, h3, h4, h5, -⟩ := cumulativeOps_ok htype hlu hsort hx hind hne h2.orthonormal h2.span s o
  refine ⟨min δ1 δ2, lt_min d1 d2, ops, fun tol t1 t2 => ?_, h4, h5⟩
  unfold cumulativeStep
  rw [h1 tol t1 (t2.trans (min_le_left _ _))]
  have := h3 tol t1 (t2.trans (min_le_right _ _))
  simp only [bind, Except.bind, q1]
  exact this

theorem BasisArg.Orthonormal.independent {x : BasisArg ℂ} (h : x.Orthonormal t V) : x.Independent := by
  classical
  intro v hv
  funext i
  have e : ∑ s ∈ x.allStrings.toFinset, star (x.coef i s) * ∑ j, v j * x.coef j s = v i := by
    simp only [Finset.mul_sum]
    rw [Finset.sum_comm]
    have : ∀ j : Fin x.len, ∑ s ∈ x.allStrings.toFinset, star (x.coef i s) * (v j * x.coef j s) = v j * (if i = j then 1 else 0) := by
      intro j
      rw [← h.inner (F := x.allStrings.toFinset) (fun s hs => List.mem_toFinset.mpr hs), Finset.mul_sum]
      exact Finset.sum_congr rfl (fun s _ => by ring)
    simp only [this]
    simp
  simp only [hv, mul_zero, Finset.sum_const_zero] at e
  exact e.symm

theorem SpansSymmetric.congr {x : BasisArg ℂ} {P Q : Operator ℂ → Prop} (h : ∀ A, P A ↔ Q A) {ops : List (Operator ℂ)} (hs : SpansSymmetric t V x P ops) :
    SpansSymmetric t V x Q ops :=
  ⟨hs.on, hs.norm, hs.independent, fun A hA => by rw [hs.span A hA, h]⟩

theorem SpansSymmetric.trans {x : BasisArg ℂ} {P Q : Operator ℂ → Prop} {l ops : List (Operator ℂ)} (h1 : SpansSymmetric t V x P l)
    (h2 : SpansSymmetric t V (.operators l) Q ops) : SpansSymmetric t V x (fun A => P A ∧ Q A) ops :=
  ⟨h2.on, h2.norm, h2.independent, fun A hA => by rw [h2.span A hA, h1.span A hA, and_assoc]⟩

theorem hasSymmetries_append {den : OpString → 𝔸} {done rest : List SymmetryInput} {i : ℕ} (h : i ≤ done.length) (A : Operator ℂ) :
    HasSymmetries den (done ++ rest) i A ↔ HasSymmetries den done i A := by
  unfold HasSymmetries
  rw [List.take_append_of_le_length h]

theorem hasSymmetries_concat {den : OpString → 𝔸} {done : List SymmetryInput} {inp : SymmetryInput} (A : Operator ℂ) :
    HasSymmetries den (done ++ [inp]) (done.length + 1) A ↔ HasSymmetries den done done.length A ∧ inp.Holds den A := by
  unfold HasSymmetries
  rw [List.take_of_length_le (by simp), List.take_length]
  simp only [List.mem_append, List.mem_singleton]
  constructor
  · intro h
    exact ⟨fun i hi => h i (Or.inl hi), h inp (Or.inr rfl)⟩
  · rintro ⟨h1, h2⟩ i (hi | rfl)
    · exact h1 i hi
    · exact h2

theorem generateCumulative_loop (R : StrAlg ℂ 𝔸) [Nontrivial 𝔸] (hV : ∀ s, V s → R.Str s) {eigh : Eigh} (he : ExactEigh eigh) {pinv : Mat ℂ → Py (Mat ℂ)}
    (hp : IsPinv pinv) {lu : PermutedLu} (hlu : ExactLu lu) {argsort : List ℕ → List ℕ} (hsort : IsSort argsort) (x : BasisArg ℂ) (s o : Bool) :
    ∀ (rest done : List SymmetryInput) (p : List (List (Operator ℂ))) (l : List (Operator ℂ)), CumulativeCorrect R.den R.type V x done p →
      p.getLast? = some l → (∀ inp ∈ rest, inp.Valid R.type V) →
      ((∃ inp ∈ rest, ∃ T, inp.symmetry = .transformation T) → s = false ∨ o = true) →
      (s = false ∨ o = true → (∃ inp ∈ rest, ∃ T, inp.symmetry = .transformation T) ∨ x.Orthonormal R.type V → ∀ ops ∈ p, (BasisArg.operators ops).Orthonormal R.type V) →
      ∃ δ > 0, ∃ p', (∀ tol, 0 < tol → tol ≤ δ → generateCumulative eigh pinv lu argsort x s o tol rest false p = .ok p') ∧
        CumulativeCorrect R.den R.type V x (done ++ rest) p' ∧
        (s = false ∨ o = true → x.Orthonormal R.type V → ∀ ops ∈ p', (BasisArg.operators ops).Orthonormal R.type V)
  | [], done, p, l, hc, _, _, _, hort => ⟨1, one_pos, p, fun _ _ _ => rfl, by rw [List.append_nil]; exact hc, fun h h' => hort h (Or.inr h')⟩
  | inp :: rest, done, p, l, hc, hl, hv, htr, hort => by
    have hb : cumulativeBasis x false p = .ok (.operators l) := by simp [cumulativeBasis, hl]
    have hassoc : done ++ inp :: rest = (done ++ [inp]) ++ rest := by simp
    have hlp : l ∈ p := List.mem_of_getLast? hl
    have hpne : p ≠ [] := List.ne_nil_of_mem hlp
    by_cases hl0 : l = []
    · have hc' : CumulativeCorrect R.den R.type V x (done ++ [inp]) p := by
        refine ⟨fun i ops hi => ?_, by have := hc.length; simp; omega, fun _ => by rw [hl, hl0]⟩
        obtain ⟨hil, -⟩ := List.getElem?_eq_some_iff.mp hi
        have := hc.length
        exact (hc.spans i ops hi).congr (fun A => (hasSymmetries_append (by omega) A).symm)
      obtain ⟨δ, hδ, p', h1, h2, h3⟩ := generateCumulative_loop R hV he hp hlu hsort x s o rest (done ++ [inp]) p l hc' hl
        (fun i hi => hv i (List.mem_cons_of_mem _ hi)) (fun ⟨i, hi, h⟩ => htr ⟨i, List.mem_cons_of_mem _ hi, h⟩)
        (fun a b => hort a (b.imp (fun ⟨i, hi, h⟩ => ⟨i, List.mem_cons_of_mem _ hi, h⟩) id))
      refine ⟨δ, hδ, p', fun tol t1 t2 => ?_, hassoc ▸ h2, h3⟩
      rw [generateCumulative, hb]
      simp only [bind, Except.bind]
      rw [if_pos (by simp [BasisArg.isEmpty, hl0])]
      exact h1 tol t1 t2
    · have hlen : p.length = done.length := by
        by_contra hne
        have := hc.stop (lt_of_le_of_ne hc.length hne)
        rw [hl] at this
        exact hl0 (Option.some.inj this)
      have hlast : p[p.length - 1]? = some l := by rw [← List.getLast?_eq_getElem?]; exact hl
      have hs := hc.spans _ l hlast
      have hpl : 0 < p.length := List.length_pos_of_ne_nil hpne
      rw [show p.length - 1 + 1 = done.length by omega] at hs
      obtain ⟨δ1, d1, ops, h1, h2, h3⟩ := cumulativeStep_ok R hV he hp hlu hsort (x := .operators l) hs.on hs.independent (by simpa using hl0)
        (hv inp (List.mem_cons_self ..)) (fun hT => hort (htr ⟨inp, List.mem_cons_self .., hT⟩) (Or.inl ⟨inp, List.mem_cons_self .., hT⟩) l hlp) s o
      have hc' : CumulativeCorrect R.den R.type V x (done ++ [inp]) (p ++ [ops]) := by
        refine ⟨fun i ops' hi => ?_, by simp [hlen], fun h => by simp [hlen] at h⟩
        by_cases hil : i < p.length
        · rw [List.getElem?_append_left hil] at hi
          exact (hc.spans i ops' hi).congr (fun A => (hasSymmetries_append (by omega) A).symm)
        · obtain ⟨hil', e⟩ := List.getElem?_eq_some_iff.mp hi
          rw [List.length_append, List.length_singleton] at hil'
          obtain rfl : i = p.length := by omega
          rw [List.getElem_append_right (le_refl _)] at e
          simp only [Nat.sub_self, List.getElem_cons_zero] at e
          subst e
          rw [hlen]
          exact (hs.trans h2).congr (fun A => hasSymmetries_concat A |>.symm)
      obtain ⟨δ2, d2, p', h4, h5, h6⟩ := generateCumulative_loop R hV he hp hlu hsort x s o rest (done ++ [inp]) (p ++ [ops]) ops hc' (by simp)
        (fun i hi => hv i (List.mem_cons_of_mem _ hi)) (fun ⟨i, hi, h⟩ => htr ⟨i, List.mem_cons_of_mem _ hi, h⟩)
        (fun a b ops' hops' => by
          have hp' := hort a (b.imp (fun ⟨i, hi, h⟩ => ⟨i, List.mem_cons_of_mem _ hi, h⟩) id)
          rcases List.mem_append.mp hops' with h | h
          · exact hp' _ h
          · rw [List.mem_singleton.mp h]
            exact h3 a (hp' l hlp))
      refine ⟨min δ1 δ2, lt_min d1 d2, p', fun tol t1 t2 => ?_, hassoc ▸ h5, h6⟩
      rw [generateCumulative, hb]
      simp only [bind, Except.bind]
      rw [if_neg (by simpa [BasisArg.isEmpty] using hl0), h1 tol t1 (t2.trans (min_le_left _ _))]
      exact h4 tol t1 (t2.trans (min_le_right _ _))

theorem StrAlg.cumulative (R : StrAlg ℂ 𝔸) [Nontrivial 𝔸] (hV : ∀ s, V s → R.Str s) {eigh : Eigh} (he : ExactEigh eigh) {pinv : Mat ℂ → Py (Mat ℂ)}
    (hp : IsPinv pinv) {lu : PermutedLu} (hlu : ExactLu lu) {argsort : List ℕ → List ℕ} (hsort : IsSort argsort) {x : BasisArg ℂ} (hx : x.On R.type V)
    (hind : x.Independent) (hne : x.len ≠ 0) {inputs : List SymmetryInput} (hi : ∀ inp ∈ inputs, inp.Valid R.type V)
    (ho : (∃ inp ∈ inputs, ∃ T, inp.symmetry = .transformation T) → x.Orthonormal R.type V) (s o : Bool)
    (htr : (∃ inp ∈ inputs.tail, ∃ T, inp.symmetry = .transformation T) → s = false ∨ o = true) :
    ∃ δ > 0, ∃ p, (∀ tol, 0 < tol → tol ≤ δ → generateCumulative eigh pinv lu argsort x s o tol inputs true [] = .ok p) ∧
      CumulativeCorrect R.den R.type V x inputs p ∧
      (s = false ∨ o = true → x.Orthonormal R.type V → ∀ ops ∈ p, (BasisArg.operators ops).Orthonormal R.type V) := by
  cases inputs with
  | nil => exact ⟨1, one_pos, [], fun _ _ _ => rfl, ⟨by simp, le_refl _, by simp⟩, by simp⟩
  | cons inp rest =>
    have hxne : x ≠ .operators [] := by rintro rfl; exact hne rfl
    have hxe : x.isEmpty = false := by
      cases x with
      | strings b => simp only [BasisArg.isEmpty, List.isEmpty_eq_false_iff]; rintro h; exact hne (by simp [BasisArg.len, h])
      | operators l => simp only [BasisArg.isEmpty, List.isEmpty_eq_false_iff]; rintro h; exact hne (by simp [BasisArg.len, h])
    obtain ⟨δ1, d1, ops, h1, h2, h3⟩ := cumulativeStep_ok R hV he hp hlu hsort hx hind hxne (hi inp (List.mem_cons_self ..))
      (fun hT => ho ⟨inp, List.mem_cons_self .., hT⟩) s o
    have hc : CumulativeCorrect R.den R.type V x [inp] [ops] := by
      refine ⟨fun i ops' hi' => ?_, le_refl _, by simp⟩
      obtain ⟨hil, e⟩ := List.getElem?_eq_some_iff.mp hi'
      obtain rfl : i = 0 := by simpa using hil
      simp only [List.getElem_cons_zero] at e
      subst e
      exact h2.congr (fun A => by simp [HasSymmetries])
    obtain ⟨δ2, d2, p, h4, h5, h6⟩ := generateCumulative_loop R hV he hp hlu hsort x s o rest [inp] [ops] ops hc rfl
      (fun i h => hi i (List.mem_cons_of_mem _ h)) htr (fun a b ops' hops' => by
        rw [List.mem_singleton.mp hops']
        exact h3 a (b.elim (fun ⟨i, hi', h⟩ => ho ⟨i, List.mem_cons_of_mem _ hi', h⟩) id))
    refine ⟨min δ1 δ2, lt_min d1 d2, p, fun tol t1 t2 => ?_, h5, h6⟩
    rw [generateCumulative]
    simp only [cumulativeBasis, if_true, bind, Except.bind, hxe, Bool.false_eq_true, if_false]
    rw [h1 tol t1 (t2.trans (min_le_left _ _))]
    exact h4 tol t1 (t2.trans (min_le_right _ _))

end Qosy
