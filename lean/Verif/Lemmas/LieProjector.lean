import Verif.Model.LieOperators
import Verif.Lemmas.Matrix
import Verif.Lemmas.Vector
import Verif.Lemmas.LinAlg
import Mathlib.Analysis.InnerProductSpace.PiL2
import Mathlib.Analysis.InnerProductSpace.Orthonormal

/-! # The projector of `generate_lie_algebra` onto the space spanned so far -/

namespace Qosy

/-- functions on strings as vectors of a Euclidean space, restricted to a finite set of strings -/
noncomputable def coefVec (T : Finset OpString) (f : OpString → ℂ) : EuclideanSpace ℂ T := WithLp.toLp 2 fun s => f s

@[simp] theorem coefVec_add (T : Finset OpString) (f g : OpString → ℂ) : coefVec T (f + g) = coefVec T f + coefVec T g := rfl
@[simp] theorem coefVec_sub (T : Finset OpString) (f g : OpString → ℂ) : coefVec T (f - g) = coefVec T f - coefVec T g := rfl
@[simp] theorem coefVec_smul (T : Finset OpString) (c : ℂ) (f : OpString → ℂ) : coefVec T (c • f) = c • coefVec T f := rfl
@[simp] theorem coefVec_zero (T : Finset OpString) : coefVec T 0 = 0 := rfl

theorem coefVec_sum {ι : Type} (T : Finset OpString) (F : Finset ι) (f : ι → OpString → ℂ) : coefVec T (∑ k ∈ F, f k) = ∑ k ∈ F, coefVec T (f k) := by
  classical
  induction F using Finset.induction_on with
  | empty => simp
  | insert a F ha ih => rw [Finset.sum_insert ha, Finset.sum_insert ha, coefVec_add, ih]

theorem coefVec_inner (T : Finset OpString) (f g : OpString → ℂ) : inner ℂ (coefVec T f) (coefVec T g) = ∑ s ∈ T, star (f s) * g s := by
  rw [PiLp.inner_apply, ← Finset.sum_coe_sort T]
  refine Finset.sum_congr rfl fun s _ => ?_
  simp [coefVec, mul_comm]

/-- a function that vanishes outside of a list of strings -/
def SuppOn (l : List OpString) (f : OpString → ℂ) : Prop := ∀ s, s ∉ l → f s = 0

theorem SuppOn.mono {l l' : List OpString} {f : OpString → ℂ} (h : SuppOn l f) (hl : ∀ s ∈ l, s ∈ l') : SuppOn l' f := fun s hs => h s fun h' => hs (hl s h')

theorem sum_strs {T : Finset OpString} {l : List OpString} (hn : l.Nodup) (hT : ∀ s ∈ l, s ∈ T) {h : OpString → ℂ} (hs : SuppOn l h) :
    ∑ s ∈ T, h s = ∑ i : Fin l.length, h l[i] := by
  rw [← Finset.sum_subset (s₁ := l.toFinset) (fun s hs => hT s (List.mem_toFinset.mp hs)) (fun s _ h' => hs s (fun h'' => h' (List.mem_toFinset.mpr h'')))]
  rw [List.sum_toFinset _ hn, ← List.sum_ofFn]
  congr 1
  apply List.ext_getElem <;> simp

theorem coefVec_inner_strs {T : Finset OpString} {l : List OpString} (hn : l.Nodup) (hT : ∀ s ∈ l, s ∈ T) {f : OpString → ℂ} (g : OpString → ℂ) (hs : SuppOn l f) :
    inner ℂ (coefVec T f) (coefVec T g) = ∑ i : Fin l.length, star (f l[i]) * g l[i] := by
  rw [coefVec_inner]
  exact sum_strs hn hT fun s h => by simp [hs s h]

theorem coefVec_inj {T : Finset OpString} {f : OpString → ℂ} (hf : ∀ s, s ∉ T → f s = 0) (h : coefVec T f = 0) : f = 0 := by
  funext s
  by_cases hs : s ∈ T
  · have := congrFun (congrArg (WithLp.ofLp) h) ⟨s, hs⟩
    simpa [coefVec] using this
  · exact hf s hs

/-- the matrix `P` is the projector `∑ₖ qₖ qₖ†` in the coordinates given by the strings of `l` -/
structure RepProj (T : Finset OpString) (l : List OpString) (P : Mat ℂ) {m : ℕ} (q : Fin m → OpString → ℂ) : Prop where
  nodup : l.Nodup
  sub : ∀ s ∈ l, s ∈ T
  wf : P.WF
  rows : P.nrows = l.length
  cols : P.ncols = l.length
  supp : ∀ k, SuppOn l (q k)
  ortho : Orthonormal ℂ fun k => coefVec T (q k)
  get : ∀ i j : Fin l.length, P.get i j = ∑ k, q k l[i] * star (q k l[j])

/-- the projection of `f` -/
noncomputable def projOn (T : Finset OpString) {m : ℕ} (q : Fin m → OpString → ℂ) (f : OpString → ℂ) : OpString → ℂ :=
  ∑ k, inner ℂ (coefVec T (q k)) (coefVec T f) • q k

theorem projOn_supp {T : Finset OpString} {m : ℕ} {q : Fin m → OpString → ℂ} {l : List OpString} (h : ∀ k, SuppOn l (q k)) (f : OpString → ℂ) :
    SuppOn l (projOn T q f) := by
  intro s hs
  simp only [projOn, Finset.sum_apply, Pi.smul_apply]
  exact Finset.sum_eq_zero fun k _ => by rw [h k s hs, smul_zero]

theorem projOn_inner {T : Finset OpString} {m : ℕ} {q : Fin m → OpString → ℂ} (h : Orthonormal ℂ fun k => coefVec T (q k)) (f : OpString → ℂ) (k : Fin m) :
    inner ℂ (coefVec T (q k)) (coefVec T (f - projOn T q f)) = 0 := by
  have e : coefVec T (projOn T q f) = ∑ k, inner ℂ (coefVec T (q k)) (coefVec T f) • coefVec T (q k) := by
    rw [projOn, coefVec_sum]; rfl
  rw [coefVec_sub, inner_sub_right, e, h.inner_right_fintype (fun k => inner ℂ (coefVec T (q k)) (coefVec T f)) k, sub_self]

theorem projOn_inner_self {T : Finset OpString} {m : ℕ} {q : Fin m → OpString → ℂ} (h : Orthonormal ℂ fun k => coefVec T (q k)) (f : OpString → ℂ) :
    inner ℂ (coefVec T (projOn T q f)) (coefVec T (f - projOn T q f)) = 0 := by
  have e : coefVec T (projOn T q f) = ∑ k, inner ℂ (coefVec T (q k)) (coefVec T f) • coefVec T (q k) := by
    rw [projOn, coefVec_sum]; rfl
  rw [e, sum_inner]
  exact Finset.sum_eq_zero fun k _ => by rw [inner_smul_left, projOn_inner h, mul_zero]

/-- the overlap of a vector with its projection -/
theorem projOn_overlap {T : Finset OpString} {m : ℕ} {q : Fin m → OpString → ℂ} (h : Orthonormal ℂ fun k => coefVec T (q k)) (f : OpString → ℂ) :
    inner ℂ (coefVec T f) (coefVec T (projOn T q f)) = ((‖coefVec T f‖ ^ 2 - ‖coefVec T (f - projOn T q f)‖ ^ 2 : ℝ) : ℂ) := by
  have h0 := projOn_inner_self h f
  have h0' : inner ℂ (coefVec T (f - projOn T q f)) (coefVec T (projOn T q f)) = 0 := by rw [← inner_conj_symm, h0, map_zero]
  have e : coefVec T f = coefVec T (projOn T q f) + coefVec T (f - projOn T q f) := by rw [← coefVec_add]; congr 1; abel
  have e2 : (‖coefVec T f‖ ^ 2 : ℝ) = ‖coefVec T (projOn T q f)‖ ^ 2 + ‖coefVec T (f - projOn T q f)‖ ^ 2 := by
    conv_lhs => rw [e]
    simpa [pow_two] using norm_add_sq_eq_norm_sq_add_norm_sq_of_inner_eq_zero _ _ h0
  rw [e2]
  conv_lhs => rw [e]
  rw [inner_add_left, h0', add_zero, inner_self_eq_norm_sq_to_K]
  push_cast
  simp

/-! ### One step -/

theorem addMissing_ofList {a : List OpString} (strs : List OpString) :
    addMissing (Basis.ofList a) strs = (Basis.ofList (unionList a strs), (unionList a strs).length - a.length) := by
  suffices h : ∀ (a : List OpString) (n : ℕ), strs.foldl (fun st s => if st.1.contains s then st else (st.1.iaddString s, st.2 + 1)) (Basis.ofList a, n) =
      (Basis.ofList (unionList a strs), n + ((unionList a strs).length - a.length)) by
    rw [addMissing, h a 0, Nat.zero_add]
  induction strs with
  | nil => intro a n; simp [unionList]
  | cons s strs ih =>
    intro a n
    rw [List.foldl_cons]
    have hu : unionList a (s :: strs) = unionList (unionList a [s]) strs := rfl
    have e1 : unionList a [s] = if s ∈ a then a else a ++ [s] := rfl
    rw [hu]
    by_cases hs : s ∈ a
    · simp only [Basis.contains_ofList, hs, decide_true, if_true, e1]
      exact ih a n
    · simp only [Basis.contains_ofList, hs, decide_false, Bool.false_eq_true, if_false, Basis.iaddString_ofList, e1]
      rw [ih]
      obtain ⟨t, ht⟩ := unionList_prefix (a ++ [s]) strs
      rw [ht]
      simp only [List.length_append, List.length_singleton]
      congr 1
      omega

theorem columnMat_wf (v : List ℂ) : (columnMat v).WF := by
  intro e he
  obtain ⟨x, hx, rfl⟩ := List.mem_map.mp he
  have := List.mem_zipIdx hx
  exact ⟨by simpa [columnMat] using this.2.1, Nat.one_pos⟩

theorem tget_column (v : List ℂ) (n i : ℕ) : tget ((v.zipIdx n).map fun e => (e.2, 0, e.1)) (n + i) 0 = v.getD i 0 := by
  induction v generalizing n i with
  | nil => simp
  | cons x v ih =>
    rw [List.zipIdx_cons, List.map_cons, tget_cons]
    cases i with
    | zero =>
      rw [tget_eq_zero]
      · simp
      · intro e he
        obtain ⟨y, hy, rfl⟩ := List.mem_map.mp he
        have := (List.mem_zipIdx hy).1
        left; simp only; omega
    | succ i =>
      have := ih (n + 1) i
      rw [show n + 1 + i = n + (i + 1) by omega] at this
      simp [this]

theorem columnMat_get (v : List ℂ) (i : ℕ) : (columnMat v).get i 0 = v.getD i 0 := by
  have := tget_column v 0 i
  rwa [Nat.zero_add] at this

theorem Mat.add_get {M N : Mat ℂ} (h1 : M.nrows = N.nrows) (h2 : M.ncols = N.ncols) (hM : M.WF) (hN : N.WF) :
    ∃ S, M.add N = .ok S ∧ S.nrows = M.nrows ∧ S.ncols = M.ncols ∧ S.WF ∧ ∀ i j, S.get i j = M.get i j + N.get i j := by
  refine ⟨_, Mat.add_ok h1 h2, rfl, rfl, ?_, fun i j => by rw [Mat.get_eq, tget_append, ← Mat.get_eq, ← Mat.get_eq N]⟩
  intro e he
  rcases List.mem_append.mp he with he | he
  · exact hM e he
  · simpa [h1, h2] using hN e he

theorem RepProj.enlarge {T : Finset OpString} {l l' : List OpString} {P : Mat ℂ} {m : ℕ} {q : Fin m → OpString → ℂ} (h : RepProj T l P q)
    (hl : (l ++ l').Nodup) (hT : ∀ s ∈ l', s ∈ T) : RepProj T (l ++ l') (enlarge P l'.length) q := by
  refine ⟨hl, fun s hs => (List.mem_append.mp hs).elim (h.sub s) (hT s), ?_, ?_, ?_, fun k => (h.supp k).mono (by simp +contextual), h.ortho, ?_⟩
  · intro e he
    have := h.wf e he
    exact ⟨lt_of_lt_of_le this.1 (Nat.le_add_right _ _), lt_of_lt_of_le this.2 (Nat.le_add_right _ _)⟩
  · simp [Qosy.enlarge, h.rows]
  · simp [Qosy.enlarge, h.cols]
  · have hz : ∀ (k : Fin m) (i : ℕ) (hi : i < (l ++ l').length), l.length ≤ i → q k (l ++ l')[i] = 0 := by
      intro k i hi hle
      apply h.supp k
      rw [List.getElem_append_right hle]
      intro hm
      exact (List.disjoint_of_nodup_append hl) hm (List.getElem_mem _)
    rintro ⟨i, hi⟩ ⟨j, hj⟩
    have hget : (Qosy.enlarge P l'.length).get i j = P.get i j := rfl
    simp only [Fin.getElem_fin]
    rw [hget]
    by_cases hi' : i < l.length
    · by_cases hj' : j < l.length
      · have := h.get ⟨i, hi'⟩ ⟨j, hj'⟩
        simp only [Fin.getElem_fin] at this
        rw [this]
        simp only [List.getElem_append_left hi', List.getElem_append_left hj']
      · rw [Mat.get_eq, tget_eq_zero]
        · symm; exact Finset.sum_eq_zero fun k _ => by rw [hz k j hj (not_lt.mp hj')]; simp
        · intro e he; right; have := (h.wf e he).2; rw [h.cols] at this; omega
    · rw [Mat.get_eq, tget_eq_zero]
      · symm; exact Finset.sum_eq_zero fun k _ => by rw [hz k i hi (not_lt.mp hi')]; simp
      · intro e he; left; have := (h.wf e he).1; rw [h.rows] at this; omega

theorem Operator.WF.coef_supp {A : Operator ℂ} (h : A.WF) : SuppOn A.basis.strs A.coef := fun s hs => by rw [h.coef_eq, if_neg hs]

theorem Operator.WF.coef_getElem {A : Operator ℂ} (h : A.WF) (i : ℕ) (hi : i < A.basis.strs.length) :
    A.coef A.basis.strs[i] = A.coeffs[i]'(h.len ▸ hi) := by
  rw [h.coef_eq, if_pos (List.getElem_mem hi), h.basis.2.idxOf_getElem i hi, List.getD_eq_getElem]

theorem Operator.norm_eq {A : Operator ℂ} (h : A.WF) {T : Finset OpString} (hT : ∀ s ∈ A.basis.strs, s ∈ T) : A.norm .l2 = ‖coefVec T A.coef‖ := by
  have e : (((A.coeffs.map fun c => ‖c‖ ^ 2).sum : ℝ) : ℂ) = ((‖coefVec T A.coef‖ ^ 2 : ℝ) : ℂ) := by
    have := inner_self_eq_norm_sq_to_K (𝕜 := ℂ) (coefVec T A.coef)
    rw [coefVec_inner_strs h.basis.2 hT _ h.coef_supp] at this
    push_cast
    have e2 : (‖coefVec T A.coef‖ : ℂ) ^ 2 = ((‖coefVec T A.coef‖ : ℝ) : ℂ) ^ 2 := rfl
    rw [e2]
    refine Eq.trans ?_ this
    rw [show A.coeffs.map (fun c => ‖c‖ ^ 2) = List.ofFn fun i : Fin A.basis.strs.length => ‖A.coef A.basis.strs[i]‖ ^ 2 by
      apply List.ext_getElem
      · simp [h.len]
      · intro i h1 h2
        simp only [List.length_ofFn] at h2
        simp [h.coef_getElem i h2]]
    rw [List.sum_ofFn]
    push_cast
    refine Finset.sum_congr rfl fun i _ => ?_
    have := RCLike.conj_mul (K := ℂ) (A.coef A.basis.strs[i])
    simpa using this.symm
  rw [Operator.norm, Complex.ofReal_injective e, Real.sqrt_sq (norm_nonneg _)]

theorem RepProj.snoc {T : Finset OpString} {l : List OpString} {P P' : Mat ℂ} {m : ℕ} {q : Fin m → OpString → ℂ} (h : RepProj T l P q)
    {u : OpString → ℂ} (hu : SuppOn l u) (h1 : ‖coefVec T u‖ = 1) (h0 : ∀ k, inner ℂ (coefVec T (q k)) (coefVec T u) = 0)
    (hwf : P'.WF) (hr : P'.nrows = l.length) (hc : P'.ncols = l.length)
    (hg : ∀ i j : Fin l.length, P'.get i j = P.get i j + u l[i] * star (u l[j])) :
    RepProj T l P' (Fin.snoc q u : Fin (m + 1) → OpString → ℂ) := by
  refine ⟨h.nodup, h.sub, hwf, hr, hc, ?_, ?_, ?_⟩
  · intro k
    refine Fin.lastCases ?_ (fun k => ?_) k
    · simpa using hu
    · simpa using h.supp k
  · rw [orthonormal_iff_ite]
    have ho := orthonormal_iff_ite.mp h.ortho
    have h0' : ∀ k, inner ℂ (coefVec T u) (coefVec T (q k)) = 0 := fun k => by rw [← inner_conj_symm, h0, map_zero]
    intro i j
    refine Fin.lastCases ?_ (fun i => ?_) i
    · refine Fin.lastCases ?_ (fun j => ?_) j
      · simp only [Fin.snoc_last, if_true]
        rw [inner_self_eq_norm_sq_to_K, h1]; simp
      · simp only [Fin.snoc_last, Fin.snoc_castSucc, h0']
        rw [if_neg (Fin.castSucc_lt_last j).ne']
    · refine Fin.lastCases ?_ (fun j => ?_) j
      · simp only [Fin.snoc_last, Fin.snoc_castSucc, h0]
        rw [if_neg (Fin.castSucc_lt_last i).ne]
      · simp only [Fin.snoc_castSucc, ho i j, Fin.castSucc_inj]
  · intro i j
    rw [hg, h.get, Fin.sum_univ_castSucc]
    simp

open Classical in
/-- the step of the loop that compares a normalised operator with the space spanned so far -/
theorem lieOpAdd_ok {T : Finset OpString} {st : LieOpState} {l : List OpString} {m : ℕ} {q : Fin m → OpString → ℂ} (hb : st.combined = Basis.ofList l)
    (h : RepProj T l st.projector q) {opC : Operator ℂ} (hC : opC.WF) (hT : ∀ s ∈ opC.basis.strs, s ∈ T) (hn : opC.norm .l2 = 1) (tol : ℝ) :
    (‖coefVec T (opC.coef - projOn T q opC.coef)‖ ^ 2 ≤ tol ∧ ∃ P', RepProj T (unionList l opC.basis.strs) P' q ∧
      lieOpAdd tol st opC = .ok { st with combined := Basis.ofList (unionList l opC.basis.strs), projector := P',
                                          computed := st.computed ++ [(st.indA, st.indB)], indB := st.indB + 1 }) ∨
    (tol < ‖coefVec T (opC.coef - projOn T q opC.coef)‖ ^ 2 ∧ ∃ P', (0 ≤ tol → RepProj T (unionList l opC.basis.strs) P'
        (Fin.snoc q (((‖coefVec T (opC.coef - projOn T q opC.coef)‖⁻¹ : ℝ) : ℂ) • (opC.coef - projOn T q opC.coef)) : Fin (m + 1) → OpString → ℂ)) ∧
      lieOpAdd tol st opC = .ok { st with lie := st.lie ++ [opC], combined := Basis.ofList (unionList l opC.basis.strs), projector := P',
                                          computed := st.computed ++ [(st.indA, st.indB)], indB := st.indB + 1 }) := by
  set l' := unionList l opC.basis.strs with hl'
  have hl'n : l'.Nodup := unionList_nodup h.nodup _
  obtain ⟨t, ht⟩ := unionList_prefix l opC.basis.strs
  have htl : l' = l ++ t := ht
  have hmem : ∀ s, s ∈ l' ↔ s ∈ l ∨ s ∈ opC.basis.strs := fun s => mem_unionList
  have htT : ∀ s ∈ t, s ∈ T := by
    intro s hs
    have hs' : s ∈ l' := by rw [htl]; exact List.mem_append_right _ hs
    exact ((hmem s).mp hs').elim (h.sub s) (hT s)
  have hnew : l'.length - l.length = t.length := by rw [htl]; simp
  set P1 : Mat ℂ := if t.length ≠ 0 then enlarge st.projector t.length else st.projector with hP1
  have hR : RepProj T l' P1 q := by
    have := h.enlarge (l' := t) (htl ▸ hl'n) htT
    rw [← htl] at this
    have e : P1 = enlarge st.projector t.length := by
      by_cases h0 : t.length = 0
      · rw [hP1, if_neg (not_not.mpr h0), h0]; rfl
      · rw [hP1, if_pos h0]
    rwa [e]
  have hCl : ∀ s ∈ opC.basis.strs, s ∈ l' := fun s hs => (hmem s).mpr (Or.inr hs)
  obtain ⟨v, hv1, hv2, hv3⟩ := Operator.toVector_ok hC (Basis.Inv.ofList hl'n) hCl
  have hvl : v.length = l'.length := hv2
  have hvg : ∀ i : Fin l'.length, (columnMat v).get i 0 = opC.coef l'[i] := by
    intro i
    rw [columnMat_get]
    have := hv3 l'[i] (List.getElem_mem _)
    simp only [Basis.ofList_strs, Fin.getElem_fin] at this ⊢
    rwa [hl'n.idxOf_getElem i i.2] at this
  have hCs : SuppOn l' opC.coef := hC.coef_supp.mono hCl
  set w := projOn T q opC.coef with hw
  have hws : SuppOn l' w := projOn_supp hR.supp _
  obtain ⟨ov, ho1, ho2, ho3, ho4, ho5⟩ := Mat.dot_ok hR.wf (columnMat_wf v) (by rw [hR.cols]; exact hvl.symm)
  have hwg : ∀ i : Fin l'.length, ov.get i 0 = w l'[i] := by
    intro i
    rw [ho5]
    have e1 : ∑ k : Fin P1.ncols, P1.get i k * (columnMat v).get k 0 = ∑ k : Fin l'.length, P1.get i k * (columnMat v).get k 0 := by
      rw [hR.cols]
    rw [e1]
    simp only [hvg, hR.get, Finset.sum_mul]
    rw [Finset.sum_comm, hw, projOn]
    simp only [Finset.sum_apply, Pi.smul_apply, smul_eq_mul]
    refine Finset.sum_congr rfl fun k _ => ?_
    rw [coefVec_inner_strs hl'n hR.sub _ (hR.supp k), Finset.sum_mul]
    refine Finset.sum_congr rfl fun j _ => by ring
  obtain ⟨o2, hq1, hq2, hq3, hq4, hq5⟩ := Mat.dot_ok (Mat.getH_wf (columnMat_wf v)) ho4 (by
    change v.length = ov.nrows; rw [ho2, hR.rows, hvl])
  have hover : o2.get 0 0 = inner ℂ (coefVec T opC.coef) (coefVec T w) := by
    rw [hq5, coefVec_inner_strs hl'n hR.sub _ hCs]
    have e1 : ∑ k : Fin (columnMat v).getH.ncols, (columnMat v).getH.get 0 k * ov.get k 0 = ∑ k : Fin l'.length, (columnMat v).getH.get 0 k * ov.get k 0 := by
      have : (columnMat v).getH.ncols = l'.length := hvl
      rw [this]
    rw [e1]
    refine Finset.sum_congr rfl fun i _ => ?_
    rw [Mat.getH_get, hvg, hwg]
  have hnorm : ‖coefVec T opC.coef‖ = 1 := by rw [← Operator.norm_eq hC hT, hn]
  have hdist : ‖o2.get 0 0 - 1‖ = ‖coefVec T (opC.coef - w)‖ ^ 2 := by
    rw [hover, projOn_overlap h.ortho, hnorm, ← hw]
    rw [show (((1 : ℝ) ^ 2 - ‖coefVec T (opC.coef - w)‖ ^ 2 : ℝ) : ℂ) - 1 = ((-‖coefVec T (opC.coef - w)‖ ^ 2 : ℝ) : ℂ) by push_cast; ring]
    rw [Complex.norm_real, Real.norm_eq_abs, abs_neg, abs_of_nonneg (by positivity)]
  have hstrs : opC.terms.map Prod.snd = opC.basis.strs := hC.terms_snd
  have hcsc : opC.toVectorCsc (Basis.ofList l') = .ok v := by rw [Operator.toVectorCsc_eq hC (Basis.Inv.ofList hl'n), hv1]
  have hunfold : lieOpAdd tol st opC = (if tol < ‖o2.get 0 0 - 1‖ then do
        let rest ← (columnMat v).add (ov.smul (-1))
        let sq ← rest.getH.dot rest
        let unit := rest.smul ((Real.sqrt ‖sq.get 0 0‖ : ℝ) : ℂ)⁻¹
        let P ← unit.dot unit.getH
        let projector ← P1.add P
        .ok { st with lie := st.lie ++ [opC], combined := Basis.ofList l', projector := projector,
                      computed := st.computed ++ [(st.indA, st.indB)], indB := st.indB + 1 }
      else .ok { st with combined := Basis.ofList l', projector := P1, computed := st.computed ++ [(st.indA, st.indB)], indB := st.indB + 1 } : Py LieOpState) := by
    rw [lieOpAdd, hb, hstrs, addMissing_ofList, ← hl', hnew]
    simp only [← hP1, hcsc, bind, Except.bind, ho1, hq1]
  rw [hunfold, hdist]
  by_cases htol : tol < ‖coefVec T (opC.coef - w)‖ ^ 2
  · right
    refine ⟨htol, ?_⟩
    rw [if_pos htol]
    obtain ⟨rest, hr1, hr2, hr3, hr4, hr5⟩ := Mat.add_get (M := columnMat v) (N := ov.smul (-1)) (by
      change v.length = ov.nrows; rw [ho2, hR.rows, hvl]) (by change 1 = ov.ncols; rw [ho3]; rfl) (columnMat_wf v) (Mat.smul_wf ho4)
    have hrn : rest.nrows = l'.length := by rw [hr2]; exact hvl
    have hrc : rest.ncols = 1 := hr3
    have hrg : ∀ i : Fin l'.length, rest.get i 0 = (opC.coef - w) l'[i] := by
      intro i; rw [hr5, Mat.smul_get, hvg, hwg, Pi.sub_apply]; ring
    have hrs : SuppOn l' (opC.coef - w) := fun s hs => by rw [Pi.sub_apply, hCs s hs, hws s hs, sub_zero]
    obtain ⟨sq, hs1, hs2, hs3, hs4, hs5⟩ := Mat.dot_ok (Mat.getH_wf hr4) hr4 rfl
    have hsq : sq.get 0 0 = ((‖coefVec T (opC.coef - w)‖ ^ 2 : ℝ) : ℂ) := by
      rw [hs5]
      have e1 : ∑ k : Fin rest.getH.ncols, rest.getH.get 0 k * rest.get k 0 = ∑ k : Fin l'.length, rest.getH.get 0 k * rest.get k 0 := by
        have : rest.getH.ncols = l'.length := hrn
        rw [this]
      rw [e1]
      have := inner_self_eq_norm_sq_to_K (𝕜 := ℂ) (coefVec T (opC.coef - w))
      rw [coefVec_inner_strs hl'n hR.sub _ hrs] at this
      push_cast
      refine Eq.trans (Finset.sum_congr rfl fun i _ => ?_) this
      rw [Mat.getH_get, hrg]
    have hsqrt : Real.sqrt ‖sq.get 0 0‖ = ‖coefVec T (opC.coef - w)‖ := by
      rw [hsq, Complex.norm_real, Real.norm_eq_abs, abs_of_nonneg (by positivity), Real.sqrt_sq (norm_nonneg _)]
    set c : ℂ := ((Real.sqrt ‖sq.get 0 0‖ : ℝ) : ℂ)⁻¹ with hc
    have hce : c = ((‖coefVec T (opC.coef - w)‖⁻¹ : ℝ) : ℂ) := by rw [hc, hsqrt]; push_cast; rfl
    have huw : (rest.smul c).WF := Mat.smul_wf hr4
    obtain ⟨P2, hp1, hp2, hp3, hp4, hp5⟩ := Mat.dot_ok huw (Mat.getH_wf huw) (by rfl)
    have hP2r : P2.nrows = l'.length := by rw [hp2]; exact hrn
    have hP2c : P2.ncols = l'.length := by rw [hp3]; exact hrn
    obtain ⟨P3, hk1, hk2, hk3, hk4, hk5⟩ := Mat.add_get (M := P1) (N := P2) (by rw [hR.rows, hP2r]) (by rw [hR.cols, hP2c]) hR.wf hp4
    refine ⟨P3, fun h0 => ?_, ?_⟩
    · have hx : ‖coefVec T (opC.coef - w)‖ ≠ 0 := by
        intro h'; rw [h'] at htol; simp at htol; linarith
      refine hR.snoc (fun s hs => by rw [Pi.smul_apply, hrs s hs, smul_zero]) ?_ ?_ hk4 (by rw [hk2, hR.rows]) (by rw [hk3, hR.cols]) ?_
      · rw [coefVec_smul, norm_smul, Complex.norm_real, Real.norm_eq_abs, abs_of_nonneg (by positivity), inv_mul_cancel₀ hx]
      · intro k
        rw [coefVec_smul, inner_smul_right, projOn_inner h.ortho, mul_zero]
      · intro i j
        rw [hk5, hp5]
        congr 1
        have e1 : ∑ k : Fin (rest.smul c).ncols, (rest.smul c).get i k * (rest.smul c).getH.get k j = ∑ k : Fin 1, (rest.smul c).get i k * (rest.smul c).getH.get k j := by
          have : (rest.smul c).ncols = 1 := hrc
          rw [this]
        rw [e1, Fin.sum_univ_one, Mat.getH_get]
        simp only [Fin.val_zero, Mat.smul_get, hrg, Pi.smul_apply, smul_eq_mul, hce]
    · simp only [hr1, bind, Except.bind, hs1]
      rw [← hc]
      simp only [hp1, hk1]
  · left
    refine ⟨not_lt.mp htol, P1, hR, ?_⟩
    rw [if_neg htol]

end Qosy
