import Verif.Lemmas.GreedyBasis

/-! # `selected_ci_greedy`: commutant matrices and eigenvectors -/

namespace Qosy
open Coef RealOps
variable {K : Type} [Field K] [StarRing K] [Coef K] [RealCoef K]
variable {𝔸 : Type} [Ring 𝔸] [Algebra K 𝔸]

/-- the matrix of the commutator norms in a basis -/
structure CommForm (R : StrAlg K 𝔸) (H : Operator K) (b : Basis) (M : Mat K) : Prop where
  herm : M.IsHermitian b.len
  wf : M.WF
  real : ∀ i j, IsReal (M.get i j)
  norm : ∀ u, (∀ j, j < b.len → IsReal (u j)) →
    IsComNorm (fun s => R.Str s ∧ s.Canonical) R.den (linComb R.den b.strs u) (H.den R.den) (M.form b.len u)
  nonneg : ∀ u, 0 ≤ toR (M.form b.len u)

theorem form_congr {M N : Mat K} {n : ℕ} (h : ∀ i j, M.get i j = N.get i j) (u : ℕ → K) : M.form n u = N.form n u := by
  unfold Mat.form; simp only [h]

theorem gram_nonneg {M : Mat K} {n m : ℕ} {w : (ℕ → K) → ℕ → K} (h : ∀ u, M.form n u = ∑ c : Fin m, star (w u c) * w u c) (u : ℕ → K) :
    0 ≤ toR (M.form n u) := by
  rw [h, toR_sum]
  exact Finset.sum_nonneg fun c _ => by rw [toR_mul_self_star]; positivity

theorem real_form_all (M : Mat K) (n : ℕ) (u : ℕ → K) : M.real.form n u = (M.form n u + star (M.form n (fun j => star (u j)))) / 2 := by
  unfold Mat.form
  rw [star_sum, ← Finset.sum_add_distrib, Finset.sum_div]
  refine Finset.sum_congr rfl fun i _ => ?_
  rw [star_sum, ← Finset.sum_add_distrib, Finset.sum_div]
  refine Finset.sum_congr rfl fun j _ => ?_
  rw [Mat.real_get, re_eq, star_mul, star_mul, star_star, star_star]
  ring

theorem toR_star (x : K) : toR (star x) = toR x := by simp [toR, toC_star]

theorem greedyComMatrices_ok (R : StrAlg K 𝔸) {H : Operator K} (hH : ∀ s ∈ H.basis.strs, R.Str s) (hHn : H.basis.strs.Nodup) {st : Explored K}
    (h : st.Coherent R (· ∈ H.termStrs)) {b : Basis} (hb : GoodBasis R b) :
    ∃ M st', greedyComMatrices b [H] st = .ok (M, M, st') ∧ CommForm R H b M ∧ st'.Coherent R (· ∈ H.termStrs) := by
  obtain ⟨L, ext, st', h1, h2, h3⟩ := explore_one R hH hHn h hb
  obtain ⟨C, c1, c2, c3, c4⟩ := gram_ok h3.wf h3.ncols
  have e1 : greedyCommutant b H st = .ok (C.real, st') := by
    unfold greedyCommutant; simp only [h1, c1, bind, Except.bind]
  have e2 : (Mat.zero b.len b.len).add C.real = .ok ⟨b.len, b.len, C.real.data⟩ :=
    Mat.add_ok (M := Mat.zero b.len b.len) (N := C.real) c3.1.symm c3.2.1.symm
  have hg : ∀ i j, (⟨b.len, b.len, C.real.data⟩ : Mat K).get i j = C.real.get i j := fun _ _ => rfl
  have hr := Mat.isHermitian_real c3
  refine ⟨⟨b.len, b.len, C.real.data⟩, st', ?_, ⟨⟨rfl, rfl, hr.2.2⟩, ?_, ?_, ?_, ?_⟩, h2⟩
  · unfold greedyComMatrices
    simp only [e1, e2, bind, Except.bind]
    rfl
  · intro e he
    have := Mat.real_wf c2 e he
    have q1 : C.real.nrows = b.len := c3.1
    have q2 : C.real.ncols = b.len := c3.2.1
    rw [q1, q2] at this
    exact this
  · intro i j
    rw [hg, Mat.real_get]
    exact isReal_re _
  · intro u hu
    rw [form_congr hg, Mat.real_form c3 hu, c4]
    refine ⟨ext.strs, L.mulVec u, h3.ext_inv.2, h3.ext_str, ?_, ?_⟩
    · rw [h3.mulVec u]
      congr 1
      unfold linComb
      refine Finset.sum_congr rfl fun j _ => ?_
      have : b.strs[(j : ℕ)]? = some b.strs[(j : ℕ)] := List.getElem?_eq_getElem j.2
      rw [this]; rfl
    · have q := h3.nrows
      exact Fin.sum_congr' (fun c : Fin ext.strs.length => star (L.mulVec u c) * L.mulVec u c) q |>.symm ▸ rfl
  · intro u
    rw [form_congr hg, real_form_all]
    have e3 : (C.form b.len u + star (C.form b.len fun j => star (u j))) / 2 = (1 / 2 : K) * (C.form b.len u + star (C.form b.len fun j => star (u j))) := by ring
    have e4 : IsReal (1 / 2 : K) := .div .one (by unfold IsReal; exact toC_inj (by rw [toC_star, map_ofNat]; simp))
    have e5 : toR (1 / 2 : K) = 1 / 2 := by rw [toR, map_div₀, map_one, map_ofNat]; norm_num
    rw [e3, toR_mul e4, toR_add, toR_star, e5]
    have := gram_nonneg c4 u
    have := gram_nonneg c4 (fun j => star (u j))
    positivity

/-! ### orthogonalization -/

theorem zero_hermitian (n : ℕ) : (Mat.zero n n : Mat K).IsHermitian n := ⟨rfl, rfl, fun i j _ _ => by simp [Mat.zero, Mat.get]⟩

theorem orthFold_ok {n : ℕ} {f : Mat K → Operator K → Py (Mat K)} (hf : ∀ M op, M.WF → M.IsHermitian n → ∃ M', f M op = .ok M' ∧ M'.WF ∧ M'.IsHermitian n) :
    ∀ (l : List (Operator K)) (M : Mat K), M.WF → M.IsHermitian n → ∃ M', l.foldlM f M = .ok M' ∧ M'.WF ∧ M'.IsHermitian n := by
  intro l
  induction l with
  | nil => intro M h1 h2; exact ⟨M, rfl, h1, h2⟩
  | cons op l ih =>
    intro M h1 h2
    obtain ⟨M1, e1, g1, g2⟩ := hf M op h1 h2
    obtain ⟨M2, e2, g3, g4⟩ := ih M1 g1 g2
    exact ⟨M2, by rw [List.foldlM_cons, e1]; exact e2, g3, g4⟩

theorem Mat.add_get' {M N : Mat K} (i j : ℕ) : (⟨M.nrows, M.ncols, M.data ++ N.data⟩ : Mat K).get i j = M.get i j + N.get i j :=
  tget_append _ _ _ _

theorem hermitian_add {M N : Mat K} {n : ℕ} (hM : M.IsHermitian n) (hN : N.IsHermitian n) :
    (⟨M.nrows, M.ncols, M.data ++ N.data⟩ : Mat K).IsHermitian n := by
  refine ⟨hM.1, hM.2.1, fun i j hi hj => ?_⟩
  rw [Mat.add_get', Mat.add_get', hM.2.2 i j hi hj, hN.2.2 i j hi hj, star_add]

theorem wf_add {M N : Mat K} (hM : M.WF) (hN : N.WF) (h1 : M.nrows = N.nrows) (h2 : M.ncols = N.ncols) :
    (⟨M.nrows, M.ncols, M.data ++ N.data⟩ : Mat K).WF := by
  intro e he
  rcases List.mem_append.mp he with h | h
  · exact hM e h
  · have := hN e h
    rw [← h1, ← h2] at this; exact this

theorem orthogonalize_ok {com : Mat K} {b : Basis} (hb : b.Inv) (hw : com.WF) (hc : com.IsHermitian b.len) (ops : List (Operator K)) :
    ∃ M, orthogonalizeComMatrix com b ops = .ok M ∧ M.WF ∧ M.IsHermitian b.len ∧ ∀ i j, IsReal (M.get i j) := by
  obtain ⟨P, p1, p2, p3⟩ := orthFold_ok (n := b.len) (f := fun (proj : Mat K) op => (do
      let data ← (op.terms.filter (fun t => b.contains t.2)).mapM (fun t => do
        let i ← b.index t.2
        .ok (i, 0, t.1))
      let v ← mkCsr data b.len 1
      let vv ← v.dot v.getH
      proj.add vv : Py (Mat K))) (by
    intro M op h1 h2
    have hb1 := hb.1
    obtain ⟨data, d1, d2⟩ := mapM_forall₂ (l := op.terms.filter (fun t => b.contains t.2)) (f := fun t => (do
        let i ← b.index t.2
        .ok (i, 0, t.1) : Py (ℕ × ℕ × K))) (Q := fun _ e => e.1 < b.len ∧ e.2.1 < 1) (by
      intro t ht
      have hc := (List.mem_filter.mp ht).2
      rw [hb1, Basis.contains_ofList] at hc
      have hm : t.2 ∈ b.strs := by simpa using hc
      refine ⟨(b.strs.idxOf t.2, 0, t.1), ?_, List.idxOf_lt_length_iff.mpr hm, by simp⟩
      have : b.index t.2 = .ok (b.strs.idxOf t.2) := by
        rw [hb1, Basis.index_ofList, if_pos hm]; rfl
      simp only [this, bind, Except.bind])
    have hd : ∀ e ∈ data, e.1 < b.len ∧ e.2.1 < 1 := fun e he => let ⟨_, _, h⟩ := forall₂_mem_right d2 he; h
    have hv : (⟨b.len, 1, data⟩ : Mat K).WF := hd
    obtain ⟨V, v1, v2, v3, v4, v5⟩ := Mat.dot_ok hv (Mat.getH_wf hv) (rfl : (⟨b.len, 1, data⟩ : Mat K).ncols = 1)
    have hV : V.IsHermitian b.len := by
      refine ⟨v2, v3, fun i j _ _ => ?_⟩
      rw [v5, v5, star_sum]
      refine Finset.sum_congr rfl fun k _ => ?_
      rw [Mat.getH_get, Mat.getH_get, star_mul, star_star]
    refine ⟨_, ?_, wf_add h1 v4 (h2.1.trans hV.1.symm) (h2.2.1.trans hV.2.1.symm), hermitian_add h2 hV⟩
    simp only [bind, Except.bind] at d1 ⊢
    rw [d1]
    simp only [mkCsr_ok hd]
    rw [v1]
    exact Mat.add_ok (h2.1.trans hV.1.symm) (h2.2.1.trans hV.2.1.symm)) ops (Mat.zero b.len b.len) (by intro e he; simp [Mat.zero] at he) (zero_hermitian _)
  have hten : IsReal (10 ^ 10 : K) := by unfold IsReal; exact toC_inj (by rw [toC_star, map_pow, map_ofNat]; simp)
  have hS : (P.smul (10 ^ 10)).IsHermitian b.len := by
    refine ⟨p3.1, p3.2.1, fun i j hi hj => ?_⟩
    rw [Mat.smul_get, Mat.smul_get, p3.2.2 i j hi hj, star_mul, hten, mul_comm]
  have e : com.add (P.smul (10 ^ 10)) = .ok ⟨com.nrows, com.ncols, com.data ++ (P.smul (10 ^ 10)).data⟩ :=
    Mat.add_ok (hc.1.trans hS.1.symm) (hc.2.1.trans hS.2.1.symm)
  refine ⟨_, ?_, Mat.real_wf (wf_add hw (Mat.smul_wf p2) (hc.1.trans hS.1.symm) (hc.2.1.trans hS.2.1.symm)), Mat.isHermitian_real (hermitian_add hc hS), fun i j => ?_⟩
  · unfold orthogonalizeComMatrix
    simp only [bind, Except.bind] at p1 ⊢
    rw [p1]
    simp only [e]
  · rw [Mat.real_get]; exact isReal_re _

/-! ### eigenvectors -/

/-- `⟨v, w⟩` -/
def ip (n : ℕ) (v w : List K) : K := ∑ j : Fin n, star (v.getD j 0) * w.getD j 0

theorem ip_symm {n : ℕ} {v w : List K} (h : ip n v w = 0) : ip n w v = 0 := by
  have := congrArg star h
  rw [star_zero] at this
  rw [← this, ip, ip, star_sum]
  refine Finset.sum_congr rfl fun j _ => ?_
  rw [star_mul, star_star]

theorem sortPairs_ok {num : Numerics K} (ha : IsArgsort num.argsort) {evals : List K} {evecs : List (List K)} (hl : evals.length = evecs.length) :
    ∃ a b, sortPairs num evals evecs = .ok (a, b) ∧ a.length = b.length ∧ (a.zip b).Perm (evals.zip evecs) ∧
      a.Pairwise (fun x y => ‖toC x‖ ≤ ‖toC y‖) := by
  obtain ⟨a, a1, a2⟩ := mapM_forall₂ (l := num.argsort evals) (f := pyGet evals) (Q := fun i x => evals[i]? = some x) (by
    intro i hi
    exact ⟨_, pyGet_lt (argsort_lt ha hi), List.getElem?_eq_getElem _⟩)
  obtain ⟨b, b1, b2⟩ := mapM_forall₂ (l := num.argsort evals) (f := pyGet evecs) (Q := fun i x => evecs[i]? = some x) (by
    intro i hi
    exact ⟨_, pyGet_lt (hl ▸ argsort_lt ha hi), List.getElem?_eq_getElem _⟩)
  refine ⟨a, b, ?_, a2.length_eq.symm.trans b2.length_eq, ?_, ?_⟩
  · unfold sortPairs; simp only [a1, b1, bind, Except.bind]
  · have key : ∀ {l : List ℕ} {a : List K} {b : List (List K)}, List.Forall₂ (fun i x => evals[i]? = some x) l a →
        List.Forall₂ (fun i x => evecs[i]? = some x) l b → List.map some (a.zip b) = l.map (fun i => (evals.zip evecs)[i]?) := by
      intro l a b h1
      induction h1 generalizing b with
      | nil => intro h2; cases h2; rfl
      | cons h _ ih =>
        intro h2
        cases h2 with
        | cons h' h2' =>
          simp only [List.zip_cons_cons, List.map_cons, ih h2']
          congr 1
          exact (List.getElem?_zip_eq_some (z := (_, _)).mpr ⟨h, h'⟩).symm
    have k := key a2 b2
    have p := ((ha evals).1.map (fun i => (evals.zip evecs)[i]?))
    rw [← k] at p
    have q : (List.range evals.length).map (fun i => (evals.zip evecs)[i]?) = List.map some (evals.zip evecs) := by
      apply List.ext_getElem
      · simp [hl]
      · intro i h1 h2
        have h3 : i < (evals.zip evecs).length := by simpa using h2
        rw [List.getElem_map, List.getElem_range, List.getElem_map, List.getElem?_eq_getElem h3]
    rw [q] at p
    have r := p.filterMap id
    simpa using r
  · have := (ha evals).2
    clear b1 b2 a1
    generalize num.argsort evals = l at a2 this
    induction a2 with
    | nil => exact .nil
    | @cons i x l m h1 h2 ih =>
      rw [List.pairwise_cons] at this
      refine List.pairwise_cons.mpr ⟨fun y hy => ?_, ih this.2⟩
      obtain ⟨j, hj, h⟩ := forall₂_mem_right h2 hy
      have := this.1 j hj
      rwa [List.getD_eq_getElem?_getD, List.getD_eq_getElem?_getD, h1, h] at this

theorem IsEigenpairs.perm {M : Mat K} {n : ℕ} {r : List K × List (List K)} (h : IsEigenpairs M n r) {a : List K} {b : List (List K)}
    (hl : a.length = b.length) (hp : (a.zip b).Perm (r.1.zip r.2)) : IsEigenpairs M n (a, b) := by
  have ha : a.Perm r.1 := by
    have := hp.map Prod.fst
    rwa [List.map_fst_zip (by omega), List.map_fst_zip (by rw [h.len])] at this
  have hb : b.Perm r.2 := by
    have := hp.map Prod.snd
    rwa [List.map_snd_zip (by omega), List.map_snd_zip (by rw [h.len])] at this
  refine ⟨hl, fun v hv => h.dim v (hb.mem_iff.mp hv), fun v hv => h.unit v (hb.mem_iff.mp hv), ?_, fun e he => h.eigen e (hp.mem_iff.mp he),
    fun x hx => h.real x (ha.mem_iff.mp hx), fun hr v hv => h.realVectors hr v (hb.mem_iff.mp hv)⟩
  exact (hb.pairwise_iff (fun {v w} hvw => ip_symm (n := n) hvw)).mpr h.orthogonal

theorem form_eq {M : Mat K} {n : ℕ} (u : ℕ → K) : M.form n u = ∑ i : Fin n, star (u i) * ∑ j : Fin n, M.get i j * u j := by
  unfold Mat.form
  refine Finset.sum_congr rfl fun i _ => ?_
  rw [Finset.mul_sum]
  exact Finset.sum_congr rfl fun j _ => by ring

theorem IsEigenpairs.value {M : Mat K} {n : ℕ} {r : List K × List (List K)} (h : IsEigenpairs M n r) {e : K × List K} (he : e ∈ r.1.zip r.2) :
    e.1 = M.form n (fun j => e.2.getD j 0) := by
  rw [form_eq]
  have : ∀ i : Fin n, star (e.2.getD i 0) * ∑ j : Fin n, M.get i j * e.2.getD j 0 = e.1 * (star (e.2.getD i 0) * e.2.getD i 0) := by
    intro i
    rw [h.eigen e he i i.2]; ring
  simp only [this]
  rw [← Finset.mul_sum, h.unit e.2 (List.of_mem_zip he).2, mul_one]

/-- the Rayleigh quotient is at least `x` -/
def Rayleigh (M : Mat K) (n : ℕ) (x : K) : Prop := ∀ u : ℕ → K, toR x * ∑ j : Fin n, ‖toC (u j)‖ ^ 2 ≤ toR (M.form n u)

theorem greedyEig_ok {num : Numerics K} (hnum : IsNumerics num) {com : Mat K} {n : ℕ} (hc : com.IsHermitian n) {k : ℕ} (hk : 1 ≤ k) :
    ∃ r, greedyEig num com n k = .ok r ∧ IsEigenpairs com n r ∧ (0 < n → r.1 ≠ []) ∧
      ((∀ u, 0 ≤ toR (com.form n u)) → ∀ x ∈ r.1.head?, Rayleigh com n x) := by
  unfold greedyEig
  split
  · obtain ⟨h1, h2, h3⟩ := hnum.eigh com n hc
    refine ⟨_, rfl, h1, fun hn h0 => ?_, fun _ => h3⟩
    rw [h0] at h2; simp at h2; omega
  · rename_i hnk
    obtain ⟨h1, h2, h3⟩ := hnum.eigsh k com n hk (by omega) hc
    obtain ⟨a, b, e1, e2, e3, e4⟩ := sortPairs_ok hnum.argsort h1.len
    have hp := h1.perm e2 e3
    refine ⟨(a, b), e1, hp, fun _ h0 => ?_, fun hpos x hx => ?_⟩
    · have := e3.length_eq
      have h0' : a = [] := h0
      simp [h0', h1.len.symm, h2] at this
      omega
    · obtain ⟨y, hy, hR⟩ := h3 hpos
      have hya : y ∈ a := by
        have := (e3.map Prod.fst).mem_iff (a := y)
        rw [List.map_fst_zip (by omega), List.map_fst_zip (by rw [h1.len])] at this
        exact this.mpr hy
      have hnn : ∀ z ∈ a, 0 ≤ toR z ∧ ‖toC z‖ = toR z := by
        intro z hz
        obtain ⟨i, hi, rfl⟩ := List.mem_iff_getElem.mp hz
        have hb : i < b.length := by omega
        have he : (a[i], b[i]) ∈ a.zip b := by
          rw [List.mem_iff_getElem]
          exact ⟨i, by simp; omega, by simp⟩
        have hv := hp.value he
        have h0 : 0 ≤ toR a[i] := by
          have : toR a[i] = toR (com.form n (fun j => b[i].getD j 0)) := congrArg toR hv
          rw [this]; exact hpos _
        refine ⟨h0, ?_⟩
        have hr := hp.real _ hz
        rw [hr.toC_eq, Complex.norm_real, Real.norm_of_nonneg h0]
      cases a with
      | nil => simp at hx
      | cons z a' =>
        simp at hx
        subst hx
        have hle : toR z ≤ toR y := by
          rcases List.mem_cons.mp hya with rfl | hy'
          · exact le_rfl
          · have := (List.pairwise_cons.mp e4).1 y hy'
            rwa [(hnn z (List.mem_cons_self ..)).2, (hnn y (List.mem_cons_of_mem _ hy')).2] at this
        intro u
        refine le_trans ?_ (hR u)
        exact mul_le_mul_of_nonneg_right hle (Finset.sum_nonneg fun _ _ => by positivity)

/-- the eigenvectors and commutator norms of one step -/
structure Solved (M : Mat K) (n : ℕ) (r : List K × List (List K)) : Prop where
  len : r.1.length = r.2.length
  nonempty : 0 < n → r.1 ≠ []
  dim : ∀ v ∈ r.2, v.length = n
  unit : ∀ v ∈ r.2, ∑ j : Fin n, star (v.getD j 0) * v.getD j 0 = 1
  orthogonal : r.2.Pairwise (fun v w => ip n v w = 0)
  real : ∀ v ∈ r.2, ∀ x ∈ v, IsReal x
  norm : ∀ e ∈ r.1.zip r.2, e.1 = M.form n (fun j => e.2.getD j 0)

theorem IsEigenpairs.solved {M N : Mat K} {n : ℕ} {r : List K × List (List K)} (h : IsEigenpairs M n r) (hr : ∀ i j, IsReal (M.get i j))
    (hne : 0 < n → r.1 ≠ []) (hN : ∀ e ∈ r.1.zip r.2, e.1 = N.form n (fun j => e.2.getD j 0)) : Solved N n r :=
  ⟨h.len, hne, h.dim, h.unit, h.orthogonal, h.realVectors (fun i j _ _ => hr i j), hN⟩

theorem greedySolve_ok (R : StrAlg K 𝔸) {num : Numerics K} (hnum : IsNumerics num) {H : Operator K} (hH : ∀ s ∈ H.basis.strs, R.Str s)
    (hHn : H.basis.strs.Nodup) {st : Explored K} (h : st.Coherent R (· ∈ H.termStrs)) {b : Basis} (hb : GoodBasis R b) {args : GreedyArgs K}
    (hcom : args.comOps = [H]) (htr : args.transformations = none) {k : ℕ} (hk : 1 ≤ k) :
    ∃ r M st', greedySolve num args b k st = .ok (r, st') ∧ CommForm R H b M ∧ st'.Coherent R (· ∈ H.termStrs) ∧ Solved M b.len r ∧
      (args.orthOps = none → IsEigenpairs M b.len r ∧ ∀ x ∈ r.1.head?, Rayleigh M b.len x) := by
  obtain ⟨M, st', m1, m2, m3⟩ := greedyComMatrices_ok R hH hHn h hb
  cases ho : args.orthOps with
  | none =>
    obtain ⟨r, r1, r2, r3, r4⟩ := greedyEig_ok hnum m2.herm hk
    refine ⟨r, M, st', ?_, m2, m3, r2.solved m2.real r3 (fun e he => r2.value he), fun _ => ⟨r2, r4 m2.nonneg⟩⟩
    unfold greedySolve
    simp only [hcom, ho, htr, m1, r1, bind, Except.bind]
    simp
  | some ops =>
    obtain ⟨com, c1, c2, c3, c4⟩ := orthogonalize_ok hb.1 m2.wf m2.herm ops
    obtain ⟨r, r1, r2, r3, _⟩ := greedyEig_ok hnum c3 hk
    have hreal := r2.realVectors (fun i j _ _ => c4 i j)
    obtain ⟨vals, v1, v2⟩ := mapM_forall₂ (l := r.2) (f := fun v => (do
        let w ← M.dotVec v
        .ok (re (innerL v w)) : Py K)) (Q := fun v x => x = M.form b.len (fun j => v.getD j 0)) (by
      intro v hv
      obtain ⟨w, w1, w2, w3⟩ := dotVec_ok (M := M) (v := v) (by rw [m2.herm.2.1, r2.dim v hv])
      refine ⟨re (innerL v w), by simp only [w1, bind, Except.bind], ?_⟩
      have e : innerL v w = M.form b.len (fun j => v.getD j 0) := by
        rw [innerL_eq (r2.dim v hv) (w2.trans m2.herm.1), form_eq]
        refine Finset.sum_congr rfl fun i _ => ?_
        have := w3 i (by rw [m2.herm.1]; exact i.2)
        rw [this]
        congr 1
        exact Fin.sum_congr' (fun j : Fin b.len => M.get i j * v.getD j 0) m2.herm.2.1
      rw [e]
      apply IsReal.re_eq
      unfold Mat.form
      refine IsReal.sum fun i _ => IsReal.sum fun j _ => ?_
      have hvr : ∀ i : ℕ, IsReal (v.getD i 0) := by
        intro i
        by_cases hi : i < v.length
        · rw [List.getD_eq_getElem _ _ hi]; exact hreal v hv _ (List.getElem_mem _)
        · rw [List.getD_eq_default _ _ (by omega)]; exact .zero
      exact ((show IsReal (star (v.getD i 0)) by unfold IsReal; rw [star_star]; exact (hvr i).symm ▸ rfl).mul (m2.real i j)).mul (hvr j))
    obtain ⟨a, e, e1, e2, e3, _⟩ := sortPairs_ok hnum.argsort (evals := vals) (evecs := r.2) v2.length_eq.symm
    have hb2 : e.Perm r.2 := by
      have := e3.map Prod.snd
      rwa [List.map_snd_zip (by omega), List.map_snd_zip (by rw [v2.length_eq])] at this
    refine ⟨(a, e), M, st', ?_, m2, m3, ⟨e2, ?_, fun v hv => r2.dim v (hb2.mem_iff.mp hv), fun v hv => r2.unit v (hb2.mem_iff.mp hv),
      (hb2.pairwise_iff (fun {v w} hvw => ip_symm (n := b.len) hvw)).mpr r2.orthogonal, fun v hv => hreal v (hb2.mem_iff.mp hv), ?_⟩, fun h => by simp at h⟩
    · unfold greedySolve
      simp only [hcom, ho, htr, m1, c1, r1, bind, Except.bind]
      have : greedyRecompute num M r.2 = .ok (a, e) := by
        unfold greedyRecompute
        simp only [bind, Except.bind] at v1 ⊢
        rw [v1]
        exact e1
      simp [this]
    · intro hn h0
      have h0' : a = [] := h0
      have h1 := hb2.length_eq
      have := r3 hn
      rw [← e2, h0', ← r2.len] at h1
      exact this (List.length_eq_zero_iff.mp h1.symm)
    · intro p hp
      have hp' := e3.mem_iff.mp hp
      obtain ⟨i, hi, he⟩ := List.mem_iff_getElem.mp hp'
      have hi1 : i < vals.length := by simp at hi; omega
      have hi2 : i < r.2.length := by simp at hi; omega
      have := List.forall₂_iff_get.mp v2 |>.2 i hi2 hi1
      rw [← he]
      simpa using this

end Qosy
