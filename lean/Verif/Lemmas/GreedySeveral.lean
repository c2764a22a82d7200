import Verif.Lemmas.ExploreSeveral
import Verif.Lemmas.GreedySymmetry

/-! # `selected_ci_greedy` with several operators in `com_ops` -/

namespace Qosy
open Coef RealOps
variable {K : Type} [Field K] [StarRing K] [Coef K] [RealCoef K]
variable {𝔸 : Type} [Ring 𝔸] [Algebra K 𝔸]

/-! ### the expansion of the basis -/

/-- the invariant of the cache, with a basis that has been explored -/
def Explored.Knows (R : StrAlg K 𝔸) (H : Operator K) (b : Basis) (st : Explored K) : Prop :=
  st.Coherent R (· ∈ H.termStrs) ∧ st.Only H ∧ ∀ s ∈ b.strs, s ∈ st.basis.strs

theorem insertFrom_ok {R : StrAlg K 𝔸} {num : Numerics K} (ha : IsArgsort num.argsort) (numH : ℕ) {A : Basis} {v : List K} (hv : v.length = A.len) {b : Basis}
    (hb : GoodBasis R b) {st st' : Explored K} {C : Operator K} {X : 𝔸} {L : Mat K} {ext : Basis} (h1 : explore A C none st = .ok ((L, ext), st'))
    (h3 : LiouvilleOK R.den R.Str .commutator A.len (fun j => ((A.strs[j]?).map R.den).getD 0) X L ext) :
    ∃ b', greedyInsert num numH A v (b, st) C = .ok (b', st') ∧ GoodBasis R b' ∧ (∀ t ∈ b.strs, t ∈ b'.strs) := by
  obtain ⟨w, w1, w2, _⟩ := dotVec_ok (M := L) (v := v) (by rw [h3.ncols, hv])
  obtain ⟨strs, s1, s2⟩ := mapM_forall₂ (l := (num.argsort w).reverse) (f := pyGet ext.strs) (Q := fun _ s => R.Str s) (by
    intro i hi
    have hi' : i < ext.strs.length := by
      have := argsort_lt ha (List.mem_reverse.mp hi)
      rw [w2, h3.nrows] at this; exact this
    exact ⟨_, pyGet_lt hi', (h3.ext_str _ (List.getElem_mem _)).1⟩)
  refine ⟨insertTerms (min w.length numH) strs b 0, ?_, insertTerms_good _ (fun s hs => let ⟨_, _, h⟩ := forall₂_mem_right s2 hs; h) hb _,
    fun t ht => insertTerms_subset _ (fun s hs => let ⟨_, _, h⟩ := forall₂_mem_right s2 hs; h) hb _ ht⟩
  unfold greedyInsert
  simp only [h1, w1, s1, bind, Except.bind]

theorem insertRest_ok {R : StrAlg K 𝔸} {num : Numerics K} (ha : IsArgsort num.argsort) (numH : ℕ) {A : Basis} (hA : GoodBasis R A) {v : List K} (hv : v.length = A.len)
    {H : Operator K} : ∀ (rest : List (Operator K)), (∀ C ∈ rest, ∀ s ∈ C.basis.strs, R.Str s) → (∀ C ∈ rest, C.basis.strs.Nodup) → ∀ {b : Basis}, GoodBasis R b →
    ∀ {st : Explored K}, st.Knows R H A → ∃ b' st', rest.foldlM (greedyInsert num numH A v) (b, st) = .ok (b', st') ∧ GoodBasis R b' ∧ (∀ t ∈ b.strs, t ∈ b'.strs) ∧
      st'.Knows R H A := by
  intro rest
  induction rest with
  | nil => intro _ _ b hb st hst; exact ⟨b, st, rfl, hb, fun _ h => h, hst⟩
  | cons C rest ih =>
    intro h1 h2 b hb st hst
    obtain ⟨L, ext, st1, e1, e2, e3, e4, e5⟩ := explore_again R hst.1 hst.2.1 hA hst.2.2 (h1 C (List.mem_cons_self ..)) (h2 C (List.mem_cons_self ..))
    obtain ⟨b1, i1, i2, i3⟩ := insertFrom_ok ha numH hv hb e1 e5
    obtain ⟨b2, st2, j1, j2, j3, j4⟩ := ih (fun C hC => h1 C (List.mem_cons_of_mem _ hC)) (fun C hC => h2 C (List.mem_cons_of_mem _ hC)) i2 ⟨e2, e3, e4⟩
    exact ⟨b2, st2, by rw [List.foldlM_cons, i1]; exact j1, j2, fun t ht => j3 t (i3 t ht), j4⟩

theorem greedyExpandH_several {R : StrAlg K 𝔸} {num : Numerics K} (ha : IsArgsort num.argsort) {H : Operator K} {rest : List (Operator K)}
    (hstr : ∀ A ∈ H :: rest, ∀ s ∈ A.basis.strs, R.Str s) (hnodup : ∀ A ∈ H :: rest, A.basis.strs.Nodup) (numH : ℕ) {b : Basis} (hb : GoodBasis R b) {O : Operator K}
    (hO : O.coeffs.length = b.len) {st : Explored K} (h : st.Coherent R (· ∈ H.termStrs)) (ho : st.Only H) :
    ∃ b' st', greedyExpandH num (H :: rest) numH b O st = .ok (b', st') ∧ GoodBasis R b' ∧ st'.Coherent R (· ∈ H.termStrs) ∧ st'.Only H ∧ (∀ t ∈ b.strs, t ∈ b'.strs) := by
  have hH := hstr H (List.mem_cons_self ..)
  have hHn := hnodup H (List.mem_cons_self ..)
  obtain ⟨L, ext, st1, h1, h2, h2', -, h3⟩ := explore_first R hH hHn h ho hb
  obtain ⟨w, w1, w2, _⟩ := dotVec_ok (M := L) (v := O.coeffs) (by rw [h3.ncols, hO])
  set inds := (num.argsort w).reverse.take (min (num.argsort w).reverse.length numH) with hinds
  have hlt : ∀ i ∈ inds, i < w.length := fun i hi => argsort_lt ha (List.mem_reverse.mp (List.mem_of_mem_take hi))
  have hnd : inds.Nodup := (List.nodup_reverse.mpr (argsort_nodup ha w)).sublist (List.take_sublist _ _)
  have hlt' : ∀ i ∈ inds, i < ext.strs.length := fun i hi => by
    have := hlt i hi
    rw [w2, h3.nrows] at this; exact this
  obtain ⟨strs, s1, s2⟩ := mapM_forall₂ (l := inds) (f := pyGet ext.strs) (Q := fun i s => ext.strs[i]? = some s) (by
    intro i hi
    exact ⟨_, pyGet_lt (hlt' i hi), List.getElem?_eq_getElem _⟩)
  obtain ⟨v, v1, v2⟩ := mapM_forall₂ (l := inds) (f := pyGet w) (Q := fun _ _ => True) (by
    intro i hi
    exact ⟨_, pyGet_lt (hlt i hi), trivial⟩)
  have hstr' : ∀ s ∈ strs, R.Str s := fun s hs => by
    obtain ⟨i, _, h⟩ := forall₂_mem_right s2 hs
    exact (h3.ext_str _ (List.mem_of_getElem? h)).1
  have hsn : strs.Nodup := forall₂_nodup s2 hnd h3.ext_inv.2
  have hA : GoodBasis R (Basis.ofList strs) := ⟨Basis.Inv.ofList hsn, hstr'⟩
  have hv : v.length = (Basis.ofList strs).len := by rw [← v2.length_eq, s2.length_eq]; rfl
  obtain ⟨L2, ext2, st2, e1, e2, e3, e4, e5⟩ := explore_first R hH hHn h2 h2' hA
  obtain ⟨b1, i1, i2, i3⟩ := insertFrom_ok ha numH hv hb e1 e5
  obtain ⟨b2, st3, j1, j2, j3, j4⟩ := insertRest_ok ha numH hA hv rest (fun C hC => hstr C (List.mem_cons_of_mem _ hC)) (fun C hC => hnodup C (List.mem_cons_of_mem _ hC)) i2
    ⟨e2, e3, e4⟩
  refine ⟨b2, st3, ?_, j2, j4.1, j4.2.1, fun t ht => j3 t (i3 t ht)⟩
  unfold greedyExpandH
  simp only [h1, w1, bind, Except.bind]
  rw [← hinds, s1]
  simp only [mkBasis_ok hsn, v1]
  rw [List.foldlM_cons, i1]
  exact j1

/-! ### the matrices -/

theorem CommForm.of_den {R : StrAlg K 𝔸} {H H' : Operator K} {b : Basis} {M : Mat K} (h : CommForm R H b M) (e : H.den R.den = H'.den R.den) : CommForm R H' b M :=
  ⟨h.herm, h.wf, h.real, fun u hu => e ▸ h.norm u hu, h.nonneg⟩

theorem commutant_ok {R : StrAlg K 𝔸} {b : Basis} {A B : Operator K} {st st' : Explored K} {L : Mat K} {ext : Basis} (h1 : explore b A none st = .ok ((L, ext), st'))
    (h3 : LiouvilleOK R.den R.Str .commutator b.len (fun j => ((b.strs[j]?).map R.den).getD 0) (B.den R.den) L ext) :
    ∃ C, greedyCommutant b A st = .ok (C, st') ∧ CommForm R B b C := by
  obtain ⟨C, c1, c2, c3, c4⟩ := gram_ok h3.wf h3.ncols
  refine ⟨C.real, ?_, ⟨Mat.isHermitian_real c3, Mat.real_wf c2, ?_, ?_, ?_⟩⟩
  · unfold greedyCommutant; simp only [h1, c1, bind, Except.bind]
  · intro i j
    rw [Mat.real_get]
    exact isReal_re _
  · intro u hu
    rw [Mat.real_form c3 hu, c4]
    refine ⟨ext.strs, L.mulVec u, h3.ext_inv.2, h3.ext_str, ?_, ?_⟩
    · rw [h3.mulVec u]
      congr 1
      unfold linComb
      refine Finset.sum_congr rfl fun j _ => ?_
      have : b.strs[(j : ℕ)]? = some b.strs[(j : ℕ)] := List.getElem?_eq_getElem j.2
      rw [this]; rfl
    · have q := h3.nrows
      exact Fin.sum_congr' (fun c : Fin ext.strs.length => star (L.mulVec u c) * L.mulVec u c) q |>.symm ▸ rfl
  · intro u
    rw [real_form_all]
    have e3 : (C.form b.len u + star (C.form b.len fun j => star (u j))) / 2 = (1 / 2 : K) * (C.form b.len u + star (C.form b.len fun j => star (u j))) := by ring
    have e4 : IsReal (1 / 2 : K) := .div .one (by unfold IsReal; exact toC_inj (by rw [toC_star, map_ofNat]; simp))
    have e5 : toR (1 / 2 : K) = 1 / 2 := by rw [toR, map_div₀, map_one, map_ofNat]; norm_num
    rw [e3, toR_mul e4, toR_add, toR_star, e5]
    have := gram_nonneg c4 u
    have := gram_nonneg c4 (fun j => star (u j))
    positivity

/-- `M` is the sum of the commutant matrices of the parts of `ops` in `H` -/
structure SumForm (R : StrAlg K 𝔸) (H : Operator K) (ops : List (Operator K)) (b : Basis) (M : Mat K) : Prop where
  herm : M.IsHermitian b.len
  wf : M.WF
  real : ∀ i j, IsReal (M.get i j)
  parts : ∃ Ns, List.Forall₂ (fun A N => CommForm R (A.within H) b N) ops Ns ∧ ∀ u, toR (M.form b.len u) = (Ns.map (fun N => toR (N.form b.len u))).sum

theorem form_matAdd {M N : Mat K} {n : ℕ} (u : ℕ → K) : (⟨M.nrows, M.ncols, M.data ++ N.data⟩ : Mat K).form n u = M.form n u + N.form n u := by
  unfold Mat.form
  rw [← Finset.sum_add_distrib]
  refine Finset.sum_congr rfl fun i _ => ?_
  rw [← Finset.sum_add_distrib]
  refine Finset.sum_congr rfl fun j _ => ?_
  rw [Mat.add_get']; ring

theorem SumForm.nonneg {R : StrAlg K 𝔸} {H : Operator K} {ops : List (Operator K)} {b : Basis} {M : Mat K} (h : SumForm R H ops b M) (u : ℕ → K) :
    0 ≤ toR (M.form b.len u) := by
  obtain ⟨Ns, h1, h2⟩ := h.parts
  rw [h2]
  apply List.sum_nonneg
  intro x hx
  obtain ⟨N, hN, rfl⟩ := List.mem_map.mp hx
  obtain ⟨A, _, hA⟩ := forall₂_mem_right h1 hN
  exact hA.nonneg u

/-- the matrix of the first operator and the others -/
theorem comMatrixRest_ok {R : StrAlg K 𝔸} {H : Operator K} {b : Basis} (hb : GoodBasis R b) : ∀ (rest done : List (Operator K)),
    (∀ C ∈ rest, ∀ s ∈ C.basis.strs, R.Str s) → (∀ C ∈ rest, C.basis.strs.Nodup) → ∀ {M : Mat K}, SumForm R H done b M → ∀ {st : Explored K}, st.Knows R H b →
    ∃ N st', greedyComMatrix b rest (M, st) = .ok (N, st') ∧ SumForm R H (done ++ rest) b N ∧ st'.Knows R H b ∧ ∀ u, toR (M.form b.len u) ≤ toR (N.form b.len u) := by
  intro rest
  induction rest with
  | nil => intro done _ _ M hM st hst; exact ⟨M, st, rfl, by simpa using hM, hst, fun _ => le_rfl⟩
  | cons C rest ih =>
    intro done h1 h2 M hM st hst
    obtain ⟨L, ext, st1, e1, e2, e3, e4, e5⟩ := explore_again R hst.1 hst.2.1 hb hst.2.2 (h1 C (List.mem_cons_self ..)) (h2 C (List.mem_cons_self ..))
    obtain ⟨D, d1, d2⟩ := commutant_ok (B := C.within H) e1 e5
    have hadd : M.add D = .ok ⟨M.nrows, M.ncols, M.data ++ D.data⟩ := Mat.add_ok (hM.herm.1.trans d2.herm.1.symm) (hM.herm.2.1.trans d2.herm.2.1.symm)
    obtain ⟨Ns, n1, n2⟩ := hM.parts
    have hsum : SumForm R H (done ++ [C]) b ⟨M.nrows, M.ncols, M.data ++ D.data⟩ := by
      refine ⟨hermitian_add hM.herm d2.herm, wf_add hM.wf d2.wf (hM.herm.1.trans d2.herm.1.symm) (hM.herm.2.1.trans d2.herm.2.1.symm), fun i j => ?_,
        Ns ++ [D], List.rel_append n1 (.cons d2 .nil), fun u => ?_⟩
      · rw [Mat.add_get']; exact (hM.real i j).add (d2.real i j)
      · rw [form_matAdd, toR_add, n2]
        simp
    obtain ⟨N, st2, j1, j2, j3, j4⟩ := ih (done ++ [C]) (fun C hC => h1 C (List.mem_cons_of_mem _ hC)) (fun C hC => h2 C (List.mem_cons_of_mem _ hC)) hsum ⟨e2, e3, e4⟩
    refine ⟨N, st2, ?_, by simpa using j2, j3, fun u => le_trans ?_ (j4 u)⟩
    · unfold greedyComMatrix at j1 ⊢
      rw [List.foldlM_cons]
      simp only [d1, hadd, bind, Except.bind] at j1 ⊢
      exact j1
    · rw [form_matAdd, toR_add]
      have := d2.nonneg u
      linarith

theorem within_self_den (H : Operator K) (den : OpString → 𝔸) : (H.within H).den den = H.den den := by
  unfold Operator.den
  rw [Operator.within_terms, List.filter_eq_self.mpr]
  intro t ht
  exact decide_eq_true (List.mem_map_of_mem (f := Prod.snd) ht)

theorem comMatrices_several {R : StrAlg K 𝔸} {H : Operator K} {rest : List (Operator K)} (hstr : ∀ A ∈ H :: rest, ∀ s ∈ A.basis.strs, R.Str s)
    (hnodup : ∀ A ∈ H :: rest, A.basis.strs.Nodup) {st : Explored K} (h : st.Coherent R (· ∈ H.termStrs)) (ho : st.Only H) {b : Basis} (hb : GoodBasis R b) :
    ∃ M N st', greedyComMatrices b (H :: rest) st = .ok (N, M, st') ∧ CommForm R H b M ∧ SumForm R H (H :: rest) b N ∧ st'.Coherent R (· ∈ H.termStrs) ∧ st'.Only H ∧
      ∀ u, toR (M.form b.len u) ≤ toR (N.form b.len u) := by
  obtain ⟨L, ext, st1, e1, e2, e3, e4, e5⟩ := explore_first R (hstr H (List.mem_cons_self ..)) (hnodup H (List.mem_cons_self ..)) h ho hb
  obtain ⟨D, d1, d2⟩ := commutant_ok (B := H) e1 e5
  have hadd : (Mat.zero b.len b.len).add D = .ok ⟨b.len, b.len, D.data⟩ := Mat.add_ok (M := Mat.zero b.len b.len) (N := D) d2.herm.1.symm d2.herm.2.1.symm
  have hD : CommForm R H b ⟨b.len, b.len, D.data⟩ := by
    refine ⟨⟨rfl, rfl, d2.herm.2.2⟩, fun e he => ?_, d2.real, d2.norm, d2.nonneg⟩
    have := d2.wf e he
    rw [d2.herm.1, d2.herm.2.1] at this
    exact this
  obtain ⟨N, st2, j1, j2, j3, j4⟩ := comMatrixRest_ok hb rest [H] (fun C hC => hstr C (List.mem_cons_of_mem _ hC)) (fun C hC => hnodup C (List.mem_cons_of_mem _ hC))
    (M := ⟨b.len, b.len, D.data⟩) ⟨hD.herm, hD.wf, hD.real, [_], .cons (hD.of_den (within_self_den H R.den).symm) .nil, fun u => by simp⟩ ⟨e2, e3, e4⟩
  refine ⟨_, N, st2, ?_, hD, j2, j3.1, j3.2.1, j4⟩
  unfold greedyComMatrices
  simp only [d1, hadd, j1, bind, Except.bind]

/-! ### the solution -/

theorem greedyEig_one {num : Numerics K} (hnum : IsNumerics num) {com : Mat K} {n : ℕ} (hc : com.IsHermitian n) (hn : 20 ≤ n) {r : List K × List (List K)}
    (h : greedyEig num com n 1 = .ok r) : r.2.length = 1 := by
  unfold greedyEig at h
  rw [if_neg (by omega)] at h
  obtain ⟨h1, h2, h3⟩ := hnum.eigsh 1 com n le_rfl (by omega) hc
  obtain ⟨a, b, e1, e2, e3, e4⟩ := sortPairs_ok hnum.argsort h1.len
  rw [e1] at h
  cases h
  have := e3.length_eq
  simp [h1.len.symm, h2] at this
  show b.length = 1
  omega

/-- the commutator norms with the first operator -/
theorem recompute_ok {R : StrAlg K 𝔸} {num : Numerics K} (hnum : IsNumerics num) {H : Operator K} {b : Basis} {M com : Mat K} (m2 : CommForm R H b M)
    {r : List K × List (List K)} (r2 : IsEigenpairs com b.len r) (r3 : 0 < b.len → r.1 ≠ []) (c4 : ∀ i j, IsReal (com.get i j)) :
    ∃ a e, greedyRecompute num M r.2 = .ok (a, e) ∧ Solved M b.len (a, e) ∧ e.Perm r.2 ∧ a.Pairwise (fun x y => ‖toC x‖ ≤ ‖toC y‖) := by
  have hreal := r2.realVectors (fun i j _ _ => c4 i j)
  obtain ⟨vals, v1, v2⟩ := mapM_forall₂ (l := r.2) (f := fun v => (do
      let w ← M.dotVec v
      .ok (re (innerL v w)) : Py K)) (Q := fun v x => x = M.form b.len (fun j => v.getD j 0)) (by
    intro v hv
    obtain ⟨w, w1, w2, w3⟩ := dotVec_ok (M := M) (v := v) (by rw [m2.herm.2.1, r2.dim v hv])
    refine ⟨re (innerL v w), by simp only [w1, bind, Except.bind], ?_⟩
    have e : innerL v w = M.form b.len (fun j => v.getD j 0) := by
      rw [innerL_eq (r2.dim v hv) (w2.trans m2.herm.1), form_eq]
      refine Finset.sum_congr rfl fun i _ => ?_
      have := w3 i (by rw [m2.herm.1]; exact i.2)
      rw [this]
      congr 1
      exact Fin.sum_congr' (fun j : Fin b.len => M.get i j * v.getD j 0) m2.herm.2.1
    rw [e]
    apply IsReal.re_eq
    unfold Mat.form
    refine IsReal.sum fun i _ => IsReal.sum fun j _ => ?_
    have hvr : ∀ i : ℕ, IsReal (v.getD i 0) := getD_real (hreal v hv)
    exact ((show IsReal (star (v.getD i 0)) by unfold IsReal; rw [star_star]; exact (hvr i).symm ▸ rfl).mul (m2.real i j)).mul (hvr j))
  obtain ⟨a, e, e1, e2, e3, e4⟩ := sortPairs_ok hnum.argsort (evals := vals) (evecs := r.2) v2.length_eq.symm
  have hb2 : e.Perm r.2 := by
    have := e3.map Prod.snd
    rwa [List.map_snd_zip (by omega), List.map_snd_zip (by rw [v2.length_eq])] at this
  refine ⟨a, e, ?_, ⟨e2, ?_, fun v hv => r2.dim v (hb2.mem_iff.mp hv), fun v hv => r2.unit v (hb2.mem_iff.mp hv),
    (hb2.pairwise_iff (fun {v w} hvw => ip_symm (n := b.len) hvw)).mpr r2.orthogonal, fun v hv => hreal v (hb2.mem_iff.mp hv), ?_⟩, hb2, e4⟩
  · unfold greedyRecompute
    simp only [bind, Except.bind] at v1 ⊢
    rw [v1]
    exact e1
  · intro hn h0
    have h0' : a = [] := h0
    have h1 := hb2.length_eq
    have := r3 hn
    rw [← e2, h0', ← r2.len] at h1
    exact this (List.length_eq_zero_iff.mp h1.symm)
  · intro p hp
    have hp' := e3.mem_iff.mp hp
    obtain ⟨i, hi, he⟩ := List.mem_iff_getElem.mp hp'
    have hi1 : i < vals.length := by simp at hi; omega
    have hi2 : i < r.2.length := by simp at hi; omega
    have := List.forall₂_iff_get.mp v2 |>.2 i hi2 hi1
    rw [← he]
    simpa using this

/-- the result of a step: vectors `e` with norms `a`, the first one at most the smallest eigenvalue of the sum, and of smallest sum if there is only one -/
theorem solveSeveral_ok {R : StrAlg K 𝔸} {num : Numerics K} (hnum : IsNumerics num) {H : Operator K} {rest : List (Operator K)} {args : GreedyArgs K}
    (ha : SeveralOK R.Str H rest args) {st : Explored K} (h : st.Coherent R (· ∈ H.termStrs)) (ho : st.Only H) {b : Basis} (hb : GoodBasis R b) (hpos : 0 < b.len)
    {k : ℕ} (hk : 1 ≤ k) :
    ∃ r M N st', greedySolve num args b k st = .ok (r, st') ∧ CommForm R H b M ∧ SumForm R H (H :: rest) b N ∧ st'.Coherent R (· ∈ H.termStrs) ∧ st'.Only H ∧
      Solved M b.len r ∧ (args.orthOps = none → (∀ c ∈ r.1.head?, Rayleigh N b.len c) ∧ (k = 1 → 20 ≤ b.len → ∀ v ∈ r.2, ∀ u : ℕ → K,
        toR (N.form b.len (fun j => v.getD j 0)) * ∑ j : Fin b.len, ‖toC (u j)‖ ^ 2 ≤ toR (N.form b.len u))) := by
  obtain ⟨M, N, st', m1, m2, m3, m4, m5, m6⟩ := comMatrices_several ha.str ha.nodup h ho hb
  have hlen : 1 < args.comOps.length := by
    rw [ha.com, List.length_cons]
    have := List.length_pos_iff.mpr ha.several
    omega
  cases horth : args.orthOps with
  | none =>
    obtain ⟨r, r1, r2, r3, r4⟩ := greedyEig_ok hnum m3.herm hk
    obtain ⟨a, e, e1, e2, e3, e4⟩ := recompute_ok hnum m2 r2 r3 m3.real
    refine ⟨(a, e), M, N, st', ?_, m2, m3, m4, m5, e2, fun _ => ?_⟩
    · unfold greedySolve
      have hif : ((1 < (H :: rest).length) ∨ (none : Option (List (Operator K))).isSome = true) = True := eq_true (Or.inl (ha.com ▸ hlen))
      simp only [ha.com, horth, ha.transformations, m1, r1, e1, hif, if_true, bind, Except.bind]
    · have hne := r3 hpos
      have hl1 : 0 < r.1.length := List.length_pos_iff.mpr hne
      have hl2 : 0 < r.2.length := by rw [← r2.len]; exact hl1
      have hray : Rayleigh N b.len r.1[0] := r4 m3.nonneg _ (by rw [List.head?_eq_getElem?, List.getElem?_eq_getElem hl1]; rfl)
      have hz : (r.1[0], r.2[0]) ∈ r.1.zip r.2 := List.mem_iff_getElem.mpr ⟨0, by simp; omega, by simp⟩
      have hval : r.1[0] = N.form b.len (fun j => r.2[0].getD j 0) := r2.value hz
      constructor
      · intro c hc u
        have hv0 : r.2[0] ∈ e := e3.mem_iff.mpr (List.getElem_mem hl2)
        obtain ⟨i, hi, hie⟩ := List.mem_iff_getElem.mp hv0
        have hia : i < a.length := by have : a.length = e.length := e2.len; omega
        have hzi : (a[i], e[i]) ∈ a.zip e := List.mem_iff_getElem.mpr ⟨i, by simp; omega, by simp⟩
        have hai : a[i] = M.form b.len (fun j => r.2[0].getD j 0) := by
          have := e2.norm _ hzi
          rw [show ((a[i], e[i]) : K × List K).2 = r.2[0] from hie] at this
          exact this
        have hnn : ∀ j (hj : j < a.length), 0 ≤ toR a[j] ∧ ‖toC a[j]‖ = toR a[j] := by
          intro j hj
          have hje : j < e.length := by have : a.length = e.length := e2.len; omega
          have hzj : (a[j], e[j]) ∈ a.zip e := List.mem_iff_getElem.mpr ⟨j, by simp; omega, by simp⟩
          have h1 : a[j] = M.form b.len (fun l => e[j].getD l 0) := e2.norm _ hzj
          have h2 : IsReal a[j] := by
            rw [h1]
            obtain ⟨_, _, _, _, _, hw⟩ := m2.norm (fun l => e[j].getD l 0) (fun l _ => getD_real (e2.real _ (List.getElem_mem hje)) l)
            rw [hw]
            refine IsReal.sum fun l _ => ?_
            unfold IsReal
            rw [star_mul, star_star]
          have h3 : 0 ≤ toR a[j] := by rw [h1]; exact m2.nonneg _
          exact ⟨h3, by rw [h2.toC_eq, Complex.norm_real, Real.norm_of_nonneg h3]⟩
        have hle : toR c ≤ toR a[i] := by
          have h0a : 0 < a.length := by omega
          have hc' : c = a[0] := by
            have hc0 : a.head? = some c := hc
            rw [List.head?_eq_getElem?, List.getElem?_eq_getElem h0a] at hc0
            exact (Option.some.inj hc0).symm
          rw [hc']
          rcases Nat.eq_zero_or_pos i with h0 | h0
          · subst h0; exact le_rfl
          · have := List.pairwise_iff_getElem.mp e4 0 i h0a hia h0
            rwa [(hnn 0 h0a).2, (hnn i hia).2] at this
        have h5 : toR c ≤ toR r.1[0] := by
          rw [hval]
          refine hle.trans ?_
          rw [hai]
          exact m6 _
        exact le_trans (mul_le_mul_of_nonneg_right h5 (Finset.sum_nonneg fun _ _ => by positivity)) (hray u)
      · intro hk1 h20 v hv u
        subst hk1
        have hone := greedyEig_one hnum m3.herm h20 r1
        have hv' : v ∈ r.2 := e3.mem_iff.mp hv
        obtain ⟨i, hi, rfl⟩ := List.mem_iff_getElem.mp hv'
        have hi0 : i = 0 := by omega
        subst hi0
        rw [← hval]
        exact hray u
  | some ops =>
    obtain ⟨com, c1, c2, c3, c4⟩ := orthogonalize_ok hb.1 m3.wf m3.herm ops
    obtain ⟨r, r1, r2, r3, _⟩ := greedyEig_ok hnum c3 hk
    obtain ⟨a, e, e1, e2, e3, e4⟩ := recompute_ok hnum m2 r2 r3 c4
    refine ⟨(a, e), M, N, st', ?_, m2, m3, m4, m5, e2, fun h => by simp at h⟩
    unfold greedySolve
    have hif : ((1 < (H :: rest).length) ∨ (some ops).isSome = true) = True := eq_true (Or.inl (ha.com ▸ hlen))
    simp only [ha.com, horth, ha.transformations, m1, c1, r1, e1, hif, if_true, bind, Except.bind]

/-! ### the records -/

theorem SumForm.eval {R : StrAlg K 𝔸} {H : Operator K} {ops : List (Operator K)} {b : Basis} {N : Mat K} (h : SumForm R H ops b N) {u : ℕ → K}
    (hu : ∀ j, j < b.len → IsReal (u j)) : ∃ es, AreComNorms R.Str R.den (linComb R.den b.strs u) H ops es ∧ toR (N.form b.len u) = (es.map toR).sum := by
  obtain ⟨Ns, h1, h2⟩ := h.parts
  refine ⟨Ns.map (fun N => N.form b.len u), ?_, ?_⟩
  · unfold AreComNorms
    rw [List.forall₂_map_right_iff]
    exact h1.imp fun A N hN => hN.norm u hu
  · rw [h2, List.map_map]; rfl

theorem AreComNorms.unique [Nontrivial 𝔸] (R : StrAlg K 𝔸) {O : 𝔸} {H : Operator K} {ops : List (Operator K)} : ∀ {ds es : List K},
    AreComNorms R.Str R.den O H ops ds → AreComNorms R.Str R.den O H ops es → ds = es := by
  induction ops with
  | nil =>
    intro ds es h1 h2
    rw [AreComNorms, List.forall₂_nil_left_iff] at h1 h2
    rw [h1, h2]
  | cons A ops ih =>
    intro ds es h1 h2
    rw [AreComNorms, List.forall₂_cons_left_iff] at h1 h2
    obtain ⟨d, ds, a1, a2, rfl⟩ := h1
    obtain ⟨e, es, b1, b2, rfl⟩ := h2
    rw [IsComNorm.unique R a1 b1, ih a2 b2]

theorem several_record {R : StrAlg K 𝔸} {H : Operator K} {rest : List (Operator K)} {args : GreedyArgs K} {b : Basis} (hb : GoodBasis R b) {M N : Mat K}
    (hM : CommForm R H b M) (hN : SumForm R H (H :: rest) b N) {r : List K × List (List K)} (hr : Solved M b.len r) {v : List K} {c : K} (hc : r.1.head? = some c)
    (hv : r.2.head? = some v) (hl : args.orthOps = none → (∀ c ∈ r.1.head?, Rayleigh N b.len c) ∧ (args.numVecs = 1 → 20 ≤ b.len → ∀ v ∈ r.2, ∀ u : ℕ → K,
      toR (N.form b.len (fun j => v.getD j 0)) * ∑ j : Fin b.len, ‖toC (u j)‖ ^ 2 ≤ toR (N.form b.len u))) :
    IsSeveralRecord R.Str R.den H rest args ⟨v, b, R.type⟩ c := by
  have hvm : v ∈ r.2 := List.mem_of_head? hv
  have he : (c, v) ∈ r.1.zip r.2 := by
    obtain ⟨r1, r2⟩ := r
    cases r1 with
    | nil => simp at hc
    | cons x r1 =>
      cases r2 with
      | nil => simp at hv
      | cons y r2 =>
        simp at hc hv
        subst hc hv
        exact List.mem_cons_self ..
  have hlen := hr.dim v hvm
  have hreal := hr.real v hvm
  have hcomb : (⟨v, b, R.type⟩ : Operator K).den R.den = linComb R.den b.strs (fun j => v.getD j 0) := den_linComb (O := ⟨v, b, R.type⟩) hlen R.den
  have key : ∀ (w : OpString → K) (ds : List K), Nontrivial 𝔸 → (∀ s, IsReal (w s)) → (b.strs.map (fun s => star (w s) * w s)).sum = 1 →
      AreComNorms R.Str R.den (b.strs.map (fun s => w s • R.den s)).sum H (H :: rest) ds →
      ∑ j : Fin b.len, ‖toC ((b.strs[(j : ℕ)]?).elim 0 w)‖ ^ 2 = 1 ∧ toR (N.form b.len (fun i => (b.strs[i]?).elim 0 w)) = (ds.map toR).sum := by
    intro w ds hnt hw hu hd
    have hu' : ∀ i (hi : i < b.strs.length), (b.strs[i]?).elim 0 w = w b.strs[i] := fun i hi => by rw [List.getElem?_eq_getElem hi]; rfl
    have e1 : linComb R.den b.strs (fun i => (b.strs[i]?).elim 0 w) = (b.strs.map (fun s => w s • R.den s)).sum := by
      rw [sum_map_range]
      unfold linComb
      exact Finset.sum_congr rfl fun i _ => congrArg (· • R.den b.strs[i]) (hu' i i.2)
    rw [← e1] at hd
    obtain ⟨es, x1, x2⟩ := hN.eval (u := fun i => (b.strs[i]?).elim 0 w) (fun j hj => by rw [hu' j hj]; exact hw _)
    refine ⟨?_, by rw [x2, AreComNorms.unique R hd x1]⟩
    have := congrArg toR hu
    rw [sum_map_range, toR_sum, toR_one] at this
    simp only [toR_mul_self_star] at this
    rw [← this]
    exact Finset.sum_congr rfl fun i _ => by rw [hu' i i.2]; rfl
  refine ⟨⟨⟨hb.1, hlen, fun s hs => R.str_type s (hb.2 s hs)⟩, hb.2, hreal, ?_, ?_⟩, ?_, ?_⟩
  · have := hr.unit v hvm
    rw [← innerL_eq hlen hlen] at this
    unfold Operator.IsUnit
    rw [← this]
    unfold innerL
    congr 1
    rw [List.zipWith_self]
  · rw [hcomb, show c = M.form b.len (fun j => v.getD j 0) from hr.norm _ he]
    exact hM.norm _ (fun j _ => getD_real hreal j)
  · intro hnt ho w ds hw hu hd
    obtain ⟨k1, k2⟩ := key w ds hnt hw hu hd
    have := (hl ho).1 c hc (fun i => (b.strs[i]?).elim 0 w)
    rwa [k1, mul_one, k2] at this
  · intro hnt ho hk h20
    obtain ⟨es, x1, x2⟩ := hN.eval (u := fun j => v.getD j 0) (fun j _ => getD_real hreal j)
    refine ⟨es, by rw [hcomb]; exact x1, fun w ds hw hu hd => ?_⟩
    obtain ⟨k1, k2⟩ := key w ds hnt hw hu hd
    have := (hl ho).2 hk h20 v hvm (fun i => (b.strs[i]?).elim 0 w)
    rwa [k1, mul_one, k2, x2] at this

/-! ### the main loop -/

structure SeveralInv (R : StrAlg K 𝔸) (H : Operator K) (rest : List (Operator K)) (args : GreedyArgs K) (s : GreedyState K) : Prop where
  records : List.Forall₂ (IsSeveralRecord R.Str R.den H rest args) s.operators s.comNorms
  cache : s.explored.Coherent R (· ∈ H.termStrs)
  only : s.explored.Only H
  good : GoodBasis R s.basis
  nonempty : 0 < s.basis.len
  first : s.step = 0 → s.basis = Basis.ofList args.initialOperator.basis.strs
  later : s.step ≠ 0 → s.operator.coeffs.length = s.basis.len ∧ s.operator.basis.strs = s.basis.strs
  vecs : s.numVecs = args.numVecs
  count : s.operators.length = s.step
  start : ∀ O ∈ s.operators.head?, ∀ t ∈ args.initialOperator.basis.strs, t ∈ O.basis.strs

/-- a step up to the truncation -/
theorem severalStep_eq {R : StrAlg K 𝔸} {num : Numerics K} (hnum : IsNumerics num) {H : Operator K} {rest : List (Operator K)} {args : GreedyArgs K}
    (ha : SeveralOK R.Str H rest args) {s : GreedyState K} (hs : SeveralInv R H rest args s) (fuel : ℕ) {numH : ℕ} (hn : args.numHTerms[s.step]? = some numH) :
    ∃ b st' v c, GoodBasis R b ∧ (b.strs ≠ [] ∧ ∀ t ∈ s.basis.strs, t ∈ b.strs) ∧ v.length = b.len ∧ ∑ j : Fin b.len, star (v.getD j 0) * v.getD j 0 = 1 ∧
      st'.Coherent R (· ∈ H.termStrs) ∧ st'.Only H ∧ IsSeveralRecord R.Str R.den H rest args ⟨v, b, R.type⟩ c ∧
      greedyStep num args fuel s = (greedyFinish num args s b st' s.endEarly v v c >>= fun r => (.ok (some r) : Py (Option (GreedyState K × Bool)))) := by
  set O := if s.step = 0 then args.initialOperator else s.operator with hO
  have hO1 : O.coeffs.length = s.basis.len ∧ O.basis.strs = s.basis.strs := by
    rw [hO]
    split
    · rename_i h
      rw [hs.first h, ha.initial.len]
      exact ⟨rfl, rfl⟩
    · rename_i h
      exact hs.later h
  obtain ⟨b1, st1, e1, g1, c1, o1, i1⟩ := greedyExpandH_several hnum.argsort ha.str ha.nodup numH hs.good hO1.1 hs.cache hs.only
  obtain ⟨b, e2, g2, i2, -⟩ := greedyExpandO_ok (R := R) hnum.argsort args.numOTerms (A := O) (by rw [hO1.1, hO1.2]; rfl)
    (fun t ht => hs.good.2 t (hO1.2 ▸ ht)) g1
  have hne : b.strs ≠ [] := by
    obtain ⟨t, ht⟩ := List.exists_mem_of_length_pos (show 0 < s.basis.strs.length from hs.nonempty)
    exact List.ne_nil_of_mem (i2 t (i1 t ht))
  have hpos : 0 < b.len := List.length_pos_iff.mpr hne
  obtain ⟨r, M, N, st2, r1, r2, r3, r4, r5, r6, r7⟩ := solveSeveral_ok hnum ha c1 o1 g2 hpos (k := s.numVecs) (by rw [hs.vecs]; exact ha.vecs)
  have hl1 : 0 < r.1.length := List.length_pos_iff.mpr (r6.nonempty hpos)
  have hl2 : 0 < r.2.length := by rw [← r6.len]; exact hl1
  refine ⟨b, st2, r.2[0], r.1[0], g2, ⟨hne, fun t ht => i2 t (i1 t ht)⟩, r6.dim _ (List.getElem_mem hl2), r6.unit _ (List.getElem_mem hl2), r4, r5,
    several_record g2 r2 r3 r6 (by rw [List.head?_eq_getElem?, List.getElem?_eq_getElem hl1]) (by rw [List.head?_eq_getElem?, List.getElem?_eq_getElem hl2])
      (by rw [← hs.vecs]; exact r7), ?_⟩
  have e2' : greedyExpandO num args.numOTerms O b1 = .ok b := e2
  have r1' : greedySolve num args b s.numVecs st1 = .ok (r, st2) := r1
  have ht := ha.transformations
  have htg := ha.target
  unfold greedyStep
  simp only [← hO, pyGet, hn, ha.com, e1, e2', ht, r1', bind, Except.bind]
  unfold greedyAccept greedyChoose
  simp only [htg, pyGet_lt hl1, pyGet_lt hl2, bind, Except.bind, lowFidelity, Bool.false_and, Bool.or_false, Bool.false_eq_true, if_false]

theorem severalStep_inv {R : StrAlg K 𝔸} {num : Numerics K} (hnum : IsNumerics num) {H : Operator K} {rest : List (Operator K)} {args : GreedyArgs K}
    (ha : SeveralOK R.Str H rest args) {s s' : GreedyState K} (hs : SeveralInv R H rest args s) {fuel : ℕ} {stop : Bool}
    (h : greedyStep num args fuel s = .ok (some (s', stop))) :
    List.Forall₂ (IsSeveralRecord R.Str R.den H rest args) s'.operators s'.comNorms ∧
      (∀ O ∈ s'.operators.head?, ∀ t ∈ args.initialOperator.basis.strs, t ∈ O.basis.strs) ∧ (stop = false → SeveralInv R H rest args s') := by
  cases hn : args.numHTerms[s.step]? with
  | none => simp [greedyStep, pyGet, hn, bind, Except.bind] at h
  | some numH =>
    obtain ⟨b, st', v, c, a1, a2, a3, a4, a5, a5', a6, a7⟩ := severalStep_eq hnum ha hs fuel hn
    replace h := a7.symm.trans h
    obtain ⟨r, hacc, h⟩ := py_bind_ok h
    cases h
    obtain ⟨q1, q2, q3, q4, q5, q6, q7, q8, q9⟩ := greedyFinish_basis hnum.argsort a1 a3 hacc
    have hall : List.Forall₂ (IsSeveralRecord R.Str R.den H rest args) s'.operators s'.comNorms := by
      rw [q1, q2]
      exact List.rel_append hs.records (.cons a6 .nil)
    have hstart : ∀ O ∈ s'.operators.head?, ∀ t ∈ args.initialOperator.basis.strs, t ∈ O.basis.strs := by
      rw [q1]
      intro O hO t ht
      cases hops : s.operators with
      | nil =>
        rw [hops] at hO
        simp at hO
        subst hO
        have h0 : s.step = 0 := by rw [← hs.count, hops]; rfl
        exact a2.2 t (by rw [hs.first h0]; exact ht)
      | cons A l =>
        rw [hops] at hO
        exact hs.start O (by rw [hops]; exact hO) t ht
    exact ⟨hall, hstart, fun hstop => ⟨hall, q7 ▸ a5, q7 ▸ a5', q3, q4, fun h0 => absurd h0 (by rw [q9 hstop]; omega), fun _ => ⟨q5, q6⟩, by rw [q8]; exact hs.vecs,
      by rw [q1, q9 hstop, List.length_append, hs.count]; rfl, hstart⟩⟩

theorem severalLoop_inv {R : StrAlg K 𝔸} {num : Numerics K} (hnum : IsNumerics num) {H : Operator K} {rest : List (Operator K)} {args : GreedyArgs K}
    (ha : SeveralOK R.Str H rest args) (fuel : ℕ) : ∀ (n : ℕ) {s s' : GreedyState K}, SeveralInv R H rest args s → greedyLoop num args fuel n s = .ok (some s') →
    List.Forall₂ (IsSeveralRecord R.Str R.den H rest args) s'.operators s'.comNorms ∧
      ∀ O ∈ s'.operators.head?, ∀ t ∈ args.initialOperator.basis.strs, t ∈ O.basis.strs := by
  intro n
  induction n with
  | zero =>
    intro s s' hs h
    unfold greedyLoop at h
    split at h
    · simp at h
    · cases h; exact ⟨hs.records, hs.start⟩
  | succ n ih =>
    intro s s' hs h
    unfold greedyLoop at h
    split at h
    · simp only [] at h
      obtain ⟨r, h1, h⟩ := py_bind_ok h
      cases r with
      | none => simp at h
      | some r =>
        obtain ⟨s1, stop⟩ := r
        simp only [] at h
        obtain ⟨q1, q2, q3⟩ := severalStep_inv hnum ha hs h1
        cases stop with
        | true => simp at h; subst h; exact ⟨q1, q2⟩
        | false => simp at h; exact ih (q3 rfl) h
    · cases h; exact ⟨hs.records, hs.start⟩

theorem severalInit_inv {R : StrAlg K 𝔸} {H : Operator K} {rest : List (Operator K)} {args : GreedyArgs K} (ha : SeveralOK R.Str H rest args)
    (he : args.explored = Explored.empty) : SeveralInv R H rest args (greedyInit args) := by
  have hb : emptyBasis.iadd args.initialOperator.basis = Basis.ofList args.initialOperator.basis.strs := by
    have := Basis.iadd_ofList List.nodup_nil args.initialOperator.basis
    rw [show Basis.ofList [] = emptyBasis from rfl, unionList_eq_filter _ ha.initial.basis.2] at this
    rw [this]
    simp
  refine ⟨.nil, by rw [show (greedyInit args).explored = _ from he]; exact Explored.empty_coherent _ _,
    by rw [show (greedyInit args).explored = _ from he]; exact Explored.empty_only _, ?_, ?_, fun _ => hb, fun h => absurd rfl h, rfl, rfl, by simp [greedyInit]⟩
  · show GoodBasis R (emptyBasis.iadd args.initialOperator.basis)
    rw [hb, ← ha.initial.basis.1]; exact ⟨ha.initial.basis, ha.initialStr⟩
  · show 0 < (emptyBasis.iadd args.initialOperator.basis).len
    rw [hb]
    exact List.length_pos_iff.mpr ha.nonempty

theorem selectedCiGreedy_several {R : StrAlg K 𝔸} {num : Numerics K} (hnum : IsNumerics num) {H : Operator K} {rest : List (Operator K)} {args : GreedyArgs K}
    (ha : SeveralOK R.Str H rest args) (he : args.explored = Explored.empty) {fuel : ℕ}
    {best : Operator K} {c : Option K} {ops : List (Operator K)} {norms : List K} (h : selectedCiGreedy num args fuel = .ok (some (best, c, ops, norms))) :
    List.Forall₂ (IsSeveralRecord R.Str R.den H rest args) ops norms ∧ ∀ O ∈ ops.head?, ∀ t ∈ args.initialOperator.basis.strs, t ∈ O.basis.strs := by
  unfold selectedCiGreedy at h
  rw [ha.com] at h
  simp only at h
  split at h
  · simp at h
  · obtain ⟨r, h4, h⟩ := py_bind_ok h
    cases r with
    | none => simp at h
    | some s =>
      simp only [Option.map_some, Except.ok.injEq, Option.some.injEq, Prod.mk.injEq] at h
      obtain ⟨rfl, rfl, rfl, rfl⟩ := h
      exact severalLoop_inv hnum ha fuel fuel (severalInit_inv ha he) h4

/-! ### no exception -/

/-- the size of the basis after a step -/
theorem severalLoop_total {R : StrAlg K 𝔸} {num : Numerics K} (hnum : IsNumerics num) {H : Operator K} {rest : List (Operator K)} {args : GreedyArgs K}
    (ha : SeveralOK R.Str H rest args) (N : Option ℕ) (hN : ∀ m ∈ N, ∀ b : Basis, GoodBasis R b → b.len ≤ m) {fuel : ℕ}
    (hn : args.numSteps ≤ args.numHTerms.length) (hm : args.numSteps ≤ args.maxSizes.length) (hz : ∀ z ∈ args.maxSizes, 0 < z) :
    ∀ (n : ℕ) {s : GreedyState K}, SeveralInv R H rest args s → (s.threshold ≤ 0 ∨ ∃ m ∈ N, m * s.threshold ^ 2 < 1) → args.numSteps ≤ s.step + n →
      ∃ s', greedyLoop num args fuel n s = .ok (some s') := by
  intro n
  induction n with
  | zero =>
    intro s hs hθ h
    unfold greedyLoop
    rw [if_neg (by omega)]
    exact ⟨s, rfl⟩
  | succ n ih =>
    intro s hs hθ h
    unfold greedyLoop
    split
    · rename_i hc
      have h1 : s.step < args.numHTerms.length := by omega
      have h2 : s.step < args.maxSizes.length := by omega
      obtain ⟨b, st', v, c, a1, a2, a3, a4, a5, a5', a6, a7⟩ := severalStep_eq hnum ha hs fuel (List.getElem?_eq_getElem h1)
      have : ∃ s' stop, greedyFinish num args s b st' s.endEarly v v c = .ok (s', stop) ∧ (s'.threshold ≤ 0 ∨ ∃ m ∈ N, m * s'.threshold ^ 2 < 1) ∧
          (stop = false → s'.step = s.step + 1) := by
        rcases hθ with hθ | ⟨m, m1, m2⟩
        · obtain ⟨s', stop, f1, f2, f3⟩ := greedyFinish_runs hnum.argsort a1 a2.1 st' s.endEarly a3 a4 c (List.getElem?_eq_getElem h2) (hz _ (List.getElem_mem _)) le_rfl
            (Or.inl hθ)
          refine ⟨s', stop, f1, Or.inl ?_, f3⟩
          unfold greedyFinish at f1
          obtain ⟨_, _, f1⟩ := py_bind_ok f1
          obtain ⟨_, _, f1⟩ := py_bind_ok f1
          obtain ⟨_, _, f1⟩ := py_bind_ok f1
          obtain ⟨_, _, f1⟩ := py_bind_ok f1
          obtain ⟨_, _, f1⟩ := py_bind_ok f1
          cases f1
          show (if gotWorse c s.bestComNorm then s.threshold / 2 else s.threshold) ≤ (0 : ℚ)
          split
          · linarith
          · exact hθ
        · obtain ⟨s', stop, f1, f2, f3⟩ := greedyFinish_runs hnum.argsort a1 a2.1 st' s.endEarly a3 a4 c (List.getElem?_eq_getElem h2) (hz _ (List.getElem_mem _)) (hN m m1 b a1)
            (Or.inr m2)
          exact ⟨s', stop, f1, f2.imp id fun h => ⟨m, m1, h⟩, f3⟩
      obtain ⟨s', stop, f1, f2, f3⟩ := this
      have hstep : greedyStep num args fuel s = .ok (some (s', stop)) := by rw [a7, f1]; rfl
      simp only [hstep, bind, Except.bind]
      cases stop with
      | true => exact ⟨s', rfl⟩
      | false => exact ih ((severalStep_inv hnum ha hs hstep).2.2 rfl) f2 (by rw [f3 rfl]; omega)
    · exact ⟨s, rfl⟩

theorem selectedCiGreedy_several_total {R : StrAlg K 𝔸} {num : Numerics K} (hnum : IsNumerics num) {H : Operator K} {rest : List (Operator K)} {args : GreedyArgs K}
    (ha : SeveralOK R.Str H rest args) (he : args.explored = Explored.empty) (N : Option ℕ) (hN : ∀ m ∈ N, ∀ b : Basis, GoodBasis R b → b.len ≤ m)
    (hlab : ∃ s ∈ H.basis.strs, s.labels ≠ []) (hn : args.numSteps ≤ args.numHTerms.length) (hm : args.numSteps ≤ args.maxSizes.length)
    (hz : ∀ z ∈ args.maxSizes, 0 < z) (hθ : args.threshold ≤ 0 ∨ ∃ m ∈ N, m * args.threshold ^ 2 < 1) {fuel : ℕ} (hf : args.numSteps ≤ fuel) :
    ∃ r, selectedCiGreedy num args fuel = .ok (some r) := by
  obtain ⟨s', h⟩ := severalLoop_total hnum ha N hN (fuel := fuel) hn hm hz fuel (severalInit_inv ha he) hθ (by show _ ≤ 0 + fuel; omega)
  unfold selectedCiGreedy
  rw [ha.com]
  obtain ⟨t, t1, t2⟩ := hlab
  have : H.basis.strs.all (fun s => s.labels.isEmpty) = false := by
    rw [List.all_eq_false]
    exact ⟨t, t1, by simpa using t2⟩
  simp only [this, h, bind, Except.bind]
  exact ⟨_, rfl⟩

end Qosy
