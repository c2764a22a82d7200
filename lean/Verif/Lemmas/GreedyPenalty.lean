import Verif.Lemmas.GreedyLoop

/-! # The penalty for the overlap with `orth_ops` -/

namespace Qosy
open Coef RealOps
variable {K : Type} [Field K] [StarRing K] [Coef K] [RealCoef K]

theorem orthColumn {b : Basis} (hb : b.Inv) (l : List (K × OpString)) :
    ∃ data, (l.filter (fun t => b.contains t.2)).mapM (fun t => (do
      let i ← b.index t.2
      .ok (i, 0, t.1) : Py (ℕ × ℕ × K))) = .ok data ∧ (∀ e ∈ data, e.1 < b.len ∧ e.2.1 < 1) ∧
      ∀ i : Fin b.strs.length, tget data i 0 = coefT l b.strs[i] := by
  induction l with
  | nil => exact ⟨[], rfl, by simp, fun i => by simp [coefT]⟩
  | cons t l ih =>
    obtain ⟨data, h1, h2, h3⟩ := ih
    by_cases hc : b.contains t.2 = true
    · have hm : t.2 ∈ b.strs := by
        have hc' := hc
        rw [hb.1, Basis.contains_ofList] at hc'
        simpa using hc'
      have e : b.index t.2 = .ok (b.strs.idxOf t.2) := by
        rw [hb.1, Basis.index_ofList, if_pos hm]; rfl
      refine ⟨(b.strs.idxOf t.2, 0, t.1) :: data, ?_, ?_, fun i => ?_⟩
      · rw [List.filter_cons_of_pos (p := fun t : K × OpString => b.contains t.2) hc, List.mapM_cons, h1]
        simp only [e, bind, Except.bind]
        rfl
      · intro e he
        rcases List.mem_cons.mp he with rfl | h
        · exact ⟨List.idxOf_lt_length_iff.mpr hm, by simp⟩
        · exact h2 e h
      · rw [tget_cons, h3, coefT_cons]
        congr 1
        by_cases hi : t.2 = b.strs[i]
        · rw [if_pos hi, if_pos]
          refine ⟨?_, rfl⟩
          show b.strs.idxOf t.2 = i
          rw [hi]
          exact List.Nodup.idxOf_getElem hb.2 i i.2
        · rw [if_neg hi, if_neg]
          rintro ⟨h, _⟩
          apply hi
          have h' : b.strs.idxOf t.2 = i := h
          have := List.getElem_idxOf (List.idxOf_lt_length_iff.mpr hm)
          rw [← this]
          simp only [h']
          rfl
    · refine ⟨data, by rw [List.filter_cons_of_neg (p := fun t : K × OpString => b.contains t.2) hc, h1], h2, fun i => ?_⟩
      rw [h3, coefT_cons, if_neg, zero_add]
      intro hi
      apply hc
      rw [hb.1, Basis.contains_ofList, hi]
      simpa using List.getElem_mem i.2

theorem orthogonalize_form {com : Mat K} {b : Basis} (hb : b.Inv) (hc : com.IsHermitian b.len) (ops : List (Operator K)) :
    ∃ M, orthogonalizeComMatrix com b ops = .ok M ∧ M.IsHermitian b.len ∧ (∀ i j, IsReal (M.get i j)) ∧ ∀ u : ℕ → K, (∀ j, j < b.len → IsReal (u j)) →
      M.form b.len u = com.form b.len u + 10 ^ 10 * (ops.map (fun A => star (overlapWith b A u) * overlapWith b A u)).sum := by
  have key : ∀ (l : List (Operator K)) (M : Mat K), M.IsHermitian b.len → ∃ M', l.foldlM (fun (proj : Mat K) op => (do
      let data ← (op.terms.filter (fun t => b.contains t.2)).mapM (fun t => do
        let i ← b.index t.2
        .ok (i, 0, t.1))
      let v ← mkCsr data b.len 1
      let vv ← v.dot v.getH
      proj.add vv : Py (Mat K))) M = .ok M' ∧ M'.IsHermitian b.len ∧
      ∀ u : ℕ → K, M'.form b.len u = M.form b.len u + (l.map (fun A => star (overlapWith b A u) * overlapWith b A u)).sum := by
    intro l
    induction l with
    | nil => intro M h; exact ⟨M, rfl, h, fun u => by simp⟩
    | cons A l ih =>
      intro M hM
      obtain ⟨data, d1, d2, d3⟩ := orthColumn hb A.terms
      have hv : (⟨b.len, 1, data⟩ : Mat K).WF := d2
      obtain ⟨V, v1, v2, v3, v4, v5⟩ := Mat.dot_ok hv (Mat.getH_wf hv) (rfl : (⟨b.len, 1, data⟩ : Mat K).ncols = 1)
      have hg : ∀ i j : Fin b.strs.length, V.get i j = A.coef b.strs[i] * star (A.coef b.strs[j]) := by
        intro i j
        rw [v5]
        rw [show ∑ k : Fin (⟨b.len, 1, data⟩ : Mat K).ncols, (⟨b.len, 1, data⟩ : Mat K).get i k * (⟨b.len, 1, data⟩ : Mat K).getH.get k j =
          ∑ k : Fin 1, (⟨b.len, 1, data⟩ : Mat K).get i k * (⟨b.len, 1, data⟩ : Mat K).getH.get k j from rfl, Fin.sum_univ_one]
        rw [Mat.getH_get]
        have e1 := d3 i
        have e2 := d3 j
        show tget data i 0 * star (tget data j 0) = _
        rw [e1, e2]; rfl
      have hV : V.IsHermitian b.len := by
        refine ⟨v2, v3, fun i j hi hj => ?_⟩
        have e1 := hg ⟨i, hi⟩ ⟨j, hj⟩
        have e2 := hg ⟨j, hj⟩ ⟨i, hi⟩
        rw [show V.get j i = _ from e2, show V.get i j = _ from e1, star_mul, star_star]
      obtain ⟨M', m1, m2, m3⟩ := ih ⟨M.nrows, M.ncols, M.data ++ V.data⟩ (hermitian_add hM hV)
      refine ⟨M', ?_, m2, fun u => ?_⟩
      · rw [List.foldlM_cons]
        simp only [bind, Except.bind] at d1 m1 ⊢
        rw [d1]
        simp only [mkCsr_ok d2]
        rw [v1]
        simp only [Mat.add_ok (hM.1.trans hV.1.symm) (hM.2.1.trans hV.2.1.symm)]
        exact m1
      · rw [m3, List.map_cons, List.sum_cons, ← add_assoc]
        congr 1
        have e1 : (⟨M.nrows, M.ncols, M.data ++ V.data⟩ : Mat K).form b.len u = M.form b.len u + V.form b.len u := by
          unfold Mat.form
          rw [← Finset.sum_add_distrib]
          refine Finset.sum_congr rfl fun i _ => ?_
          rw [← Finset.sum_add_distrib]
          refine Finset.sum_congr rfl fun j _ => ?_
          rw [Mat.add_get']; ring
        rw [e1]
        congr 1
        unfold overlapWith
        rw [star_sum, Finset.sum_mul_sum]
        unfold Mat.form
        refine Finset.sum_congr rfl fun i _ => Finset.sum_congr rfl fun j _ => ?_
        rw [hg i j, star_mul, star_star]
        ring
  obtain ⟨P, p1, p2, p3⟩ := key ops (Mat.zero b.len b.len) (zero_hermitian _)
  have hten : IsReal (10 ^ 10 : K) := by unfold IsReal; exact toC_inj (by rw [toC_star, map_pow, map_ofNat]; simp)
  have hS : (P.smul (10 ^ 10)).IsHermitian b.len := by
    refine ⟨p2.1, p2.2.1, fun i j hi hj => ?_⟩
    rw [Mat.smul_get, Mat.smul_get, p2.2.2 i j hi hj, star_mul, hten, mul_comm]
  have e : com.add (P.smul (10 ^ 10)) = .ok ⟨com.nrows, com.ncols, com.data ++ (P.smul (10 ^ 10)).data⟩ :=
    Mat.add_ok (hc.1.trans hS.1.symm) (hc.2.1.trans hS.2.1.symm)
  have hH := hermitian_add hc hS
  refine ⟨_, ?_, Mat.isHermitian_real hH, fun i j => ?_, fun u hu => ?_⟩
  · unfold orthogonalizeComMatrix
    simp only [bind, Except.bind] at p1 ⊢
    rw [p1]
    simp only [e]
  · rw [Mat.real_get]; exact isReal_re _
  · rw [Mat.real_form hH hu]
    have e1 : (⟨com.nrows, com.ncols, com.data ++ (P.smul (10 ^ 10)).data⟩ : Mat K).form b.len u = com.form b.len u + 10 ^ 10 * P.form b.len u := by
      unfold Mat.form
      rw [Finset.mul_sum, ← Finset.sum_add_distrib]
      refine Finset.sum_congr rfl fun i _ => ?_
      rw [Finset.mul_sum, ← Finset.sum_add_distrib]
      refine Finset.sum_congr rfl fun j _ => ?_
      rw [Mat.add_get', Mat.smul_get]; ring
    rw [e1, p3]
    congr 2
    have : (Mat.zero b.len b.len : Mat K).form b.len u = 0 := by
      unfold Mat.form
      exact Finset.sum_eq_zero fun i _ => Finset.sum_eq_zero fun j _ => by simp [Mat.zero, Mat.get]
    rw [this, zero_add]

end Qosy
