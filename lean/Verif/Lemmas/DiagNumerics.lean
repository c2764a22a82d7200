import Verif.Lemmas.GreedySolve
import Mathlib.Data.List.Sort

/-! # Exact numerical routines for diagonal matrices of Gaussian rationals, used in examples -/

namespace Qosy
open Coef RealOps

/-- the squared magnitude -/
def qiNormSq (x : QI) : ℚ := x.re ^ 2 + x.im ^ 2

/-- `np.argsort(np.abs(v))` -/
def diagArgsort (v : List QI) : List ℕ :=
  (List.range v.length).insertionSort (fun i j => qiNormSq (v.getD i 0) ≤ qiNormSq (v.getD j 0))

/-- eigenvalues and eigenvectors of a diagonal matrix, the smallest eigenvalue first -/
def diagEigh (M : Mat QI) : List QI × List (List QI) :=
  let inds := (List.range M.nrows).insertionSort (fun i j => (M.get i i).re ≤ (M.get j j).re)
  (inds.map (fun i => M.get i i), inds.map (fun i => (List.range M.nrows).map (fun j => if j = i then 1 else 0)))

/-- the square root of the square of a fraction -/
def ratSqrt (x : QI) : QI :=
  let root := fun n : ℕ => ((List.range (n + 1)).find? (fun k => k * k == n)).getD 0
  ⟨(root x.re.num.toNat : ℚ) / (root x.re.den : ℚ), 0⟩

/-- `diagEigh`; no eigenvectors for a matrix that is not diagonal -/
def guardedEigh (M : Mat QI) : List QI × List (List QI) :=
  if (List.range M.nrows).all (fun i => (List.range M.nrows).all (fun j => decide (i = j) || decide (M.get i j = 0))) then diagEigh M else ([], [])

/-- routines for diagonal matrices -/
def diagNumerics : Numerics QI := ⟨diagArgsort, guardedEigh, fun k M => ((guardedEigh M).1.take k, (guardedEigh M).2.take k), ratSqrt⟩

theorem qiNormSq_eq (x : QI) : ((qiNormSq x : ℚ) : ℝ) = ‖toC x‖ ^ 2 := by
  rw [← Complex.normSq_eq_norm_sq, Complex.normSq_apply]
  show ((x.re ^ 2 + x.im ^ 2 : ℚ) : ℝ) = (x.re : ℝ) * (x.re : ℝ) + (x.im : ℝ) * (x.im : ℝ)
  push_cast; ring

theorem diagArgsort_ok : IsArgsort diagArgsort := by
  intro v
  refine ⟨List.perm_insertionSort _ _, ?_⟩
  have : IsTrans ℕ (fun i j => qiNormSq (v.getD i 0) ≤ qiNormSq (v.getD j 0)) := ⟨fun a b c => le_trans⟩
  have : Std.Total (fun i j : ℕ => qiNormSq (v.getD i 0) ≤ qiNormSq (v.getD j 0)) := ⟨fun a b => le_total _ _⟩
  refine (List.pairwise_insertionSort (fun i j => qiNormSq (v.getD i 0) ≤ qiNormSq (v.getD j 0)) _).imp ?_
  intro i j h
  have : ‖toC (v.getD i 0)‖ ^ 2 ≤ ‖toC (v.getD j 0)‖ ^ 2 := by
    rw [← qiNormSq_eq, ← qiNormSq_eq]; exact_mod_cast h
  exact (sq_le_sq₀ (norm_nonneg _) (norm_nonneg _)).mp this

theorem diagEigh_ok {M : Mat QI} {n : ℕ} (h : M.IsHermitian n) (hd : M.IsDiagonal n) : IsEigenpairs M n (diagEigh M) ∧ (diagEigh M).1.length = n ∧
    ∀ x ∈ (diagEigh M).1.head?, Rayleigh M n x := by
  set inds := (List.range M.nrows).insertionSort (fun i j => (M.get i i).re ≤ (M.get j j).re) with hinds
  have hperm : inds.Perm (List.range n) := by rw [hinds, h.1]; exact List.perm_insertionSort _ _
  have hmem : ∀ i, i ∈ inds ↔ i < n := fun i => by rw [hperm.mem_iff, List.mem_range]
  have hnd : inds.Nodup := hperm.nodup_iff.mpr List.nodup_range
  have hev : diagEigh M = (inds.map (fun i => M.get i i), inds.map (fun i => (List.range n).map (fun j => if j = i then 1 else 0))) := by
    unfold diagEigh
    dsimp only
    rw [← hinds, h.1]
  have hg : ∀ i j : ℕ, j < n → ((List.range n).map (fun j => if j = i then (1 : QI) else 0)).getD j 0 = if j = i then 1 else 0 := by
    intro i j hj
    rw [List.getD_eq_getElem _ _ (by simpa using hj), List.getElem_map, List.getElem_range]
  have hreal : ∀ i, i < n → IsReal (M.get i i) := fun i hi => (h.2.2 i i hi hi).symm
  rw [hev]
  refine ⟨⟨by simp, ?_, ?_, ?_, ?_, ?_, ?_⟩, by simp [hperm.length_eq], ?_⟩
  · intro v hv
    obtain ⟨i, _, rfl⟩ := List.mem_map.mp hv
    simp
  · intro v hv
    obtain ⟨i, hi, rfl⟩ := List.mem_map.mp hv
    rw [Finset.sum_eq_single (⟨i, (hmem i).mp hi⟩ : Fin n)]
    · rw [hg _ _ ((hmem i).mp hi)]; simp
    · intro j _ hj
      rw [hg _ _ j.2, if_neg (fun e => hj (Fin.ext e))]; simp
    · simp
  · show (inds.map _).Pairwise _
    rw [List.pairwise_map]
    refine List.Pairwise.imp ?_ hnd
    intro i j hij
    refine Finset.sum_eq_zero fun k _ => ?_
    rw [hg _ _ k.2, hg _ _ k.2]
    by_cases hk : (k : ℕ) = i
    · rw [if_neg (fun e => hij (hk ▸ e)), mul_zero]
    · rw [if_neg hk, star_zero, zero_mul]
  · intro e he i hi
    obtain ⟨k, hk, rfl⟩ := List.mem_iff_getElem.mp he
    simp only [List.length_zip, List.length_map, min_self] at hk
    simp only [List.getElem_zip, List.getElem_map]
    have hk' := (hmem _).mp (List.getElem_mem hk)
    generalize inds[k] = m at hk' ⊢
    rw [hg _ _ hi, Finset.sum_eq_single (⟨m, hk'⟩ : Fin n)]
    · rw [hg _ _ hk', if_pos rfl, mul_one]
      by_cases him : i = m
      · rw [him, if_pos rfl, mul_one]
      · rw [if_neg him, mul_zero]; exact hd i m hi hk' him
    · intro j _ hj
      rw [hg _ _ j.2, if_neg (fun e => hj (Fin.ext e)), mul_zero]
    · simp
  · intro x hx
    obtain ⟨i, hi, rfl⟩ := List.mem_map.mp hx
    exact hreal i ((hmem i).mp hi)
  · intro _ v hv x hx
    obtain ⟨i, _, rfl⟩ := List.mem_map.mp hv
    obtain ⟨j, _, rfl⟩ := List.mem_map.mp hx
    split
    · exact .one
    · exact .zero
  · intro x hx u
    have htr : IsTrans ℕ (fun i j => (M.get i i).re ≤ (M.get j j).re) := ⟨fun a b c => le_trans⟩
    have hto : Std.Total (fun i j : ℕ => (M.get i i).re ≤ (M.get j j).re) := ⟨fun a b => le_total _ _⟩
    have hs : inds.Pairwise (fun i j => (M.get i i).re ≤ (M.get j j).re) := List.pairwise_insertionSort (fun i j => (M.get i i).re ≤ (M.get j j).re) _
    have hmin : ∀ k, k < n → toR x ≤ toR (M.get k k) := by
      intro k hk
      have hk' := (hmem k).mpr hk
      cases hi : inds with
      | nil => rw [hi] at hk'; simp at hk'
      | cons m l =>
        simp only [hi, List.map_cons, List.head?_cons, Option.mem_def, Option.some.injEq] at hx
        subst hx
        rw [hi] at hk' hs
        have : (M.get m m).re ≤ (M.get k k).re := by
          rcases List.mem_cons.mp hk' with rfl | h
          · exact le_rfl
          · exact (List.pairwise_cons.mp hs).1 k h
        show (((M.get m m).re : ℚ) : ℝ) ≤ (((M.get k k).re : ℚ) : ℝ)
        exact_mod_cast this
    have hform : toR (M.form n u) = ∑ j : Fin n, toR (M.get j j) * ‖toC (u j)‖ ^ 2 := by
      rw [form_eq, toR_sum]
      refine Finset.sum_congr rfl fun i _ => ?_
      rw [Finset.sum_eq_single i (fun j _ hj => by rw [hd i j i.2 j.2 (fun e => hj (Fin.ext e.symm)), zero_mul]) (by simp)]
      rw [show star (u i) * (M.get i i * u i) = M.get i i * (star (u i) * u i) by ring, toR_mul (hreal i i.2), toR_mul_self_star]
    rw [hform, Finset.mul_sum]
    exact Finset.sum_le_sum fun k _ => mul_le_mul_of_nonneg_right (hmin k k.2) (by positivity)

theorem diagNumerics_ok : IsNumericsOnDiagonal diagNumerics := ⟨diagArgsort_ok, fun M n h1 h2 => by
  have : diagNumerics.eigh M = diagEigh M := by
    show guardedEigh M = _
    unfold guardedEigh
    rw [if_pos]
    rw [h1.1]
    simp only [List.all_eq_true, List.mem_range, Bool.or_eq_true, decide_eq_true_eq]
    intro i hi j hj
    by_cases h : i = j
    · exact Or.inl h
    · exact Or.inr (h2 i j hi hj h)
  rw [this]
  exact diagEigh_ok h1 h2⟩

end Qosy
