import Verif.Lemmas.DiagNumerics

/-! # Exact numerical routines for some `2 × 2` matrices that are not diagonal, used in examples -/

namespace Qosy
open Coef RealOps

/-- a `2 × 2` matrix with the eigenvectors `(4/5, 3/5)` and `(-3/5, 4/5)`, the first with the smaller eigenvalue -/
def Mat.IsTilted (M : Mat QI) (n : ℕ) : Prop := n = 2 ∧ M.get 0 1 = 12 / 7 * (M.get 0 0 - M.get 1 1) ∧ (M.get 0 1).im = 0 ∧ (M.get 0 1).re ≤ 0

/-- `eigh` on such matrices; no eigenvectors for another matrix -/
def tiltedEigh (M : Mat QI) : List QI × List (List QI) :=
  if M.nrows = 2 ∧ M.get 0 1 = 12 / 7 * (M.get 0 0 - M.get 1 1) ∧ (M.get 0 1).im = 0 ∧ (M.get 0 1).re ≤ 0 then
    ([M.get 0 0 + 3 / 4 * M.get 0 1, M.get 1 1 - 3 / 4 * M.get 0 1], [[4 / 5, 3 / 5], [-(3 / 5), 4 / 5]])
  else ([], [])

/-- routines for such matrices -/
def tiltedNumerics : Numerics QI := ⟨diagArgsort, tiltedEigh, fun k M => ((tiltedEigh M).1.take k, (tiltedEigh M).2.take k), ratSqrt⟩

theorem tiltedNumerics_ok : IsNumericsOn Mat.IsTilted tiltedNumerics := by
  refine ⟨diagArgsort_ok, ?_⟩
  rintro M n hM ⟨rfl, h1, h2, h3⟩
  have hev : tiltedNumerics.eigh M = ([M.get 0 0 + 3 / 4 * M.get 0 1, M.get 1 1 - 3 / 4 * M.get 0 1], [[4 / 5, 3 / 5], [-(3 / 5), 4 / 5]]) := by
    show tiltedEigh M = _
    unfold tiltedEigh
    rw [if_pos ⟨hM.1, h1, h2, h3⟩]
  have r01 : IsReal (M.get 0 1) := by
    show star (M.get 0 1) = M.get 0 1
    generalize M.get 0 1 = x at h2 ⊢
    obtain ⟨a, b⟩ := x
    simp only at h2
    subst h2
    show (⟨a, -0⟩ : QI) = ⟨a, 0⟩
    rw [neg_zero]
  have e10 : M.get 1 0 = M.get 0 1 := (hM.2.2 0 1 (by omega) (by omega)).trans r01
  have r0 : IsReal (M.get 0 0) := (hM.2.2 0 0 (by omega) (by omega)).symm
  have r1 : IsReal (M.get 1 1) := (hM.2.2 1 1 (by omega) (by omega)).symm
  have q34 : IsReal (3 / 4 : QI) := by unfold IsReal; decide +kernel
  have s45 : star (4 / 5 : QI) = 4 / 5 := by decide +kernel
  have s35 : star (3 / 5 : QI) = 3 / 5 := by decide +kernel
  have t0 : toR (M.get 0 1) ≤ 0 := by
    show (((M.get 0 1).re : ℚ) : ℝ) ≤ 0
    exact_mod_cast h3
  rw [hev]
  have hd : M.get 0 0 - M.get 1 1 = 7 / 12 * M.get 0 1 := by rw [h1]; field_simp
  have h11 : M.get 1 1 = M.get 0 0 - 7 / 12 * M.get 0 1 := by rw [← hd]; ring
  refine ⟨⟨rfl, by simp, ?_, ?_, ?_, ?_, ?_⟩, rfl, ?_⟩
  · intro v hv
    simp only [List.mem_cons, List.not_mem_nil, or_false] at hv
    rcases hv with rfl | rfl <;> simp [Fin.sum_univ_two, s45, s35] <;> norm_num
  · simp [Fin.sum_univ_two, s45, s35]
    norm_num
  · intro e he i hi
    simp only [List.zip_cons_cons, List.zip_nil_right, List.mem_cons, List.not_mem_nil, or_false] at he
    have : i = 0 ∨ i = 1 := by omega
    rcases he with rfl | rfl <;> rcases this with rfl | rfl <;> simp [Fin.sum_univ_two, e10, h11] <;> ring
  · intro x hx
    simp only [List.mem_cons, List.not_mem_nil, or_false] at hx
    rcases hx with rfl | rfl
    · exact r0.add (q34.mul r01)
    · rw [sub_eq_add_neg]; exact r1.add (q34.mul r01).neg
  · intro _ v hv x hx
    simp only [List.mem_cons, List.not_mem_nil, or_false] at hv
    rcases hv with rfl | rfl <;> simp only [List.mem_cons, List.not_mem_nil, or_false] at hx <;> rcases hx with rfl | rfl <;> unfold IsReal <;> simp [s45, s35]
  · intro x hx u
    simp only [List.head?_cons, Option.mem_def, Option.some.injEq] at hx
    subst hx
    have hf : M.form 2 u = (M.get 0 0 + 3 / 4 * M.get 0 1) * ∑ j : Fin 2, star (u j) * u j +
        (25 / 12 * -M.get 0 1) * (star (-(3 / 5) * u 0 + 4 / 5 * u 1) * (-(3 / 5) * u 0 + 4 / 5 * u 1)) := by
      simp only [Mat.form, Fin.sum_univ_two, star_add, star_mul, star_neg, s45, s35, Fin.val_zero, Fin.val_one, e10]
      rw [h11]; ring
    have hr : IsReal (25 / 12 * -M.get 0 1) := (show IsReal (25 / 12 : QI) by unfold IsReal; decide +kernel).mul r01.neg
    rw [hf, toR_add (_ * _), toR_mul (r0.add (q34.mul r01)), toR_mul hr, toR_sum]
    simp only [toR_mul_self_star]
    have : 0 ≤ toR (25 / 12 * -M.get 0 1) := by
      rw [toR_mul (show IsReal (25 / 12 : QI) by unfold IsReal; decide +kernel)]
      have e : toR (25 / 12 : QI) = 25 / 12 := by
        show (((25 / 12 : QI).re : ℚ) : ℝ) = 25 / 12
        rw [show (25 / 12 : QI).re = 25 / 12 by decide +kernel]; norm_num
      rw [e]
      have : toR (-M.get 0 1) = -toR (M.get 0 1) := by simp [toR]
      rw [this]; linarith
    nlinarith [this, sq_nonneg ‖toC (-(3 / 5) * u 0 + 4 / 5 * u 1)‖, mul_nonneg this (sq_nonneg ‖toC (-(3 / 5) * u 0 + 4 / 5 * u 1)‖)]

end Qosy
