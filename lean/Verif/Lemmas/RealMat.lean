import Verif.Spec.Greedy
import Verif.Lemmas.Matrix
import Verif.Lemmas.Liouvillian
import Mathlib.Data.List.GetD
import Mathlib.Algebra.BigOperators.Fin
import Mathlib.Algebra.BigOperators.Field

/-! # Real parts, forms and list vectors -/

namespace Qosy
open Coef RealOps
variable {K : Type} [Field K] [StarRing K] [Coef K] [RealCoef K]

theorem re_eq (x : K) : re x = (x + star x) / 2 := by
  apply toC_inj
  rw [RealCoef.toC_re, map_div₀, map_add, toC_star, map_ofNat]
  apply Complex.ext <;> simp

theorem re_add (x y : K) : re (x + y) = re x + re y := by simp only [re_eq, star_add]; ring
theorem re_zero : re (0 : K) = 0 := by simp [re_eq]
theorem isReal_re (x : K) : IsReal (re x) := by
  unfold IsReal; rw [re_eq, star_div₀, star_add, star_star, add_comm]
  congr 1
  exact toC_inj (by rw [toC_star, map_ofNat]; simp)

theorem IsReal.re_eq {x : K} (h : IsReal x) : re x = x := by
  rw [Qosy.re_eq, h]; field_simp; ring

theorem IsReal.toC_eq {x : K} (h : IsReal x) : toC x = (toR x : ℂ) := by
  have := congrArg toC h
  rw [toC_star] at this
  exact (Complex.conj_eq_iff_re.mp this).symm

theorem toR_add (x y : K) : toR (x + y) = toR x + toR y := by simp [toR]
theorem toR_zero : toR (0 : K) = 0 := by simp [toR]
theorem toR_sum {ι : Type} (s : Finset ι) (f : ι → K) : toR (∑ i ∈ s, f i) = ∑ i ∈ s, toR (f i) := by simp [toR, map_sum]
theorem toR_mul_self_star (x : K) : toR (star x * x) = ‖toC x‖ ^ 2 := by
  rw [toR, map_mul, toC_star, ← Complex.normSq_eq_norm_sq]
  show (starRingEnd ℂ (toC x) * toC x).re = _
  rw [← Complex.normSq_eq_conj_mul_self]; simp

theorem IsReal.mul {x y : K} (hx : IsReal x) (hy : IsReal y) : IsReal (x * y) := by
  unfold IsReal at *; rw [star_mul, hx, hy, mul_comm]
theorem IsReal.add {x y : K} (hx : IsReal x) (hy : IsReal y) : IsReal (x + y) := by
  unfold IsReal at *; rw [star_add, hx, hy]
theorem IsReal.sum {ι : Type} {s : Finset ι} {f : ι → K} (h : ∀ i ∈ s, IsReal (f i)) : IsReal (∑ i ∈ s, f i) := by
  unfold IsReal at *; rw [star_sum]; exact Finset.sum_congr rfl h
theorem IsReal.zero : IsReal (0 : K) := star_zero _
theorem IsReal.one : IsReal (1 : K) := star_one _
theorem IsReal.inv {x : K} (h : IsReal x) : IsReal x⁻¹ := by unfold IsReal at *; rw [star_inv₀, h]
theorem IsReal.div {x y : K} (hx : IsReal x) (hy : IsReal y) : IsReal (x / y) := by rw [div_eq_mul_inv]; exact hx.mul hy.inv
theorem IsReal.neg {x : K} (h : IsReal x) : IsReal (-x) := by unfold IsReal at *; rw [star_neg, h]
theorem IsReal.star_mul_self (x : K) : IsReal (star x * x) := by unfold IsReal; rw [star_mul, star_star]

theorem toR_mul {x y : K} (hx : IsReal x) : toR (x * y) = toR x * toR y := by
  rw [toR, map_mul, hx.toC_eq]; simp [toR]

theorem toR_inj {x y : K} (hx : IsReal x) (hy : IsReal y) (h : toR x = toR y) : x = y :=
  toC_inj (by rw [hx.toC_eq, hy.toC_eq, h])

theorem reLt_iff' (x y : K) : reLt x y = true ↔ toR x < toR y := RealCoef.reLt_iff x y

theorem reAbs_of_nonneg {x : K} (h : 0 ≤ toR x) : reAbs x = x := by
  unfold reAbs
  rw [if_neg]
  rw [reLt_iff', toR_zero]
  exact not_lt.mpr h

theorem reZero_iff {x : K} (h : IsReal x) : reZero x = true ↔ x = 0 := by
  unfold reZero
  rw [Bool.and_eq_true, Bool.not_eq_true', Bool.not_eq_true', ← Bool.not_eq_true, ← Bool.not_eq_true, reLt_iff', reLt_iff', toR_zero]
  constructor
  · intro ⟨h1, h2⟩
    exact toR_inj h .zero (by rw [toR_zero]; linarith)
  · rintro rfl; simp [toR_zero]

/-! ### lists as vectors -/

theorem innerL_eq {n : ℕ} {v w : List K} (hv : v.length = n) (hw : w.length = n) :
    innerL v w = ∑ j : Fin n, star (v.getD j 0) * w.getD j 0 := by
  subst hv
  induction v generalizing w with
  | nil => simp [innerL]
  | cons x v ih =>
    cases w with
    | nil => simp at hw
    | cons y w =>
      have hw' : w.length = v.length := by simpa using hw
      show star x * y + innerL v w = _
      rw [ih hw']
      exact (Fin.sum_univ_succ (n := v.length) (fun j => star ((x :: v).getD j 0) * (y :: w).getD j 0)).symm

theorem dotVec_ok {M : Mat K} {v : List K} (h : M.ncols = v.length) :
    ∃ w, M.dotVec v = .ok w ∧ w.length = M.nrows ∧ ∀ i, i < M.nrows → w.getD i 0 = ∑ j : Fin M.ncols, M.get i j * v.getD j 0 := by
  refine ⟨_, if_neg (by simpa using h), by simp, fun i hi => ?_⟩
  rw [List.getD_eq_getElem _ _ (by simpa using hi), List.getElem_map, List.getElem_range]
  exact (Fin.sum_univ_eq_sum_range (fun j => M.get i j * v.getD j 0) M.ncols).symm

/-! ### real parts and forms of matrices -/

theorem Mat.real_get (M : Mat K) (i j : ℕ) : M.real.get i j = re (M.get i j) := by
  show tget (M.data.map (fun e => (e.1, e.2.1, re e.2.2))) i j = re (tget M.data i j)
  induction M.data with
  | nil => simp [re_zero]
  | cons e D ih =>
    rw [List.map_cons, tget_cons, tget_cons, re_add, ih]
    congr 1
    split <;> simp [re_zero]

theorem Mat.real_wf {M : Mat K} (h : M.WF) : M.real.WF := by
  intro e he
  simp only [Mat.real, List.mem_map] at he
  obtain ⟨e', h1, rfl⟩ := he
  exact h e' h1

theorem Mat.isHermitian_real {M : Mat K} {n : ℕ} (h : M.IsHermitian n) : M.real.IsHermitian n := by
  refine ⟨h.1, h.2.1, fun i j hi hj => ?_⟩
  rw [Mat.real_get, Mat.real_get, isReal_re, h.2.2 i j hi hj, re_eq, re_eq, star_star, add_comm]

/-- the real part of a Hermitian matrix has the same form on real vectors -/
theorem Mat.real_form {M : Mat K} {n : ℕ} (h : M.IsHermitian n) {u : ℕ → K} (hu : ∀ j, j < n → IsReal (u j)) : M.real.form n u = M.form n u := by
  have e1 : M.real.form n u = (M.form n u + star (M.form n u)) / 2 := by
    unfold Mat.form
    rw [star_sum, ← Finset.sum_add_distrib, Finset.sum_div]
    refine Finset.sum_congr rfl fun i _ => ?_
    rw [star_sum, ← Finset.sum_add_distrib, Finset.sum_div]
    refine Finset.sum_congr rfl fun j _ => ?_
    rw [Mat.real_get, re_eq, star_mul, star_mul, star_star, hu i i.2, hu j j.2]
    ring
  have e2 : star (M.form n u) = M.form n u := by
    unfold Mat.form
    rw [star_sum, Finset.sum_comm (γ := Fin n)]
    refine Finset.sum_congr rfl fun i _ => ?_
    rw [star_sum]
    refine Finset.sum_congr rfl fun j _ => ?_
    rw [star_mul, star_mul, star_star, h.2.2 j i j.2 i.2, star_star, mul_assoc]
  rw [e1, e2]
  field_simp
  ring

/-- the form of `L† L` -/
theorem gram_ok {L : Mat K} {n : ℕ} (hL : L.WF) (hn : L.ncols = n) :
    ∃ C, L.getH.dot L = .ok C ∧ C.WF ∧ C.IsHermitian n ∧ ∀ u, C.form n u = ∑ c : Fin L.nrows, star (L.mulVec u c) * L.mulVec u c := by
  obtain ⟨C, h1, h3, h4, h2, h5⟩ := Mat.dot_ok (M := L.getH) (N := L) (Mat.getH_wf hL) hL rfl
  have h5' : ∀ i j, C.get i j = ∑ k : Fin L.nrows, star (L.get k i) * L.get k j := by
    intro i j
    rw [h5]
    exact Finset.sum_congr rfl fun k _ => by rw [Mat.getH_get]
  refine ⟨C, h1, h2, ⟨h3.trans hn, h4.trans hn, fun i j _ _ => ?_⟩, fun u => ?_⟩
  · rw [h5', h5', star_sum]
    refine Finset.sum_congr rfl fun k _ => ?_
    rw [star_mul, star_star]
  · subst hn
    have e : ∀ c : Fin L.nrows, star (L.mulVec u c) * L.mulVec u c =
        ∑ i : Fin L.ncols, ∑ j : Fin L.ncols, star (u i) * (star (L.get c i) * L.get c j) * u j := by
      intro c
      rw [Mat.mulVec, star_sum, Finset.sum_mul]
      refine Finset.sum_congr rfl fun i _ => ?_
      rw [Finset.mul_sum]
      refine Finset.sum_congr rfl fun j _ => ?_
      rw [star_mul]; ring
    simp only [e]
    rw [Finset.sum_comm]
    refine Finset.sum_congr rfl fun i _ => ?_
    rw [Finset.sum_comm]
    refine Finset.sum_congr rfl fun j _ => ?_
    rw [h5', Finset.mul_sum, Finset.sum_mul]

end Qosy
