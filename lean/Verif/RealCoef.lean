import Verif.Coef

/-!
# Real parts and comparisons of coefficients

`selected_ci_greedy` takes real parts and compares real floating point numbers.  Real numbers are represented by coefficients with zero
imaginary part, so that one exact field serves for both.
-/

namespace Qosy

/-- the executable part: `re x` is `x.real` (as a coefficient) and `reLt x y` the test `x < y` of the real parts -/
class RealOps (K : Type) where
  re : K → K
  reLt : K → K → Bool

/-- the operations mean what they say -/
class RealCoef (K : Type) [Field K] [StarRing K] [Coef K] extends RealOps K where
  toC_re : ∀ x, Coef.toC (re x) = ((Coef.toC x).re : ℂ)
  reLt_iff : ∀ x y, reLt x y = true ↔ (Coef.toC x).re < (Coef.toC y).re

instance : RealOps QI := ⟨fun x => ⟨x.re, 0⟩, fun x y => decide (x.re < y.re)⟩

instance : RealCoef QI where
  toC_re x := by
    apply Complex.ext
    · show ((x.re : ℚ) : ℝ) = (((x.re : ℚ) : ℝ) : ℂ).re
      simp
    · show (((0 : ℚ) : ℚ) : ℝ) = (((x.re : ℚ) : ℝ) : ℂ).im
      simp
  reLt_iff x y := by
    show decide (x.re < y.re) = true ↔ ((x.re : ℚ) : ℝ) < ((y.re : ℚ) : ℝ)
    rw [decide_eq_true_iff, Rat.cast_lt]

open Classical in
noncomputable instance : RealOps ℂ := ⟨fun x => (x.re : ℂ), fun x y => decide (x.re < y.re)⟩

noncomputable instance : RealCoef ℂ where
  toC_re _ := rfl
  reLt_iff _ _ := decide_eq_true_iff

end Qosy
