import Mathlib.Analysis.Complex.Basic
import Mathlib.Tactic.Ring
import Mathlib.Tactic.FieldSimp
import Mathlib.Tactic.Linarith

/-!
# Coefficients

qosy computes with Python / numpy complex floats.  The model uses exact complex numbers.
`Coef K` says that `K` is a field of complex numbers with an executable comparison of absolute
values with a rational tolerance.  Two instances: the Gaussian rationals `QI` (computable; every
finite Python complex float is one) and `ℂ` itself (for code that takes square roots).
Floating point rounding is not modelled.
-/

/-- The executable part of the coefficient domain, all that the model uses beyond field operations:
`I` is Python's `1j`, `absLt x t` the test `np.abs(x) < t` and `absGt x t` the test `np.abs(x) > t`. -/
class CoefOps (K : Type) where
  I : K
  absLt : K → ℚ → Bool
  absGt : K → ℚ → Bool

/-- Exact complex coefficients: `toC` embeds them into `ℂ`, and the executable tests mean what they say. -/
class Coef (K : Type) [Field K] [StarRing K] extends CoefOps K where
  toC : K →+* ℂ
  toC_I : toC I = Complex.I
  toC_star : ∀ x, toC (star x) = star (toC x)
  absLt_iff : ∀ x t, absLt x t = true ↔ ‖toC x‖ < (t : ℝ)
  absGt_iff : ∀ x t, absGt x t = true ↔ (t : ℝ) < ‖toC x‖

export CoefOps (I absLt absGt)

namespace Coef
variable {K : Type} [Field K] [StarRing K] [Coef K]

theorem toC_inj {x y : K} (h : toC x = toC y) : x = y := (toC (K := K)).injective h

@[simp] theorem I_mul_I : (I : K) * I = -1 := by
  apply toC_inj; simp [toC_I]

@[simp] theorem star_I : star (I : K) = -I := by
  apply toC_inj; simp [toC_star, toC_I]

theorem I_ne_zero : (I : K) ≠ 0 := by
  intro h; have := I_mul_I (K := K); rw [h] at this; simp at this

theorem inv_I : (I : K)⁻¹ = -I := by
  rw [inv_eq_iff_eq_inv, eq_comm]
  apply inv_eq_of_mul_eq_one_left; simp

instance charZero : CharZero K :=
  ⟨fun m n h => by
    have : toC (m : K) = toC (n : K) := by rw [h]
    simpa using this⟩

theorem two_ne_zero' : (2 : K) ≠ 0 := by norm_num

theorem absLt_zero {t : ℚ} (ht : 0 < t) : absLt (0 : K) t = true := by
  rw [absLt_iff]; simpa using ht

theorem absGt_zero {t : ℚ} (ht : 0 ≤ t) : absGt (0 : K) t = false := by
  rw [Bool.eq_false_iff, Ne, absGt_iff]; simpa using ht

theorem absGt_eq_false_of_absLt {x : K} {t : ℚ} (h : absLt x t = true) : absGt x t = false := by
  rw [absLt_iff] at h
  rw [Bool.eq_false_iff, Ne, absGt_iff]; linarith

theorem absLt_eq_false_of_absGt {x : K} {t : ℚ} (h : absGt x t = true) : absLt x t = false := by
  rw [absGt_iff] at h
  rw [Bool.eq_false_iff, Ne, absLt_iff]; linarith

/-- a number of absolute value one -/
def IsPhase (x : K) : Prop := x = 1 ∨ x = -1 ∨ x = I ∨ x = -I

theorem IsPhase.norm {x : K} (h : IsPhase x) : ‖toC x‖ = 1 := by
  rcases h with rfl | rfl | rfl | rfl <;> simp [toC_I]

theorem IsPhase.ne_zero {x : K} (h : IsPhase x) : x ≠ 0 := by
  intro h0; have := h.norm; simp [h0] at this

theorem IsPhase.mul {x y : K} (hx : IsPhase x) (hy : IsPhase y) : IsPhase (x * y) := by
  unfold IsPhase at *
  rcases hx with rfl | rfl | rfl | rfl <;> rcases hy with rfl | rfl | rfl | rfl <;> simp

theorem IsPhase.neg {x : K} (hx : IsPhase x) : IsPhase (-x) := by
  unfold IsPhase at *
  rcases hx with rfl | rfl | rfl | rfl <;> simp

theorem IsPhase.star' {x : K} (hx : IsPhase x) : IsPhase (star x) := by
  unfold IsPhase at *
  rcases hx with rfl | rfl | rfl | rfl <;> simp

theorem IsPhase.inv {x : K} (hx : IsPhase x) : IsPhase (x⁻¹) := by
  unfold IsPhase at *
  rcases hx with rfl | rfl | rfl | rfl <;> simp [inv_I, inv_neg]

theorem IsPhase.one : IsPhase (1 : K) := Or.inl rfl
theorem IsPhase.I : IsPhase (I : K) := Or.inr (Or.inr (Or.inl rfl))

theorem IsPhase.absLt_one {x : K} (h : IsPhase x) {t : ℚ} (ht : t ≤ 1) : absLt x t = false := by
  rw [Bool.eq_false_iff, Ne, absLt_iff, h.norm, not_lt]; exact_mod_cast ht

theorem norm_toC_eq_zero {x : K} : ‖toC x‖ = 0 ↔ x = 0 := by
  rw [norm_eq_zero]
  constructor
  · intro h; apply toC_inj; simpa using h
  · rintro rfl; simp

end Coef

/-- Gaussian rationals: exact, executable complex numbers. -/
@[ext] structure QI where
  re : ℚ
  im : ℚ
deriving DecidableEq, Repr

namespace QI

instance : Zero QI := ⟨⟨0, 0⟩⟩
instance : One QI := ⟨⟨1, 0⟩⟩
instance : Add QI := ⟨fun x y => ⟨x.re + y.re, x.im + y.im⟩⟩
instance : Neg QI := ⟨fun x => ⟨-x.re, -x.im⟩⟩
instance : Sub QI := ⟨fun x y => ⟨x.re - y.re, x.im - y.im⟩⟩
instance : Mul QI := ⟨fun x y => ⟨x.re * y.re - x.im * y.im, x.re * y.im + x.im * y.re⟩⟩
instance : Inv QI := ⟨fun x => ⟨x.re / (x.re * x.re + x.im * x.im), -x.im / (x.re * x.re + x.im * x.im)⟩⟩

@[simp] theorem zero_re : (0 : QI).re = 0 := rfl
@[simp] theorem zero_im : (0 : QI).im = 0 := rfl
@[simp] theorem one_re : (1 : QI).re = 1 := rfl
@[simp] theorem one_im : (1 : QI).im = 0 := rfl
@[simp] theorem add_re (x y : QI) : (x + y).re = x.re + y.re := rfl
@[simp] theorem add_im (x y : QI) : (x + y).im = x.im + y.im := rfl
@[simp] theorem neg_re (x : QI) : (-x).re = -x.re := rfl
@[simp] theorem neg_im (x : QI) : (-x).im = -x.im := rfl
@[simp] theorem sub_re (x y : QI) : (x - y).re = x.re - y.re := rfl
@[simp] theorem sub_im (x y : QI) : (x - y).im = x.im - y.im := rfl
@[simp] theorem mul_re (x y : QI) : (x * y).re = x.re * y.re - x.im * y.im := rfl
@[simp] theorem mul_im (x y : QI) : (x * y).im = x.re * y.im + x.im * y.re := rfl
theorem inv_re (x : QI) : (x⁻¹).re = x.re / (x.re * x.re + x.im * x.im) := rfl
theorem inv_im (x : QI) : (x⁻¹).im = -x.im / (x.re * x.re + x.im * x.im) := rfl

instance : CommRing QI where
  add_assoc x y z := by ext <;> simp [add_assoc]
  zero_add x := by ext <;> simp
  add_zero x := by ext <;> simp
  add_comm x y := by ext <;> simp [add_comm]
  mul_assoc x y z := by ext <;> simp <;> ring
  one_mul x := by ext <;> simp
  mul_one x := by ext <;> simp
  left_distrib x y z := by ext <;> simp <;> ring
  right_distrib x y z := by ext <;> simp <;> ring
  zero_mul x := by ext <;> simp
  mul_zero x := by ext <;> simp
  mul_comm x y := by ext <;> simp <;> ring
  neg_add_cancel x := by ext <;> simp
  sub_eq_add_neg x y := by ext <;> simp [sub_eq_add_neg]
  nsmul := nsmulRec
  zsmul := zsmulRec
  natCast n := ⟨n, 0⟩
  natCast_zero := by ext <;> simp
  natCast_succ n := by ext <;> simp

theorem normSq_ne_zero {x : QI} (h : x ≠ 0) : x.re * x.re + x.im * x.im ≠ 0 := by
  intro h0
  apply h
  have h1 : x.re = 0 := by nlinarith [mul_self_nonneg x.re, mul_self_nonneg x.im]
  have h2 : x.im = 0 := by nlinarith [mul_self_nonneg x.re, mul_self_nonneg x.im]
  ext <;> simp [h1, h2]

instance : Field QI where
  exists_pair_ne := ⟨0, 1, by intro h; have := congrArg QI.re h; simp at this⟩
  mul_inv_cancel x h := by
    have := normSq_ne_zero h
    ext
    · simp only [mul_re, inv_re, inv_im, one_re]
      rw [show x.re * (x.re / (x.re * x.re + x.im * x.im)) - x.im * (-x.im / (x.re * x.re + x.im * x.im))
        = (x.re * x.re + x.im * x.im) / (x.re * x.re + x.im * x.im) by ring]
      exact div_self this
    · simp only [mul_im, inv_re, inv_im, one_im]; field_simp; ring
  inv_zero := by ext <;> simp [inv_re, inv_im]
  nnqsmul := _
  nnqsmul_def := fun _ _ => rfl
  qsmul := _
  qsmul_def := fun _ _ => rfl

instance : StarRing QI where
  star x := ⟨x.re, -x.im⟩
  star_involutive x := by ext <;> simp
  star_mul x y := by ext <;> simp <;> ring
  star_add x y := by ext <;> simp [add_comm]

@[simp] theorem star_re (x : QI) : (star x).re = x.re := rfl
@[simp] theorem star_im (x : QI) : (star x).im = -x.im := rfl

/-- the embedding into `ℂ` -/
noncomputable def toC : QI →+* ℂ where
  toFun x := ⟨x.re, x.im⟩
  map_one' := by apply Complex.ext <;> simp
  map_mul' x y := by apply Complex.ext <;> simp
  map_zero' := by apply Complex.ext <;> simp
  map_add' x y := by apply Complex.ext <;> simp

theorem norm_toC (x : QI) : ‖toC x‖ ^ 2 = ((x.re * x.re + x.im * x.im : ℚ) : ℝ) := by
  rw [← Complex.normSq_eq_norm_sq]; simp [Complex.normSq, toC]

/-- executable `np.abs(x) < t` -/
def absLt (x : QI) (t : ℚ) : Bool := decide (0 < t ∧ x.re * x.re + x.im * x.im < t * t)
/-- executable `np.abs(x) > t` -/
def absGt (x : QI) (t : ℚ) : Bool := decide (t < 0 ∨ t * t < x.re * x.re + x.im * x.im)

theorem absLt_iff (x : QI) (t : ℚ) : absLt x t = true ↔ ‖toC x‖ < (t : ℝ) := by
  have h := norm_toC x
  have h0 := norm_nonneg (toC x)
  simp only [absLt, decide_eq_true_eq]
  rw [← Rat.cast_lt (K := ℝ), ← Rat.cast_lt (K := ℝ) (p := x.re * x.re + x.im * x.im), ← h]
  push_cast
  constructor
  · rintro ⟨h1, h2⟩; nlinarith
  · intro h1; constructor <;> nlinarith

theorem absGt_iff (x : QI) (t : ℚ) : absGt x t = true ↔ (t : ℝ) < ‖toC x‖ := by
  have h := norm_toC x
  have h0 := norm_nonneg (toC x)
  simp only [absGt, decide_eq_true_eq]
  rw [← Rat.cast_lt (K := ℝ), ← Rat.cast_lt (K := ℝ) (q := x.re * x.re + x.im * x.im), ← h]
  push_cast
  constructor
  · rintro (h1 | h1)
    · linarith
    · nlinarith
  · intro h1
    by_cases h2 : (t : ℝ) < 0
    · left; exact h2
    · right; nlinarith

instance instCoefOps : CoefOps QI where
  I := ⟨0, 1⟩
  absLt := absLt
  absGt := absGt

@[simp] theorem I_re : (I : QI).re = 0 := rfl
@[simp] theorem I_im : (I : QI).im = 1 := rfl

noncomputable instance instCoef : Coef QI where
  toC := toC
  toC_I := by apply Complex.ext <;> simp [toC]
  toC_star x := by apply Complex.ext <;> simp [toC]
  absLt_iff := absLt_iff
  absGt_iff := absGt_iff

end QI

open Classical in
/-- `ℂ` itself is an exact coefficient domain (not executable). -/
noncomputable instance instCoefComplex : Coef ℂ where
  I := Complex.I
  toC := RingHom.id ℂ
  absLt x t := decide (‖x‖ < (t : ℝ))
  absGt x t := decide ((t : ℝ) < ‖x‖)
  toC_I := rfl
  toC_star x := rfl
  absLt_iff x t := by simp
  absGt_iff x t := by simp
