import Verif.Spec.Rep
import Mathlib.LinearAlgebra.Matrix.ConjTranspose
import Mathlib.Data.Fintype.Pi
import Mathlib.Data.Fintype.BigOperators

/-!
# The matrices of `n` spins

A spin configuration is `Fin n → Bool`; `X i`, `Y i`, `Z i` are the usual Pauli matrices acting on site `i`
(`false` is the first basis state).
They form a *-representation of the Pauli relations on the labels `0, …, n-1`.
-/

namespace Qosy

variable {K : Type} [Field K] [StarRing K] [Coef K] {n : ℕ}

/-- configurations of `n` spins -/
abbrev Cfg (n : ℕ) := Fin n → Bool

/-- the configuration with the spin at site `i` flipped (unchanged if `i` is not a site) -/
def Cfg.flip (i : ℤ) (σ : Cfg n) : Cfg n := fun k => if (k : ℤ) = i then !σ k else σ k

/-- the spin at site `i` (`false` if `i` is not a site) -/
def Cfg.bit (i : ℤ) (σ : Cfg n) : Bool := if h : 0 ≤ i ∧ i < n then σ ⟨i.toNat, by omega⟩ else false

/-- The matrix with the entry `c σ` in row `σ`, column `f σ` -/
def mono (f : Cfg n → Cfg n) (c : Cfg n → K) : Matrix (Cfg n) (Cfg n) K := fun σ τ => if τ = f σ then c σ else 0

theorem mono_mul (f g : Cfg n → Cfg n) (c d : Cfg n → K) :
    mono f c * mono g d = mono (fun σ => g (f σ)) (fun σ => c σ * d (f σ)) := by
  ext σ τ
  rw [Matrix.mul_apply, Finset.sum_eq_single (f σ)]
  · simp [mono]
  · intro ρ _ h; simp [mono, h]
  · simp

theorem mono_one : (1 : Matrix (Cfg n) (Cfg n) K) = mono (fun σ => σ) (fun _ => 1) := by
  ext σ τ
  simp [mono, Matrix.one_apply, eq_comm]

theorem mono_smul (a : K) (f : Cfg n → Cfg n) (c : Cfg n → K) : a • mono f c = mono f (fun σ => a * c σ) := by
  ext σ τ
  simp [mono]

theorem mono_neg (f : Cfg n → Cfg n) (c : Cfg n → K) : -mono f c = mono f (fun σ => -c σ) := by
  ext σ τ
  simp only [mono, Matrix.neg_apply]; split <;> simp

@[simp] theorem Cfg.flip_flip (i : ℤ) (σ : Cfg n) : Cfg.flip i (Cfg.flip i σ) = σ := by
  funext k; simp only [Cfg.flip]; split <;> simp

theorem Cfg.flip_comm (i j : ℤ) (σ : Cfg n) : Cfg.flip i (Cfg.flip j σ) = Cfg.flip j (Cfg.flip i σ) := by
  funext k; simp only [Cfg.flip]; split <;> split <;> rfl

theorem Cfg.bit_flip {i : ℤ} (hi : 0 ≤ i ∧ i < n) (σ : Cfg n) : Cfg.bit i (Cfg.flip i σ) = !Cfg.bit i σ := by
  have : ((i.toNat : ℕ) : ℤ) = i := by omega
  simp [Cfg.bit, Cfg.flip, hi]

theorem Cfg.bit_flip_other {i j : ℤ} (hij : i ≠ j) (σ : Cfg n) : Cfg.bit i (Cfg.flip j σ) = Cfg.bit i σ := by
  unfold Cfg.bit Cfg.flip
  split
  · rename_i h
    have : ((i.toNat : ℕ) : ℤ) = i := by omega
    simp [this, hij]
  · rfl

/-- `X_i` -/
def matX (i : ℤ) : Matrix (Cfg n) (Cfg n) K := mono (Cfg.flip i) (fun _ => 1)
/-- `Y_i`: the matrix `[[0,-i],[i,0]]` on site `i` -/
def matY (i : ℤ) : Matrix (Cfg n) (Cfg n) K := mono (Cfg.flip i) (fun σ => if Cfg.bit i σ then I else -I)
/-- `Z_i` -/
def matZ (i : ℤ) : Matrix (Cfg n) (Cfg n) K := mono (fun σ => σ) (fun σ => if Cfg.bit i σ then -1 else 1)

/-- the labels of `n` sites -/
def siteLabels (n : ℕ) : Set ℤ := {i | 0 ≤ i ∧ i < n}

/-- The matrices of `n` spins form a representation of the Pauli relations. -/
def matRep (K : Type) [Field K] [StarRing K] [Coef K] (n : ℕ) : PauliRep K (Matrix (Cfg n) (Cfg n) K) (siteLabels n) where
  X := matX
  Y := matY
  Z := matZ
  x_sq i hi := by simp [matX, mono_mul, mono_one]
  y_sq i hi := by
    simp only [matY, mono_mul, mono_one, Cfg.flip_flip, Cfg.bit_flip hi]
    congr 1; funext σ; cases Cfg.bit i σ <;> simp
  z_sq i hi := by
    simp only [matZ, mono_mul, mono_one]
    congr 1; funext σ; cases Cfg.bit i σ <;> simp
  x_mul_y i hi := by
    simp only [matX, matY, matZ, mono_mul, mono_smul, Cfg.flip_flip, Cfg.bit_flip hi]
    congr 1; funext σ; cases Cfg.bit i σ <;> simp
  y_mul_z i hi := by
    simp only [matX, matY, matZ, mono_mul, mono_smul, Cfg.bit_flip hi]
    congr 1; funext σ; cases Cfg.bit i σ <;> simp
  z_mul_x i hi := by
    simp only [matX, matY, matZ, mono_mul, mono_smul]
    congr 1; funext σ; cases Cfg.bit i σ <;> simp
  y_mul_x i hi := by
    simp only [matX, matY, matZ, mono_mul, mono_smul, mono_neg, Cfg.flip_flip]
    congr 1; funext σ; cases Cfg.bit i σ <;> simp
  z_mul_y i hi := by
    simp only [matX, matY, matZ, mono_mul, mono_smul, mono_neg]
    congr 1; funext σ; cases Cfg.bit i σ <;> simp
  x_mul_z i hi := by
    simp only [matX, matY, matZ, mono_mul, mono_smul, mono_neg, Cfg.bit_flip hi]
    congr 1; funext σ; cases Cfg.bit i σ <;> simp
  xx i _ j _ hij := by simp only [matX, mono_mul, Cfg.flip_comm i j]
  xy i _ j _ hij := by
    simp only [matX, matY, mono_mul, Cfg.flip_comm i j, Cfg.bit_flip_other hij.symm, mul_comm]
  xz i _ j _ hij := by
    simp only [matX, matZ, mono_mul, Cfg.bit_flip_other hij.symm, mul_comm]
  yy i _ j _ hij := by
    simp only [matY, mono_mul, Cfg.flip_comm i j, Cfg.bit_flip_other hij, Cfg.bit_flip_other hij.symm]
    congr 1; funext σ; ring
  yz i _ j _ hij := by
    simp only [matY, matZ, mono_mul, Cfg.bit_flip_other hij.symm]
    congr 1; funext σ; ring
  zz i _ j _ hij := by
    simp only [matZ, mono_mul]
    congr 1; funext σ; ring

theorem mono_star (i : ℤ) (c : Cfg n → K) :
    star (mono (Cfg.flip i) c) = mono (Cfg.flip i) (fun σ => star (c (Cfg.flip i σ))) := by
  ext σ τ
  have : σ = Cfg.flip i τ ↔ τ = Cfg.flip i σ := by
    constructor <;> (rintro rfl; simp)
  simp only [Matrix.star_apply, mono, this]
  split
  · rename_i h; rw [h]
  · simp

theorem matX_star (i : ℤ) : star (matX i : Matrix (Cfg n) (Cfg n) K) = matX i := by
  rw [matX, mono_star]; simp

theorem matY_star {i : ℤ} (hi : i ∈ siteLabels n) : star (matY i : Matrix (Cfg n) (Cfg n) K) = matY i := by
  rw [matY, mono_star]
  congr 1; funext σ
  rw [Cfg.bit_flip hi]
  cases Cfg.bit i σ <;> simp

theorem matZ_star (i : ℤ) : star (matZ i : Matrix (Cfg n) (Cfg n) K) = matZ i := by
  ext σ τ
  simp only [Matrix.star_apply, matZ, mono]
  by_cases h : σ = τ
  · subst h; simp only [if_true]; cases Cfg.bit i σ <;> simp
  · simp [h, Ne.symm h]

end Qosy
