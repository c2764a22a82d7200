import Verif.Lemmas.Reversal
import Mathlib.Data.Matrix.Basic

/-! # Antilinear automorphisms of the matrices of `n` spins exist -/

namespace Qosy
open Coef
variable {K : Type} [Field K] [StarRing K] [Coef K]
variable {𝔸 : Type} [Ring 𝔸] [Algebra K 𝔸] {S : Set ℤ} {n : ℕ}

/-- complex conjugation of the entries -/
def conjEntries (K : Type) [Field K] [StarRing K] (n : ℕ) : Antilinear K (Matrix (Cfg n) (Cfg n) K) where
  toFun := (starRingEnd K).mapMatrix
  smul c x := by ext i j; simp [Matrix.map_apply, starRingEnd_apply]

/-- followed by conjugation with an element of square one -/
def Antilinear.conjBy (τ : Antilinear K 𝔸) (u : 𝔸) (hu : u * u = 1) : Antilinear K 𝔸 where
  toFun :=
    { toFun := fun x => u * τ.toFun x * u
      map_one' := by simp [hu]
      map_zero' := by simp
      map_add' := fun x y => by simp [mul_add, add_mul]
      map_mul' := fun x y => by
        rw [map_mul]
        have : u * τ.toFun x * u * (u * τ.toFun y * u) = u * τ.toFun x * (u * u) * τ.toFun y * u := by noncomm_ring
        rw [this, hu]; noncomm_ring }
  smul c x := by
    change u * τ.toFun (c • x) * u = star c • (u * τ.toFun x * u)
    rw [τ.smul]; simp

theorem Antilinear.conjBy_apply (τ : Antilinear K 𝔸) (u : 𝔸) (hu : u * u = 1) (x : 𝔸) : (τ.conjBy u hu).toFun x = u * τ.toFun x * u := rfl

theorem conjEntries_X (i : ℤ) : (conjEntries K n).toFun (matX i) = matX i := by
  ext σ τ; simp only [conjEntries, RingHom.mapMatrix_apply, Matrix.map_apply, matX, mono]; split <;> simp

theorem conjEntries_Y (i : ℤ) : (conjEntries K n).toFun (matY i) = -matY i := by
  ext σ τ; simp only [conjEntries, RingHom.mapMatrix_apply, Matrix.map_apply, Matrix.neg_apply, matY, mono]
  split
  · split <;> simp [starRingEnd_apply]
  · simp

theorem conjEntries_Z (i : ℤ) : (conjEntries K n).toFun (matZ i) = matZ i := by
  ext σ τ; simp only [conjEntries, RingHom.mapMatrix_apply, Matrix.map_apply, matZ, mono]
  split
  · split <;> simp
  · simp

/-- conjugating with `Y` at the sites below `k` flips `X` and `Z` there -/
theorem exists_flip (R : PauliRep K 𝔸 (siteLabels n)) (τ₀ : Antilinear K 𝔸) (hX : ∀ i ∈ siteLabels n, τ₀.toFun (R.X i) = R.X i)
    (hY : ∀ i ∈ siteLabels n, τ₀.toFun (R.Y i) = -R.Y i) (hZ : ∀ i ∈ siteLabels n, τ₀.toFun (R.Z i) = R.Z i) :
    ∀ k, k ≤ n → ∃ τ : Antilinear K 𝔸, ∀ i ∈ siteLabels n, τ.toFun (R.X i) = (if i < k then -R.X i else R.X i) ∧
      τ.toFun (R.Y i) = -R.Y i ∧ τ.toFun (R.Z i) = (if i < k then -R.Z i else R.Z i)
  | 0, _ => ⟨τ₀, fun i hi => by
      have h : ¬ i < ((0 : ℕ) : ℤ) := by have := hi.1; simp; omega
      rw [if_neg h, if_neg h]
      exact ⟨hX i hi, hY i hi, hZ i hi⟩⟩
  | k + 1, hk => by
    obtain ⟨τ, hτ⟩ := exists_flip R τ₀ hX hY hZ k (by omega)
    have hkS : (k : ℤ) ∈ siteLabels n := ⟨by omega, by omega⟩
    refine ⟨τ.conjBy (R.Y k) (R.y_sq k hkS), fun i hi => ?_⟩
    obtain ⟨h1, h2, h3⟩ := hτ i hi
    rw [τ.conjBy_apply, τ.conjBy_apply, τ.conjBy_apply, h1, h2, h3]
    have hyy : R.Y k * R.Y k = 1 := R.y_sq k hkS
    by_cases hik : i = k
    · subst hik
      have e1 : ¬ ((k : ℤ) < (k : ℤ)) := lt_irrefl _
      have e2 : (k : ℤ) < ((k + 1 : ℕ) : ℤ) := by push_cast; omega
      rw [if_neg e1, if_pos e2, if_neg e1, if_pos e2]
      have a1 : R.Y k * R.X k = -(R.X k * R.Y k) := by rw [R.y_mul_x _ hkS, R.x_mul_y _ hkS]
      have a2 : R.Y k * R.Z k = -(R.Z k * R.Y k) := by rw [R.y_mul_z _ hkS, R.z_mul_y _ hkS, neg_neg]
      refine ⟨?_, ?_, ?_⟩
      · rw [a1, neg_mul, mul_assoc, hyy, mul_one]
      · rw [mul_neg, hyy, neg_mul, one_mul]
      · rw [a2, neg_mul, mul_assoc, hyy, mul_one]
    · have hne : (k : ℤ) ≠ i := fun h => hik h.symm
      have a1 : R.Y k * R.X i = R.X i * R.Y k := (R.xy i hi k hkS hik).symm
      have a2 : R.Y k * R.Z i = R.Z i * R.Y k := R.yz k hkS i hi hne
      have a3 : R.Y k * R.Y i = R.Y i * R.Y k := R.yy k hkS i hi hne
      have e : (i < (k : ℤ)) ↔ (i < ((k + 1 : ℕ) : ℤ)) := by push_cast; omega
      refine ⟨?_, ?_, ?_⟩
      · by_cases h : i < (k : ℤ)
        · rw [if_pos h, if_pos (e.mp h), mul_neg, a1, neg_mul, mul_assoc, hyy, mul_one]
        · rw [if_neg h, if_neg (fun h' => h (e.mpr h')), a1, mul_assoc, hyy, mul_one]
      · rw [mul_neg, a3, neg_mul, mul_assoc, hyy, mul_one]
      · by_cases h : i < (k : ℤ)
        · rw [if_pos h, if_pos (e.mp h), mul_neg, a2, neg_mul, mul_assoc, hyy, mul_one]
        · rw [if_neg h, if_neg (fun h' => h (e.mpr h')), a2, mul_assoc, hyy, mul_one]

theorem exists_reversesSpins (K : Type) [Field K] [StarRing K] [Coef K] (n : ℕ) :
    ∃ τ : Antilinear K (Matrix (Cfg n) (Cfg n) K), τ.ReversesSpins (matRep K n) := by
  obtain ⟨τ, hτ⟩ := exists_flip (matRep K n) (conjEntries K n) (fun i _ => conjEntries_X i) (fun i _ => conjEntries_Y i)
    (fun i _ => conjEntries_Z i) n le_rfl
  refine ⟨τ, fun i hi => ?_⟩
  have := hτ i hi
  rwa [if_pos hi.2, if_pos hi.2] at this

theorem conj_reversesFermions (K : Type) [Field K] [StarRing K] [Coef K] (n : ℕ) :
    (conjEntries K n).ReversesFermions (matRep K n).jordanWigner := by
  have hz : ∀ k : ℕ, (conjEntries K n).toFun ((matRep K n).zs k) = (matRep K n).zs k := by
    intro k
    induction k with
    | zero => simp [PauliRep.zs]
    | succ k ih =>
      rw [(matRep K n).zs_succ, map_mul, ih, show (matRep K n).Z k = matZ k from rfl, conjEntries_Z]
  intro i hi
  constructor
  · show (conjEntries K n).toFun ((matRep K n).zs i.toNat * matX i) = _
    rw [map_mul, hz, conjEntries_X]; rfl
  · show (conjEntries K n).toFun ((matRep K n).zs i.toNat * matY i) = _
    rw [map_mul, hz, conjEntries_Y, mul_neg]; rfl

end Qosy
