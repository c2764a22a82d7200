import Verif.Spec.Core
import Verif.Lemmas.Liouvillian

/-! # Specification: eigensolvers with rounding errors -/

namespace Qosy
open Matrix
variable {𝔸 : Type} [Ring 𝔸] [Algebra ℂ 𝔸]

/-- the operator norm of the matrix `E` is at most `δ` -/
def NormAtMost {m n : ℕ} (E : Matrix (Fin m) (Fin n) ℂ) (δ : ℝ) : Prop := ∀ y, vnorm (E *ᵥ y) ≤ δ * vnorm y

/-- The result `(λ, Q)` of `eigh(D)` has errors of size at most `δ`: `Q` is unitary and diagonalises `D`, up to matrices of operator norm `δ`.  This is
what LAPACK promises, with `δ` proportional to the machine precision, the size and the norm of `D`; it can be checked afterwards. -/
structure NearlyEigh {n : ℕ} (δ : ℝ) (D : Matrix (Fin n) (Fin n) ℂ) (r : EighResult (Fin n) n) : Prop where
  gram : NormAtMost (r.evecsᴴ * r.evecs - 1) δ
  outer : NormAtMost (r.evecs * r.evecsᴴ - 1) δ
  residual : NormAtMost (D * r.evecs - r.evecs * diagonal (fun j => (r.evals j : ℂ))) δ

/-- the coefficients `v` of the operators `∑ v_j x_j` whose bracket with `O` vanishes -/
def commutingSpace (mode : Mode) (x : List 𝔸) (O : 𝔸) : Submodule ℂ (Fin x.length → ℂ) where
  carrier := {v | bracketOf mode (∑ j, v j • x[j]) O = 0}
  add_mem' {v w} hv hw := by
    rw [Set.mem_ofPred_eq] at *
    simp only [Pi.add_apply, add_smul, Finset.sum_add_distrib]
    rw [bracketOf_add_left, hv, hw, add_zero]
  zero_mem' := by
    rw [Set.mem_ofPred_eq]
    simp only [Pi.zero_apply, zero_smul, Finset.sum_const_zero]
    exact bracketOf_zero_left _ _
  smul_mem' a v hv := by
    rw [Set.mem_ofPred_eq] at *
    simp only [Pi.smul_apply, smul_assoc, ← Finset.smul_sum]
    rw [bracketOf_smul_left, hv, smul_zero]

/-- What `commuting_operators` returns if the eigensolver has errors of size `δ < 1`.
* The inner products of the returned vectors are those of orthonormal vectors up to `δ`.
* The bracket with `O` of an operator in their span has squared norm at most `((1 + δ) tol + δ) / (1 - δ) * ∑ |v_j|²`.
* Every operator whose bracket with `O` vanishes is within the relative distance `δ + (1 + δ) δ / tol` of their span. -/
structure NearlyCommuting (den : OpString → 𝔸) (mode : Mode) (x : List 𝔸) (O : 𝔸) (tol δ : ℝ) (vecs : List (Fin x.length → ℂ)) : Prop where
  orthonormal : ∀ (i j : ℕ) (hi : i < vecs.length) (hj : j < vecs.length), ‖∑ k, star (vecs[i] k) * vecs[j] k - if i = j then 1 else 0‖ ≤ δ
  sound : ∀ v ∈ colSpan vecs, ∃ (strs : List OpString) (w : ℕ → ℂ), strs.Nodup ∧ (∀ s ∈ strs, s.Canonical) ∧
    bracketOf mode (∑ j, v j • x[j]) O = linComb den strs w ∧ ∑ c : Fin strs.length, ‖w c‖ ^ 2 ≤ ((1 + δ) * tol + δ) / (1 - δ) * ∑ j, ‖v j‖ ^ 2
  complete : ∀ w ∈ commutingSpace mode x O, ∃ u ∈ colSpan vecs, vnorm (w - u) ≤ (δ + (1 + δ) * δ / tol) * vnorm w

/-- What `invariant_operators` returns if the eigensolver has errors of size `δ < 1`, for the transformation `T` and the sign.
* The inner products of the returned vectors are those of orthonormal vectors up to `δ`.
* For `A` in their span, the squared norm of `T(A) - sign * A` is at most `2 ((1 + δ) tol + δ) / (1 - δ) * ∑ |v_j|²`.
* Every operator with `T(A) = sign * A` is within the relative distance `δ + (1 + δ) δ / tol` of their span. -/
structure NearlyInvariant (T : Transformation ℂ) (t : OpType) (V : OpString → Prop) (sign : ℤ) {n : ℕ} (cf : Fin n → OpString → ℂ) (tol δ : ℝ)
    (vecs : List (Fin n → ℂ)) : Prop where
  orthonormal : ∀ (i j : ℕ) (hi : i < vecs.length) (hj : j < vecs.length), ‖∑ k, star (vecs[i] k) * vecs[j] k - if i = j then 1 else 0‖ ≤ δ
  sound : ∀ v ∈ colSpan vecs, ∀ A B : Operator ℂ, A.On t V → (∀ s, A.coef s = ∑ j, v j * cf j s) → T.apply A = .ok B →
    ∀ F : Finset OpString, ∑ s ∈ F, ‖B.coef s - sign * A.coef s‖ ^ 2 ≤ 2 * (((1 + δ) * tol + δ) / (1 - δ)) * ∑ j, ‖v j‖ ^ 2
  complete : ∀ (v : Fin n → ℂ) (A B : Operator ℂ), A.On t V → (∀ s, A.coef s = ∑ j, v j * cf j s) → T.apply A = .ok B →
    (∀ s, B.coef s = sign * A.coef s) → ∃ u ∈ colSpan vecs, vnorm (v - u) ≤ (δ + (1 + δ) * δ / tol) * vnorm v

end Qosy
