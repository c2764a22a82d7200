import Verif.Lemmas.QuadraticMatrix
import Mathlib.Algebra.Ring.Commute

/-! # Commutators of quadratic Hamiltonians with linear operators -/

namespace Qosy
open Coef
variable {K : Type} [Field K] [StarRing K] [Coef K] {n : ℕ}
variable {𝔸 : Type} [Ring 𝔸] [Algebra K 𝔸]

theorem smul_lie' (c : K) (x y : 𝔸) : ⁅c • x, y⁆ = c • ⁅x, y⁆ := by rw [Ring.lie_def, Ring.lie_def, smul_mul_assoc, mul_smul_comm, smul_sub]
theorem lie_smul' (c : K) (x y : 𝔸) : ⁅x, c • y⁆ = c • ⁅x, y⁆ := by rw [Ring.lie_def, Ring.lie_def, smul_mul_assoc, mul_smul_comm, smul_sub]
theorem sum_lie' (s : Finset ℕ) (f : ℕ → 𝔸) (y : 𝔸) : ⁅∑ i ∈ s, f i, y⁆ = ∑ i ∈ s, ⁅f i, y⁆ := by
  simp only [Ring.lie_def, Finset.sum_mul, Finset.mul_sum, Finset.sum_sub_distrib]
theorem lie_sum' (s : Finset ℕ) (f : ℕ → 𝔸) (y : 𝔸) : ⁅y, ∑ i ∈ s, f i⁆ = ∑ i ∈ s, ⁅y, f i⁆ := by
  simp only [Ring.lie_def, Finset.sum_mul, Finset.mul_sum, Finset.sum_sub_distrib]

theorem halfSwap_lt {k : ℕ} (h : k < 2 * n) : halfSwap n k < 2 * n := by rw [halfSwap]; split <;> omega
theorem halfSwap_halfSwap {k : ℕ} (h : k < 2 * n) : halfSwap n (halfSwap n k) = k := by
  rw [halfSwap, halfSwap]; split <;> split <;> omega

theorem halfSwap_eq {j k : ℕ} (hj : j < 2 * n) (hk : k < 2 * n) : j = halfSwap n k ↔ halfSwap n j = k := by
  constructor
  · rintro rfl; exact halfSwap_halfSwap hk
  · rintro rfl; exact (halfSwap_halfSwap hj).symm

theorem sum_halfSwap {M : Type} [AddCommMonoid M] (f : ℕ → M) : ∑ k ∈ Finset.range (2 * n), f (halfSwap n k) = ∑ k ∈ Finset.range (2 * n), f k := by
  apply Finset.sum_bij' (fun k _ => halfSwap n k) (fun k _ => halfSwap n k)
  · intro k hk; exact Finset.mem_range.mpr (halfSwap_lt (Finset.mem_range.mp hk))
  · intro k hk; exact Finset.mem_range.mpr (halfSwap_lt (Finset.mem_range.mp hk))
  · intro k hk; exact halfSwap_halfSwap (Finset.mem_range.mp hk)
  · intro k hk; exact halfSwap_halfSwap (Finset.mem_range.mp hk)
  · intro k hk; rfl

theorem nambuDag_eq (R : MajoranaRep K 𝔸 (siteLabels n)) {k : ℕ} (h : k < 2 * n) : R.nambuDag n k = R.nambu n (halfSwap n k) := by
  rw [MajoranaRep.nambuDag, MajoranaRep.nambu, halfSwap]
  split
  · rw [if_neg (by omega), show k + n - n = k by omega]
  · rw [if_pos (by omega)]

/-- the Nambu operators satisfy the canonical anticommutation relations -/
theorem nambu_anticomm (R : MajoranaRep K 𝔸 (siteLabels n)) {j k : ℕ} (hj : j < 2 * n) (hk : k < 2 * n) :
    R.nambu n j * R.nambu n k + R.nambu n k * R.nambu n j = (if j = halfSwap n k then (1 : K) else 0) • 1 := by
  rw [MajoranaRep.nambu, MajoranaRep.nambu, halfSwap]
  by_cases h1 : j < n <;> by_cases h2 : k < n <;> simp only [h1, h2, if_true, if_false]
  · rw [R.c_mul_c (i := j) (j := k) ⟨by omega, by omega⟩ ⟨by omega, by omega⟩, if_neg (by omega)]; simp
  · by_cases h3 : j = k - n
    · rw [if_pos h3, ← h3, R.c_mul_cdag ⟨by omega, by omega⟩]; simp
    · rw [if_neg h3, R.c_mul_cdag_other ⟨by omega, by omega⟩ ⟨by omega, by omega⟩ (by omega)]; simp
  · by_cases h3 : j = k + n
    · rw [if_pos h3, show j - n = k by omega, R.c_mul_cdag ⟨by omega, by omega⟩]; simp
    · rw [if_neg h3, R.c_mul_cdag_other ⟨by omega, by omega⟩ ⟨by omega, by omega⟩ (by omega)]; simp
  · rw [R.cdag_mul_cdag (i := (j - n : ℕ)) (j := (k - n : ℕ)) ⟨by omega, by omega⟩ ⟨by omega, by omega⟩, if_neg (by omega)]; simp

/-- the commutator of a quadratic form with a Nambu operator -/
theorem bdg_comm (R : MajoranaRep K 𝔸 (siteLabels n)) {M : Mat K} (hH : ∀ i j, M.get i j = star (M.get j i))
    (hP : ∀ i j, i < 2 * n → j < 2 * n → M.get (halfSwap n i) (halfSwap n j) = -star (M.get i j)) {k : ℕ} (hk : k < 2 * n) :
    ⁅(1 / 2 : K) • ∑ i ∈ Finset.range (2 * n), ∑ j ∈ Finset.range (2 * n), M.get i j • (R.nambuDag n i * R.nambu n j), R.nambu n k⁆ =
      -∑ j ∈ Finset.range (2 * n), M.get k j • R.nambu n j := by
  have e : ∀ i j, i < 2 * n → j < 2 * n → ⁅R.nambuDag n i * R.nambu n j, R.nambu n k⁆ =
      (if halfSwap n k = j then (1 : K) else 0) • R.nambu n (halfSwap n i) - (if k = i then (1 : K) else 0) • R.nambu n j := by
    intro i j hi hj
    have h1 := nambu_anticomm R hj hk
    have h2 := nambu_anticomm R (halfSwap_lt hi) hk
    rw [← nambuDag_eq R hi] at h2
    have h2' : (halfSwap n i = halfSwap n k) = (k = i) := by
      apply propext
      rw [halfSwap_eq (halfSwap_lt hi) hk, halfSwap_halfSwap hi]
      exact eq_comm
    simp only [h2'] at h2
    have h1' : (j = halfSwap n k) = (halfSwap n k = j) := propext eq_comm
    simp only [h1'] at h1
    rw [Ring.lie_def, mul_assoc, eq_sub_of_add_eq h1, ← mul_assoc (R.nambu n k), eq_sub_of_add_eq' h2, ← nambuDag_eq R hi, mul_sub, sub_mul,
      mul_smul_comm, smul_mul_assoc, mul_one, one_mul, mul_assoc]
    abel
  rw [smul_lie', sum_lie', Finset.sum_congr rfl (fun i hi => by
    rw [sum_lie', Finset.sum_congr rfl (fun j hj => by
      rw [smul_lie', e i j (Finset.mem_range.mp hi) (Finset.mem_range.mp hj), smul_sub, smul_smul, smul_smul, mul_ite, mul_ite, mul_one, mul_zero]),
      Finset.sum_sub_distrib, ← Finset.sum_smul, Finset.sum_ite_eq, if_pos (Finset.mem_range.mpr (halfSwap_lt hk))])]
  rw [Finset.sum_sub_distrib, Finset.sum_comm (f := fun i j => (if k = i then M.get i j else 0) • R.nambu n j),
    ← sum_halfSwap (fun i => M.get i (halfSwap n k) • R.nambu n (halfSwap n i))]
  have e1 : ∀ i ∈ Finset.range (2 * n), M.get (halfSwap n i) (halfSwap n k) • R.nambu n (halfSwap n (halfSwap n i)) = -(M.get k i • R.nambu n i) := by
    intro i hi
    rw [halfSwap_halfSwap (Finset.mem_range.mp hi), hP i k (Finset.mem_range.mp hi) hk, ← hH k i, neg_smul]
  have e2 : ∀ j ∈ Finset.range (2 * n), ∑ i ∈ Finset.range (2 * n), (if k = i then M.get i j else 0) • R.nambu n j = M.get k j • R.nambu n j := by
    intro j _
    rw [← Finset.sum_smul, Finset.sum_ite_eq, if_pos (Finset.mem_range.mpr hk)]
  rw [Finset.sum_congr rfl e1, Finset.sum_congr rfl e2, Finset.sum_neg_distrib]
  module

/-- the commutator of a hopping Hamiltonian with an annihilation operator -/
theorem hopping_comm (R : MajoranaRep K 𝔸 (siteLabels n)) (M : Mat K) {k : ℕ} (hk : k < n) :
    ⁅∑ i ∈ Finset.range n, ∑ j ∈ Finset.range n, M.get i j • (R.cdag i * R.c j), R.c k⁆ = -∑ j ∈ Finset.range n, M.get k j • R.c j := by
  have e : ∀ i j : ℕ, i < n → j < n → ⁅R.cdag i * R.c j, R.c k⁆ = -((if k = i then (1 : K) else 0) • R.c j) := by
    intro i j hi hj
    rw [Ring.lie_def, mul_assoc, R.c_mul_c (i := j) (j := k) ⟨by omega, by omega⟩ ⟨by omega, by omega⟩]
    by_cases h : k = i
    · subst h
      rw [if_pos rfl, ← mul_assoc (R.c k), R.c_mul_cdag ⟨by omega, by omega⟩, sub_mul, one_mul, one_smul, mul_neg, mul_assoc]; abel
    · rw [if_neg h, ← mul_assoc (R.c k), R.c_mul_cdag_other ⟨by omega, by omega⟩ ⟨by omega, by omega⟩ (by omega), neg_mul, mul_neg, mul_assoc]; simp
  rw [sum_lie', Finset.sum_congr rfl (fun i hi => by
    rw [sum_lie', Finset.sum_congr rfl (fun j hj => by
      rw [smul_lie', e i j (Finset.mem_range.mp hi) (Finset.mem_range.mp hj), smul_neg, smul_smul, mul_ite, mul_one, mul_zero])]),
    Finset.sum_comm, ← Finset.sum_neg_distrib]
  apply Finset.sum_congr rfl
  intro j _
  rw [Finset.sum_neg_distrib, ← Finset.sum_smul, Finset.sum_ite_eq, if_pos (Finset.mem_range.mpr hk)]

/-- linear combinations: a left eigenvector gives a ladder operator -/
theorem ladder_of_comm {m : ℕ} {H : 𝔸} {Ψ : ℕ → 𝔸} {M : Mat K} (h : ∀ k < m, ⁅H, Ψ k⁆ = -∑ j ∈ Finset.range m, M.get k j • Ψ j)
    (hH : ∀ i j, M.get i j = star (M.get j i)) {x : ℕ → K} {E : K} (hE : star E = E)
    (hx : ∀ i < m, ∑ j ∈ Finset.range m, M.get i j * x j = E * x i) :
    ⁅H, ∑ k ∈ Finset.range m, star (x k) • Ψ k⁆ = -(E • ∑ k ∈ Finset.range m, star (x k) • Ψ k) := by
  rw [lie_sum', Finset.sum_congr rfl (fun k hk => by rw [lie_smul', h k (Finset.mem_range.mp hk), smul_neg, Finset.smul_sum]), Finset.sum_neg_distrib, Finset.sum_comm,
    Finset.smul_sum]
  congr 1
  apply Finset.sum_congr rfl
  intro j hj
  rw [smul_smul, ← star_star (E * star (x j)), star_mul', star_star, hE, ← hx j (Finset.mem_range.mp hj), star_sum, Finset.sum_smul]
  apply Finset.sum_congr rfl
  intro k _
  rw [smul_smul, star_mul', ← hH k j, mul_comm]

end Qosy
