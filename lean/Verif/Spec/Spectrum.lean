import Verif.Model.Spectrum
import Verif.Spec.Core
import Verif.Spec.Conversion
import Verif.Spec.Diagonalization
import Verif.Spec.Lanczos
import Mathlib.LinearAlgebra.Matrix.NonsingularInverse

/-! # Specification: what the eigensolvers promise, eigenstates of spin systems -/

namespace Qosy

/-- `x` is at most the expectation value `⟨u|D|u⟩ / ⟨u|u⟩` of every vector that is orthogonal to the vectors `vs` -/
def BoundsRest {ι : Type} [Fintype ι] (D : Matrix ι ι ℂ) (vs : List (ι → ℂ)) (x : ℝ) : Prop :=
  ∀ u : ι → ℂ, (∀ v ∈ vs, ∑ i, star (v i) * u i = 0) → x * ∑ i, ‖u i‖ ^ 2 ≤ (∑ i, star (u i) * (D.mulVec u) i).re

/-- orthonormal vectors -/
def OrthonormalList {ι : Type} [Fintype ι] (vs : List (ι → ℂ)) : Prop :=
  (∀ v ∈ vs, ∑ i, ‖v i‖ ^ 2 = 1) ∧ vs.Pairwise fun v w => ∑ i, star (v i) * w i = 0

/-- orthonormal eigenvectors of `D` with the smallest eigenvalues -/
structure LowestEigenpairs {ι : Type} [Fintype ι] (D : Matrix ι ι ℂ) (pairs : List (ℝ × (ι → ℂ))) : Prop where
  orthonormal : OrthonormalList (pairs.map Prod.snd)
  eigen : ∀ p ∈ pairs, D.mulVec p.2 = (p.1 : ℂ) • p.2
  lowest : ∀ p ∈ pairs, BoundsRest D (pairs.map Prod.snd) p.1

/-- What the eigensolvers promise, in exact arithmetic.
* `eigh` reads the lower triangle of the matrix and returns all eigenpairs of the Hermitian matrix with that triangle.
* `eigsh` returns `k` orthonormal eigenvectors of a Hermitian matrix with the smallest eigenvalues for `0 < k < n - 1`.  It fails for `k ≥ n - 1` (it calls
  `eigs` for complex matrices, which does not accept sparse matrices then).
* `shifted` is `eigsh` with the option `sigma`: it solves linear systems with `D - σ`, so it fails if this matrix is singular, and otherwise returns `k`
  orthonormal eigenvectors for which `1 / (λ - σ)` is smallest.
* `eig` returns `n` pairs of eigenvalues and normalised eigenvectors, among them every eigenvalue.
* `eigs` returns `k` such pairs for `0 < k < n - 1`.
* `argsort` returns a permutation that sorts the numbers. -/
structure Eigensolvers.Exact (num : Eigensolvers) : Prop where
  eigh : ExactEigh num.eigh
  triangle : ∀ (n : ℕ) (D E : Matrix (Fin n) (Fin n) ℂ), (∀ i j, j < i → D i j = E i j) → (∀ i, (D i i).re = (E i i).re) → num.eigh n D = num.eigh n E
  eigsh : ∀ (n : ℕ) (D : Matrix (Fin n) (Fin n) ℂ) (k : ℕ), D.IsHermitian → 0 < k → k + 1 < n → ∃ r, num.eigsh n D k = .ok r ∧ r.length = k ∧ LowestEigenpairs D r
  large : ∀ (n : ℕ) (D : Matrix (Fin n) (Fin n) ℂ) (k : ℕ), n ≤ k + 1 → ∃ e, num.eigsh n D k = .error e
  shifted : ∀ (n : ℕ) (D : Matrix (Fin n) (Fin n) ℂ) (k : ℕ) (σ : ℝ), D.IsHermitian → 0 < k → k + 1 < n → ¬ IsEigenvalue D σ →
    ∃ r, num.shifted n D k σ = .ok r ∧ r.length = k ∧ (∀ p ∈ r, D.mulVec p.2 = (p.1 : ℂ) • p.2) ∧
      LowestEigenpairs (D - (σ : ℂ) • 1)⁻¹ (r.map fun p => (1 / (p.1 - σ), p.2))
  singular : ∀ (n : ℕ) (D : Matrix (Fin n) (Fin n) ℂ) (k : ℕ) (σ : ℝ), D.IsHermitian → IsEigenvalue D σ → ∃ e, num.shifted n D k σ = .error e
  eig : ∀ (n : ℕ) (D : Matrix (Fin n) (Fin n) ℂ), (num.eig n D).length = n ∧
    (∀ p ∈ num.eig n D, ∑ i, ‖p.2 i‖ ^ 2 = 1 ∧ D.mulVec p.2 = p.1 • p.2) ∧
    ∀ (μ : ℂ) (v : Fin n → ℂ), v ≠ 0 → D.mulVec v = μ • v → μ ∈ (num.eig n D).map Prod.fst
  eigs : ∀ (n : ℕ) (D : Matrix (Fin n) (Fin n) ℂ) (k : ℕ), 0 < k → k + 1 < n → ∃ r, num.eigs n D k = .ok r ∧ r.length = k ∧
    ∀ p ∈ r, ∑ i, ‖p.2 i‖ ^ 2 = 1 ∧ D.mulVec p.2 = p.1 • p.2
  argsort : ∀ l : List ℝ, (num.argsort l).Perm (List.range l.length) ∧ (num.argsort l).Pairwise fun i j => l.getD i 0 ≤ l.getD j 0

end Qosy
