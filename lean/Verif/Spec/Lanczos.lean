import Verif.Model.Lanczos
import Verif.Spec.Core

/-! # Specification: a few eigenvectors next to a number; operators found with `num_vecs` -/

namespace Qosy
open Matrix
variable {𝔸 : Type} [Ring 𝔸] [Algebra ℂ 𝔸]

/-- `σ` is an eigenvalue of `D` -/
def IsEigenvalue {n : ℕ} (D : Matrix (Fin n) (Fin n) ℂ) (σ : ℝ) : Prop := ∃ z : Fin n → ℂ, z ≠ 0 ∧ D *ᵥ z = (σ : ℂ) • z

/-- `k` orthonormal eigenvectors, such that no eigenvector orthogonal to all of them has an eigenvalue closer to `σ` -/
structure IsEigsh {n k : ℕ} (D : Matrix (Fin n) (Fin n) ℂ) (σ : ℝ) (r : EighResult (Fin n) k) : Prop where
  orthonormal : r.evecs.conjTranspose * r.evecs = 1
  eigen : D * r.evecs = r.evecs * Matrix.diagonal (fun j => (r.evals j : ℂ))
  nearest : ∀ (μ : ℝ) (z : Fin n → ℂ), z ≠ 0 → D *ᵥ z = (μ : ℂ) • z → r.evecs.conjTranspose *ᵥ z = 0 → ∀ j, |r.evals j - σ| ≤ |μ - σ|

/-- What `scipy.sparse.linalg.eigsh(matrix, k, sigma=σ)` promises for Hermitian matrices, in exact arithmetic.  In shift-invert mode it
solves linear systems with `matrix - σ`: it fails with an exception if that matrix is singular.  It also fails for `k ≥ n`.  Otherwise it
returns a result for `0 < k < n - 1` (it calls `eigs` for complex matrices, which excludes `k = n - 1`), and any result is correct. -/
structure ExactEigsh (eigsh : Eigsh) : Prop where
  correct : ∀ (n : ℕ) (D : Matrix (Fin n) (Fin n) ℂ) (k : ℕ) (σ : ℝ) (r : EighResult (Fin n) k), D.IsHermitian → eigsh n D k σ = .ok r → IsEigsh D σ r
  returns : ∀ (n : ℕ) (D : Matrix (Fin n) (Fin n) ℂ) (k : ℕ) (σ : ℝ), D.IsHermitian → 0 < k → k + 1 < n → ¬ IsEigenvalue D σ → ∃ r, eigsh n D k σ = .ok r
  singular : ∀ (n : ℕ) (D : Matrix (Fin n) (Fin n) ℂ) (k : ℕ) (σ : ℝ), D.IsHermitian → IsEigenvalue D σ → ∃ e, eigsh n D k σ = .error e
  size : ∀ (n : ℕ) (D : Matrix (Fin n) (Fin n) ℂ) (k : ℕ) (σ : ℝ), n ≤ k → ∃ e, eigsh n D k σ = .error e

/-- What `commuting_operators` with `num_vecs=k` has to return: at most `k` orthonormal coefficient vectors; a warning if there are `k`
of them; without a warning the span contains all operators whose bracket with `O` vanishes; the operators in the span nearly have a
vanishing bracket, as in `CommutingBasis`, and exactly if the superoperator has no small non-zero eigenvalue. -/
structure CommutingVecs (den : OpString → 𝔸) (mode : Mode) (x : List 𝔸) (O : 𝔸) (tol : ℝ) (k : ℕ) (vecs : List (Fin x.length → ℂ))
    (M : Matrix (Fin x.length) (Fin x.length) ℂ) (warned : Bool) : Prop where
  orthonormal : OrthonormalColumns vecs
  length : vecs.length ≤ k
  warning : warned = true ↔ vecs.length = k
  complete : warned = false → ∀ v : Fin x.length → ℂ, bracketOf mode (∑ j, v j • x[j]) O = 0 → v ∈ colSpan vecs
  approx : ∀ v ∈ colSpan vecs, ∃ (strs : List OpString) (w : ℕ → ℂ), strs.Nodup ∧ (∀ s ∈ strs, s.Canonical) ∧
    bracketOf mode (∑ j, v j • x[j]) O = linComb den strs w ∧ ∑ c : Fin strs.length, ‖w c‖ ^ 2 ≤ tol * ∑ j, ‖v j‖ ^ 2
  exact : SpectralGap M 0 tol → ∀ v ∈ colSpan vecs, bracketOf mode (∑ j, v j • x[j]) O = 0

end Qosy
