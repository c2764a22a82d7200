import Verif.Model.LinAlg
import Mathlib.LinearAlgebra.Span.Basic
import Mathlib.LinearAlgebra.Matrix.Hermitian

/-! # Specification: orthonormal columns, column spaces, exact eigensolvers -/

namespace Qosy

/-- the columns are orthonormal for `⟨x, y⟩ = ∑ i, conj (x i) * y i` -/
def OrthonormalColumns {n : ℕ} (q : List (Fin n → ℂ)) : Prop :=
  ∀ (i j : ℕ) (hi : i < q.length) (hj : j < q.length), ∑ x, star (q[i] x) * q[j] x = if i = j then 1 else 0

/-- the column space -/
def colSpan {n : ℕ} (q : List (Fin n → ℂ)) : Submodule ℂ (Fin n → ℂ) := Submodule.span ℂ {v | v ∈ q}

/-- the column space of a matrix -/
def columnSpace {n p : ℕ} (A : Matrix (Fin n) (Fin p) ℂ) : Submodule ℂ (Fin n → ℂ) := LinearMap.range (Matrix.mulVecLin A)

/-- What numpy's `eigh` promises for a Hermitian matrix, in exact arithmetic: real eigenvalues, and orthonormal eigenvectors as
the columns of a unitary matrix. -/
structure IsEigh {ι : Type} [Fintype ι] [DecidableEq ι] {k : ℕ} (D : Matrix ι ι ℂ) (r : EighResult ι k) : Prop where
  orthonormal : r.evecs.conjTranspose * r.evecs = 1
  complete : r.evecs * r.evecs.conjTranspose = 1
  eigen : D * r.evecs = r.evecs * Matrix.diagonal (fun j => (r.evals j : ℂ))

end Qosy
