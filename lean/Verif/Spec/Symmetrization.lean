import Verif.Model.Symmetrization
import Verif.Spec.Transformation
import Verif.Spec.Perm
import Mathlib.Algebra.Group.Subgroup.Lattice
import Mathlib.LinearAlgebra.Span.Defs

/-! # Specification: symmetrized operators -/

namespace Qosy
variable {K : Type} [Field K] [StarRing K] [Coef K]

/-- the relabelling of the orbitals `0, …, n-1` by a permutation -/
def permMap {n : ℕ} (σ : Equiv.Perm (Fin n)) : ℤ → ℤ := relabelMap (labelsOf (permArray σ))

/-- the products `y σ₁^k₁ σ₂^k₂ …` with `y` in `A` -/
def powerProducts {n : ℕ} : List (Equiv.Perm (Fin n)) → Set (Equiv.Perm (Fin n)) → Set (Equiv.Perm (Fin n))
  | [], A => A
  | σ :: σs, A => powerProducts σs {x | ∃ y ∈ A, ∃ k : ℕ, x = y * σ ^ k}

/-- applying the label permutation to the operator changes no coefficient -/
def Invariant {n : ℕ} (σ : Equiv.Perm (Fin n)) (A : Operator K) : Prop :=
  ∃ B, (labelPermutation (labelsOf (permArray σ)) : Transformation K).apply A = .ok B ∧ ∀ u, B.coef u = A.coef u

/-- the group generated by the generators -/
def generated {n : ℕ} (σs : List (Equiv.Perm (Fin n))) : Subgroup (Equiv.Perm (Fin n)) := Subgroup.closure {σ | σ ∈ σs}

end Qosy
