import Verif.Spec.Matrix

/-! # Specification: the Lie algebra generated by a set of strings -/

namespace Qosy
variable {𝔸 : Type} [Ring 𝔸]

/-- `r` is the smallest set of strings that contains `gens` and a multiple of every non-zero commutator of two members
(commutators are represented by canonical strings). -/
structure IsLieAlgebra (K : Type) [Field K] [Algebra K 𝔸] (den : OpString → 𝔸) (Valid : OpString → Prop) (gens r : List OpString) : Prop where
  contains : ∀ s ∈ gens, s ∈ r
  valid : ∀ s ∈ r, Valid s
  closed : ∀ a ∈ r, ∀ b ∈ r, den a * den b - den b * den a = 0 ∨
    ∃ C ∈ r, ∃ c : K, c ≠ 0 ∧ den a * den b - den b * den a = c • den C
  least : ∀ T : Set OpString, (∀ s ∈ gens, s ∈ T) →
    (∀ a ∈ T, ∀ b ∈ T, ∀ (C : OpString) (c : K), Valid C → C.Canonical → c ≠ 0 →
      den a * den b - den b * den a = c • den C → C ∈ T) →
    ∀ s ∈ r, s ∈ T

end Qosy
