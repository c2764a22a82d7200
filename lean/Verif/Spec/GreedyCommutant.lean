import Verif.Spec.Greedy
import Verif.Model.Core

/-! # Specification: the greedy search and the operators that commute -/

namespace Qosy
variable {𝔸 : Type} [Ring 𝔸] [Algebra ℂ 𝔸]

/-- some combination of the strings, not all of whose coefficients vanish, commutes with `H` -/
def HasCommuting (den : OpString → 𝔸) (strs : List OpString) (H : 𝔸) : Prop :=
  ∃ u : ℕ → ℂ, (∃ j < strs.length, u j ≠ 0) ∧ linComb den strs u * H = H * linComb den strs u

/-- the squared commutator norm `c` found together with `O` is zero just if `O` commutes with `H`, just if any combination of the strings of `O` does, and
just if `commuting_operators` finds an operator in this basis, whenever its tolerance is small enough -/
structure GreedyAgrees (den : OpString → 𝔸) (eigh : Eigh) (H O : Operator ℂ) (c : ℂ) : Prop where
  operator : c = 0 ↔ O.den den * H.den den = H.den den * O.den den
  basis : c = 0 ↔ HasCommuting den O.basis.strs (H.den den)
  commuting : ∃ δ > 0, ∀ tol, 0 < tol → tol ≤ δ →
    ∃ r, commutingOperators eigh (.strings O.basis) H .commutator tol = .ok r ∧ (c = 0 ↔ r.vecs ≠ [])

end Qosy
