import Verif.Spec.Core

/-!
# Specification of calls without optional arguments (C109)
-/

namespace Qosy
open Matrix Coef
variable {𝔸 : Type} [Ring 𝔸] [Algebra ℂ 𝔸]

/-- What a call of `commuting_operators` without options returns: orthonormal coefficient vectors; all operators `A = ∑ v_j x_j` with `A O = O A` are in
their span; and for those in the span the squared norm of `A O - O A` is at most `10⁻¹⁰ |v|²`. -/
structure FindsCommuting (den : OpString → 𝔸) (x : List 𝔸) (O : 𝔸) (vecs : List (Fin x.length → ℂ)) : Prop where
  orthonormal : OrthonormalColumns vecs
  complete : ∀ v : Fin x.length → ℂ, (∑ j, v j • x[j]) * O = O * (∑ j, v j • x[j]) → v ∈ colSpan vecs
  approx : ∀ v ∈ colSpan vecs, ∃ (strs : List OpString) (w : ℕ → ℂ), strs.Nodup ∧ (∀ s ∈ strs, s.Canonical) ∧
    (∑ j, v j • x[j]) * O - O * (∑ j, v j • x[j]) = linComb den strs w ∧ ∑ c : Fin strs.length, ‖w c‖ ^ 2 ≤ 1 / 10 ^ 10 * ∑ j, ‖v j‖ ^ 2

end Qosy
