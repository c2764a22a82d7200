import Verif.Model.Spectrum
import Verif.RealCoef

/-!
# Symmetric energies
-/

namespace Qosy

/-- What `diagonalize` returns has symmetric energies: all `2^n` of them, and `E` occurs as often as `-E`. -/
def SymmetricEnergies (num : Eigensolvers) (A : Operator ℂ) (n : ℕ) : Prop :=
  ∃ vals vecs, diagonalize num A n "Hermitian" none = .ok (vals, vecs) ∧ vals.length = 2 ^ n ∧ ∀ E, vals.count E = vals.count (-E)

end Qosy
