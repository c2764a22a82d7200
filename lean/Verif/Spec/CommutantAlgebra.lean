import Verif.Spec.Linear
import Verif.Spec.AlgebraLaws

/-! # The algebra of commuting operators (C107) -/

namespace Qosy

/-- the first `n` coefficients of an Operator with respect to a Basis, i.e. `A.to_vector(basis)` -/
noncomputable def coordinates (b : Basis) (n : ℕ) (A : Operator ℂ) : Fin n → ℂ := fun k => ((b.strs[(k : ℕ)]?).map A.coef).getD 0

/-- products of operators that commute, or anticommute, with a given operator commute with it; products of one of each kind anticommute with it -/
def signMode (m₁ m₂ : Mode) : Mode := if m₁ = m₂ then .commutator else .anticommutator

end Qosy
