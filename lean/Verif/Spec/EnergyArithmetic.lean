import Verif.Model.Spectrum
import Verif.RealCoef
import Verif.Spec.Transformation
import Verif.Spec.MatrixRep

/-! # Specification: the energies of an operator -/

namespace Qosy

/-- `diagonalize` returns the energies `es`, in increasing order; `numVecs` of them or, for `none`, all -/
def HasEnergies (num : Eigensolvers) (A : Operator ℂ) (n : ℕ) (numVecs : Option ℕ) (es : List ℝ) : Prop :=
  (∃ vecs, diagonalize num A n "Hermitian" numVecs = .ok (es.map Complex.ofReal, vecs)) ∧ es.length = numVecs.getD (2 ^ n) ∧ es.Pairwise (· ≤ ·)

/-- the operator is a combination of valid Pauli strings, or of valid Majorana strings, with real coefficients, on the sites `0, …, n - 1` -/
def RealOperator (n : ℕ) (A : Operator ℂ) : Prop :=
  (A.On .pauli (fun s => PauliString (siteLabels n) s ∧ s.Canonical) ∨ A.On .majorana (fun s => MajoranaString (siteLabels n) s ∧ s.Canonical)) ∧
    ∀ x ∈ A.coeffs, star x = x

end Qosy
