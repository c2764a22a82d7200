import Verif.Spec.Conversion
import Verif.Spec.MatrixRep
import Verif.Spec.Concrete
import Verif.Spec.Transformation
import Verif.Spec.Spectrum

/-! # Specification: operators with energies -/

namespace Qosy

/-- a Hermitian operator on `n` sites whose strings can be converted to Pauli strings -/
structure Diagonalizable (n : ℕ) (A : Operator ℂ) : Prop where
  wf : A.WF
  mem : ∀ s ∈ A.basis.strs, ValidString (jwLabels (siteLabels n)) s
  convertible : ∀ s ∈ A.basis.strs, s.opType = .fermion → FermionConvertible s false
  hermitian : (A.den (matRep ℂ n).anyDen).IsHermitian

end Qosy
