import Verif.Model.Quadratic
import Verif.Model.Spectrum

/-!
# Model of the eigenvalue part of `diagonalize_quadratic_tightbinding` and `diagonalize_bdg` (`qosy/diagonalization.py`)

Exact complex arithmetic.  The eigensolvers are parameters.  The columns of an array are lists.
-/

namespace Qosy

/-- `diagonalize_quadratic_tightbinding` (diagonalization.py:367-401): `evals` and the columns of `evecs` -/
noncomputable def diagonalizeTightBinding (num : Eigensolvers) (A : Operator ℂ) (n : ℕ) (numVecs : Option ℕ := none) : Py (List ℝ × List (List ℂ)) := do
  let M ← tightBindingMatrix A n
  let pairs ← num.hermitian M.toarray numVecs
  .ok (pairs.map Prod.fst, pairs.map fun p => List.ofFn p.2)

/-- the eigenpairs in `diagonalize_bdg` (diagonalization.py:452-455): `sigma` is not used if all eigenpairs are asked for -/
def Eigensolvers.nambu (num : Eigensolvers) {n : ℕ} (D : Matrix (Fin n) (Fin n) ℂ) : Option ℝ → Option ℕ → Py (List (ℝ × (Fin n → ℂ)))
  | some σ, some k => num.shifted n D k σ
  | _, numVecs => num.hermitian D numVecs

/-- `diagonalize_bdg` (diagonalization.py:404-469): `energies` and the columns of `U` and `V` -/
noncomputable def diagonalizeBdg (num : Eigensolvers) (A : Operator ℂ) (n : ℕ) (sigma : Option ℝ := none) (numVecs : Option ℕ := none) :
    Py (List ℝ × List (List ℂ) × List (List ℂ)) := do
  let M ← bdgMatrix A n
  let pairs ← num.nambu M.toarray sigma numVecs
  let pairs ← sortEigenpairs num.argsort pairs
  .ok ((pairs.take n).map fun p => |p.1|, (pairs.take n).map fun p => (List.ofFn p.2).take n, (pairs.take n).map fun p => ((List.ofFn p.2).drop n).take n)

end Qosy
