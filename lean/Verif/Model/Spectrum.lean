import Verif.Model.Diagonalization
import Verif.Model.Conversion
import Verif.Model.Core

/-!
# Model of `diagonalize` (`qosy/diagonalization.py`)

Exact complex arithmetic.  The eigensolvers of numpy and scipy and `np.argsort` are parameters.  The columns of the array of eigenvectors are lists.
-/

namespace Qosy

/-- the eigensolvers that `diagonalize` calls; an eigenpair consists of an eigenvalue and a vector.  `eigsh` is called with `which='SA'`,
in `shifted` also with `sigma`. -/
structure Eigensolvers where
  eigh : Eigh
  eigsh : (n : ℕ) → Matrix (Fin n) (Fin n) ℂ → ℕ → Py (List (ℝ × (Fin n → ℂ)))
  shifted : (n : ℕ) → Matrix (Fin n) (Fin n) ℂ → ℕ → ℝ → Py (List (ℝ × (Fin n → ℂ)))
  eig : (n : ℕ) → Matrix (Fin n) (Fin n) ℂ → List (ℂ × (Fin n → ℂ))
  eigs : (n : ℕ) → Matrix (Fin n) (Fin n) ℂ → ℕ → Py (List (ℂ × (Fin n → ℂ)))
  argsort : List ℝ → List ℕ

/-- `evals[inds_sort]`, `evecs[:, inds_sort]` (diagonalization.py:232-234) -/
def sortEigenpairs {n : ℕ} (argsort : List ℝ → List ℕ) (pairs : List (ℝ × (Fin n → ℂ))) : Py (List (ℝ × (Fin n → ℂ))) :=
  (argsort (pairs.map Prod.fst)).mapM (pyGet pairs)

/-- the eigenpairs in Hermitian mode (diagonalization.py:227-230) -/
def Eigensolvers.hermitian (num : Eigensolvers) {n : ℕ} (D : Matrix (Fin n) (Fin n) ℂ) : Option ℕ → Py (List (ℝ × (Fin n → ℂ)))
  | none => .ok (List.ofFn fun k => ((num.eigh n D).evals k, fun i => (num.eigh n D).evecs i k))
  | some k => num.eigsh n D k

/-- the eigenpairs in the other modes (diagonalization.py:236-239) -/
def Eigensolvers.general (num : Eigensolvers) {n : ℕ} (D : Matrix (Fin n) (Fin n) ℂ) : Option ℕ → Py (List (ℂ × (Fin n → ℂ)))
  | none => .ok (num.eig n D)
  | some k => num.eigs n D k

/-- `diagonalize` (diagonalization.py:223-241): the list of eigenvalues and the list of the columns of `evecs` -/
noncomputable def diagonalize (num : Eigensolvers) (A : Operator ℂ) (n : ℕ) (mode : String := "Hermitian") (numVecs : Option ℕ := none) :
    Py (List ℂ × List (List ℂ)) := do
  let C ← convertOperator A .pauli false
  let M ← toMatrixOperator C n
  if mode = "Hermitian" then
    let pairs ← num.hermitian M.toarray numVecs
    let pairs ← sortEigenpairs num.argsort pairs
    .ok (pairs.map fun p => (p.1 : ℂ), pairs.map fun p => List.ofFn p.2)
  else
    let pairs ← num.general M.toarray numVecs
    .ok (pairs.map Prod.fst, pairs.map fun p => List.ofFn p.2)

end Qosy
