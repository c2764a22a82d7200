import Verif.Model.LinAlg
import Verif.Model.Transformation

/-!
# Model of `commuting_operators` and `invariant_operators` (qosy/core.py:33-180)

Exact complex arithmetic.  The numerical routines `numpy.linalg.eigh` and `numpy.linalg.pinv` are parameters.  The optional argument
`num_vecs` (Lanczos iteration with `scipy.sparse.linalg.eigsh`) is `None` here, see Model/Lanczos.
-/

namespace Qosy

/-- the type of numpy's `eigh` on square matrices -/
abbrev Eigh := (n : ℕ) → Matrix (Fin n) (Fin n) ℂ → EighResult (Fin n) n

/-- the tuple `(null_space, superoperator, evals, evecs)` returned with `return_superoperator=True` (core.py:99-102, 176-180).  The
vectors are the columns of the first array, and without `return_superoperator` they are the result. -/
structure Generated where
  dim : ℕ
  vecs : List (Fin dim → ℂ)
  superoperator : Matrix (Fin dim) (Fin dim) ℂ
  evals : Fin dim → ℝ
  evecs : Matrix (Fin dim) (Fin dim) ℂ

/-- `toarray()` of a sparse matrix, for a square matrix -/
noncomputable def Mat.toarray (M : Mat ℂ) : Matrix (Fin M.ncols) (Fin M.ncols) ℂ := fun i j => M.get i j

open Classical in
/-- `inds = np.where(np.abs(evals - target) < tol)[0]` and `evecs[:, inds]` (core.py:93-94, 170-171) -/
noncomputable def selectColumns {n : ℕ} (r : EighResult (Fin n) n) (target tol : ℝ) : List (Fin n → ℂ) :=
  ((List.finRange n).filter (fun k => |r.evals k - target| < tol)).map (fun k i => r.evecs i k)

/-- `commuting_operators(basis, operator, operation_mode, True, None, tol)` (core.py:33-102) -/
noncomputable def commutingOperators (eigh : Eigh) (basis : BasisArg ℂ) (operator : Operator ℂ) (mode : Mode := .commutator)
    (tol : ℝ := 1 / 10 ^ 10) : Py Generated := do
  let (L, _) ← liouvillianMatrix basis operator mode
  let C ← L.getH.dot L
  let r := eigh C.ncols C.toarray
  .ok ⟨C.ncols, selectColumns r 0 tol, C.toarray, r.evals, r.evecs⟩

/-- the sign chosen by `operation_mode` (core.py:156-161) -/
def symmetrySign (mode : String) : Py ℤ :=
  if mode = "commute" ∨ mode = "Commute" ∨ mode = "symmetry" ∨ mode = "commutator" then .ok 1
  else if mode = "anticommute" ∨ mode = "Anticommute" ∨ mode = "antisymmetry" ∨ mode = "anticommutator" then .ok (-1)
  else .error .valueError

/-- `invariant_operators(basis, transform, operation_mode, True, None, tol)` (core.py:104-180) -/
noncomputable def invariantOperators (eigh : Eigh) (pinv : Mat ℂ → Py (Mat ℂ)) (basis : BasisArg ℂ) (transform : Transformation ℂ)
    (mode : String := "commutator") (tol : ℝ := 1 / 10 ^ 10) : Py Generated := do
  let S ← symmetryMatrixOf pinv basis transform
  let sign ← symmetrySign mode
  let M := (1 / 2 : ℂ) • (S.toarray + S.toarray.conjTranspose)
  let r := eigh S.ncols M
  .ok ⟨S.ncols, selectColumns r sign tol, 1 - (sign : ℂ) • M, fun k => 1 - sign * r.evals k, r.evecs⟩

end Qosy
