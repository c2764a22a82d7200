import Verif.Model.Core

/-!
# Model of the option `num_vecs` of `commuting_operators` and `invariant_operators` (qosy/core.py:33-180)

Exact complex arithmetic.  `scipy.sparse.linalg.eigsh` and `numpy.linalg.pinv` are parameters.
-/

namespace Qosy

/-- the type of `ssla.eigsh(matrix, k=k, sigma=sigma)` for square matrices; the call may raise an exception -/
abbrev Eigsh := (n : ℕ) → Matrix (Fin n) (Fin n) ℂ → (k : ℕ) → ℝ → Py (EighResult (Fin n) k)

/-- the tuple `(null_space, superoperator, evals, evecs)` returned with `num_vecs=k` and `return_superoperator=True` (core.py:99-102,
176-180), and whether a warning was issued -/
structure GeneratedVecs (k : ℕ) where
  dim : ℕ
  vecs : List (Fin dim → ℂ)
  superoperator : Matrix (Fin dim) (Fin dim) ℂ
  evals : Fin k → ℝ
  evecs : Matrix (Fin dim) (Fin k) ℂ
  warned : Bool

open Classical in
/-- `inds = np.where(np.abs(evals - target) < tol)[0]` and `evecs[:, inds]` (core.py:93-94, 170-171) for `k` eigenvectors -/
noncomputable def selectVecs {n k : ℕ} (r : EighResult (Fin n) k) (target tol : ℝ) : List (Fin n → ℂ) :=
  ((List.finRange k).filter (fun j => |r.evals j - target| < tol)).map (fun j i => r.evecs i j)

/-- `commuting_operators(basis, operator, operation_mode, True, k, tol)` (core.py:33-102): `sigma = -1e-6` -/
noncomputable def commutingOperatorsVecs (eigsh : Eigsh) (basis : BasisArg ℂ) (operator : Operator ℂ) (k : ℕ) (mode : Mode := .commutator)
    (tol : ℝ := 1 / 10 ^ 10) : Py (GeneratedVecs k) := do
  let (L, _) ← liouvillianMatrix basis operator mode
  let C ← L.getH.dot L
  let r ← eigsh C.ncols C.toarray k (-(1 / 10 ^ 6))
  let vecs := selectVecs r 0 tol
  .ok ⟨C.ncols, vecs, C.toarray, r.evals, r.evecs, decide (vecs.length = k)⟩

/-- `invariant_operators(basis, transform, operation_mode, True, k, tol)` (core.py:104-180): `sigma = sign` -/
noncomputable def invariantOperatorsVecs (eigsh : Eigsh) (pinv : Mat ℂ → Py (Mat ℂ)) (basis : BasisArg ℂ) (transform : Transformation ℂ) (k : ℕ)
    (mode : String := "commutator") (tol : ℝ := 1 / 10 ^ 10) : Py (GeneratedVecs k) := do
  let S ← symmetryMatrixOf pinv basis transform
  let sign ← symmetrySign mode
  let M := (1 / 2 : ℂ) • (S.toarray + S.toarray.conjTranspose)
  let r ← eigsh S.ncols M k sign
  let vecs := selectVecs r sign tol
  .ok ⟨S.ncols, vecs, 1 - (sign : ℂ) • M, fun j => 1 - sign * r.evals j, r.evecs, decide (vecs.length = k)⟩

end Qosy
