import Verif.Model.OpString
import Mathlib.Analysis.Complex.Basic
import Mathlib.Data.Matrix.ColumnRowPartitioned
import Mathlib.LinearAlgebra.Matrix.ConjTranspose

/-!
# Model of `gram_schmidt` and `intersection` (qosy/tools.py:423-532)

Exact complex arithmetic.  A column of an `n × k` array is a function on `Fin n`.  Dense and sparse arrays give the same
values, except that sparse arrays keep a zero first column where dense ones divide by zero (`gramSchmidtSparse` in
Verif/Model/LieOperators.lean).
-/

namespace Qosy

/-- `_vdot(vec1, vec2)` (tools.py:460, 467): `np.dot(np.conj(vec1), vec2)` -/
noncomputable def vdot {n : ℕ} (x y : Fin n → ℂ) : ℂ := ∑ i, star (x i) * y i

/-- `_norm(vec)` (tools.py:458, 465) and `nla.norm` of a vector -/
noncomputable def vnorm {n : ℕ} (x : Fin n → ℂ) : ℝ := Real.sqrt (∑ i, ‖x i‖ ^ 2)

/-- `vec / norm` for a non-zero norm -/
noncomputable def vdiv {n : ℕ} (x : Fin n → ℂ) (r : ℝ) : Fin n → ℂ := fun i => x i / (r : ℂ)

/-- the loop `for ind_vec in range(ind_col)` (tools.py:475-476): subtract the components along the vectors found so far, one after another -/
noncomputable def gsProject {n : ℕ} : List (Fin n → ℂ) → (Fin n → ℂ) → (Fin n → ℂ)
  | [], v => v
  | e :: es, v => gsProject es (fun i => v i - vdot e v * e i)

open Classical in
/-- the loop over the columns (tools.py:472-484).  `found` are the columns `0, …, ind_col - 1` of `new_matrix`; a column with a small
norm is overwritten by the next one or cut off at the end (tools.py:486-489). -/
noncomputable def gsLoop {n : ℕ} (tol : ℝ) : List (Fin n → ℂ) → List (Fin n → ℂ) → List (Fin n → ℂ)
  | [], found => found
  | c :: cols, found =>
    let v := gsProject found c
    if tol < vnorm v then gsLoop tol cols (found ++ [vdiv v (vnorm v)])
    else gsLoop tol cols found

open Classical in
/-- `gram_schmidt(matrix, tol)` (tools.py:423-489) for the list of columns of the matrix.  The first column is normalized without a
check (tools.py:470): `none` means that it is zero and numpy divides zero by zero, so that the result contains nan. -/
noncomputable def gramSchmidt {n : ℕ} (cols : List (Fin n → ℂ)) (tol : ℝ := 0) : Option (List (Fin n → ℂ)) :=
  match cols with
  | [] => some []
  | c :: rest =>
    if n = 0 then some (c :: rest)
    else if vnorm c = 0 then none
    else some (gsLoop tol rest [vdiv c (vnorm c)])

/-- the result of numpy's `eigh`: eigenvalues and a matrix whose columns are eigenvectors -/
structure EighResult (ι : Type) (k : ℕ) where
  evals : Fin k → ℝ
  evecs : Matrix ι (Fin k) ℂ

open Classical in
/-- one column of the result of `intersection` (tools.py:526-530): `none` means nan (division of zero by zero) -/
noncomputable def normalizeColumn {n : ℕ} (v : Fin n → ℂ) : Option (Fin n → ℂ) :=
  if vnorm v = 0 then none else some (vdiv v (vnorm v))

open Classical in
/-- `intersection(A, B, tol)` (tools.py:491-532), as the list of columns of the result.  numpy's `eigh` is a parameter.  The indices of
`np.hstack((A, -B))` are a disjoint sum, so `evecs[0:dimA, …]` are the rows of the first summand. -/
noncomputable def intersection {n m p q : ℕ} (eigh : Matrix (Fin p ⊕ Fin q) (Fin p ⊕ Fin q) ℂ → EighResult (Fin p ⊕ Fin q) (p + q))
    (A : Matrix (Fin n) (Fin p) ℂ) (B : Matrix (Fin m) (Fin q) ℂ) (tol : ℝ := 1 / 10 ^ 10) : Py (List (Option (Fin n → ℂ))) :=
  if h : n = m then
    let C : Matrix (Fin n) (Fin p ⊕ Fin q) ℂ := Matrix.fromCols A (-(B.submatrix (Fin.cast h) id))
    let D := C.conjTranspose * C
    let r := eigh D
    let inds := (List.finRange (p + q)).filter (fun k => |r.evals k| < tol)
    .ok (inds.map (fun k => normalizeColumn (A.mulVec (fun j => r.evecs (Sum.inl j) k))))
  else .error .valueError

end Qosy
