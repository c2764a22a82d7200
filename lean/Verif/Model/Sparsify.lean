import Verif.Model.LinAlg
import Verif.Model.Basis

/-!
# Model of `sparsify` (qosy/tools.py:534-588)

Exact complex arithmetic.  An array is the list of its columns.  `scipy.linalg.lu` and `np.argsort` are parameters.
-/

namespace Qosy

/-- the first result of `sla.lu(vectors, permute_l=True)`: the columns of the matrix `P L` -/
abbrev PermutedLu := (n : ℕ) → List (Fin n → ℂ) → List (Fin n → ℂ)

/-- `vectors_rre[:, ind_vec] /= nla.norm(vectors_rre[:, ind_vec])` (tools.py:580); a zero column becomes nan, which is not modelled further -/
noncomputable def normalizeVector {n : ℕ} (v : Fin n → ℂ) : Py (Fin n → ℂ) :=
  match normalizeColumn v with
  | none => .error .zeroDivision
  | some w => .ok w

open Classical in
/-- `np.sum(np.abs(vectors_rre[:, ind_vec]) > tol)` (tools.py:583) -/
noncomputable def countNonzero {n : ℕ} (tol : ℝ) (v : Fin n → ℂ) : ℕ := ((List.finRange n).filter (fun i => tol < ‖v i‖)).length

/-- the columns of `P L` in reverse order, made orthogonal if asked for (tools.py:573-576) -/
noncomputable def sparsifyLu {n : ℕ} (lu : PermutedLu) (vectors : List (Fin n → ℂ)) (orthogonalize : Bool) : Py (List (Fin n → ℂ)) :=
  let rre := (lu n vectors).reverse
  if orthogonalize then
    match gramSchmidt rre with
    | none => .error .zeroDivision
    | some q => .ok q
  else .ok rre

/-- `sparsify(vectors, orthogonalize, tol)` (tools.py:534-588).  The loops run over `num_vectors` columns, so with fewer columns than
that the indexing raises IndexError (tools.py:580); surplus columns are not normalized and not returned. -/
noncomputable def sparsify {n : ℕ} (lu : PermutedLu) (argsort : List ℕ → List ℕ) (vectors : List (Fin n → ℂ)) (orthogonalize : Bool := true)
    (tol : ℝ := 1 / 10 ^ 12) : Py (List (Fin n → ℂ)) :=
  if vectors.length ≤ 1 then .ok vectors
  else do
    let rre ← sparsifyLu lu vectors orthogonalize
    if rre.length < vectors.length then .error .indexError
    else do
      let unit ← (rre.take vectors.length).mapM normalizeVector
      (argsort (unit.map (countNonzero tol))).mapM (pyGet unit)

end Qosy
