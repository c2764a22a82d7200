import Verif.Model.Ladder

/-!
# Model of `qosy/core.py`, part 3: `_ladder_operators_original`

Exact arithmetic; the numerical routines are parameters.  Printing is not modelled.  The argument `basis` is a Basis.
-/

namespace Qosy
open RealOps
variable {K : Type} [Field K] [StarRing K] [CoefOps K] [RealOps K]

/-- the routines of `LadderNumerics` with `eig`, which is `nla.eig` (the eigenvectors are the columns), and `allclose`, which is `np.allclose` -/
structure OriginalNumerics (K : Type) extends LadderNumerics K where
  eig : Mat K → Py (List K × List (List K))
  allclose : Mat K → Mat K → Bool

/-- `basisAB`: the strings of the basis and the new strings of the extended basis (core.py:624-631) -/
def originalBasis (basis ext : Basis) : Py Basis := mkBasis (basis.strs ++ ext.strs.filter (fun s => !basis.contains s))

/-- the rows of a matrix that belong to strings of a basis, as a square matrix (core.py:638-650) -/
def projectRows (L : Mat K) (ext basis : Basis) : Py (Mat K) := do
  let data ← (L.data.filter (fun e => (ext.strs[e.1]?).any basis.contains)).mapM (fun e => do
    let s ← pyGet ext.strs e.1
    let i ← basis.index s
    .ok (i, e.2.1, e.2.2))
  mkCsr data basis.len basis.len

/-- the eigenvectors with `np.imag(evals) < tol` and `np.real(evals) > tol` (core.py:671, 676) -/
def positiveVectors (tol : ℚ) (r : List K × List (List K)) : List (List K) :=
  ((r.1.zip r.2).filter (fun e => reLt (-(I * e.1)) (tol : K) && reLt (tol : K) e.1)).map (·.2)

/-- `np.dot(V†, V)` for the columns of `V` (core.py:685) -/
def overlapMat (vs : List (List K)) : Mat K := Mat.ofFn vs.length vs.length (fun i j => innerL (vs.getD i []) (vs.getD j []))

/-- `v /= nla.norm(v)` (core.py:708-709); numpy divides by zero and returns nan for a zero norm, here an error -/
def originalNormalize (num : LadderNumerics K) (v : List K) : Py (List K) := do
  let norm ← num.sqrt (innerL v v)
  if reZero norm && !v.isEmpty then .error .zeroDivision else .ok (v.map (· / norm))

/-- the conjugate transpose of a square matrix -/
def Mat.adjoint (M : Mat K) : Mat K := Mat.ofFn M.ncols M.nrows (fun i j => star (M.get j i))

/-- the vectors of `_ladder_operators_original` from the square matrix on (core.py:664-743) -/
def originalVectors (num : OriginalNumerics K) (L : Mat K) (nA nAB : Nat) (sparsification : Bool) (tol : ℚ) : Py (List (K × List K)) := do
  let positive := positiveVectors tol (← num.eig L)
  let overlaps ← num.eigh (overlapMat (positive.map (List.drop nA)))
  let null := nullVectors tol overlaps
  if null.isEmpty then .ok []
  else do
    let vs ← (null.map (combineColumns nAB positive)).mapM (originalNormalize num.toLadderNumerics)
    let P ← L.project vs
    if num.allclose P P.adjoint then do
      let r ← num.eig P
      let pairs := (r.1.zip r.2).map (fun e => (e.1, combineColumns nAB vs e.2))
      if sparsification then do
        let sorted ← ladderSort num.toLadderNumerics pairs
        ladderSparsify num.toLadderNumerics sorted.length sorted
      else .ok pairs
    else .error .assertionError

/-- `_ladder_operators_original(basis, operator, sparsification, tol)` (core.py:585-760), returning operators and eigenvalues -/
def ladderOperatorsOriginal (num : OriginalNumerics K) (basis : Basis) (operator : Operator K) (sparsification : Bool := false) (tol : ℚ := 1 / 10 ^ 14) :
    Py (List (Operator K) × List K) := do
  let minus ← operator.neg
  let (_, ext) ← liouvillianStrings basis minus .commutator
  let both ← originalBasis basis ext
  let (L, last) ← liouvillianStrings both minus .commutator
  let L ← projectRows L last both
  let l ← originalVectors num L basis.len both.len sparsification tol
  let ops ← l.mapM (fun e => mkOperator e.2 both.strs none)
  .ok (ops, l.map (·.1))

end Qosy
