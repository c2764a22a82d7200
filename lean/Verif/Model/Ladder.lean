import Verif.Model.AlgebraMatrix
import Verif.Model.Greedy

/-!
# Model of `qosy/core.py`, part 2: `_ladder_operators` and `_inverse_ladder_operators`

Exact arithmetic; real numbers are coefficients with zero imaginary part.  The numerical routines are parameters; like `numpy.linalg` they may
raise an exception.  Printing is not modelled.  The argument `basis` is a Basis; every other type fails before or at the end.
-/

namespace Qosy
open RealOps
variable {K : Type} [Field K] [StarRing K] [CoefOps K] [RealOps K]

/-- the numerical routines: `svd M` is the singular values of `nla.svd(M)` with the conjugated rows of its third result (the right singular
vectors), `eigh` is `nla.eigh`, `pinv` is `nla.pinv`, `argsort` is `np.argsort` of non-negative numbers, `sqrt` the square root of a
non-negative number (an exact root need not exist in `K`), and `sparsify` is `sparsify` of tools.py on the columns of a matrix (see `Model/Sparsify.lean`). -/
structure LadderNumerics (K : Type) where
  svd : Mat K → Py (List K × List (List K))
  eigh : Mat K → Py (List K × List (List K))
  pinv : Mat K → Py (Mat K)
  argsort : List K → List Nat
  sqrt : K → Py K
  sparsify : List (List K) → Py (List (List K))

/-- a dense matrix given by its entries -/
def Mat.ofFn (m n : Nat) (f : Nat → Nat → K) : Mat K :=
  ⟨m, n, (List.range m).flatMap (fun i => (List.range n).map (fun j => (i, j, f i j)))⟩

/-- numpy `M[rows, :][:, cols]` -/
def Mat.pick (M : Mat K) (rows cols : List Nat) : Mat K :=
  Mat.ofFn rows.length cols.length (fun i j => M.get (rows.getD i 0) (cols.getD j 0))

/-- `np.dot(V†, np.dot(M, V))` for the columns of `V` -/
def Mat.project (M : Mat K) (vs : List (List K)) : Py (Mat K) := do
  let ws ← vs.mapM M.dotVec
  .ok (Mat.ofFn vs.length vs.length (fun i j => innerL (vs.getD i []) (ws.getD j [])))

/-- `0.5*(M + M†)` -/
def Mat.hermitianPart (M : Mat K) : Mat K :=
  Mat.ofFn M.nrows M.nrows (fun i j => (M.get i j + star (M.get j i)) / 2)

/-- `np.dot(V, u)` for the columns of `V`, each with `n` entries -/
def combineColumns (n : Nat) (vs : List (List K)) (u : List K) : List K :=
  (List.range n).map (fun i => ((List.range vs.length).map (fun k => (vs.getD k []).getD i 0 * u.getD k 0)).sum)

/-- a zero vector with `n` entries in which the entries at the given positions are set (core.py:865-866) -/
def scatterInto (n : Nat) (inds : List Nat) (u : List K) : List K :=
  (inds.zip u).foldl (fun v e => v.set e.1 e.2) (List.replicate n 0)

/-- the right singular vectors with singular values below the tolerance, `V[:, np.where(np.abs(svals) < tol)[0]]` (core.py:825-827, 1038-1039) -/
def nullVectors (tol : ℚ) (r : List K × List (List K)) : List (List K) :=
  ((r.1.zip r.2).filter (fun e => absLt e.1 tol)).map (·.2)

/-- the positive eigenvalues with a negative partner, and their eigenvectors (core.py:849-863).  The eigenvalues are real numbers, so
`np.imag(evals) < tol` says `0 < tol`, and then `evals > tol` says that they are positive and larger than `tol` in magnitude. -/
def partneredPairs (tol : ℚ) (r : List K × List (List K)) : List (K × List K) :=
  (r.1.zip r.2).filter (fun e => decide (0 < tol) && reLt 0 e.1 && absGt e.1 tol && r.1.any (fun x => absLt (e.1 + x) tol))

/-- the loop of the option `sparsification` (core.py:959-974) on the eigenvalues and vectors from `ind_ev` on; the last group of
degenerate eigenvalues has `ind_jump = 0` -/
def ladderSparsify (num : LadderNumerics K) : Nat → List (K × List K) → Py (List (K × List K))
  | 0, l => .ok l
  | _, [] => .ok []
  | n + 1, e :: l =>
    let jump := ((e :: l).findIdx? (fun x => absGt (x.1 - e.1) (1 / 10 ^ 10))).getD 0
    if 1 < jump then do
      let vs ← num.sparsify (((e :: l).take jump).map (·.2))
      let rest ← ladderSparsify num n ((e :: l).drop jump)
      .ok (((e :: l).take jump).map (·.1) |>.zip vs |>.append rest)
    else do
      let rest ← ladderSparsify num n l
      .ok (e :: rest)

/-- the vectors sorted by their eigenvalues (core.py:869-872, 955-957) -/
def ladderSort (num : LadderNumerics K) (l : List (K × List K)) : Py (List (K × List K)) :=
  (num.argsort (l.map (·.1))).mapM (pyGet l)

/-- the columns in the space of common strings (core.py:860-863): with `valid_vecs` they are combined -/
def embedPairs (n : Nat) (valid : Option (List (List K))) (l : List (K × List K)) : List (K × List K) :=
  match valid with
  | none => l
  | some vs => l.map (fun e => (e.1, combineColumns n vs e.2))

/-- `valid_vecs` and `projected_L` (core.py:807-835) -/
def ladderProject (num : LadderNumerics K) (L : Mat K) (inB inA notB : List Nat) (tol : ℚ) : Py (Option (List (List K)) × Mat K) :=
  if notB.isEmpty then .ok (none, L.pick inB inA)
  else do
    let r ← num.svd (L.pick notB inA)
    let P ← (L.pick inB inA).project (nullVectors tol r)
    .ok (some (nullVectors tol r), P)

/-- `_ladder_operators(basis, operator, sparsification, tol, return_operators=False)` (core.py:762-977): the vectors in the basis with
their eigenvalues -/
def ladderVectors (num : LadderNumerics K) (basis : Basis) (operator : Operator K) (sparsification : Bool := false) (tol : ℚ := 1 / 10 ^ 12) :
    Py (List (K × List K)) := do
  let minus ← operator.neg
  let (L, ext) ← liouvillianStrings basis minus .commutator
  let inB := (List.range ext.len).filter (fun i => (ext.strs[i]?).any basis.contains)
  let notB := (List.range ext.len).filter (fun i => !(ext.strs[i]?).any basis.contains)
  let inA ← (ext.strs.filter basis.contains).mapM basis.index
  if inA.isEmpty then .ok []
  else do
    let (valid, P) ← ladderProject num L inB inA notB tol
    let r ← num.eigh P.hermitianPart
    let pairs := embedPairs inA.length valid (partneredPairs tol r)
    let sorted ← ladderSort num (pairs.map (fun e => (e.1, scatterInto basis.len inA e.2)))
    if sparsification then do
      let again ← ladderSort num sorted
      ladderSparsify num again.length again
    else .ok sorted

/-- `_ladder_operators(basis, operator, sparsification, tol)` (core.py:762-993), returning operators and eigenvalues -/
def ladderOperators (num : LadderNumerics K) (basis : Basis) (operator : Operator K) (sparsification : Bool := false) (tol : ℚ := 1 / 10 ^ 12) :
    Py (List (Operator K) × List K) := do
  let l ← ladderVectors num basis operator sparsification tol
  let ops ← l.mapM (fun e => mkOperator e.2 basis.strs none)
  .ok (ops, l.map (·.1))

/-! ### `_inverse_ladder_operators` -/

/-- `Operator.normalize()` (basis.py:416-434) as a new value; numpy divides by zero and returns nan for a zero norm, here an error -/
def Operator.normalizeL2 (num : LadderNumerics K) (A : Operator K) : Py (Operator K) := do
  let norm ← num.sqrt (innerL A.coeffs A.coeffs)
  if reZero norm && !A.coeffs.isEmpty then .error .zeroDivision else .ok { A with coeffs := A.coeffs.map (· / norm) }

/-- what `_inverse_ladder_operators` returns: `(None, vectors)` or the operators -/
inductive InverseLadder (K : Type)
  | missing (nullVecs : List (List K))
  | found (inverse : Operator K) (nullOps : List (Operator K))

/-- `right_null_vecs` (core.py:1037-1042) -/
def inverseNull (num : LadderNumerics K) (L : Mat K) (sparsification : Bool) (tol : ℚ) : Py (List (List K)) := do
  let r ← num.svd L
  if sparsification then num.sparsify (nullVectors tol r) else .ok (nullVectors tol r)

/-- the particular solution (core.py:1056-1062, 1076-1078) -/
def inverseParticular (num : LadderNumerics K) (basis : Basis) (L : Mat K) (ext : Basis) (ladder : Operator K) (tol : ℚ) : Py (Operator K) := do
  let r ← ladder.toVector ext
  let P ← num.pinv L
  let x ← P.dotVec r
  let op ← mkOperator x basis.strs none
  let op ← op.removeZeros tol
  op.normalizeL2 num

/-- `_inverse_ladder_operators(basis, ladder_operator, sparsification, tol)` (core.py:995-1090), returning operators -/
def inverseLadderOperators (num : LadderNumerics K) (basis : Basis) (ladder : Operator K) (sparsification : Bool := true) (tol : ℚ := 1 / 10 ^ 12) :
    Py (InverseLadder K) := do
  let (L, ext) ← liouvillianStrings basis ladder .commutator
  let null ← inverseNull num L sparsification tol
  if ladder.terms.all (fun t => ext.contains t.2) then do
    let op ← inverseParticular num basis L ext ladder tol
    let nullOps ← null.mapM (fun v => mkOperator v basis.strs none)
    .ok (.found op nullOps)
  else .ok (.missing null)

/-- the normalised particular solution as a vector (core.py:1056-1062, 1073); numpy divides by zero and returns nan for a zero norm, here an error -/
def inverseVector (num : LadderNumerics K) (L : Mat K) (ext : Basis) (ladder : Operator K) : Py (List K) := do
  let r ← ladder.toVector ext
  let P ← num.pinv L
  let x ← P.dotVec r
  let norm ← num.sqrt (innerL x x)
  if reZero norm && !x.isEmpty then .error .zeroDivision else .ok (x.map (· / norm))

/-- `_inverse_ladder_operators(basis, ladder_operator, sparsification, tol, return_operators=False)` (core.py:995-1074), returning vectors -/
def inverseLadderVectors (num : LadderNumerics K) (basis : Basis) (ladder : Operator K) (sparsification : Bool := true) (tol : ℚ := 1 / 10 ^ 12) :
    Py (Option (List K) × List (List K)) := do
  let (L, ext) ← liouvillianStrings basis ladder .commutator
  let null ← inverseNull num L sparsification tol
  if ladder.terms.all (fun t => ext.contains t.2) then do
    let x ← inverseVector num L ext ladder
    .ok (some x, null)
  else .ok (none, null)

end Qosy
