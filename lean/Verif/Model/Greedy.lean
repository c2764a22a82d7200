import Verif.Model.Algorithms
import Verif.Model.Transformation
import Verif.RealCoef

/-!
# Model of `qosy/algorithms.py`, part 2: `highest_fidelity_operator` and `selected_ci_greedy`

Exact arithmetic; real numbers are coefficients with zero imaginary part.  The numerical routines are parameters (`Numerics`).  Printing
is not modelled.  Each of the two `while` loops is run for at most a given number of iterations; `none` says that this was not enough.
-/

namespace Qosy
open RealOps
variable {K : Type} [Field K] [StarRing K] [CoefOps K] [RealOps K]

/-- the numerical routines: `argsort v` is `np.argsort(np.abs(v))`, `eigh` is `nla.eigh` on the dense form of a matrix, `eigsh k` is
`ssla.eigsh` for `k` eigenvectors near `sigma`, `sqrt` the square root of a real number.  Eigenvectors are listed column by column. -/
structure Numerics (K : Type) where
  argsort : List K → List Nat
  eigh : Mat K → List K × List (List K)
  eigsh : Nat → Mat K → List K × List (List K)
  sqrt : K → K

/-- `np.abs(x)` of a real number -/
def reAbs (x : K) : K := if reLt x 0 then -x else x

/-- a real number is zero -/
def reZero (x : K) : Bool := !reLt x 0 && !reLt 0 x

/-- `M.real` -/
def Mat.real (M : Mat K) : Mat K := ⟨M.nrows, M.ncols, M.data.map (fun e => (e.1, e.2.1, re e.2.2))⟩

/-- the product of a matrix with a column vector; ValueError for incompatible shapes -/
def Mat.dotVec (M : Mat K) (v : List K) : Py (List K) :=
  if M.ncols ≠ v.length then .error .valueError
  else .ok ((List.range M.nrows).map (fun i => ((List.range M.ncols).map (fun j => M.get i j * v.getD j 0)).sum))

/-- `np.vdot`: the inner product of two vectors -/
def innerL (v w : List K) : K := (List.zipWith (fun x y => star x * y) v w).sum

/-! ### `highest_fidelity_operator` -/

/-- the coefficients of an operator in a basis; strings outside the basis are dropped (algorithms.py:663-667) -/
def projectedVector (target : Operator K) (basis : Basis) : Py (List K) :=
  target.terms.foldlM (fun v t => if basis.contains t.2 then do
    let i ← basis.index t.2
    .ok (v.set i t.1) else .ok v) (List.replicate basis.len 0)

/-- `highest_fidelity_operator` (algorithms.py:660-697).  A zero projection, for which numpy returns nan, is modelled by an error. -/
def highestFidelity (num : Numerics K) (target : Operator K) (evecs : List (List K)) (evals : List K) (basis : Basis) : Py (List K × K × K) := do
  let t ← projectedVector target basis
  let (vector, comNorm) := (evecs.zip evals).foldl (fun acc e =>
    let overlap := innerL e.1 t
    (List.zipWith (fun x y => x + overlap * y) acc.1 e.1, acc.2 + star overlap * overlap * reAbs e.2)) (List.replicate basis.len 0, 0)
  let norm := num.sqrt (innerL vector vector)
  if reZero norm then .error .zeroDivision
  else .ok (vector.map (· / norm), comNorm / norm ^ 2, norm ^ 2)

/-! ### the commutant matrix -/

/-- `_orthogonalize_com_matrix` (algorithms.py:77-104) -/
def orthogonalizeComMatrix (com : Mat K) (basis : Basis) (orthOps : List (Operator K)) : Py (Mat K) := do
  let proj ← orthOps.foldlM (fun (proj : Mat K) op => do
    let data ← (op.terms.filter (fun t => basis.contains t.2)).mapM (fun t => do
      let i ← basis.index t.2
      .ok (i, 0, t.1))
    let v ← mkCsr data basis.len 1
    let vv ← v.dot v.getH
    proj.add vv) (Mat.zero basis.len basis.len)
  let new ← com.add (proj.smul (10 ^ 10))
  .ok new.real

/-- the identity matrix -/
def Mat.eye (n : Nat) : Mat K := ⟨n, n, (List.range n).map (fun i => (i, i, 1))⟩

/-- `_symmetrize_com_matrix` (algorithms.py:105-120) -/
def symmetrizeComMatrix (com : Mat K) (basis : Basis) (Ts : List (Transformation K)) : Py (Mat K) :=
  Ts.foldlM (fun com T => do
    let M ← symmetryMatrix basis T
    let M ← M.add M.getH
    let M ← (Mat.eye basis.len).add (M.smul (-(1 / 2)))
    com.add (M.smul (10 ^ 10))) com

/-! ### `selected_ci_greedy` -/

/-- the arguments of `selected_ci_greedy` (algorithms.py:702).  `com_ops` is a list (a single Operator `H` is the list `[H]`); the
integers `num_H_terms` and `max_basis_size` are given as arrays (algorithms.py:712-720); `explored_data` is the initial cache. -/
structure GreedyArgs (K : Type) where
  initialOperator : Operator K
  comOps : List (Operator K)
  numSteps : Nat
  numHTerms : List Nat
  numOTerms : Nat := 0
  threshold : ℚ := 1 / 10 ^ 6
  maxSizes : List Nat
  explored : Explored K := Explored.empty
  orthOps : Option (List (Operator K)) := none
  transformations : Option (List (Transformation K)) := none
  targetComNorm : Option K := none
  minRelativeChange : Option K := none
  numVecs : Nat := 1
  targetOperator : Option (Operator K) := none
  targetFidelity : Option K := none

/-- the local variables of the main loop; `bestComNorm = none` is `np.inf` -/
structure GreedyState (K : Type) where
  explored : Explored K
  basis : Basis
  operator : Operator K
  operators : List (Operator K)
  comNorms : List K
  bestOperator : Operator K
  bestComNorm : Option K
  previousBasis : Basis
  threshold : ℚ
  numVecs : Nat
  step : Nat
  endEarly : Bool

/-- the loop that inserts at most `num` new strings into the basis (algorithms.py:796-802) -/
def insertTerms (num : Nat) : List OpString → Basis → Nat → Basis
  | [], b, _ => b
  | s :: l, b, count =>
    if b.contains s then (if num ≤ count then b else insertTerms num l b count)
    else (if num ≤ count + 1 then b.iaddString s else insertTerms num l (b.iaddString s) (count + 1))

/-- the strings of `[com_op, A]`, largest first, are inserted into the basis, for one `com_op` (algorithms.py:782-802) -/
def greedyInsert (num : Numerics K) (numH : Nat) (A : Basis) (v : List K) (acc : Basis × Explored K) (com : Operator K) : Py (Basis × Explored K) := do
  let ((L, ext), st) ← explore A com none acc.2
  let w ← L.dotVec v
  let strs ← (num.argsort w).reverse.mapM (pyGet ext.strs)
  .ok (insertTerms (min w.length numH) strs acc.1 0, st)

/-- the first step: the largest terms of `[H, [H, O]]` (algorithms.py:771-802) -/
def greedyExpandH (num : Numerics K) (comOps : List (Operator K)) (numH : Nat) (basis : Basis) (operator : Operator K) (st : Explored K) :
    Py (Basis × Explored K) :=
  match comOps with
  | [] => .error .indexError
  | H :: _ => do
    let ((L, ext), st) ← explore basis H none st
    let w ← L.dotVec operator.coeffs
    let inds := (num.argsort w).reverse
    let inds := inds.take (min inds.length numH)
    let strs ← inds.mapM (pyGet ext.strs)
    let A ← mkBasis strs
    let v ← inds.mapM (pyGet w)
    comOps.foldlM (greedyInsert num numH A v) (basis, st)

/-- the loops over pairs of strings that insert at most `n` anticommutators (algorithms.py:815-839, 842-860).  The cache
`explored_anticommutations` of computed anticommutators has no effect on the result and is not modelled. -/
def insertAnticommutators (n : Nat) : List (OpString × OpString) → Basis → List OpString → Nat → Py (Basis × List OpString)
  | [], b, added, _ => .ok (b, added)
  | p :: l, b, added, count => do
    let (c, s) ← (anticommutatorS p.1 p.2 : Py (K × Option OpString))
    match s with
    | some s =>
      if absGt c (1 / 10 ^ 16) && !b.contains s then
        if n ≤ count + 1 then .ok (b.iaddString s, added ++ [s]) else insertAnticommutators n l (b.iaddString s) (added ++ [s]) (count + 1)
      else if n ≤ count then .ok (b, added) else insertAnticommutators n l b added count
    | none => if n ≤ count then .ok (b, added) else insertAnticommutators n l b added count

/-- the second step: terms of `{O, O}` (algorithms.py:808-860) -/
def greedyExpandO (num : Numerics K) (numO : Nat) (operator : Operator K) (basis : Basis) : Py Basis :=
  let n := min operator.coeffs.length numO
  if n = 0 then .ok basis
  else do
    let strs ← (num.argsort operator.coeffs).reverse.mapM (fun i => do
      let s ← pyGet operator.basis.strs i
      .ok (i, s))
    let (basis, added) ← insertAnticommutators (K := K) n (strs.flatMap (fun a => (strs.filter (fun b => b.1 ≠ a.1)).map (fun b => (a.2, b.2)))) basis [] 0
    let (basis, _) ← insertAnticommutators (K := K) n (strs.flatMap (fun a => added.map (fun s => (a.2, s)))) basis [] 0
    .ok basis

/-- the images of a string under the transformations are inserted into the basis (algorithms.py:869-873) -/
def insertImages (Ts : List (Transformation K)) (s : OpString) (basis : Basis) : Py Basis :=
  Ts.foldlM (fun basis T => do
    let A ← T s
    .ok (A.terms.foldl (fun (b : Basis) t => if absGt t.1 (1 / 10 ^ 16) && !b.contains t.2 then b.iaddString t.2 else b) basis)) basis

/-- the third step: close the basis under the transformations (algorithms.py:863-875), with at most `fuel` iterations -/
def closeUnderTransformations (Ts : List (Transformation K)) : Nat → Nat → Basis → Py (Option Basis)
  | fuel, i, basis =>
    match basis.strs[i]? with
    | none => .ok (some basis)
    | some s =>
      match fuel with
      | 0 => .ok none
      | fuel + 1 => do
        let basis ← insertImages Ts s basis
        closeUnderTransformations Ts fuel (i + 1) basis

/-- `C† C` of one `com_op`, its real part (algorithms.py:908-909) -/
def greedyCommutant (basis : Basis) (com : Operator K) (st : Explored K) : Py (Mat K × Explored K) := do
  let ((L, _), st) ← explore basis com none st
  let C ← L.getH.dot L
  .ok (C.real, st)

/-- the commutant matrix of all `com_ops` (algorithms.py:904-910) -/
def greedyComMatrix (basis : Basis) (comOps : List (Operator K)) (acc : Mat K × Explored K) : Py (Mat K × Explored K) :=
  comOps.foldlM (fun acc com => do
    let (C, st) ← greedyCommutant basis com acc.2
    let M ← acc.1.add C
    .ok (M, st)) acc

/-- the commutant matrix of all `com_ops` and the one of the first (algorithms.py:904-912) -/
def greedyComMatrices (basis : Basis) (comOps : List (Operator K)) (st : Explored K) : Py (Mat K × Mat K × Explored K) :=
  match comOps with
  | [] => .ok (Mat.zero basis.len basis.len, Mat.zero basis.len basis.len, st)
  | H :: rest => do
    let (C, st) ← greedyCommutant basis H st
    let comH ← (Mat.zero basis.len basis.len).add C
    let (com, st) ← greedyComMatrix basis rest (comH, st)
    .ok (com, comH, st)

/-- sort by the magnitude of the eigenvalues (algorithms.py:933-935, 944-946) -/
def sortPairs (num : Numerics K) (evals : List K) (evecs : List (List K)) : Py (List K × List (List K)) := do
  let inds := num.argsort evals
  let evals' ← inds.mapM (pyGet evals)
  let evecs' ← inds.mapM (pyGet evecs)
  .ok (evals', evecs')

/-- the eigenvectors (algorithms.py:926-935) -/
def greedyEig (num : Numerics K) (com : Mat K) (n numVecs : Nat) : Py (List K × List (List K)) :=
  if n < 20 ∨ n ≤ numVecs then .ok (num.eigh com)
  else
    let r := num.eigsh numVecs com
    sortPairs num r.1 r.2

/-- the eigenvalues are replaced by the commutator norms with `H` (algorithms.py:939-946) -/
def greedyRecompute (num : Numerics K) (comH : Mat K) (evecs : List (List K)) : Py (List K × List (List K)) := do
  let evals ← evecs.mapM (fun v => do
    let w ← comH.dotVec v
    .ok (re (innerL v w)))
  sortPairs num evals evecs

/-- the result of the diagonalization part of a step (algorithms.py:904-946) -/
def greedySolve (num : Numerics K) (args : GreedyArgs K) (basis : Basis) (numVecs : Nat) (st : Explored K) :
    Py ((List K × List (List K)) × Explored K) := do
  let (com, comH, st) ← greedyComMatrices basis args.comOps st
  let com ← match args.orthOps with
    | some ops => orthogonalizeComMatrix com basis ops
    | none => .ok com
  let com ← match args.transformations with
    | some Ts => symmetrizeComMatrix com basis Ts
    | none => .ok com
  let r ← greedyEig num com basis.len numVecs
  let r ← if 1 < args.comOps.length ∨ args.orthOps.isSome then greedyRecompute num comH r.2 else .ok r
  .ok (r, st)

/-- the vector, its commutator norm and its fidelity, if there is a target (algorithms.py:948-966) -/
def greedyChoose (num : Numerics K) (args : GreedyArgs K) (s : GreedyState K) (basis : Basis) (evals : List K) (evecs : List (List K)) :
    Py (List K × K × Option K) :=
  match args.targetOperator with
  | none => do
    let v ← pyGet evecs 0
    let c ← pyGet evals 0
    .ok (v, c, none)
  | some target => do
    let (v, c, f) ← highestFidelity num (if s.step = 0 then target else s.bestOperator) evecs evals basis
    .ok (v, c, some f)

/-- `com_norm - best_com_norm > 1e-16` (algorithms.py:990, 1000) -/
def gotWorse (comNorm : K) (best : Option K) : Bool :=
  match best with
  | none => false
  | some b => reLt (1 / 10 ^ 16) (comNorm - b)

/-- `relative_change < min_relative_change` (algorithms.py:984, 1000); a division by zero gives nan or infinity, which is not smaller -/
def smallChange (comNorm : K) (best : Option K) (bound : K) : Bool :=
  match best with
  | none => false
  | some b => if reZero b then false else reLt (reAbs (comNorm - b) / b) bound

/-- `np.abs(com_norm) < best_com_norm` (algorithms.py:1017) -/
def improves (comNorm : K) (best : Option K) : Bool :=
  match best with
  | none => true
  | some b => reLt (reAbs comNorm) b

/-- `best_com_norm < target_com_norm` (algorithms.py:1031) -/
def reached (best : Option K) (target : Option K) : Bool :=
  match best, target with
  | some b, some t => reLt b t
  | _, _ => false

/-- the end of a step (algorithms.py:984-1039): the new state, and whether the loop is left by `break`.  The truncated operator shares its list
of strings with the basis; the later insertions into this list are not visible through the operator's coefficients. -/
def greedyFinish (num : Numerics K) (args : GreedyArgs K) (s : GreedyState K) (basis : Basis) (st : Explored K) (endEarly : Bool)
    (first vector : List K) (comNorm : K) : Py (GreedyState K × Bool) := do
  let threshold := if gotWorse comNorm s.bestComNorm then s.threshold / 2 else s.threshold
  let endEarly := endEarly || (match args.minRelativeChange with
    | some m => decide (1 ≤ s.step) && (gotWorse comNorm s.bestComNorm || smallChange comNorm s.bestComNorm m)
    | none => false)
  let operator ← mkOperator vector basis.strs none
  let better := improves comNorm s.bestComNorm
  let bestOperator := if better then operator else s.bestOperator
  let bestComNorm := if better then some comNorm else s.bestComNorm
  let size ← pyGet args.maxSizes s.step
  let small ← truncateBasis num.argsort basis first threshold size none
  let coeffs ← small.strs.mapM (fun os => do
    let i ← small.index os
    pyGet vector i)
  let carried ← mkOperator coeffs small.strs none
  let stop := reached bestComNorm args.targetComNorm
  .ok (⟨st, small, carried, s.operators ++ [operator], s.comNorms ++ [comNorm], bestOperator, bestComNorm,
    if stop then s.previousBasis else small, threshold, s.numVecs, if stop then s.step else s.step + 1, endEarly⟩, stop)

/-- the fidelity test (algorithms.py:968-981) -/
def lowFidelity (args : GreedyArgs K) (fidelity : Option K) : Bool :=
  match fidelity, args.targetFidelity with
  | some f, some t => reLt f t
  | _, _ => false

/-- the part of a step after the diagonalization (algorithms.py:948-1039) -/
def greedyAccept (num : Numerics K) (args : GreedyArgs K) (s : GreedyState K) (operator : Operator K) (basis : Basis) (st : Explored K)
    (evals : List K) (evecs : List (List K)) : Py (GreedyState K × Bool) := do
  let (vector, comNorm, fidelity) ← greedyChoose num args s basis evals evecs
  if lowFidelity args fidelity && decide (s.step ≠ 0) then
    .ok ({ s with explored := st, basis := s.previousBasis, numVecs := s.numVecs + 1, operator := operator }, false)
  else do
    let first ← pyGet evecs 0
    greedyFinish num args s basis st (s.endEarly || lowFidelity args fidelity) first vector comNorm

/-- one iteration of the main loop (algorithms.py:766-1039) -/
def greedyStep (num : Numerics K) (args : GreedyArgs K) (fuel : Nat) (s : GreedyState K) : Py (Option (GreedyState K × Bool)) := do
  let operator := if s.step = 0 then args.initialOperator else s.operator
  let numH ← pyGet args.numHTerms s.step
  let (basis, st) ← greedyExpandH num args.comOps numH s.basis operator s.explored
  let basis ← greedyExpandO num args.numOTerms operator basis
  let closed ← match args.transformations with
    | some Ts => closeUnderTransformations Ts fuel 0 basis
    | none => .ok (some basis)
  match closed with
  | none => .ok none
  | some basis =>
    let ((evals, evecs), st) ← greedySolve num args basis s.numVecs st
    let r ← greedyAccept num args s operator basis st evals evecs
    .ok (some r)

/-- the main loop (algorithms.py:765), at most `n` iterations -/
def greedyLoop (num : Numerics K) (args : GreedyArgs K) (fuel : Nat) : Nat → GreedyState K → Py (Option (GreedyState K))
  | n, s =>
    if s.step < args.numSteps ∧ s.endEarly = false then
      match n with
      | 0 => .ok none
      | n + 1 => do
        let r ← greedyStep num args fuel s
        match r with
        | none => .ok none
        | some (s, stop) => if stop then .ok (some s) else greedyLoop num args fuel n s
    else .ok (some s)

/-- the state before the loop (algorithms.py:739-764) -/
def greedyInit (args : GreedyArgs K) : GreedyState K :=
  let basis := emptyBasis.iadd args.initialOperator.basis
  ⟨args.explored, basis, args.initialOperator, [], [], args.initialOperator, none, basis, args.threshold, args.numVecs, 0, false⟩

/-- `selected_ci_greedy` (algorithms.py:702-1056): `(best_operator, best_com_norm, operators, com_norms)`.  An `H` without labels makes
`np.max` of an empty array raise ValueError (algorithms.py:730-731). -/
def selectedCiGreedy (num : Numerics K) (args : GreedyArgs K) (fuel : Nat) : Py (Option (Operator K × Option K × List (Operator K) × List K)) :=
  match args.comOps with
  | [] => .error .indexError
  | H :: _ =>
    if H.basis.strs.all (fun s => s.labels.isEmpty) then .error .valueError
    else do
      let r ← greedyLoop num args fuel fuel (greedyInit args)
      .ok (r.map (fun s => (s.bestOperator, s.bestComNorm, s.operators, s.comNorms)))

end Qosy
