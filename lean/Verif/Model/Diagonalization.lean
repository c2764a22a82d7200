import Verif.Model.Matrix
import Verif.Model.Basis

/-!
# Model of `qosy/diagonalization.py`: matrices and vectors of spin systems

Configurations are natural numbers below `2 ** num_orbitals`.  Shifts by a negative amount raise ValueError as in Python.
numpy arrays are lists of numbers (vectors) or, for the two-dimensional array of `_reshape_vector_subsystems`, a shape with the
function of entries.
-/

namespace Qosy
variable {K : Type} [Field K] [StarRing K] [CoefOps K]

/-- `1 << (num_orbitals-1-label)`: ValueError (negative shift count) if `label >= num_orbitals` -/
def maskOf (n : Nat) (label : Int) : Py Nat :=
  if (n : Int) - 1 - label < 0 then .error .valueError else .ok (1 <<< ((n : Int) - 1 - label).toNat)

/-- the loop of `_apply_opstring` (diagonalization.py:36-52) over the operators and labels of the string -/
def applyOps (n : Nat) : List (Op × Int) → K × Nat → Py (K × Nat)
  | [], st => .ok st
  | (op, label) :: rest, (coeff, conf) => do
    let mask ← maskOf n label
    match op with
    | .X => applyOps n rest (coeff, conf ^^^ mask)
    | .Y => applyOps n rest (if conf &&& mask ≠ 0 then coeff * -I else coeff * I, conf ^^^ mask)
    | .Z => applyOps n rest (if conf &&& mask ≠ 0 then coeff * -1 else coeff, conf)
    | _ => applyOps n rest (coeff, conf)

/-- `_apply_opstring` (diagonalization.py:23-54) -/
def applyOpstring (s : OpString) (conf : Nat) (n : Nat) : Py (K × Nat) :=
  if s.opType ≠ .pauli then .error .notImplemented
  else applyOps n (s.ops.zip s.labels) (s.pref.val, conf)

/-- `_to_matrix_opstring` with `return_tuple=True` (diagonalization.py:56-71): the coordinate triples -/
def toMatrixTriples (s : OpString) (n : Nat) : Py (List (Nat × Nat × K)) :=
  if s.opType = .pauli then
    (List.range (2 ^ n)).mapM (fun conf => do
      let r ← applyOpstring s conf n
      pure (r.2, conf, r.1))
  else .error .notImplemented

/-- `_to_matrix_opstring` (diagonalization.py:56-75), and `to_matrix` of an `OperatorString` (diagonalization.py:79-80) -/
def toMatrixString (s : OpString) (n : Nat) : Py (Mat K) := do
  let data ← toMatrixTriples s n
  mkCsr data (2 ^ n) (2 ^ n)

/-- the loop of `to_matrix` over the terms of an `Operator` (diagonalization.py:86-92) -/
def toMatrixLoop (n : Nat) : List (K × OpString) → List (Nat × Nat × K) → Py (List (Nat × Nat × K))
  | [], acc => .ok acc
  | (c, s) :: ts, acc => do
    let data ← toMatrixTriples s n
    toMatrixLoop n ts (acc ++ data.map (fun e => (e.1, e.2.1, c * e.2.2)))

/-- `to_matrix` of an `Operator` (diagonalization.py:81-95) -/
def toMatrixOperator (A : Operator K) (n : Nat) : Py (Mat K) := do
  let data ← toMatrixLoop n A.terms []
  mkCsr data (2 ^ n) (2 ^ n)

/-- `M.diagonal().sum()` -/
def Mat.diagSum (M : Mat K) : K := ((List.range (min M.nrows M.ncols)).map (fun i => M.get i i)).sum

/-- `to_vector(matrix, basis, num_orbitals)` (diagonalization.py:99-104), the matrix being sparse -/
def toVectorOf (M : Mat K) (b : Basis) (n : Nat) : Py (List K) := do
  let mats ← b.strs.mapM (fun s => toMatrixString s n)
  mats.mapM (fun m => do
    let p ← m.getH.dot M
    pure (p.diagSum / 2 ^ n))

/-- a call of `to_vector` with two or three arguments (diagonalization.py:99): the third parameter has no default value -/
def callToVector (M : Mat K) (b : Basis) : Option Nat → Py (List K)
  | none => .error .typeError
  | some n => toVectorOf M b n

/-- the body of `to_operator` (diagonalization.py:109-113), with the third argument of the call of `to_vector` as a parameter -/
def toOperatorBody (third : Option Nat) (M : Mat K) (b : Basis) : Py (Operator K) := do
  let coeffs ← callToVector M b third
  let s ← pyGet b.strs 0
  mkOperator coeffs b.strs (some s.opType)

/-- `to_operator(matrix, basis, num_orbitals)` (diagonalization.py:108-113): the call in line 109 has two arguments -/
def toOperatorOf (M : Mat K) (b : Basis) (_numOrbitals : Nat) : Py (Operator K) := toOperatorBody none M b

/-! ### permutations of the sites -/

/-- the loop over the labels that computes `new_conf` (diagonalization.py:126-132 and 150-156) -/
def permuteConfLoop (n conf : Nat) : List (Nat × Int) → Nat → Py Nat
  | [], acc => .ok acc
  | (label, newLabel) :: rest, acc => do
    let maskOld ← maskOf n label
    let maskNew ← maskOf n newLabel
    permuteConfLoop n conf rest (acc + (if conf &&& maskOld ≠ 0 then 1 else 0) * maskNew)

/-- the pairs `(label, permutation[label])` for `label in range(num_orbitals)`; the length has been checked -/
def labelPairs (perm : List Int) : List (Nat × Int) := perm.zipIdx.map (fun e => (e.2, e.1))

/-- `apply_transformation_conf` (diagonalization.py:116-134); `info` is the permutation array of the transformation or None -/
def applyTransformationConf (info : Option (List Int)) (conf n : Nat) : Py Nat :=
  match info with
  | none => .error .valueError
  | some perm => if perm.length ≠ n then .error .valueError else permuteConfLoop n conf (labelPairs perm) 0

/-- `v[i] = x` for a numpy array and an index `i ≥ 0` -/
def npSet (v : List K) (i : Nat) (x : K) : Py (List K) := if i < v.length then .ok (v.set i x) else .error .indexError

/-- the loop of `apply_transformation` over the configurations (diagonalization.py:149-158) -/
def applyTransformationLoop (perm : List Int) (v : List K) (n : Nat) : List Nat → List K → Py (List K)
  | [], acc => .ok acc
  | conf :: rest, acc => do
    let new ← permuteConfLoop n conf (labelPairs perm) 0
    let x ← pyGet v conf
    let acc ← npSet acc new x
    applyTransformationLoop perm v n rest acc

/-- `apply_transformation` (diagonalization.py:139-159) -/
def applyTransformation (info : Option (List Int)) (v : List K) (n : Nat) : Py (List K) :=
  match info with
  | none => .error .valueError
  | some perm =>
    if perm.length ≠ n then .error .valueError
    else applyTransformationLoop perm v n (List.range (2 ^ n)) (List.replicate (2 ^ n) 0)

/-! ### reduced density matrices -/

/-- a dense two-dimensional numpy array: its shape and its entries -/
structure Dense (K : Type) where
  nrows : Nat
  ncols : Nat
  get : Nat → Nat → K

/-- `M[i, j] = x` -/
def Dense.set (M : Dense K) (i j : Nat) (x : K) : Py (Dense K) :=
  if i < M.nrows ∧ j < M.ncols then .ok ⟨M.nrows, M.ncols, fun a b => if a = i ∧ b = j then x else M.get a b⟩ else .error .indexError

/-- the loop that collects the bits of `conf` at the given labels (diagonalization.py:174-181 and 185-190); `newLabel` counts
the labels, `m` is their number -/
def collectBits (n m conf : Nat) : List Int → Nat → Nat → Py Nat
  | [], _, acc => .ok acc
  | label :: rest, newLabel, acc => do
    let maskOld ← maskOf n label
    let maskNew ← maskOf m newLabel
    collectBits n m conf rest (newLabel + 1) (acc + (if conf &&& maskOld ≠ 0 then 1 else 0) * maskNew)

/-- `traced_orbital_labels` (diagonalization.py:162) -/
def tracedLabels (remaining : List Int) (n : Nat) : List Int :=
  ((List.range n).map (fun i : Nat => (i : Int))).filter (fun l => decide (l ∉ remaining))

/-- the loop of `_reshape_vector_subsystems` over the configurations (diagonalization.py:171-192) -/
def reshapeLoop (v : List K) (remaining traced : List Int) (n : Nat) : List Nat → Dense K → Py (Dense K)
  | [], c => .ok c
  | conf :: rest, c => do
    let a ← collectBits n remaining.length conf remaining 0 0
    let b ← collectBits n traced.length conf traced 0 0
    let x ← pyGet v conf
    let c ← c.set a b x
    reshapeLoop v remaining traced n rest c

/-- `_reshape_vector_subsystems` (diagonalization.py:161-194) -/
def reshapeVectorSubsystems (v : List K) (remaining : List Int) (n : Nat) : Py (Dense K) :=
  let traced := tracedLabels remaining n
  reshapeLoop v remaining traced n (List.range (2 ^ n)) ⟨2 ^ remaining.length, 2 ^ traced.length, fun _ _ => 0⟩

/-- `np.dot(A, np.conj(B.T))` -/
def Dense.dotConjT (A B : Dense K) : Py (Dense K) :=
  if A.ncols ≠ B.ncols then .error .valueError
  else .ok ⟨A.nrows, B.nrows, fun i j => ((List.range A.ncols).map (fun k => A.get i k * star (B.get j k))).sum⟩

/-- `reduced_density_matrix` of one vector (diagonalization.py:206-208) -/
def reducedDensityMatrix (v : List K) (remaining : List Int) (n : Nat) : Py (Dense K) := do
  let c ← reshapeVectorSubsystems v remaining n
  c.dotConjT c

/-- `reduced_density_matrix` of a pair of vectors (diagonalization.py:198-204) -/
def reducedTransitionMatrix (v w : List K) (remaining : List Int) (n : Nat) : Py (Dense K) := do
  let c ← reshapeVectorSubsystems v remaining n
  let d ← reshapeVectorSubsystems w remaining n
  c.dotConjT d

end Qosy
