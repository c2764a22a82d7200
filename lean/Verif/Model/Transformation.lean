import Verif.Model.Conversion
import Verif.Model.AlgebraMatrix
import Verif.Model.Tools

/-!
# Model of `qosy/transformation.py` (the parts that need a `Lattice` are in `Model/LatticeSymmetry.lean`)

A `Transformation` is its rule together with its info; it can only be observed by applying it to an `OperatorString`, so it is
modelled by the function from strings to Operators.
-/

namespace Qosy
variable {K : Type} [Field K] [StarRing K] [CoefOps K]

/-- `Transformation` objects (transformation.py:19-58): `fun s => rule(s, info)`.  This is also `apply` on an
`OperatorString` (transformation.py:81-82). -/
abbrev Transformation (K : Type) := OpString → Py (Operator K)

/-- the loop `for (coeff, op_string) in operator: result += coeff * rule(op_string, info)` (transformation.py:85-89).  The warning
for complex coefficients has no effect on the result. -/
def applyLoop (T : Transformation K) : List (K × OpString) → Operator K → Py (Operator K)
  | [], result => .ok result
  | (c, s) :: ts, result => do
    let r ← T s
    let cr ← r.smul c
    let result ← result.iadd cr
    applyLoop T ts result

/-- `Transformation.apply` on an `Operator` (transformation.py:83-90) -/
def Transformation.apply (T : Transformation K) (A : Operator K) : Py (Operator K) := do
  let zero ← mkOperator [] [] (some A.opType)
  applyLoop T A.terms zero

/-- the default tolerance `1e-12` of transformation.py -/
def tolTransformation : ℚ := 1 / 10 ^ 12

/-- the inner loop of `_product_rule` (transformation.py:109-114) -/
def productInner (cC : K) : List (K × OpString) → Operator K → Py (Operator K)
  | [], result => .ok result
  | (cD, sD) :: ts, result =>
    if absGt (cC * cD) tolTransformation then do
      let one ← mkOperator [cC * cD] [sD] none
      let result ← result.iadd one
      productInner cC ts result
    else productInner cC ts result

/-- the outer loop of `_product_rule` (transformation.py:107-114) -/
def productOuter (ruleD : Transformation K) : List (K × OpString) → Operator K → Py (Operator K)
  | [], result => .ok result
  | (cC, sC) :: ts, result => do
    let D ← ruleD sC
    let result ← productInner cC D.terms result
    productOuter ruleD ts result

/-- `Transformation._product_rule` (transformation.py:94-116) -/
def productRule (ruleC ruleD : Transformation K) : Transformation K := fun s => do
  let zero ← mkOperator [] [] (some s.opType)
  let C ← ruleC s
  productOuter ruleD C.terms zero

/-- `Transformation.__mul__` (transformation.py:118-141): `self * other` applies `other` first -/
def Transformation.mul (self other : Transformation K) : Transformation K := productRule other self

/-- the loop of `__pow__` (transformation.py:161-163) -/
def powLoop (self : Transformation K) : Nat → Transformation K → Transformation K
  | 0, result => result
  | n + 1, result => powLoop self n (result.mul self)

/-- `Transformation.__pow__` (transformation.py:143-165) with an int argument; any other type raises ValueError too -/
def Transformation.pow (self : Transformation K) (number : Int) : Py (Transformation K) :=
  if number ≤ 0 then .error .valueError
  else .ok (powLoop self (number.toNat - 1) self)

/-! ### label permutations -/

/-- `permutation[l]` for a numpy array (transformation.py:188): negative indices count from the end -/
def npGet (p : List Int) (l : Int) : Py Int :=
  let j := if l < 0 then l + p.length else l
  if j < 0 then .error .indexError
  else pyGet p j.toNat

/-- the labels `new_labels_unsorted[ind]` with `ops[ind] in ['A', 'B']` (transformation.py:198) is `labelsAB` of the operators
and the new labels.  `np.argsort` is modelled by its contract for distinct values (`argsortStable`). -/
def permutationRule (perm : List Int) : Transformation K := fun s =>
  if ¬ (s.opType = .pauli ∨ s.opType = .majorana) then .error .valueError
  else do
    let new ← s.labels.mapM (npGet perm)
    let inds := argsortStable new
    let newOps ← inds.mapM (pyGet s.ops)
    let newLabels ← inds.mapM (pyGet new)
    let B ← mkOpString newOps newLabels s.opType
    if s.opType = .majorana then do
      let ab ← labelsAB s.ops new
      let sign : K := ((sortSign ab).2 : K)
      mkOperator [1 * reOf (s.pref.val / B.pref.val * sign)] [B] none
    else mkOperator [1] [B] none

/-- `label_permutation(permutation)` (transformation.py:295-326) -/
def labelPermutation (perm : List Int) : Transformation K := permutationRule perm

/-! ### time reversal and particle-hole -/

/-- the counters `numABs`, `numBs`, `numDs` -/
structure OpCounts where
  ab : Nat
  b : Nat
  d : Nat
deriving DecidableEq, Repr

/-- the counting loop of `_time_reversal_rule` (transformation.py:227-240) and `_particle_hole_rule` (transformation.py:272-284);
ValueError for an operator that is not a Majorana operator -/
def countOps : List Op → OpCounts → Py OpCounts
  | [], n => .ok n
  | op :: ops, n =>
    match op with
    | .A => countOps ops { n with ab := n.ab + 1 }
    | .B => countOps ops { n with b := n.b + 1, ab := n.ab + 1 }
    | .D => countOps ops { n with d := n.d + 1 }
    | _ => .error .valueError

/-- `coeffB *= -1.0` if the condition holds -/
def flipIf (cond : Prop) [Decidable cond] (c : K) : K := if cond then c * -1 else c

/-- `_time_reversal_rule` (transformation.py:209-253) -/
def timeReversalRule : Transformation K := fun s =>
  match s.opType with
  | .majorana => do
    let n ← countOps s.ops ⟨0, 0, 0⟩
    mkOperator [flipIf (n.ab * (n.ab - 1) / 2 % 2 = 1) (flipIf (n.b % 2 = 1) 1)] [s] none
  | .pauli => mkOperator [flipIf (s.ops.length % 2 = 1) 1] [s] none
  | _ => .error .valueError

/-- `_particle_hole_rule` (transformation.py:255-293) -/
def particleHoleRule : Transformation K := fun s =>
  match s.opType with
  | .majorana => do
    let n ← countOps s.ops ⟨0, 0, 0⟩
    mkOperator [flipIf (n.d % 2 = 1) (flipIf (n.b % 2 = 1) 1)] [s] none
  | _ => .error .valueError

/-- `time_reversal()` without spin information (transformation.py:460-532) -/
def timeReversal : Transformation K := timeReversalRule

/-- `particle_hole()` (transformation.py:534-556) and `charge_conjugation()` (transformation.py:557-561) -/
def particleHole : Transformation K := particleHoleRule

/-! ### symmetry matrices -/

/-- the entries of one column of `_symmetry_matrix_opstrings` (transformation.py:577-590) -/
def symmetryColumn (basis : Basis) (tol : ℚ) (j : Nat) (terms : List (K × OpString)) : Py (List (Nat × Nat × K)) :=
  collect (fun t =>
    if !basis.contains t.2 then .ok none
    else do
      let i ← basis.index t.2
      if absGt t.1 tol then .ok (some (i, j, t.1)) else .ok none) terms

/-- `symmetry_matrix(basis, transformation, tol)` with a Basis (transformation.py:563-594, 658-659) -/
def symmetryMatrix (basis : Basis) (T : Transformation K) (tol : ℚ := tolTransformation) : Py (Mat K) := do
  let cols ← basis.strs.zipIdx.mapM (fun e => do
    let r ← T e.1
    symmetryColumn basis tol e.2 r.terms)
  mkCsr cols.flatten basis.len basis.len

/-- `symmetry_matrix(operators, transformation, tol)` with a list of Operators (transformation.py:596-630, 660-661).  numpy's
`nla.pinv` is a parameter; the conversion between sparse and dense matrices has no effect. -/
def symmetryMatrixOperators (pinv : Mat K → Py (Mat K)) (operators : List (Operator K)) (T : Transformation K) (tol : ℚ := tolTransformation) :
    Py (Mat K) := do
  let operatorsBasis := operators.foldl (fun b op => b.iadd op.basis) emptyBasis
  let data ← operatorsData operatorsBasis operators
  let C ← mkCsr data operatorsBasis.len operators.length
  let P ← pinv C
  let S ← symmetryMatrix operatorsBasis T tol
  let SC ← S.dot C
  P.dot SC

/-- `symmetry_matrix` (transformation.py:632-663): `basis[0]` of an empty list raises IndexError -/
def symmetryMatrixOf (pinv : Mat K → Py (Mat K)) (basis : BasisArg K) (T : Transformation K) (tol : ℚ := tolTransformation) : Py (Mat K) :=
  match basis with
  | .strings b => symmetryMatrix b T tol
  | .operators [] => .error .indexError
  | .operators l => symmetryMatrixOperators pinv l T tol

end Qosy
