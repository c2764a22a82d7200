import Verif.Model.Core
import Verif.Model.Sparsify

/-!
# Model of `SymmetricOperatorGenerator` (qosy/core.py:184-582)

Exact complex arithmetic.  `numpy.linalg.eigh`, `numpy.linalg.pinv`, `scipy.linalg.lu` and `numpy.argsort` are parameters.  The option
`num_vecs` (`scipy.sparse.linalg.eigsh`) is `None` here, see Model/GeneratorVecs.  The numerical libraries are taken to accept arrays without
columns.  Printing is left out.
-/

namespace Qosy

/-- the first argument of `add_symmetry`; `other` is an object that is neither an Operator nor a Transformation -/
inductive Symmetry
  | operator (O : Operator ℂ)
  | transformation (T : Transformation ℂ)
  | other

/-- the arguments of a call of `add_symmetry` (core.py:288-316), which appends them to lists.  The modes modelled are those that have a
meaning for an Operator; `invariant_operators` rejects "product". -/
structure SymmetryInput where
  symmetry : Symmetry
  mode : Mode := .commutator

/-- the value of the argument `operation_mode` -/
def Mode.name : Mode → String
  | .product => "product"
  | .commutator => "commutator"
  | .anticommutator => "anticommutator"

/-- the operators with one symmetry (core.py:336-346 and 471-481) -/
noncomputable def generateOne (eigh : Eigh) (pinv : Mat ℂ → Py (Mat ℂ)) (basis : BasisArg ℂ) (inp : SymmetryInput) (tol : ℝ) : Py Generated :=
  match inp.symmetry with
  | .operator O => commutingOperators eigh basis O inp.mode tol
  | .transformation T => invariantOperators eigh pinv basis T inp.mode.name tol
  | .other => .error .valueError

/-- an array, as the list of its columns -/
structure Columns where
  dim : ℕ
  cols : List (Fin dim → ℂ)

/-- the matrix with the given columns -/
def columnsMatrix {n : ℕ} (l : List (Fin n → ℂ)) : Matrix (Fin n) (Fin l.length) ℂ := fun i j => l[j] i

/-- `eigh` on a matrix whose rows and columns are numbered in two blocks -/
noncomputable def eighBlocks (eigh : Eigh) (p q : ℕ) (D : Matrix (Fin p ⊕ Fin q) (Fin p ⊕ Fin q) ℂ) : EighResult (Fin p ⊕ Fin q) (p + q) :=
  let r := eigh (p + q) (D.submatrix finSumFinEquiv.symm finSumFinEquiv.symm)
  ⟨r.evals, fun i k => r.evecs (finSumFinEquiv i) k⟩

/-- a column with nan entries is not modelled further -/
def definedColumn {n : ℕ} : Option (Fin n → ℂ) → Py (Fin n → ℂ)
  | some v => .ok v
  | none => .error .zeroDivision

/-- the projection of the operators with one symmetry onto the previous result (core.py:376-406).  `intersection` is called with its
default tolerance. -/
noncomputable def projectStep (eigh : Eigh) (curr : Generated) (prev : Columns) (tol : ℝ) : Py Columns := do
  let common ← intersection (eighBlocks eigh _ _) (columnsMatrix curr.vecs) (columnsMatrix prev.cols)
  let ops ← common.mapM definedColumn
  let C := columnsMatrix ops
  let r := eigh ops.length (C.conjTranspose * curr.superoperator * C)
  .ok ⟨curr.dim, selectColumns r 0 tol |>.map C.mulVec⟩

/-- the attributes `output_operators` (with the superoperators and their eigenvectors) and `projected_output_operators` that
`_generate_noncumulative` appends to -/
structure NoncumulativeState where
  outputs : List Generated := []
  projected : List Columns := []

/-- the second part of `_generate_noncumulative` (core.py:361-410), with the indices that are left -/
noncomputable def projectLoop (eigh : Eigh) (tol : ℝ) (outputs : List Generated) : List ℕ → List Columns → Py (List Columns)
  | [], projected => .ok projected
  | i :: inds, projected => do
    let curr ← pyGet outputs i
    let new ← if i = 0 then .ok ⟨curr.dim, curr.vecs⟩
      else do
        let prev ← pyGet projected (i - 1)
        projectStep eigh curr prev tol
    projectLoop eigh tol outputs inds (projected ++ [new])

/-- the third part of `_generate_noncumulative` (core.py:412-419) -/
noncomputable def sparsifyLoop (lu : PermutedLu) (argsort : List ℕ → List ℕ) : List ℕ → List Columns → Py (List Columns)
  | [], projected => .ok projected
  | i :: inds, projected => do
    let curr ← pyGet projected i
    let new ← sparsify lu argsort curr.cols
    sparsifyLoop lu argsort inds (projected.set i ⟨curr.dim, new⟩)

open Classical in
/-- one step of the fourth part of `_generate_noncumulative` (core.py:430-438): the first columns of `prev` are replaced by those of
`curr`.  An array with more than one column does not fit into fewer columns; a single column fits into none. -/
noncomputable def orthogonalizeStep (curr prev : Columns) : Py Columns :=
  if h : curr.dim = prev.dim then
    let c : List (Fin prev.dim → ℂ) := h ▸ curr.cols
    if c.length ≤ prev.cols.length then
      match gramSchmidt (c ++ prev.cols.drop c.length) 0 with
      | none => .error .zeroDivision
      | some q => .ok ⟨prev.dim, q⟩
    else if c.length = 1 then .ok prev
    else .error .valueError
  else .error .valueError

/-- the fourth part of `_generate_noncumulative` (core.py:421-444) -/
noncomputable def orthogonalizeLoop : List ℕ → List Columns → Py (List Columns)
  | [], projected => .ok projected
  | i :: inds, projected => do
    let curr ← pyGet projected i
    let prev ← pyGet projected (i - 1)
    let new ← orthogonalizeStep curr prev
    orthogonalizeLoop inds (projected.set (i - 1) new)

/-- `_generate_noncumulative` (core.py:318-444) -/
noncomputable def generateNoncumulative (eigh : Eigh) (pinv : Mat ℂ → Py (Mat ℂ)) (lu : PermutedLu) (argsort : List ℕ → List ℕ) (basis : BasisArg ℂ)
    (inputs : List SymmetryInput) (st : NoncumulativeState) (sparsification orthogonalization : Bool) (tol : ℝ) : Py NoncumulativeState := do
  let new ← inputs.mapM (fun inp => generateOne eigh pinv basis inp tol)
  let outputs := st.outputs ++ new
  let p1 ← projectLoop eigh tol outputs (List.range inputs.length) st.projected
  let p2 ← if sparsification then sparsifyLoop lu argsort (List.range inputs.length) p1 else .ok p1
  let p3 ← if orthogonalization then orthogonalizeLoop (List.range' 1 (inputs.length - 1)).reverse p2 else .ok p2
  .ok ⟨outputs, p3⟩

open Classical in
/-- the indices of the coefficients that are kept (core.py:507-508, 515-516) -/
noncomputable def keptIndices {n : ℕ} (tol : ℝ) (v : Fin n → ℂ) : List (Fin n) := (List.finRange n).filter (fun i => tol < ‖v i‖)

/-- `proj_op += coeff * basis[ind_basis]` for the indices that are left (core.py:514-517) -/
noncomputable def addMultiples {n : ℕ} (l : List (Operator ℂ)) (v : Fin n → ℂ) : List (Fin n) → Operator ℂ → Py (Operator ℂ)
  | [], A => .ok A
  | i :: inds, A => do
    let o ← pyGet l i
    let m ← o.smul (v i)
    let A ← A.iadd m
    addMultiples l v inds A

/-- the Operator with the given coefficients (core.py:502-522).  The result of `remove_zeros` is discarded by the program, so it has no
effect.  A division of zeros by zero in `normalize` is not modelled further. -/
noncomputable def vectorOperator (basis : BasisArg ℂ) (tol : ℝ) {n : ℕ} (v : Fin n → ℂ) : Py (Operator ℂ) :=
  match basis with
  | .strings b => do
    let strs ← (keptIndices tol v).mapM (fun (i : Fin n) => pyGet b.strs i)
    mkOperator ((keptIndices tol v).map v) strs none
  | .operators l => do
    let first ← pyGet l 0
    let zero ← mkOperator [] [] (some first.opType)
    let A ← addMultiples l v (keptIndices tol v) zero
    match A.normalize .l2 with
    | none => .error .zeroDivision
    | some B => .ok B

/-- the vectors after the options of `_generate_cumulative` (core.py:487-494) -/
noncomputable def chosenVectors {n : ℕ} (lu : PermutedLu) (argsort : List ℕ → List ℕ) (sparsification orthogonalization : Bool)
    (vecs : List (Fin n → ℂ)) : Py (List (Fin n → ℂ)) :=
  if sparsification then do
    let q ← sparsify lu argsort vecs true
    if orthogonalization then .ok q else sparsify lu argsort q false
  else .ok vecs

/-- one iteration of `_generate_cumulative` for a basis that is not empty (core.py:464-524) -/
noncomputable def cumulativeStep (eigh : Eigh) (pinv : Mat ℂ → Py (Mat ℂ)) (lu : PermutedLu) (argsort : List ℕ → List ℕ) (basis : BasisArg ℂ)
    (inp : SymmetryInput) (sparsification orthogonalization : Bool) (tol : ℝ) : Py (List (Operator ℂ)) := do
  let g ← generateOne eigh pinv basis inp tol
  let vecs ← chosenVectors lu argsort sparsification orthogonalization g.vecs
  vecs.mapM (vectorOperator basis tol)

/-- `len(basis) == 0` -/
def BasisArg.isEmpty : BasisArg ℂ → Bool
  | .strings b => b.strs.isEmpty
  | .operators l => l.isEmpty

/-- the basis of an iteration (core.py:453-460); `projected` is the attribute `projected_output_operators` so far -/
def cumulativeBasis (basis : BasisArg ℂ) (first : Bool) (projected : List (List (Operator ℂ))) : Py (BasisArg ℂ) :=
  if first then .ok basis
  else match projected.getLast? with
    | none => .error .indexError
    | some l => .ok (.operators l)

/-- `_generate_cumulative` (core.py:446-528), with the symmetries that are left; `first` holds in the first iteration -/
noncomputable def generateCumulative (eigh : Eigh) (pinv : Mat ℂ → Py (Mat ℂ)) (lu : PermutedLu) (argsort : List ℕ → List ℕ) (basis : BasisArg ℂ)
    (sparsification orthogonalization : Bool) (tol : ℝ) : List SymmetryInput → Bool → List (List (Operator ℂ)) → Py (List (List (Operator ℂ)))
  | [], _, projected => .ok projected
  | inp :: inputs, first, projected => do
    let b ← cumulativeBasis basis first projected
    if b.isEmpty then generateCumulative eigh pinv lu argsort basis sparsification orthogonalization tol inputs false projected
    else do
      let ops ← cumulativeStep eigh pinv lu argsort b inp sparsification orthogonalization tol
      generateCumulative eigh pinv lu argsort basis sparsification orthogonalization tol inputs false (projected ++ [ops])

/-- what `generate` leaves in the attributes of a new generator -/
inductive GenerateResult
  | cumulative (projected : List (List (Operator ℂ)))
  | noncumulative (st : NoncumulativeState)

/-- `generate(mode, sparsification, orthogonalization, tol)` on a new generator (core.py:530-582) -/
noncomputable def generate (eigh : Eigh) (pinv : Mat ℂ → Py (Mat ℂ)) (lu : PermutedLu) (argsort : List ℕ → List ℕ) (basis : BasisArg ℂ)
    (inputs : List SymmetryInput) (mode : String := "cumulative") (sparsification : Bool := true) (orthogonalization : Bool := false)
    (tol : ℝ := 1 / 10 ^ 10) : Py GenerateResult :=
  if mode = "cumulative" then do
    let p ← generateCumulative eigh pinv lu argsort basis sparsification orthogonalization tol inputs true []
    .ok (.cumulative p)
  else if mode = "noncumulative" then do
    let st ← generateNoncumulative eigh pinv lu argsort basis inputs {} sparsification orthogonalization tol
    .ok (.noncumulative st)
  else .error .valueError

end Qosy
