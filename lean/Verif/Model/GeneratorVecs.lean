import Verif.Model.Generator
import Verif.Model.Lanczos

/-!
# Model of `SymmetricOperatorGenerator` with the option `num_vecs` (qosy/core.py:285-528)

The attributes with eigenvalues and eigenvectors are left out.
-/

namespace Qosy

/-- the arguments of a call of `add_symmetry` with `num_vecs` (core.py:285-311) -/
structure SymmetryCall extends SymmetryInput where
  numVecs : Option ℕ := none

/-- the operators found with one symmetry and the superoperator, and whether there was a warning -/
structure Found where
  dim : ℕ
  vecs : List (Fin dim → ℂ)
  superoperator : Matrix (Fin dim) (Fin dim) ℂ
  warned : Bool

/-- the part of the result of full diagonalization that is used -/
def Generated.found (g : Generated) : Found := ⟨g.dim, g.vecs, g.superoperator, false⟩

/-- the part of the result with `num_vecs` that is used -/
def GeneratedVecs.found {k : ℕ} (g : GeneratedVecs k) : Found := ⟨g.dim, g.vecs, g.superoperator, g.warned⟩

/-- the operators with one symmetry (core.py:336-346) -/
noncomputable def generateOneVecs (eigh : Eigh) (eigsh : Eigsh) (pinv : Mat ℂ → Py (Mat ℂ)) (basis : BasisArg ℂ) (inp : SymmetryCall) (tol : ℝ) : Py Found :=
  match inp.numVecs with
  | none => do .ok (← generateOne eigh pinv basis inp.toSymmetryInput tol).found
  | some k =>
    match inp.symmetry with
    | .operator O => do .ok (← commutingOperatorsVecs eigsh basis O k inp.mode tol).found
    | .transformation T => do .ok (← invariantOperatorsVecs eigsh pinv basis T k inp.mode.name tol).found
    | .other => .error .valueError

/-- the projection of the operators with one symmetry onto the previous result (core.py:376-406) -/
noncomputable def projectStepVecs (eigh : Eigh) (eigsh : Eigsh) (curr : Found) (prev : Columns) (numVecs : Option ℕ) (tol : ℝ) : Py Columns := do
  let common ← intersection (eighBlocks eigh _ _) (columnsMatrix curr.vecs) (columnsMatrix prev.cols)
  let ops ← common.mapM definedColumn
  let C := columnsMatrix ops
  match numVecs with
  | some k =>
    let r ← eigsh ops.length (C.conjTranspose * curr.superoperator * C) k (-(1 / 10 ^ 6))
    .ok ⟨curr.dim, selectVecs r 0 tol |>.map C.mulVec⟩
  | none =>
    let r := eigh ops.length (C.conjTranspose * curr.superoperator * C)
    .ok ⟨curr.dim, selectColumns r 0 tol |>.map C.mulVec⟩

/-- the attributes `output_operators` and `projected_output_operators` -/
structure FoundState where
  outputs : List Found := []
  projected : List Columns := []

/-- the second part of `_generate_noncumulative` (core.py:361-410), with the indices that are left -/
noncomputable def projectLoopVecs (eigh : Eigh) (eigsh : Eigsh) (tol : ℝ) (inputs : List SymmetryCall) (outputs : List Found) :
    List ℕ → List Columns → Py (List Columns)
  | [], projected => .ok projected
  | i :: inds, projected => do
    let curr ← pyGet outputs i
    let new ← if i = 0 then .ok ⟨curr.dim, curr.vecs⟩
      else do
        let prev ← pyGet projected (i - 1)
        let inp ← pyGet inputs i
        projectStepVecs eigh eigsh curr prev inp.numVecs tol
    projectLoopVecs eigh eigsh tol inputs outputs inds (projected ++ [new])

/-- `_generate_noncumulative` of a new generator (core.py:318-444) -/
noncomputable def generateNoncumulativeVecs (eigh : Eigh) (eigsh : Eigsh) (pinv : Mat ℂ → Py (Mat ℂ)) (lu : PermutedLu) (argsort : List ℕ → List ℕ)
    (basis : BasisArg ℂ) (inputs : List SymmetryCall) (sparsification orthogonalization : Bool) (tol : ℝ) : Py FoundState := do
  let outputs ← inputs.mapM (fun inp => generateOneVecs eigh eigsh pinv basis inp tol)
  let p1 ← projectLoopVecs eigh eigsh tol inputs outputs (List.range inputs.length) []
  let p2 ← if sparsification then sparsifyLoop lu argsort (List.range inputs.length) p1 else .ok p1
  let p3 ← if orthogonalization then orthogonalizeLoop (List.range' 1 (inputs.length - 1)).reverse p2 else .ok p2
  .ok ⟨outputs, p3⟩

/-- one iteration of `_generate_cumulative` for a basis that is not empty (core.py:464-524), and whether there was a warning -/
noncomputable def cumulativeStepVecs (eigh : Eigh) (eigsh : Eigsh) (pinv : Mat ℂ → Py (Mat ℂ)) (lu : PermutedLu) (argsort : List ℕ → List ℕ) (basis : BasisArg ℂ)
    (inp : SymmetryCall) (sparsification orthogonalization : Bool) (tol : ℝ) : Py (List (Operator ℂ) × Bool) := do
  let g ← generateOneVecs eigh eigsh pinv basis inp tol
  let vecs ← chosenVectors lu argsort sparsification orthogonalization g.vecs
  let ops ← vecs.mapM (vectorOperator basis tol)
  .ok (ops, g.warned)

/-- `_generate_cumulative` (core.py:446-528), with the symmetries that are left; `first` holds in the first iteration.  The second
component of the result tells whether there was any warning. -/
noncomputable def generateCumulativeVecs (eigh : Eigh) (eigsh : Eigsh) (pinv : Mat ℂ → Py (Mat ℂ)) (lu : PermutedLu) (argsort : List ℕ → List ℕ) (basis : BasisArg ℂ)
    (sparsification orthogonalization : Bool) (tol : ℝ) : List SymmetryCall → Bool → List (List (Operator ℂ)) → Bool → Py (List (List (Operator ℂ)) × Bool)
  | [], _, projected, warned => .ok (projected, warned)
  | inp :: inputs, first, projected, warned => do
    let b ← cumulativeBasis basis first projected
    if b.isEmpty then generateCumulativeVecs eigh eigsh pinv lu argsort basis sparsification orthogonalization tol inputs false projected warned
    else do
      let (ops, w) ← cumulativeStepVecs eigh eigsh pinv lu argsort b inp sparsification orthogonalization tol
      generateCumulativeVecs eigh eigsh pinv lu argsort basis sparsification orthogonalization tol inputs false (projected ++ [ops]) (warned || w)

end Qosy
