import Verif.Model.Matrix

/-!
# Model of `qosy/algebra.py`, part 3: structure constants, Liouvillian and commutant matrices
-/

namespace Qosy
variable {K : Type} [Field K] [StarRing K] [CoefOps K]

/-- the local variables `basisC` and `(inds_os_C, inds_os_A, data)` of the loops of `structure_constants` -/
abbrev ScState (K : Type) := Basis × List (Nat × Nat × K)

/-- one iteration of the inner loop of `structure_constants` (algebra.py:304-315) -/
def scStep (mode : Mode) (tol : ℚ) (osB : OpString) (st : ScState K) (a : OpString × Nat) : Py (ScState K) := do
  let (coeff, osC) ← operationOpString mode a.1 osB
  match osC with
  | none => .ok st
  | some osC =>
    if absLt coeff tol then .ok st
    else do
      let basisC := st.1.iaddString osC
      let i ← basisC.index osC
      .ok (basisC, st.2 ++ [(i, a.2, coeff)])

/-- one iteration of the outer loop of `structure_constants` (algebra.py:300-317) -/
def scOuter (mode : Mode) (tol : ℚ) (basisA : Basis) (st : Basis × Dict (List (Nat × Nat × K))) (osB : OpString) :
    Py (Basis × Dict (List (Nat × Nat × K))) := do
  let (basisC, data) ← basisA.strs.zipIdx.foldlM (scStep mode tol osB) (st.1, [])
  .ok (basisC, st.2.set osB data)

/-- dictionary access `d[k]` -/
def Dict.lookup {V : Type} (d : Dict V) (k : OpString) : Py V :=
  match d.get? k with
  | some v => .ok v
  | none => .error .keyError

/-- one iteration of the loop building the matrices (algebra.py:323-326) -/
def scBuild (matrixData : Dict (List (Nat × Nat × K))) (nrows ncols : Nat) (res : Dict (Mat K)) (osB : OpString) :
    Py (Dict (Mat K)) := do
  let data ← matrixData.lookup osB
  let M ← mkCsr data nrows ncols
  .ok (res.set osB M)

/-- `structure_constants(basisA, basisB, operation_mode, return_extended_basis=True, tol=tol)` (algebra.py:243-331).
With `return_extended_basis=False` the first component is returned alone. -/
def structureConstants (basisA basisB : Basis) (mode : Mode) (tol : ℚ := 1 / 10 ^ 16) : Py (Dict (Mat K) × Basis) := do
  let (basisC, matrixData) ← basisB.strs.foldlM (scOuter mode tol basisA) (emptyBasis, [])
  let result ← basisB.strs.foldlM (scBuild matrixData basisC.len basisA.len) []
  .ok (result, basisC)

/-- `_liouvillian_matrix_opstrings(basis, operator, operation_mode, True)` (algebra.py:333-347) -/
def liouvillianStrings (basis : Basis) (operator : Operator K) (mode : Mode) : Py (Mat K × Basis) := do
  let (sc, ext) ← structureConstants basis operator.basis mode
  let L ← operator.terms.foldlM (fun (L : Mat K) t => do
    let M ← sc.lookup t.2
    L.add (M.smul t.1)) (Mat.zero ext.len basis.len)
  .ok (L, ext)

/-- the coordinate data of the matrix `coeffs_operators` (algebra.py:373-382) -/
def operatorsData (basis : Basis) (operators : List (Operator K)) : Py (List (Nat × Nat × K)) :=
  operators.zipIdx.foldlM (fun data o =>
    o.1.terms.foldlM (fun data t => do
      let i ← basis.index t.2
      .ok (data ++ [(i, o.2, t.1)])) data) []

/-- `_liouvillian_matrix_operators(operators, operator, operation_mode, True)` (algebra.py:349-393) -/
def liouvillianOperators (operators : List (Operator K)) (operator : Operator K) (mode : Mode) : Py (Mat K × Basis) := do
  let operatorsBasis := operators.foldl (fun b op => b.iadd op.basis) emptyBasis
  let (sc, ext) ← structureConstants operatorsBasis operator.basis mode
  let data ← operatorsData operatorsBasis operators
  let V ← mkCsr data operatorsBasis.len operators.length
  let L ← operator.terms.foldlM (fun (L : Mat K) t => do
    let M ← sc.lookup t.2
    let MV ← M.dot V
    L.add (MV.smul t.1)) (Mat.zero ext.len operators.length)
  .ok (L, ext)

/-- the argument `basis` of `liouvillian_matrix` (algebra.py:440-445): a Basis or a list of Operators -/
inductive BasisArg (K : Type)
  | strings (b : Basis)
  | operators (l : List (Operator K))

/-- `liouvillian_matrix(basis, operator, operation_mode, True)` (algebra.py:395-445); an empty list raises IndexError -/
def liouvillianMatrix (basis : BasisArg K) (operator : Operator K) (mode : Mode := .commutator) : Py (Mat K × Basis) :=
  match basis with
  | .strings b => liouvillianStrings b operator mode
  | .operators [] => .error .indexError
  | .operators l => liouvillianOperators l operator mode

/-- `commutant_matrix(basis, operator, operation_mode, True)` (algebra.py:447-496) -/
def commutantMatrix (basis : BasisArg K) (operator : Operator K) (mode : Mode := .commutator) : Py (Mat K × Basis) := do
  let (L, ext) ← liouvillianMatrix basis operator mode
  let C ← L.getH.dot L
  .ok (C, ext)

end Qosy
