import Verif.Model.AlgebraMatrix
import Verif.Model.Lattice

/-!
# Model of `qosy/algorithms.py`, part 1: truncation and exploration of bases
-/

namespace Qosy
variable {K : Type} [Field K] [StarRing K] [CoefOps K]

/-- the coefficients the truncation looks at (algorithms.py:24-27) -/
def filteredVector (filterFun : Option (List K → Basis → List K)) (vector : List K) (basis : Basis) : List K :=
  match filterFun with
  | some f => f vector basis
  | none => vector

/-- `_truncate_basis` (algorithms.py:21-39).  `argsort v` stands for `np.argsort(np.abs(v))`, whose order of ties is unspecified;
`max_basis_size` is not negative here. -/
def truncateBasis (argsort : List K → List Nat) (basis : Basis) (vector : List K) (threshold : ℚ) (maxSize : Nat)
    (filterFun : Option (List K → Basis → List K)) : Py Basis := do
  let vec := filteredVector filterFun vector basis
  let inds := (argsort vec).reverse
  let inds := inds.filter (fun i => absGt (vec.getD i 0) threshold)
  let inds := if maxSize ≤ inds.length then inds.take maxSize else inds
  let strs ← inds.mapM (pyGet basis.strs)
  mkBasis strs

/-- `_truncate_operator` (algorithms.py:41-46) -/
def truncateOperator (argsort : List K → List Nat) (A : Operator K) (threshold : ℚ) (maxSize : Nat)
    (filterFun : Option (List K → Basis → List K)) : Py (Operator K) := do
  let b ← truncateBasis argsort A.basis A.coeffs threshold maxSize filterFun
  let coeffs ← b.strs.mapM (fun s => do
    let i ← A.basis.index s
    pyGet A.coeffs i)
  mkOperator coeffs b.strs none

/-- the three objects `_explore` updates: `explored_basis`, `explored_extended_basis` and `explored_s_constants_data`.  The three lists
stored for a string are modelled by one list of triples `(row, column, value)`. -/
structure Explored (K : Type) where
  basis : Basis
  ext : Basis
  data : Dict (List (Nat × Nat × K))

/-- the objects before the first exploration (algorithms.py:735-737) -/
def Explored.empty : Explored K := ⟨emptyBasis, emptyBasis, []⟩

/-- `structure_constants(basisA, basisB, return_extended_basis=True, return_data_tuple=True)` (algebra.py:243-331) -/
def structureConstantsData (basisA basisB : Basis) (tol : ℚ := 1 / 10 ^ 16) : Py (Basis × Dict (List (Nat × Nat × K))) :=
  basisB.strs.foldlM (scOuter .commutator tol basisA) (emptyBasis, [])

/-- `b2.index(b1.op_strings[i])` -/
def transferIndex (b1 b2 : Basis) (i : Nat) : Py Nat := do
  let s ← pyGet b1.strs i
  b2.index s

/-- one iteration of the loop that records the new structure constants (algorithms.py:138-155).  (The code translates all rows before
all columns; no translation fails.) -/
def exploreRecord (un : Basis) (unExt : Basis) (unData : Dict (List (Nat × Nat × K))) (basis ext : Basis)
    (d : Dict (List (Nat × Nat × K))) (os : OpString) : Py (Dict (List (Nat × Nat × K))) := do
  let new ← unData.lookup os
  let new ← new.mapM (fun e => do
    let r ← transferIndex unExt ext e.1
    let c ← transferIndex un basis e.2.1
    .ok (r, c, e.2.2))
  let old := match d.get? os with
    | some l => l
    | none => []
  .ok (d.set os (old ++ new))

/-- the part of `_explore` that updates the explored data (algorithms.py:127-155) -/
def exploreUpdate (basis : Basis) (H : Operator K) (st : Explored K) : Py (Explored K) := do
  let un ← mkBasis (basis.strs.filter (fun s => !st.basis.contains s))
  let (unExt, unData) ← structureConstantsData un H.basis
  let xb := st.basis.iadd un
  let xe := st.ext.iadd unExt
  let d ← H.terms.foldlM (fun d t => exploreRecord un unExt unData xb xe d t.2) st.data
  .ok ⟨xb, xe, d⟩

/-- a term is considered: it has one of the allowed labels, if these are given (algorithms.py:170, 190) -/
def allowedTerm (allowed : Option (List Int)) (s : OpString) : Bool :=
  match allowed with
  | none => true
  | some ls => s.labels.any (fun l => ls.contains l)

/-- the loop filling a dictionary from the positions of a list (algorithms.py:160-162, 178-180) -/
def positions (l : List Nat) : Assoc Nat Nat := l.zipIdx.foldl (fun d e => d.set e.1 e.2) []

/-- one iteration of the loop that collects the extended basis (algorithms.py:174-177) -/
def exploreExtStep (st : Explored K) (xToBasis : Assoc Nat Nat) (acc : Basis × List Nat) (e : Nat × Nat × K) : Py (Basis × List Nat) :=
  match xToBasis.get? e.2.1 with
  | none => .ok acc
  | some _ => do
    let s ← pyGet st.ext.strs e.1
    if acc.1.contains s then .ok acc else .ok (acc.1.iaddString s, acc.2 ++ [e.1])

/-- the extended basis of the given basis, and the positions of its strings in the explored one (algorithms.py:164-177) -/
def exploreExt (H : Operator K) (st : Explored K) (allowed : Option (List Int)) (xToBasis : Assoc Nat Nat) : Py (Basis × List Nat) :=
  (H.terms.filter (fun t => allowedTerm allowed t.2)).foldlM (fun acc t => do
    let d ← st.data.lookup t.2
    d.foldlM (exploreExtStep st xToBasis) acc) (emptyBasis, [])

/-- the entry of the matrix an explored structure constant gives, if any (algorithms.py:195-201) -/
def exploreEntry (xToBasis xToExt : Assoc Nat Nat) (coeff : K) (e : Nat × Nat × K) : Option (Nat × Nat × K) :=
  match xToBasis.get? e.2.1, xToExt.get? e.1 with
  | some j, some i => some (i, j, coeff * e.2.2)
  | _, _ => none

/-- the coordinate data of the matrix (algorithms.py:184-201) -/
def exploreData (H : Operator K) (st : Explored K) (allowed : Option (List Int)) (xToBasis xToExt : Assoc Nat Nat) :
    Py (List (Nat × Nat × K)) := do
  let l ← (H.terms.filter (fun t => allowedTerm allowed t.2)).mapM (fun t => do
    let d ← st.data.lookup t.2
    .ok (d.filterMap (exploreEntry xToBasis xToExt t.1)))
  .ok l.flatten

/-- `_explore(basis, H, explored_basis, explored_extended_basis, explored_s_constants_data, allowed_labels)`
(algorithms.py:122-205): the result and the updated objects -/
def explore (basis : Basis) (H : Operator K) (allowed : Option (List Int)) (st : Explored K) : Py ((Mat K × Basis) × Explored K) := do
  let st ← exploreUpdate basis H st
  let inds ← basis.strs.mapM st.basis.index
  let xToBasis := positions inds
  let (ext, extInds) ← exploreExt H st allowed xToBasis
  let xToExt := positions extInds
  let data ← exploreData H st allowed xToBasis xToExt
  let L ← mkCsr data ext.len basis.len
  .ok ((L, ext), st)

end Qosy
