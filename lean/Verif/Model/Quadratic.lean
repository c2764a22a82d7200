import Verif.Model.Conversion
import Verif.Model.Diagonalization

/-!
# Model of the quadratic Hamiltonians of `qosy/diagonalization.py`

`sla.schur` and `nla.eigh` are not modelled: the matrices handed to them are, and what is done with their results, which are
parameters here.  The `lattice` argument of `diagonalize_quadratic` (which always ends in an exception) and the sparse
eigensolver selected by `num_vecs` are left out.
-/

namespace Qosy
variable {K : Type} [Field K] [StarRing K] [CoefOps K]

/-- `ss.csr_matrix((data, (row_inds, col_inds)), shape=(m, n))` for integer indices: ValueError for negative ones -/
def mkCsrInt (data : List (Int × Int × K)) (m n : Nat) : Py (Mat K) :=
  if data.all (fun e => decide (0 ≤ e.1) && decide (0 ≤ e.2.1)) then mkCsr (data.map (fun e => (e.1.toNat, e.2.1.toNat, e.2.2))) m n
  else .error .valueError

/-! ### diagonalize_quadratic -/

/-- the index of `a_j` is `2j` and the index of `b_j` is `2j+1` (diagonalization.py:269-279) -/
def majoranaIndex (op : Op) (label : Int) : Int := if op = .A then 2 * label else 2 * label + 1

/-- the indices and the sign of one string (diagonalization.py:258-281) -/
def quadraticIndices (s : OpString) : Py (Int × Int × K) :=
  match s.ops with
  | [.D] => do
    let label ← pyGet s.labels 0
    pure (2 * label, 2 * label + 1, -1)
  | [p, q] =>
    if p ∈ [Op.A, .B] ∧ q ∈ [Op.A, .B] then do
      let label1 ← pyGet s.labels 0
      let label2 ← pyGet s.labels 1
      pure (majoranaIndex p label1, majoranaIndex q label2, 1)
    else .error .valueError
  | _ => .error .valueError

/-- the two entries of one term, `A_ij` and `A_ji = -A_ij` (diagonalization.py:258-291) -/
def quadraticEntries (c : K) (s : OpString) : Py (List (Int × Int × K)) := do
  let (i, j, sign) ← quadraticIndices s
  pure [(i, j, 1 / 2 * 4 * reOf c * sign), (j, i, -1 / 2 * 4 * reOf c * sign)]

/-- the loop over the terms, which appends to `data`, `row_inds` and `col_inds` (diagonalization.py:258, 375, 418) -/
def entriesLoop (f : K → OpString → Py (List (Int × Int × K))) : List (K × OpString) → List (Int × Int × K) → Py (List (Int × Int × K))
  | [], acc => .ok acc
  | (c, s) :: rest, acc => do
    let es ← f c s
    entriesLoop f rest (acc ++ es)

/-- the matrix `A` of `diagonalize_quadratic` (diagonalization.py:247-296) -/
def quadraticMatrix (A : Operator K) (n : Nat) : Py (Mat K) := do
  let op ← match A.opType with
    | .fermion => convertOperator A .majorana false
    | .majorana => .ok A
    | _ => .error .valueError
  let data ← entriesLoop quadraticEntries op.terms []
  mkCsrInt data (2 * n) (2 * n)

section real
variable {F : Type} [Field F] [LinearOrder F]

/-- the columns `a` and `b` of `Z` exchanged (diagonalization.py:330-332) -/
def Dense.swapColumns (Z : Dense F) (a b : Nat) : Dense F :=
  ⟨Z.nrows, Z.ncols, fun i j => if j = a then Z.get i b else if j = b then Z.get i a else Z.get i j⟩

/-- the loop that makes the energies positive (diagonalization.py:327-332) -/
def positiveModes (thr : F) (T : Dense F) : List Nat → List F × Dense F → Py (List F × Dense F)
  | [], st => .ok st
  | n :: rest, (eigvals, Z) => do
    let e ← pyGet eigvals n
    if thr < |e| ∧ e < -thr then
      let eigvals ← npSet eigvals n (T.get (2 * n + 1) (2 * n))
      positiveModes thr T rest (eigvals, Z.swapColumns (2 * n) (2 * n + 1))
    else positiveModes thr T rest (eigvals, Z)

/-- `constant_shift`, `eigvals` and `eigvecs_Majorana` of `diagonalize_quadratic` from the result `(T, Z)` of `sla.schur`
(diagonalization.py:317-336 and 362) -/
def quadraticModes (thr : F) (N : Nat) (T Z : Dense F) : Py (F × List F × Dense F) := do
  let eigvals := (List.range N).map (fun n => T.get (2 * n) (2 * n + 1))
  let (eigvals, Z) ← positiveModes thr T (List.range N) (eigvals, Z)
  pure (-1 / 2 * eigvals.sum, eigvals, Z)

end real

/-- the body of the loop that fills `eigvecs_Fermion` (diagonalization.py:345-359) -/
def fermionVectorsStep (Z : Dense K) (m n : Nat) (E : Dense K) : Py (Dense K) := do
  let E ← E.set m n (1 / 2 * (Z.get (2 * m) (2 * n) + I * Z.get (2 * m) (2 * n + 1) - I * Z.get (2 * m + 1) (2 * n) + Z.get (2 * m + 1) (2 * n + 1)))
  let E ← E.set m (2 * n + 1) (1 / 2 * (Z.get (2 * m) (2 * n) + I * Z.get (2 * m) (2 * n + 1) + I * Z.get (2 * m + 1) (2 * n) - Z.get (2 * m + 1) (2 * n + 1)))
  let E ← E.set (2 * m + 1) n (1 / 2 * (Z.get (2 * m) (2 * n) - I * Z.get (2 * m) (2 * n + 1) - I * Z.get (2 * m + 1) (2 * n) - Z.get (2 * m + 1) (2 * n + 1)))
  E.set (2 * m + 1) (2 * n + 1) (1 / 2 * (Z.get (2 * m) (2 * n) + I * Z.get (2 * m) (2 * n + 1) - I * Z.get (2 * m + 1) (2 * n) + Z.get (2 * m + 1) (2 * n + 1)))

/-- the loops that fill `eigvecs_Fermion`, over the given pairs `(m, n)` -/
def fermionVectorsLoop (Z : Dense K) : List (Nat × Nat) → Dense K → Py (Dense K)
  | [], E => .ok E
  | (m, n) :: rest, E => do
    let E ← fermionVectorsStep Z m n E
    fermionVectorsLoop Z rest E

/-- `eigvecs_Fermion` (diagonalization.py:340-359) -/
def fermionVectors (Z : Dense K) (N : Nat) : Py (Dense K) :=
  fermionVectorsLoop Z ((List.range N).flatMap (fun m => (List.range N).map (fun n => (m, n)))) ⟨2 * N, 2 * N, fun _ _ => 0⟩

/-! ### diagonalize_quadratic_tightbinding -/

/-- the entries of one string (diagonalization.py:376-393) -/
def tightBindingEntries (c : K) (s : OpString) : Py (List (Int × Int × K)) :=
  match s.ops with
  | [.CDag, .C] => do
    let orb1 ← pyGet s.labels 0
    let orb2 ← pyGet s.labels 1
    if orb1 = orb2 then pure [(orb1, orb2, reOf (c * s.pref.val))]
    else pure [(orb1, orb2, c * s.pref.val), (orb2, orb1, star (c * s.pref.val))]
  | _ => .error .valueError

/-- `tight_binding_hamiltonian` (diagonalization.py:369-394) -/
def tightBindingMatrix (A : Operator K) (n : Nat) : Py (Mat K) := do
  let op ← convertOperator A .fermion false
  let data ← entriesLoop tightBindingEntries op.terms []
  mkCsrInt data n n

/-! ### diagonalize_bdg -/

/-- the entries of one string (diagonalization.py:419-448); `N` is the number of orbitals -/
def bdgEntries (N : Int) (c : K) (s : OpString) : Py (List (Int × Int × K)) :=
  match s.ops with
  | [.CDag, .C] => do
    let i ← pyGet s.labels 0
    let j ← pyGet s.labels 1
    let tij := c * s.pref.val
    if i ≠ j then pure [(i, j, tij), (j, i, star tij), (i + N, j + N, -star tij), (j + N, i + N, -tij)]
    else pure [(i, i, tij), (i + N, i + N, -star tij)]
  | [.CDag, .CDag] => do
    let i ← pyGet s.labels 0
    let j ← pyGet s.labels 1
    let dij := c * s.pref.val
    if i ≠ j then pure [(i, j + N, dij), (j, i + N, -dij), (i + N, j, -star dij), (j + N, i, star dij)]
    else .error .valueError
  | _ => .error .valueError

/-- the matrix `H` of `diagonalize_bdg` (diagonalization.py:405-450) -/
def bdgMatrix (A : Operator K) (n : Nat) : Py (Mat K) := do
  let op ← match A.opType with
    | .majorana => convertOperator A .fermion false
    | .fermion => .ok A
    | _ => .error .valueError
  let data ← entriesLoop (bdgEntries n) op.terms []
  mkCsrInt data (2 * n) (2 * n)

end Qosy
