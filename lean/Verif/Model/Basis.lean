import Verif.Model.AlgebraString

/-!
# Model of `qosy/basis.py`, part 1: `Basis` and `Operator` as values

Python objects are mutable; here every method returns the new value.  Sharing of objects (aliasing) is modelled
separately in `Model/Heap.lean`.
Dictionary keys: two `OperatorString`s are one key iff their hashes agree and `==` holds (`OpString.sameKey`), which is
structural equality of the model objects (`sameKey_iff_eq` in `Lemmas/Basis.lean`).
-/

namespace Qosy

/-- A Python dictionary with operator string keys, in insertion order. -/
abbrev Dict (V : Type) := List (OpString × V)

/-- `d[k]` / `k in d` -/
def Dict.get? {V : Type} (d : Dict V) (k : OpString) : Option V :=
  match d with
  | [] => none
  | (k', v) :: d' => if k' = k then some v else Dict.get? d' k

/-- `d[k] = v` -/
def Dict.set {V : Type} (d : Dict V) (k : OpString) (v : V) : Dict V :=
  match d with
  | [] => [(k, v)]
  | (k', v') :: d' => if k' = k then (k', v) :: d' else (k', v') :: Dict.set d' k v

/-- Python indexing `l[i]` with a non-negative index -/
def pyGet {α : Type} (l : List α) (i : Nat) : Py α :=
  match l[i]? with
  | some x => .ok x
  | none => .error .indexError

/-- `Basis` objects (basis.py:25-64): the attributes `op_strings` and `_indices`. -/
structure Basis where
  strs : List OpString
  idx : Dict Nat
deriving DecidableEq, Repr

/-- the loop of `Basis.__init__` filling `_indices` (basis.py:57-59) -/
def fillIndices : List OpString → Nat → Dict Nat → Dict Nat
  | [], _, d => d
  | s :: ss, i, d => fillIndices ss (i + 1) (d.set s i)

/-- `Basis(op_strings)` (basis.py:35-62) -/
def mkBasis (strs : List OpString) : Py Basis :=
  let idx := fillIndices strs 0 []
  if idx.length ≠ strs.length then .error .valueError else .ok ⟨strs, idx⟩

/-- `Basis()` -/
def emptyBasis : Basis := ⟨[], []⟩

/-- `Basis.index` (basis.py:64-82) -/
def Basis.index (b : Basis) (s : OpString) : Py Nat :=
  match b.idx.get? s with
  | some i => .ok i
  | none => .error .keyError

/-- `Basis.__contains__` (basis.py:155-174) -/
def Basis.contains (b : Basis) (s : OpString) : Bool := (b.idx.get? s).isSome

/-- `Basis.__len__` (basis.py:121-133) -/
def Basis.len (b : Basis) : Nat := b.strs.length

/-- `Basis.__getitem__` (basis.py:100-119) with an int index, including negative ones -/
def Basis.getItem (b : Basis) (i : Int) : Py OpString :=
  let j := if i < 0 then i + b.strs.length else i
  if j < 0 then .error .indexError
  else match b.strs[j.toNat]? with
    | some s => .ok s
    | none => .error .indexError

/-- `Basis.__add__` with a Basis (basis.py:198-199, 208) -/
def Basis.add (b other : Basis) : Py Basis :=
  mkBasis (b.strs ++ other.strs.filter (fun s => !b.contains s))

/-- `Basis.__add__` with an OperatorString (basis.py:200-204, 208) -/
def Basis.addString (b : Basis) (s : OpString) : Py Basis :=
  mkBasis (b.strs ++ if b.contains s then [] else [s])

/-- one iteration of the loop of `Basis.__iadd__` (basis.py:234-238) -/
def iaddStep (st : Basis × Nat) (s : OpString) : Basis × Nat :=
  if st.1.contains s then st else (⟨st.1.strs ++ [s], st.1.idx.set s st.2⟩, st.2 + 1)

/-- `Basis.__iadd__` with a Basis (basis.py:232-238) -/
def Basis.iadd (b other : Basis) : Basis := (other.strs.foldl iaddStep (b, b.strs.length)).1

/-- `Basis.__iadd__` with an OperatorString (basis.py:239-243) -/
def Basis.iaddString (b : Basis) (s : OpString) : Basis :=
  if b.contains s then b else ⟨b.strs ++ [s], b.idx.set s b.idx.length⟩

/-- Python equality of lists of strings (elementwise `==`, which ignores the prefactor) -/
def pyListEq : List OpString → List OpString → Bool
  | [], [] => true
  | s :: ss, t :: ts => s.pyEq t && pyListEq ss ts
  | _, _ => false

/-- `Basis.__eq__` (basis.py:249-264): equal lists and equal dictionaries (same keys with the same values) -/
def Basis.pyEq (b c : Basis) : Bool :=
  pyListEq b.strs c.strs && (b.idx.length == c.idx.length && b.idx.all (fun kv => c.idx.get? kv.1 == some kv.2))

section
variable {K : Type} [Field K] [StarRing K] [CoefOps K]

/-- `Operator` objects (basis.py:266-343): attributes `coeffs`, `_basis`, `op_type` -/
structure Operator (K : Type) where
  coeffs : List K
  basis : Basis
  opType : OpType
deriving DecidableEq

/-- `Operator(coeffs, basis, op_type)` with a Basis (basis.py:324-343) -/
def mkOperatorB (coeffs : List K) (basis : Basis) (opType : Option OpType) : Py (Operator K) :=
  match basis.strs, opType with
  | s :: _, _ => .ok ⟨coeffs, basis, s.opType⟩
  | [], none => .error .valueError
  | [], some t => .ok ⟨coeffs, basis, t⟩

/-- `Operator(coeffs, op_strings, op_type)` with a list of strings (basis.py:324-343) -/
def mkOperator (coeffs : List K) (strs : List OpString) (opType : Option OpType) : Py (Operator K) := do
  let b ← mkBasis strs
  mkOperatorB coeffs b opType

/-- `Operator.__iter__` (basis.py:656-670): `zip` stops at the shorter list -/
def Operator.terms (A : Operator K) : List (K × OpString) := A.coeffs.zip A.basis.strs

/-- `Operator.__eq__` (basis.py:716-747); coefficients are compared exactly -/
def Operator.pyEq [DecidableEq K] (A B : Operator K) : Bool :=
  A.opType == B.opType && A.coeffs.length == B.coeffs.length && A.coeffs == B.coeffs && A.basis.pyEq B.basis

/-- `Operator.__len__` (basis.py:672-690) -/
def Operator.len (A : Operator K) : Nat := A.basis.len

/-- the default tolerance `1e-16` -/
def tolOperator : ℚ := 1 / 10 ^ 16

/-- `Operator.remove_zeros(tol)` (basis.py:345-372); IndexError if there are more significant coefficients than strings -/
def Operator.removeZeros (A : Operator K) (tol : ℚ := tolOperator) : Py (Operator K) := do
  let inds := (List.range A.coeffs.length).filter (fun i => absGt (A.coeffs.getD i 0) tol)
  let coeffs := inds.map (fun i => A.coeffs.getD i 0)
  let strs ← inds.mapM (pyGet A.basis.strs)
  mkOperator coeffs strs (some A.opType)

/-- the loop of `Operator.to_vector` (basis.py:460-463) -/
def toVectorLoop (basis : Basis) : List (K × OpString) → List K → Py (List K)
  | [], v => .ok v
  | (c, s) :: ts, v => do
    let i ← basis.index s
    toVectorLoop basis ts (v.set i c)

/-- `Operator.to_vector(basis)` (basis.py:436-465), the 'numpy' format.  (The 'csc' format stores the same entries in
a sparse matrix and adds up repeated ones; an operator has no repeated strings.) -/
def Operator.toVector (A : Operator K) (basis : Basis) : Py (List K) :=
  toVectorLoop basis A.terms (List.replicate basis.len 0)

/-- `Operator.to_vector(basis, fmt='csc')` (basis.py:466-477): coordinate data of an n×1 sparse matrix, in which scipy
adds up repeated entries; returned here as a dense list -/
def Operator.toVectorCsc (A : Operator K) (basis : Basis) : Py (List K) := do
  let data ← A.terms.mapM (fun t => do let i ← basis.index t.2; Except.ok (i, t.1))
  .ok (data.foldl (fun v e => v.set e.1 (v.getD e.1 0 + e.2)) (List.replicate basis.len 0))

/-- numpy fancy indexing `vector[inds]`; IndexError when out of range -/
def gather (v : List K) (inds : List Nat) : Py (List K) :=
  inds.mapM (pyGet v)

/-- numpy broadcasting of the right operand of `a + b` to the length of `a` (1-dimensional; ValueError otherwise).
A left operand of length 1 would be broadcast too, but then the assignment back would fail with ValueError. -/
def broadcastTo (n : Nat) (w : List K) : Py (List K) :=
  if w.length = n then .ok w
  else match w with
    | [x] => .ok (List.replicate n x)
    | _ => .error .valueError

/-- numpy `vector[inds] += w` -/
def scatterAdd (v : List K) (inds : List Nat) (w : List K) : Py (List K) := do
  let old ← gather v inds
  let w' ← broadcastTo inds.length w
  .ok ((inds.zip (List.zipWith (· + ·) old w')).foldl (fun v e => v.set e.1 e.2) v)

/-- the end of `__add__` and `__iadd__` (basis.py:510-521, 547-558): pad the coefficients with zeros to the size of the enlarged basis and
add the coefficients of the other operator at its positions in the enlarged basis -/
def addTail (coeffs : List K) (newBasis : Basis) (oldLen : Nat) (other : Operator K) : Py (List K) := do
  let padded := coeffs ++ List.replicate (newBasis.len - oldLen) 0
  let inds ← other.basis.strs.mapM newBasis.index
  scatterAdd padded inds other.coeffs

/-- the common part of `__add__` and `__iadd__` (basis.py:507-521, 542-558): enlarge the basis, then `addTail` -/
def addInto (coeffs : List K) (basis : Basis) (oldLen : Nat) (other : Operator K) : Py (List K × Basis) := do
  let newBasis := basis.iadd other.basis
  let newCoeffs ← addTail coeffs newBasis oldLen other
  .ok (newCoeffs, newBasis)

/-- `Operator.__add__` (basis.py:481-523) -/
def Operator.add (A B : Operator K) : Py (Operator K) :=
  if A.opType ≠ B.opType then .error .valueError
  else do
    let new ← mkOperator A.coeffs A.basis.strs (some A.opType)
    let (c, b) ← addInto new.coeffs new.basis A.basis.len B
    .ok ⟨c, b, new.opType⟩

/-- `Operator.__iadd__` (basis.py:525-560), as a new value -/
def Operator.iadd (A B : Operator K) : Py (Operator K) :=
  if A.opType ≠ B.opType then .error .valueError
  else do
    let (c, b) ← addInto A.coeffs A.basis A.basis.len B
    .ok ⟨c, b, A.opType⟩

/-- `Operator.__mul__` and `__rmul__` with a scalar (basis.py:562-604) -/
def Operator.smul (A : Operator K) (x : K) : Py (Operator K) :=
  mkOperator (A.coeffs.map (· * x)) A.basis.strs (some A.opType)

/-- `Operator.__neg__` (basis.py:645-654) -/
def Operator.neg (A : Operator K) : Py (Operator K) := A.smul (-1)

/-- `Operator.__sub__` (basis.py:606-626) -/
def Operator.sub (A B : Operator K) : Py (Operator K) := do A.add (← B.smul (-1))

/-- `Operator.__isub__` (basis.py:628-643), as a new value -/
def Operator.isub (A B : Operator K) : Py (Operator K) := do A.iadd (← B.smul (-1))

end

/-- the `order` argument of `norm` and `normalize`: `None` (Euclidean norm) or `numpy.inf`; other orders are not modelled -/
inductive NormOrder
  | l2 | inf
deriving DecidableEq, Repr

/-- `Operator.norm(order)` (basis.py:374-414).  (numpy raises ValueError for the `inf` norm of an empty array; here 0.) -/
noncomputable def Operator.norm (A : Operator ℂ) : NormOrder → ℝ
  | .l2 => Real.sqrt ((A.coeffs.map (fun c => ‖c‖ ^ 2)).sum)
  | .inf => (A.coeffs.map (fun c => ‖c‖)).foldr max 0

open Classical in
/-- `Operator.normalize(order)` (basis.py:416-434), as a new value.  `none` means that numpy divides zeros by zero and
fills the coefficients with nan. -/
noncomputable def Operator.normalize (A : Operator ℂ) (order : NormOrder) : Option (Operator ℂ) :=
  if A.norm order = 0 ∧ A.coeffs ≠ [] then none
  else some { A with coeffs := A.coeffs.map (· / (A.norm order : ℂ)) }

end Qosy
