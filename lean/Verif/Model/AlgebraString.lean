import Verif.Model.Tools

/-!
# Model of `qosy/algebra.py`, part 1: operations on two `OperatorString`s
-/

namespace Qosy

/-- the three values of `operation_mode` used by the public functions -/
inductive Mode
  | product | commutator | anticommutator
deriving DecidableEq, Repr

/-- insertion into an ascending list without repetitions -/
def insertLabel (l : Int) : List Int → List Int
  | [] => [l]
  | x :: xs => if l < x then l :: x :: xs else if l = x then x :: xs else x :: insertLabel l xs

/-- `np.sort(list(set(labelsA).union(labelsB)))` (algebra.py:38-39): the ascending list of the distinct labels. -/
def sortedUnion (a b : List Int) : List Int := (a ++ b).foldr insertLabel []

section
variable {K : Type} [Field K] [StarRing K] [CoefOps K]

/-- the local variables updated by the loop of `_operation_opstring` (algebra.py:36, 56-59) -/
structure LoopState (K : Type) where
  coeff : K
  numDiff : Nat
  opsC : List Op
  labelsC : List Int

/-- `op_string.orbital_operators[ind]` -/
def OpString.opAt (s : OpString) (ind : Nat) : Py Op :=
  match s.ops[ind]? with
  | some op => .ok op
  | none => .error .indexError

/-- one iteration of the loop over the possible labels (algebra.py:60-87) -/
def loopStep (A B : OpString) (st : LoopState K) (label : Int) : Py (LoopState K) :=
  match lastIndex A.labels label, lastIndex B.labels label with
  | some indA, none => do
    let op ← A.opAt indA
    .ok { st with labelsC := st.labelsC ++ [label], opsC := st.opsC ++ [op] }
  | none, some indB => do
    let op ← B.opAt indB
    .ok { st with labelsC := st.labelsC ++ [label], opsC := st.opsC ++ [op] }
  | some indA, some indB => do
    let opA ← A.opAt indA
    let opB ← B.opAt indB
    if opA ≠ opB then
      match productDict (K := K) opA opB with
      | none => .error .keyError
      | some (const, opC) =>
        .ok { coeff := st.coeff * const, numDiff := st.numDiff + 1,
              opsC := st.opsC ++ [opC], labelsC := st.labelsC ++ [label] }
    else .ok st
  -- both indices are -1: Python would index with -1, but every label of the loop comes from A or B
  | none, none => .error .indexError

/-- the default `tol=1e-12` of `_operation_opstring` (algebra.py:19) -/
def tolString : ℚ := 1 / 10 ^ 12

/-- `_labels_ab_operators` of a string: only Majorana strings have this attribute (operatorstring.py:138-141). -/
def OpString.labelsABOf (s : OpString) : Py (List Int) :=
  if s.opType = .majorana then labelsAB s.ops s.labels else .error .attributeError

/-- `_operation_opstring(A, B, operation_mode)` (algebra.py:19-120). The result `(0, none)` is Python's `(0.0, None)`. -/
def operationOpString (mode : Mode) (A B : OpString) : Py (K × Option OpString) :=
  if ¬ (A.opType = .pauli ∨ A.opType = .majorana) then .error .notImplemented
  -- lines 31-34
  else if mode = .product ∧ A.pyEq B then do
    let identity ← mkOpString [] [] A.opType
    .ok (1, some identity)
  else do
    -- lines 38-39
    let labels := sortedUnion A.labels B.labels
    -- lines 41-54
    let (coeff1, coeff2) ←
      (if A.opType = .majorana then do
        let coeff := A.pref.val * B.pref.val
        let abA ← A.labelsABOf
        let abB ← B.labelsABOf
        let sign1 := (sortSign (abA ++ abB)).2
        let sign2 := (sortSign (abB ++ abA)).2
        pure (coeff * (sign1 : K), coeff * (sign2 : K))
      else pure ((1 : K), (1 : K)))
    -- lines 56-87
    let st ← labels.foldlM (loopStep A B) (⟨1, 0, [], []⟩ : LoopState K)
    -- lines 89-105
    let coeff : K :=
      if A.opType = .pauli then
        if mode = .product ∨ (st.numDiff % 2 = 1 ∧ mode = .commutator) ∨ (st.numDiff % 2 = 0 ∧ mode = .anticommutator)
        then st.coeff else 0
      else
        let c1 := coeff1 * st.coeff
        let c2 := coeff2 * star st.coeff
        if mode = .product ∨ (absGt (c1 - c2) tolString ∧ mode = .commutator)
            ∨ (absLt (c1 - c2) tolString ∧ mode = .anticommutator)
        then c1 else 0
    -- lines 110-111
    if absLt coeff tolString then .ok (0, none)
    else do
      -- lines 113-120
      let C ← mkOpString st.opsC st.labelsC A.opType
      let coeff := coeff / C.pref.val
      .ok (if mode ≠ .product then coeff * 2 else coeff, some C)

/-- `product(A, B)` of two strings (algebra.py:153-179) -/
def productS (A B : OpString) : Py (K × Option OpString) := operationOpString .product A B
/-- `commutator(A, B)` of two strings (algebra.py:181-207) -/
def commutatorS (A B : OpString) : Py (K × Option OpString) := operationOpString .commutator A B
/-- `anticommutator(A, B)` of two strings (algebra.py:209-241) -/
def anticommutatorS (A B : OpString) : Py (K × Option OpString) := operationOpString .anticommutator A B

end

end Qosy
