import Verif.Model.Basis

/-!
# Model of `qosy/basis.py`, part 2: mutable `Basis` and `Operator` objects

The heap holds three kinds of objects: Python lists of strings, `Basis` objects (a reference to the list
`op_strings` and the dictionary `_indices`) and `Operator` objects (the array `coeffs`, a reference to the Basis `_basis`
and `op_type`).  References are positions.  Objects are never removed.  The array of coefficients is never shared:
`Operator.__init__` copies it (basis.py:327) and every method assigns or updates the operator's own array.
-/

namespace Qosy

/-- the heap -/
structure Heap (K : Type) where
  lists : List (List OpString)
  bases : List (Nat × Dict Nat)
  ops : List (List K × Nat × OpType)

variable {K : Type}

/-- the empty heap -/
def Heap.empty : Heap K := ⟨[], [], []⟩

/-- the value of the `Basis` object with reference `r` -/
def Heap.basis (h : Heap K) (r : Nat) : Option Basis :=
  match h.bases[r]? with
  | some (l, d) =>
    match h.lists[l]? with
    | some ss => some ⟨ss, d⟩
    | none => none
  | none => none

/-- the value of the `Operator` object with reference `r` -/
def Heap.op (h : Heap K) (r : Nat) : Option (Operator K) :=
  match h.ops[r]? with
  | some (c, b, t) =>
    match h.basis b with
    | some B => some ⟨c, B, t⟩
    | none => none
  | none => none

/-- write the value `B` into the Basis object `r` (and into the list it refers to) -/
def Heap.setBasis (h : Heap K) (r : Nat) (B : Basis) : Heap K :=
  match h.bases[r]? with
  | some (l, _) => { h with lists := h.lists.set l B.strs, bases := h.bases.set r (l, B.idx) }
  | none => h

/-- a new Basis object with its own new list -/
def Heap.allocBasis (h : Heap K) (B : Basis) : Heap K :=
  { h with lists := h.lists ++ [B.strs], bases := h.bases ++ [(h.lists.length, B.idx)] }

/-- a new Operator object with its own new Basis and list -/
def Heap.allocOp (h : Heap K) (A : Operator K) : Heap K :=
  let h' := h.allocBasis A.basis
  { h' with ops := h'.ops ++ [(A.coeffs, h.bases.length, A.opType)] }

/-- what a user program can do with these objects; arguments are references -/
inductive Cmd (K : Type)
  /-- `L = [s1, s2, ...]` -/
  | newList (ss : List OpString)
  /-- `Basis(L)` (basis.py:35-62): keeps the list by reference -/
  | basisOf (l : Nat)
  /-- `Basis()` -/
  | basisEmpty
  /-- `b + c` -/
  | basisAdd (b c : Nat)
  /-- `b + s` -/
  | basisAddString (b : Nat) (s : OpString)
  /-- `b += c` -/
  | basisIadd (b c : Nat)
  /-- `b += s` -/
  | basisIaddString (b : Nat) (s : OpString)
  /-- `Operator(coeffs, L, op_type)` with a list: the list is copied (basis.py:332-333) -/
  | opOfList (coeffs : List K) (l : Nat) (t : Option OpType)
  /-- `Operator(coeffs, b, op_type)` with a Basis: kept by reference (basis.py:334-335) -/
  | opOfBasis (coeffs : List K) (b : Nat) (t : Option OpType)
  /-- `x + y` -/
  | opAdd (x y : Nat)
  /-- `x - y` -/
  | opSub (x y : Nat)
  /-- `x * c`, `c * x`, and `-x` with `c = -1` -/
  | opSmul (x : Nat) (c : K)
  /-- `x.remove_zeros(tol)` -/
  | opRemoveZeros (x : Nat) (tol : ℚ)
  /-- `x += y` -/
  | opIadd (x y : Nat)
  /-- `x -= y` -/
  | opIsub (x y : Nat)
  /-- in-place rescaling `x.coeffs /= c`, the effect of `x.normalize()` (basis.py:434) -/
  | opRescale (x : Nat) (c : K)

section
variable [Field K] [StarRing K] [CoefOps K]

/-- `x += y` on objects (basis.py:525-560).  The loop of `Basis.__iadd__` runs over `other.op_strings`; if that is
the very list being appended to, the appended strings are already in `_indices` when the loop reaches them, so iterating
over the list as it was at the beginning gives the same result.  An exception after the basis was enlarged leaves
the enlarged basis and the padded coefficients behind. -/
def Heap.iaddOp (h : Heap K) (x y : Nat) : Heap K × Option PyErr :=
  match h.ops[x]?, h.op x, h.op y with
  | some (cs, b, t), some A, some B =>
    if A.opType ≠ B.opType then (h, some .valueError)
    else
      let h1 := h.setBasis b (A.basis.iadd B.basis)
      match h1.basis b, h1.op y with
      | some newBasis, some B' =>
        match addTail cs newBasis A.basis.len B' with
        | .ok cs' => ({ h1 with ops := h1.ops.set x (cs', b, t) }, none)
        | .error e =>
          ({ h1 with ops := h1.ops.set x (cs ++ List.replicate (newBasis.len - A.basis.len) 0, b, t) }, some e)
      | _, _ => (h, some .nameError)
  | _, _, _ => (h, some .nameError)

/-- the effect of evaluating an expression that yields a new Operator with its own Basis -/
def Heap.newOp (h : Heap K) (r : Py (Operator K)) : Heap K × Option PyErr :=
  match r with
  | .ok A => (h.allocOp A, none)
  | .error e => (h, some e)

/-- One statement of a user program; the second component is the exception it raises, if any.  Unknown references
raise NameError. -/
def Heap.step (h : Heap K) : Cmd K → Heap K × Option PyErr
  | .newList ss => ({ h with lists := h.lists ++ [ss] }, none)
  | .basisOf l =>
    match h.lists[l]? with
    | none => (h, some .nameError)
    | some ss =>
      match mkBasis ss with
      | .ok B => ({ h with bases := h.bases ++ [(l, B.idx)] }, none)
      | .error e => (h, some e)
  | .basisEmpty => (h.allocBasis emptyBasis, none)
  | .basisAdd b c =>
    match h.basis b, h.basis c with
    | some B, some C =>
      match B.add C with
      | .ok D => (h.allocBasis D, none)
      | .error e => (h, some e)
    | _, _ => (h, some .nameError)
  | .basisAddString b s =>
    match h.basis b with
    | some B =>
      match B.addString s with
      | .ok D => (h.allocBasis D, none)
      | .error e => (h, some e)
    | none => (h, some .nameError)
  | .basisIadd b c =>
    match h.basis b, h.basis c with
    | some B, some C => (h.setBasis b (B.iadd C), none)
    | _, _ => (h, some .nameError)
  | .basisIaddString b s =>
    match h.basis b with
    | some B => (h.setBasis b (B.iaddString s), none)
    | none => (h, some .nameError)
  | .opOfList cs l t =>
    match h.lists[l]? with
    | some ss => h.newOp (mkOperator cs ss t)
    | none => (h, some .nameError)
  | .opOfBasis cs b t =>
    match h.basis b with
    | some B =>
      match mkOperatorB cs B t with
      | .ok A => ({ h with ops := h.ops ++ [(cs, b, A.opType)] }, none)
      | .error e => (h, some e)
    | none => (h, some .nameError)
  | .opAdd x y =>
    match h.op x, h.op y with
    | some A, some B => h.newOp (A.add B)
    | _, _ => (h, some .nameError)
  | .opSub x y =>
    match h.op x, h.op y with
    | some A, some B => h.newOp (A.sub B)
    | _, _ => (h, some .nameError)
  | .opSmul x c =>
    match h.op x with
    | some A => h.newOp (A.smul c)
    | none => (h, some .nameError)
  | .opRemoveZeros x tol =>
    match h.op x with
    | some A => h.newOp (A.removeZeros tol)
    | none => (h, some .nameError)
  | .opIadd x y => h.iaddOp x y
  -- basis.py:643: the operator `-1.0*other` is a new object
  | .opIsub x y =>
    match h.op y with
    | some B =>
      match B.smul (-1) with
      | .ok N => (h.allocOp N).iaddOp x h.ops.length
      | .error e => (h, some e)
    | none => (h, some .nameError)
  | .opRescale x c =>
    match h.ops[x]? with
    | some (cs, b, t) => ({ h with ops := h.ops.set x (cs.map (· / c), b, t) }, none)
    | none => (h, some .nameError)

/-- running a program; an exception is caught and the program goes on -/
def Heap.run (h : Heap K) (cmds : List (Cmd K)) : Heap K := cmds.foldl (fun h c => (h.step c).1) h

end
end Qosy
