import Verif.Coef

/-!
# Model of `qosy/config.py` and `qosy/operatorstring.py` (objects; the text parser is in `Model/Text.lean`)
-/

namespace Qosy

/-- The Python exceptions the modelled code can raise. -/
inductive PyErr
  | valueError | keyError | indexError | typeError | notImplemented | zeroDivision
  | nameError | attributeError | recursionError | assertionError
deriving DecidableEq, Repr

/-- A Python computation that may raise. -/
abbrev Py := Except PyErr

/-- `op_type` strings (operatorstring.py:107). `other` is any other Python string. -/
inductive OpType
  | pauli | majorana | fermion
  | other (s : List Char)
deriving DecidableEq, Repr

/-- Orbital operator names (config.py:4-7). `other` is any other Python string. -/
inductive Op
  | X | Y | Z | A | B | D | CDag | C
  | other (s : List Char)
deriving DecidableEq, Repr

/-- `PAULI_OPS` (config.py:4) -/
def pauliOps : List Op := [.X, .Y, .Z]
/-- `MAJORANA_OPS` (config.py:5) -/
def majoranaOps : List Op := [.A, .B, .D]
/-- `FERMION_OPS` (config.py:6) -/
def fermionOps : List Op := [.CDag, .C]
/-- `VALID_OPS` (config.py:7) -/
def validOps : List Op := pauliOps ++ majoranaOps ++ fermionOps

section
variable {K : Type} [Field K] [CoefOps K]

/-- `PRODUCT_DICT` (config.py:12-21): the table of products of different operators of one family.
`none` is a missing key. -/
def productDict : Op → Op → Option (K × Op)
  | .X, .Y => some (I, .Z)  | .Y, .X => some (-I, .Z)
  | .X, .Z => some (-I, .Y) | .Z, .X => some (I, .Y)
  | .Y, .Z => some (I, .X)  | .Z, .Y => some (-I, .X)
  | .A, .B => some (I, .D)  | .B, .A => some (-I, .D)
  | .A, .D => some (-I, .B) | .D, .A => some (I, .B)
  | .B, .D => some (I, .A)  | .D, .B => some (-I, .A)
  | _, _ => none
end

/-- The Python objects that can be stored as a valid prefactor: the int `1`, the float `1.0`,
the complex number `1+0j` and the complex number `1j`. They matter separately because the name (and
hence the hash) of a string contains `str(prefactor)`. -/
inductive Pref
  | int1 | float1 | complex1 | imag
deriving DecidableEq, Repr

/-- the numerical value of a prefactor -/
def Pref.val {K : Type} [Field K] [CoefOps K] : Pref → K
  | .imag => I
  | _ => 1

/-- Python `str(prefactor)`. -/
def Pref.text : Pref → List Char
  | .int1 => ['1']
  | .float1 => ['1', '.', '0']
  | .complex1 => ['(', '1', '+', '0', 'j', ')']
  | .imag => ['1', 'j']

/-- `OperatorString` objects (operatorstring.py:15-159): the attributes `orbital_operators`,
`orbital_labels`, `op_type`, `prefactor`.  The derived attributes `_indices_orbital_labels`,
`_labels_ab_operators`, `name` are functions of these (below). -/
structure OpString where
  ops : List Op
  labels : List Int
  opType : OpType
  pref : Pref
deriving DecidableEq, Repr

/-- `_labels_ab_operators` (operatorstring.py:141): the labels of the 'A' and 'B' operators, in order.
The comprehension runs over the labels and indexes the operators, so too few operators give IndexError. -/
def labelsAB : List Op → List Int → Py (List Int)
  | _, [] => .ok []
  | [], _ :: _ => .error .indexError
  | op :: ops, l :: ls => do
    let rest ← labelsAB ops ls
    if op = .A ∨ op = .B then .ok (l :: rest) else .ok rest

/-- `OperatorString.__init__` (operatorstring.py:94-159). The `prefactor` argument is `some p` for a number equal
to 1 or 1j and `none` for any other number.  The length check at lines 126-127 builds a `ValueError` but does
not raise it, so it has no effect and is absent here. -/
def mkOpString (ops : List Op) (labels : List Int) (opType : OpType) (pref : Option Pref := some .float1) :
    Py OpString := do
  -- lines 138-148: a Majorana string with an odd number of swaps gets prefactor 1j
  let pref ←
    if opType = .majorana then do
      let ab ← labelsAB ops labels
      let numAB := ab.length
      if (numAB * (numAB - 1) / 2) % 2 = 1 then pure (some Pref.imag) else pure pref
    else pure pref
  -- lines 150-153: the prefactor check
  match opType, pref with
  | .pauli, none => .error .valueError
  | .pauli, some .imag => .error .valueError
  | .majorana, none => .error .valueError
  | .fermion, none => .error .valueError
  -- an unknown `op_type` is not checked at all; an odd prefactor is then stored as it is (we keep 1.0)
  | _, p => .ok ⟨ops, labels, opType, p.getD .float1⟩

/-- `OperatorString.__eq__` (operatorstring.py:190-214): the prefactor is *not* compared. -/
def OpString.pyEq (s t : OpString) : Bool :=
  s.ops.length == t.ops.length && s.ops == t.ops && s.labels == t.labels && s.opType == t.opType

/-- The name of an orbital operator. -/
def Op.text : Op → List Char
  | .X => ['X'] | .Y => ['Y'] | .Z => ['Z'] | .A => ['A'] | .B => ['B'] | .D => ['D']
  | .CDag => ['C', 'D', 'a', 'g'] | .C => ['C'] | .other s => s

/-- decimal digits of a natural number, most significant first (`fuel` bounds the number of digits) -/
def natDigits : Nat → Nat → List Char
  | 0, _ => []
  | fuel + 1, n =>
    if n < 10 then [Char.ofNat (48 + n)] else natDigits fuel (n / 10) ++ [Char.ofNat (48 + n % 10)]

/-- Python `str` of a natural number -/
def natText (n : Nat) : List Char := natDigits (n + 1) n

/-- Python `str` of an integer -/
def intText : Int → List Char
  | .ofNat n => natText n
  | .negSucc n => '-' :: natText (n + 1)

/-- the repeated part of `OperatorString.name` (operatorstring.py:156-157) -/
def wordText : List Op → List Int → List Char
  | op :: ops, l :: ls => op.text ++ ' ' :: intText l ++ ' ' :: wordText ops ls
  | _, _ => []

/-- `OperatorString.name` (operatorstring.py:155-159), also `__str__` (161-178) and, under `hash`, `__hash__` (180-188). -/
def OpString.name (s : OpString) : List Char := s.pref.text ++ ' ' :: wordText s.ops s.labels

/-- When Python dictionaries and sets treat two strings as one key: equal hashes (assumed: equal names) and `==`. -/
def OpString.sameKey (s t : OpString) : Bool := s.name == t.name && s.pyEq t

/-- The index stored in `_indices_orbital_labels` for a label (operatorstring.py:133-135): the last position with
that label. -/
def lastIndex (labels : List Int) (l : Int) : Option Nat :=
  go labels 0 none
where
  go : List Int → Nat → Option Nat → Option Nat
    | [], _, r => r
    | x :: xs, n, r => go xs (n + 1) (if x = l then some n else r)

/-- the identity string of a type, `OperatorString([], [], op_type)` -/
def identityString (t : OpType) : OpString := ⟨[], [], t, .float1⟩

end Qosy
