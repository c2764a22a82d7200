import Verif.Model.OpString

/-! # Model of `opstring`, the text format of operator strings (qosy/operatorstring.py:229-307) -/

namespace Qosy

/-- the characters at which Python's `str.split()` splits -/
def isSpace (c : Char) : Bool :=
  let n := c.toNat
  (9 ≤ n && n ≤ 13) || (28 ≤ n && n ≤ 32) || n == 133 || n == 160 || n == 5760 || (8192 ≤ n && n ≤ 8202) || n == 8232 || n == 8233 ||
    n == 8239 || n == 8287 || n == 12288

/-- the loop of `str.split()`; `cur` is the word being read -/
def splitGo : List Char → List Char → List (List Char)
  | [], cur => if cur = [] then [] else [cur]
  | c :: cs, cur =>
    if isSpace c then
      if cur = [] then splitGo cs [] else cur :: splitGo cs []
    else splitGo cs (cur ++ [c])

/-- `text.strip().split()` (operatorstring.py:265); `strip` only removes leading and trailing white space, which `split` ignores
anyway -/
def splitWords (text : List Char) : List (List Char) := splitGo text []

/-- `l[0::2]` -/
def everySecond {α : Type} : List α → List α
  | [] => []
  | [x] => [x]
  | x :: _ :: xs => x :: everySecond xs

/-- the value of a decimal digit (non-ASCII digits are not modelled) -/
def digitVal (c : Char) : Option Nat := if 48 ≤ c.toNat ∧ c.toNat ≤ 57 then some (c.toNat - 48) else none

/-- the digits of Python's `int(text)`: `us` says that a digit has to follow (at the beginning and after an underscore) -/
def parseDigits : List Char → Bool → Nat → Option Nat
  | [], true, _ => none
  | [], false, acc => some acc
  | c :: cs, us, acc =>
    if c = '_' then if us then none else parseDigits cs true acc
    else match digitVal c with
      | some v => parseDigits cs false (acc * 10 + v)
      | none => none

/-- Python's `int(text)` of a word without white space; `none` is ValueError -/
def parseInt : List Char → Option Int
  | '-' :: cs => (parseDigits cs true 0).map (fun n => -(n : Int))
  | '+' :: cs => (parseDigits cs true 0).map (fun n => (n : Int))
  | cs => (parseDigits cs true 0).map (fun n => (n : Int))

/-- the orbital operator with a given name -/
def Op.ofText (w : List Char) : Op :=
  match w with
  | ['X'] => .X | ['Y'] => .Y | ['Z'] => .Z | ['A'] => .A | ['B'] => .B | ['D'] => .D
  | ['C', 'D', 'a', 'g'] => .CDag | ['C'] => .C | w => .other w

/-- `np.array(words, dtype=int)`; ValueError if a word is not an integer -/
def parseLabels (words : List (List Char)) : Py (List Int) :=
  words.mapM (fun w => match parseInt w with
    | some n => .ok n
    | none => .error .valueError)

/-- the type deduced from the last operator (operatorstring.py:284-291) -/
def deduceType (ops : List Op) : Py OpType :=
  match ops.getLast? with
  | none => .error .indexError
  | some o =>
    if o ∈ pauliOps then .ok .pauli
    else if o ∈ majoranaOps then .ok .majorana
    else if o ∈ fermionOps then .ok .fermion
    else .error .valueError

/-- the end of `opstring` (operatorstring.py:273-280, 284-296): labels, deduced type, construction -/
def opstringBuild (opWords labelWords : List (List Char)) (pref : Pref) (opType : Option OpType) : Py OpString := do
  let ops := opWords.map Op.ofText
  let labels ← parseLabels labelWords
  let t ← deduceType ops
  if opType ≠ none ∧ opType ≠ some t then .error .valueError
  else mkOpString ops labels t (some pref)

/-- the identity (operatorstring.py:267-271) -/
def opstringIdentity : Option OpType → Py OpString
  | none => .error .valueError
  | some t => mkOpString [] [] t

/-- `complex(name_list[0])` for the words `'1'`, `'1.0'`, `'1j'` (operatorstring.py:280); `none` for other words -/
def prefOfText (w : List Char) : Option Pref :=
  if w = ['1'] ∨ w = ['1', '.', '0'] then some .complex1
  else if w = ['1', 'j'] then some .imag
  else none

/-- `opstring(op_string_name, op_type)` (operatorstring.py:229-307) -/
def opstring (text : List Char) (opType : Option OpType := none) : Py OpString :=
  match splitWords text with
  | [] => opstringIdentity opType
  | w :: rest =>
    if rest = [] ∧ (w = ['1'] ∨ w = ['1', '.', '0'] ∨ w = ['I']) then opstringIdentity opType
    else if Op.ofText w ∈ validOps then opstringBuild (everySecond (w :: rest)) (everySecond rest) .float1 opType
    else match prefOfText w with
      | none => .error .valueError
      | some p =>
        match rest with
        | [] => .error .indexError
        | w1 :: rest' =>
          if Op.ofText w1 ∈ validOps then opstringBuild (everySecond (w1 :: rest')) (everySecond rest') p opType
          else .error .valueError

end Qosy
