import Verif.Model.Lattice
import Verif.Model.Names
import Verif.Model.Conversion

/-! # Model of the printing functions (qosy/visualization.py:19-220) and of the texts of bases and operators (basis.py:135-153, 692-714) -/

namespace Qosy

/-- the numbers of a tuple, separated by `', '` -/
def commaText : List ℕ → List Char
  | [] => []
  | [n] => natText n
  | n :: ns => natText n ++ ',' :: ' ' :: commaText ns

/-- Python `str` of a tuple of natural numbers -/
def tupleText : List ℕ → List Char
  | [n] => '(' :: natText n ++ [',', ')']
  | ns => '(' :: commaText ns ++ [')']

/-- the loop that looks for the atom of an orbital (visualization.py:58-69); the list has the numbers of orbitals of all atoms but the last -/
def atomIndexLoop (orbitalIndex : ℕ) : List ℕ → ℕ → ℕ → ℕ
  | [], _, atom => atom
  | n :: ns, index1, atom =>
    if index1 ≤ orbitalIndex ∧ orbitalIndex < index1 + n then atom else atomIndexLoop orbitalIndex ns (index1 + n) (atom + 1)

variable {F ν : Type}

/-- `orbital_info` (visualization.py:53-88) for an orbital label; `x // 0` and `x % 0` are not reached because there is an orbital -/
def orbitalInfo (L : Lattice F (List Char) ν) (label : ℕ) (orb : Orbital F (List Char)) : List Char :=
  let perCell := L.orbitals.length / L.numCells.prod
  let atom := atomIndexLoop (label % perCell) (L.unitCell.orbitals.dropLast.map List.length) 0 0
  let cell := if L.numCells.prod ≠ 1 then tupleText orb.2.2 ++ [';', ' '] else []
  let name := if orb.2.1 ≠ [] then ';' :: ' ' :: orb.2.1 ++ ['}'] else ['}']
  '{' :: cell ++ natText atom ++ name

/-- `substitutions` (visualization.py:41-90): the labels in decreasing order -/
def orbitalSubstitutions (L : Lattice F (List Char) ν) : List (List Char × List Char) :=
  L.orbitals.zipIdx.reverse.map fun o => (' ' :: natText o.2, '_' :: orbitalInfo L o.2 o.1)

/-- `relabel_orbitals(string, lattice)` (visualization.py:19-94) -/
def relabelOrbitals (s : List Char) (L : Lattice F (List Char) ν) : Py (List Char) := replaceNames s (orbitalSubstitutions L)

/-- `Basis.__str__` (basis.py:135-153) -/
def Basis.text (b : Basis) : List Char := b.strs.flatMap fun s => s.name ++ ['\n']

/-- `Operator.__str__` (basis.py:692-714); `number` is `str` of a coefficient.  Fewer strings than coefficients give IndexError. -/
def Operator.text {K : Type} (number : K → List Char) (A : Operator K) : Py (List Char) :=
  if A.basis.strs.length < A.coeffs.length then .error .indexError
  else .ok (A.terms.flatMap fun t => number t.1 ++ ' ' :: '(' :: t.2.name ++ [')', '\n'])

/-- `s.split('\\n')` -/
def splitLines : List Char → List (List Char)
  | [] => [[]]
  | c :: s =>
    if c = '\n' then [] :: splitLines s
    else match splitLines s with
      | l :: ls => (c :: l) :: ls
      | [] => [[c]]

/-- the lines that contain a keyword (visualization.py:148-157, 206-215) -/
def keepLines (keywords : List (List Char)) (s : List Char) : List Char :=
  (splitLines s).flatMap fun line => if keywords.any fun k => occursIn k line then line ++ ['\n'] else []

/-- one iteration of the loops of `print_vectors` and `print_operators`: the text printed for an operator (visualization.py:135-159, 194-217).
The `inf` norm of an empty array is a ValueError of numpy.  Simplification: printing nan (only possible for negative tolerances) is an error
value here. -/
noncomputable def printedText (number : ℂ → List Char) (lattice : Option (Lattice F (List Char) ν)) (keywords : Option (List (List Char)))
    (order : NormOrder) (tol : ℚ) (A : Operator ℂ) : Py (List Char) := do
  let B ← A.removeZeros tol
  if order = .inf ∧ B.coeffs = [] then .error .valueError
  else match B.normalize order with
    | none => .error .zeroDivision
    | some C => do
      let t ← C.text number
      let t ← match lattice with
        | none => .ok t
        | some L => relabelOrbitals t L
      .ok (match keywords with
        | none => t
        | some ks => keepLines ks t)

/-- the optional conversion (visualization.py:130-131, 187-190) -/
noncomputable def convertAll (operators : List (Operator ℂ)) : Option OpType → Py (List (Operator ℂ))
  | none => .ok operators
  | some t => operators.mapM fun A => convertOperator A t false

/-- what is printed: a heading and the text of every operator -/
def printedPage (heading : List Char) (texts : List (List Char)) : List Char :=
  (texts.zipIdx 1).flatMap fun x => heading ++ natText x.2 ++ " = \n".toList ++ x.1 ++ ['\n']

/-- `print_operators(operators, lattice, keywords, convert_to, norm_order, tol)` (visualization.py:163-220); the value is the text printed.
Simplification: what is printed before an exception is not recorded. -/
noncomputable def printOperators (number : ℂ → List Char) (operators : List (Operator ℂ)) (lattice : Option (Lattice F (List Char) ν))
    (keywords : Option (List (List Char))) (convertTo : Option OpType) (order : NormOrder) (tol : ℚ) : Py (List Char) := do
  let operators ← convertAll operators convertTo
  let texts ← operators.mapM (printedText number lattice keywords order tol)
  .ok (printedPage "operator ".toList texts)

/-- `print_vectors(basis, vectors, lattice, keywords, convert_to, norm_order, tol)` (visualization.py:96-161) for an array with `rows` rows
and the given columns -/
noncomputable def printVectors (number : ℂ → List Char) (basis : Basis) (rows : ℕ) (columns : List (List ℂ)) (lattice : Option (Lattice F (List Char) ν))
    (keywords : Option (List (List Char))) (convertTo : Option OpType) (order : NormOrder) (tol : ℚ) : Py (List Char) :=
  if basis.len ≠ rows then .error .valueError
  else do
    let operators ← columns.mapM fun v => mkOperator v basis.strs none
    let operators ← convertAll operators convertTo
    let texts ← operators.mapM (printedText number lattice keywords order tol)
    .ok (printedPage "vector ".toList texts)

end Qosy
