import Verif.Spec.Lattice
import Verif.Model.OpString

/-!
# Specification: texts that mention orbitals

A text mentions an orbital by a space followed by its label, as in `X 12`.
-/

namespace Qosy

/-- a decimal digit -/
def IsDigit (c : Char) : Prop := c ∈ ['0', '1', '2', '3', '4', '5', '6', '7', '8', '9']

/-- no digit follows a space -/
def NoLabel (s : List Char) : Prop := ∀ c, IsDigit c → ¬ [' ', c] <:+: s

/-- a text made of pieces, each followed by the mention of an orbital, and a last piece -/
def mentions (mention : ℕ → List Char) (pieces : List (List Char × ℕ)) (last : List Char) : List Char :=
  (pieces.flatMap fun p => p.1 ++ mention p.2) ++ last

/-- the pieces have no labels in them, and no digit follows a label -/
structure Pieces (pieces : List (List Char × ℕ)) (last : List Char) : Prop where
  noLabel : ∀ p ∈ pieces, NoLabel p.1
  lastNoLabel : NoLabel last
  head : ∀ p ∈ pieces.tail, ∀ c ∈ p.1.head?, ¬ IsDigit c
  lastHead : ∀ c ∈ last.head?, ¬ IsDigit c

/-- a cell, an atom in it and the name of one of its orbitals -/
structure Place where
  cell : List ℕ
  atom : ℕ
  name : List Char

/-- the places of a lattice in the order of their labels: cell by cell, atom by atom -/
def places {F : Type} (u : UnitCell F (List Char)) (N : List ℕ) : List Place :=
  (gridCells N).flatMap fun c => (List.range u.orbitals.length).flatMap fun a => (u.orbitals.getD a []).map fun o => ⟨c, a, o⟩

/-- the text of a place: the cell (if the lattice has more than one), the atom, the name of the orbital (if it has one) -/
def Place.text (cells : ℕ) (tuple : List ℕ → List Char) (p : Place) : List Char :=
  '{' :: (if cells = 1 then [] else tuple p.cell ++ "; ".toList) ++ natText p.atom ++ (if p.name = [] then [] else "; ".toList ++ p.name) ++ ['}']

/-- an operator string with its orbitals mentioned in a given way: prefactor, then operator and orbital in turn -/
def stringText (mention : ℤ → List Char) (s : OpString) : List Char :=
  s.pref.text ++ ' ' :: (s.ops.zip s.labels).flatMap fun x => x.1.text ++ mention x.2 ++ [' ']

/-- the mention of the orbital with a label; `tuple` is the text of the coordinates of a cell -/
def placeMention {F : Type} (u : UnitCell F (List Char)) (N : List ℕ) (tuple : List ℕ → List Char) (l : ℕ) : List Char :=
  '_' :: match (places u N)[l]? with
    | some p => p.text N.prod tuple
    | none => []

end Qosy
