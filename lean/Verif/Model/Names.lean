import Verif.Model.OpString

/-!
# Model of `qosy/tools.py`, part 2: `swap`, `replace`, `argsort`

Python strings are lists of characters.
-/

namespace Qosy

/-- `p in s` for strings -/
def occursIn (p : List Char) : List Char → Bool
  | [] => p.isPrefixOf []
  | c :: s => p.isPrefixOf (c :: s) || occursIn p s

/-- the scan of `str.replace(old, new)` for `old` not empty; the first argument counts the characters of a match that are still to be skipped -/
def replaceScan (old new : List Char) : ℕ → List Char → List Char
  | _, [] => []
  | k + 1, _ :: s => replaceScan old new k s
  | 0, c :: s => if old.isPrefixOf (c :: s) then new ++ replaceScan old new (old.length - 1) s else c :: replaceScan old new 0 s

/-- `s.replace(old, new)`: the matches are found from left to right and do not overlap; the empty string is found before every character
and at the end -/
def strReplace (old new s : List Char) : List Char :=
  if old = [] then new ++ s.flatMap (· :: new) else replaceScan old new 0 s

/-- `'({})'.format(name)` (tools.py:368, 370) -/
def inParens (name : List Char) : List Char := '(' :: name ++ [')']

/-- `swap(string, nameA, nameB)` (tools.py:343-372) -/
def swapNames (s nameA nameB : List Char) : List Char :=
  let result := strReplace nameA (inParens nameA) s
  let result := strReplace nameB nameA result
  strReplace (inParens nameA) nameB result

/-- insertion before the first shorter key, so that keys of equal length keep their order -/
def insertByLength (k : List Char × List Char) : List (List Char × List Char) → List (List Char × List Char)
  | [] => [k]
  | k' :: ks => if k'.1.length < k.1.length then k :: k' :: ks else k' :: insertByLength k ks

/-- `sorted(substitutions, key=len, reverse=True)` (tools.py:397), together with the values -/
def byLength (subs : List (List Char × List Char)) : List (List Char × List Char) := subs.foldl (fun l k => insertByLength k l) []

/-- the scan of `regex.sub` (tools.py:398-400) for the alternation of the keys in the given order: at every position the first key that
matches is taken.  An empty key is last in the alternation; it matches where no other key does, and at the end of the string. -/
def subScan (keys : List (List Char × List Char)) : ℕ → List Char → List Char
  | 0, [] =>
    match keys.find? fun k => k.1.isPrefixOf [] with
    | some k => k.2
    | none => []
  | _ + 1, [] => []
  | n + 1, _ :: s => subScan keys n s
  | 0, c :: s =>
    match keys.find? fun k => k.1.isPrefixOf (c :: s) with
    | some k => if k.1 = [] then k.2 ++ c :: subScan keys 0 s else k.2 ++ subScan keys (k.1.length - 1) s
    | none => c :: subScan keys 0 s

/-- `replace(string, substitutions)` (tools.py:374-400); the keys of the dictionary are distinct.  Without keys the regular expression is
empty, matches the empty string at the start, and `substitutions['']` raises KeyError. -/
def replaceNames (s : List Char) (subs : List (List Char × List Char)) : Py (List Char) :=
  if subs = [] then .error .keyError else .ok (subScan (byLength subs) 0 s)

/-- insertion into a sorted list before the first greater index, as `sorted` does -/
def insertIndex (lt : ℕ → ℕ → Bool) (i : ℕ) : List ℕ → List ℕ
  | [] => [i]
  | j :: js => if lt i j then i :: j :: js else j :: insertIndex lt i js

/-- `sorted(range(n), …)` with the order `lt` on the indices.  Simplification: if `lt` is not a strict weak order Python may return
another list. -/
def sortIndices (lt : ℕ → ℕ → Bool) (n : ℕ) : List ℕ := (List.range n).foldl (fun l i => insertIndex lt i l) []

/-- `argsort(mylist)` (tools.py:280-301) for objects with an order; `lt` is `<` of the objects -/
def argsortList {α : Type} (lt : α → α → Bool) (l : List α) : List ℕ :=
  sortIndices (fun i j => match l[i]?, l[j]? with
    | some a, some b => lt a b
    | _, _ => false) l.length

/-- `argsort(mylist, comp)` (tools.py:302-303, 258-278): `comp` is called with the indices -/
def argsortComp {α : Type} (comp : ℤ → ℤ → ℤ) (l : List α) : List ℕ :=
  sortIndices (fun i j => decide (comp i j < 0)) l.length

end Qosy
