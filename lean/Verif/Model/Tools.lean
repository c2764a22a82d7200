import Verif.Model.OpString

/-!
# Model of `qosy/tools.py`, part 1: `sort_sign`, `sign`, `compare`, `remove_duplicates`, `compose_permutations`
-/

namespace Qosy

/-- `vec[j], vec[j-1] = vec[j-1], vec[j]` with `j = k+1` (tools.py:99): swap positions `k` and `k+1`. -/
def swapAt : Nat → List Int → List Int
  | 0, x :: y :: xs => y :: x :: xs
  | k + 1, x :: xs => x :: swapAt k xs
  | _, xs => xs

/-- The inner `while` loop of `sort_sign` (tools.py:97-101), at position `j`; returns the vector and the number of swaps.
For integers `np.abs(a-b) > 1e-10` means `a ≠ b`. -/
def sortInner : Nat → List Int → List Int × Nat
  | 0, v => (v, 0)
  | j + 1, v =>
    match v[j]?, v[j + 1]? with
    | some a, some b =>
      if a ≠ b ∧ a > b then
        let (v', s) := sortInner j (swapAt j v)
        (v', s + 1)
      else (v, 0)
    | _, _ => (v, 0)

/-- The outer `for` loop of `sort_sign` (tools.py:95-101) over the remaining positions. -/
def sortOuter : List Nat → List Int → Nat → List Int × Nat
  | [], v, s => (v, s)
  | i :: is, v, s =>
    let (v', k) := sortInner i v
    sortOuter is v' (s + k)

/-- `sort_sign(vector)` with the default method 'insertionsort' (tools.py:88-106) on a vector of integers. -/
def sortSign (v : List Int) : List Int × Int :=
  let (v', s) := sortOuter (List.range' 1 (v.length - 1)) v 0
  if s % 2 = 1 then (v', -1) else (v', 1)

/-- The inner `while` loop of `sign` (tools.py:42-45). `fuel` bounds the number of iterations; every iteration
adds a new index to `visited`, so `len(permutation)` iterations suffice. IndexError if an entry is out of range
(negative entries, which Python would wrap around, are excluded: the argument is a list of naturals). -/
def signCycle (perm : List Nat) : Nat → List Nat → Nat → Nat → Py (List Nat × Nat)
  | 0, visited, _, len => .ok (visited, len)
  | fuel + 1, visited, ind, len =>
    if ind ∈ visited then .ok (visited, len)
    else
      match perm[ind]? with
      | none => .error .indexError
      | some next => signCycle perm fuel (ind :: visited) next (len + 1)

/-- The outer `for` loop of `sign` (tools.py:37-48). -/
def signLoop (perm : List Nat) : List Nat → List Nat → Int → Py Int
  | [], _, sgn => .ok sgn
  | ind :: inds, visited, sgn =>
    if ind ∈ visited then signLoop perm inds visited sgn
    else
      match perm[ind]? with
      | none => .error .indexError
      | some next => do
        let (visited', len) ← signCycle perm perm.length (ind :: visited) next 1
        signLoop perm inds visited' (if len % 2 = 0 then -sgn else sgn)

/-- `sign(permutation)` (tools.py:13-52) -/
def sign (perm : List Nat) : Py Int := signLoop perm (List.range perm.length) [] 1

/-- stable insertion of an index by value; `np.argsort(vec, kind='mergesort')` returns the stable sorting
permutation, and any stable sort gives the same one. -/
def argInsert (v : List Int) (i : Nat) : List Nat → List Nat
  | [] => [i]
  | j :: js => if v.getD i 0 ≤ v.getD j 0 then i :: j :: js else j :: argInsert v i js

/-- `np.argsort(vec, kind='mergesort')` (tools.py:82), modelled by its contract: a stable sort of the indices by value. -/
def argsortStable (v : List Int) : List Nat := (List.range v.length).foldr (argInsert v) []

/-- `sort_sign(vector, method='mergesort')` (tools.py:78-85) -/
def sortSignMerge (v : List Int) : Py (List Int × Int) := do
  let p := argsortStable v
  let s ← sign p
  .ok (p.map (fun i => v.getD i 0), s)

/-- `sort_sign(vector, method=...)` (tools.py:54-108): dispatch on the method name; `tol` at its default. -/
def sortSignMethod (method : String) (v : List Int) : Py (List Int × Int) :=
  if method = "mergesort" then sortSignMerge v
  else if method = "insertionsort" then .ok (sortSign v)
  else .error .valueError

/-- `compare` (tools.py:110-145) -/
def compare : List Int → List Int → Int := fun a b =>
  if a.length < b.length then -1
  else if a.length > b.length then 1
  else lex a b
where
  /-- the loop of lines 136-143 -/
  lex : List Int → List Int → Int
    | i :: is, j :: js => if i < j then -1 else if i > j then 1 else lex is js
    | _, _ => 0

/-- `remove_duplicates(objects, equiv)` (tools.py:305-341): keep an object unless it is equivalent to one already kept. -/
def removeDuplicates {α : Type} (equiv : α → α → Bool) (objects : List α) : List α :=
  objects.foldl (fun kept x => if kept.any (fun y => equiv x y) then kept else kept ++ [x]) []

/-- `compose_permutations(pA, pB) = pA[pB]` (tools.py:402-421); IndexError when an entry is out of range. -/
def composePermutations (pA pB : List Nat) : Py (List Nat) :=
  pB.mapM (fun i => match pA[i]? with | some x => .ok x | none => .error .indexError)

end Qosy
