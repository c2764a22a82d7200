import Verif.Model.Basis

/-!
# Model of `maximal_cliques` and `connected_components` (qosy/tools.py:147-256)

Python sets of integers are lists without repetitions.  The order in which Python iterates over a set is unspecified, so the
model takes it from an oracle; the properties hold for every oracle.
-/

namespace Qosy

/-- `s.union(set([v]))` and `s.add(v)` -/
def setAdd (s : List Nat) (v : Nat) : List Nat := if v ∈ s then s else s ++ [v]

/-- `s.intersection(t)` -/
def setInter (s t : List Nat) : List Nat := s.filter (fun x => decide (x ∈ t))

/-- `s.union(t)` -/
def setUnion (s t : List Nat) : List Nat := s ++ t.filter (fun x => decide (x ∉ s))

/-- `set(l)` -/
def setOf (l : List Nat) : List Nat := l.foldl setAdd []

/-- `s.remove(v)`; KeyError when missing -/
def setRemove (s : List Nat) (v : Nat) : Py (List Nat) := if v ∈ s then .ok (s.erase v) else .error .keyError

/-- The unspecified choices of one execution: for a call of `BronKerbosch2`, identified by the sequence of vertices that led to
it, the first element of the iteration over `P ∪ X` and the order of the iteration over `P`; the order of `list(R)`; and the
result of `np.argsort` (whose order of ties is unspecified). -/
structure SetOracle where
  first : List Nat → List Nat → Nat
  enum : List Nat → List Nat → List Nat
  toList : List Nat → List Nat
  argsort : List Nat → List Nat

/-- the local variables of the loop of `BronKerbosch2`: `P`, `X` and the cliques appended so far -/
abbrev BKState := List Nat × List Nat × List (List Nat)

/-- the loop body of `BronKerbosch2` (tools.py:187-191) and of the main loop (193-196), without the test of line 188 -/
def bkBody (adj : List (List Nat)) (rec : List Nat → List Nat → List Nat → Py (List (List Nat))) (R : List Nat)
    (st : BKState) (v : Nat) : Py BKState := do
  let adjV ← pyGet adj v
  let out ← rec (setAdd R v) (setInter st.1 adjV) (setInter st.2.1 adjV)
  let P ← setRemove st.1 v
  .ok (P, setAdd st.2.1 v, st.2.2 ++ out)

/-- `BronKerbosch2(R, P, X)` (tools.py:177-191): the cliques it appends.  `lim` is the number of nested calls Python still
allows (RecursionError beyond). -/
def bronKerbosch (adj : List (List Nat)) (o : SetOracle) : Nat → List Nat → List Nat → List Nat → Py (List (List Nat))
  | 0, _, _, _ => .error .recursionError
  | lim + 1, R, P, X =>
    if P.length = 0 ∧ X.length = 0 then .ok [o.toList R]
    else do
      let u := o.first R (setUnion P X)
      let st ← (o.enum R P).foldlM (fun (st : BKState) v => do
        let adjU ← pyGet adj u
        if v ∈ adjU then .ok st
        else bkBody adj (bronKerbosch adj o lim) R st v) (P, X, [])
      .ok st.2.2

/-- `maximal_cliques(adjacency_lists)` (tools.py:147-202) -/
def maximalCliques (o : SetOracle) (lim : Nat) (adjLists : List (List Nat)) : Py (List (List Nat)) := do
  let adj := adjLists.map setOf
  let order := (o.argsort (adjLists.map List.length)).reverse
  let st ← order.foldlM (bkBody adj (bronKerbosch adj o lim) []) (List.range adjLists.length, [], [])
  .ok st.2.2

/-- the argument `mode` of `connected_components` -/
inductive SearchMode
  | DFS | BFS | other
deriving DecidableEq, Repr

/-- `to_visit.pop()` or `to_visit.pop(0)` on a non-empty list (tools.py:237-242) -/
def popNode (mode : SearchMode) (toVisit : List Nat) : Py (Nat × List Nat) :=
  match mode, toVisit with
  | .DFS, l => match l.getLast? with
    | some x => .ok (x, l.dropLast)
    | none => .error .indexError
  | .BFS, x :: l => .ok (x, l)
  | .BFS, [] => .error .indexError
  | .other, _ => .error .valueError

/-- the local variables of the inner loop; `to_visit_set` always holds the members of `to_visit` -/
structure CompState where
  visited : List Nat
  toVisit : List Nat
  comp : List Nat
deriving DecidableEq, Repr

/-- one iteration of the `while` loop (tools.py:236-250) -/
def compStep (mode : SearchMode) (adj : List (List Nat)) (st : CompState) : Py CompState := do
  let (curr, toVisit) ← popNode mode st.toVisit
  let visited := setAdd st.visited curr
  let nbrs ← pyGet adj curr
  let toVisit := nbrs.foldl (fun tv nb => if nb ∉ visited ∧ nb ∉ tv then tv ++ [nb] else tv) toVisit
  .ok ⟨visited, toVisit, st.comp ++ [curr]⟩

/-- the `while` loop, for at most `n` iterations; `none` means that it is still running -/
def compLoop (mode : SearchMode) (adj : List (List Nat)) : Nat → CompState → Py (Option CompState)
  | 0, st => if st.toVisit = [] then .ok (some st) else .ok none
  | n + 1, st => if st.toVisit = [] then .ok (some st) else do compLoop mode adj n (← compStep mode adj st)

/-- the body of the outer loop (tools.py:229-253); the state is `(visited, connected_components)` -/
def compNode (mode : SearchMode) (adj : List (List Nat)) (n : Nat) (st : Option (List Nat × List (List Nat))) (node : Nat) :
    Py (Option (List Nat × List (List Nat))) :=
  match st with
  | none => .ok none
  | some (visited, comps) =>
    if node ∈ visited then .ok (some (visited, comps))
    else do
      match ← compLoop mode adj n ⟨visited, [node], []⟩ with
      | none => .ok none
      | some st => .ok (some (st.visited, if st.comp.length > 0 then comps ++ [st.comp] else comps))

/-- `connected_components(adjacency_lists, mode)` (tools.py:204-256), each `while` loop run for at most `n` iterations -/
def connectedComponents (adj : List (List Nat)) (mode : SearchMode) (n : Nat) : Py (Option (List (List Nat))) := do
  let st ← (List.range adj.length).foldlM (compNode mode adj n) (some ([], []))
  .ok (st.map Prod.snd)

end Qosy
