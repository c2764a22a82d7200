import Verif.Model.Lattice
import Verif.Model.Tools

/-!
# Model of `symmetrize_lattice` (symmetrization.py:103-291)

Matrices are lists of rows.  `nrm` is `nla.norm`, `latTol` and `render` are those of the `Lattice` constructor with the default precision.
-/

namespace Qosy
variable {F ω ν : Type} [Field F] [LinearOrder F]

/-- `np.dot` of two vectors -/
def rowDot (a b : List F) : Py F := if a.length = b.length then .ok (List.zipWith (· * ·) a b).sum else .error .valueError

/-- `np.dot(g, pos)` for a matrix and a vector -/
def rowsVec (g : List (List F)) (p : List F) : Py (List F) := g.mapM fun row => rowDot row p

/-- the columns of a matrix with `d` columns -/
def columns (d : ℕ) (g : List (List F)) : List (List F) := (List.range d).map fun j => g.map fun row => row.getD j 0

/-- `np.dot(g, h)` for square matrices -/
def rowsMul (g h : List (List F)) : Py (List (List F)) := g.mapM fun row => (columns h.length h).mapM fun c => rowDot row c

/-- `np.eye(dim)` -/
def eye (d : ℕ) : List (List F) := (List.range d).map (unitVector d)

/-- `np.allclose(a, b, atol=tol)` (tools.py:333) with the default relative tolerance -/
def allClose (tol : F) (a b : List (List F)) : Bool :=
  (a.flatten.zip b.flatten).all fun p => decide (|p.1 - p.2| ≤ tol + 1 / 10 ^ 5 * |p.2|)

/-- `[np.dot(g,gen) for g in G for gen in point_group_generators]` (symmetrization.py:257) -/
def groupProducts (gens G : List (List (List F))) : Py (List (List (List F))) := do
  let l ← G.mapM fun g => gens.mapM fun h => rowsMul g h
  .ok l.flatten

/-- the loop that generates the group (symmetrization.py:253-259), at most `n` iterations -/
def pointGroupLoop (gens : List (List (List F))) : ℕ → List (List (List F)) → List (List (List F)) → Py (Option (List (List (List F))))
  | n, G, newG =>
    if newG.length ≠ G.length then
      match n with
      | 0 => .ok none
      | n + 1 => do
        let l ← groupProducts gens newG
        pointGroupLoop gens n newG (removeDuplicates (allClose (1 / 10 ^ 12)) l)
    else .ok (some G)

/-- the group of `symmetrize_lattice` (symmetrization.py:250-259) -/
def pointGroup (d : ℕ) (gens : List (List (List F))) (fuel : ℕ) : Py (Option (List (List (List F)))) :=
  pointGroupLoop gens fuel [eye d] ([eye d] ++ gens)

/-- the list with entry `k` replaced; IndexError outside -/
def setAt {α : Type} (l : List α) (k : ℕ) (x : α) : Py (List α) := if k < l.length then .ok (l.set k x) else .error .indexError

variable [DecidableEq ω] [DecidableEq ν]

/-- `_expand_lattice` (symmetrization.py:153-174): the unit cell of the argument, whose lattice vector is changed in place, and the new lattice -/
def expandLattice (latTol : F) (render : List F → ν) (cell : UnitCell F ω) (dim : ℕ) (periodic : List Bool) (k : ℕ) (delta : List F) :
    Py (UnitCell F ω × Lattice F ω ν) := do
  let v ← pyGet cell.vectors k
  let v ← vadd v delta
  let vectors ← setAt cell.vectors k v
  let shifted ← cell.positions.mapM fun pos => vadd delta pos
  let new : UnitCell F ω := ⟨vectors, cell.positions ++ shifted, cell.orbitals ++ cell.orbitals⟩
  let L ← mkLattice new (List.replicate dim 1) (some periodic) latTol render
  .ok (⟨vectors, cell.positions, cell.orbitals⟩, L)

/-- the key of a position (symmetrization.py:123): distance from the origin, absolute coordinates, coordinates -/
def atomKey (nrm : List F → F) (p : List F) : List F := nrm p :: (p.map fun x => |x|) ++ p

/-- `_comp(ind1, ind2) < 0` (symmetrization.py:124-138): the first entries that differ by at least `tol` decide.
Simplification: a key has at least one entry. -/
def keyLess (tol : F) : List F → List F → Bool
  | x :: xs, y :: ys => if |x - y| < tol then keyLess tol xs ys else decide (x - y < 0)
  | _, _ => false

/-- insertion behind all entries that are not greater -/
def insertAtom (nrm : List F → F) (tol : F) (a : List F × List ω) : List (List F × List ω) → List (List F × List ω)
  | [] => [a]
  | b :: l => if keyLess tol (atomKey nrm a.1) (atomKey nrm b.1) then a :: b :: l else b :: insertAtom nrm tol a l

/-- the sorted atoms (symmetrization.py:140-141).  Simplification: for comparisons that are not transitive (keys within multiples of `tol`),
Python's `sorted` may return another order. -/
def sortAtoms (nrm : List F → F) (tol : F) (atoms : List (List F × List ω)) : List (List F × List ω) :=
  atoms.foldl (fun l a => insertAtom nrm tol a l) []

/-- a unit cell with the given atoms (symmetrization.py:144-146, 196-198) -/
def cellOf (dflt : ω) (vectors : List (List F)) (atoms : List (List F × List ω)) : UnitCell F ω :=
  atoms.foldl (fun u a => u.addAtom dflt a.1 (some a.2)) (UnitCell.new vectors)

/-- `_symmetrize_atoms` (symmetrization.py:103-151) -/
def symmetrizeAtoms (nrm : List F → F) (latTol : F) (render : List F → ν) (dflt : ω) (L : Lattice F ω ν) (G : List (List (List F))) (tol : F) :
    Py (Lattice F ω ν) := do
  let l ← (L.unitCell.positions.zip L.unitCell.orbitals).mapM fun a => G.mapM fun g => do
    let p ← rowsVec g a.1
    .ok (p, a.2)
  mkLattice (cellOf dflt L.unitCell.vectors (sortAtoms nrm tol l.flatten)) (List.replicate L.numCells.length 1) (some L.periodic) latTol render

/-- one pass of `remove_duplicates` with an equivalence that may raise (tools.py:336-341) -/
def keepNew {α : Type} (equiv : α → α → Py Bool) (kept : List α) (x : α) : Py (List α) := do
  let r ← kept.mapM fun y => equiv x y
  .ok (if r.any id then kept else kept ++ [x])

/-- `_equiv` (symmetrization.py:187-190) -/
def equivAtoms (nrm : List F → F) (L : Lattice F ω ν) (tol : F) (a b : List F × List ω) : Py Bool := do
  let d ← L.distance nrm (.at a.1) (.at b.1)
  .ok (decide (d < tol) && decide (a.2 = b.2))

/-- `_remove_duplicate_atoms` (symmetrization.py:176-203) -/
def removeDuplicateAtoms (nrm : List F → F) (latTol : F) (render : List F → ν) (dflt : ω) (L : Lattice F ω ν) (tol : F) : Py (Lattice F ω ν) := do
  let atoms ← (L.unitCell.positions.zip L.unitCell.orbitals).foldlM (keepNew (equivAtoms nrm L tol)) []
  mkLattice (cellOf dflt L.unitCell.vectors atoms) (List.replicate L.numCells.length 1) (some L.periodic) latTol render

/-- the loop over the lattice vectors (symmetrization.py:273-277); `k` is `ind_lv`.  The unit cell of `old_lattice` is changed in place. -/
def expandAll (latTol : F) (render : List F → ν) (dim : ℕ) (periodic : List Bool) :
    List (List F) → ℕ → UnitCell F ω → Option (Lattice F ω ν) → Py (Option (Lattice F ω ν))
  | [], _, _, new => .ok new
  | delta :: rest, k, cell, _ => do
    let (cell, L) ← expandLattice latTol render cell dim periodic k delta
    expandAll latTol render dim periodic rest (k + 1) cell (some L)

/-- one expansion (symmetrization.py:270-286); without lattice vectors and a lattice of an earlier expansion, `new_lattice` is unbound -/
def expandOnce (nrm : List F → F) (latTol : F) (render : List F → ν) (dflt : ω) (origVectors : List (List F)) (G : List (List (List F))) (tol : F)
    (L : Lattice F ω ν) (new : Option (Lattice F ω ν)) : Py (Lattice F ω ν) := do
  let new ← expandAll latTol render L.numCells.length L.periodic origVectors 0 L.unitCell new
  match new with
  | none => .error .nameError
  | some L => do
    let L ← symmetrizeAtoms nrm latTol render dflt L G tol
    removeDuplicateAtoms nrm latTol render dflt L tol

/-- the loop over the expansions (symmetrization.py:270-289) -/
def expansions (nrm : List F → F) (latTol : F) (render : List F → ν) (dflt : ω) (origVectors : List (List F)) (G : List (List (List F))) (tol : F) :
    ℕ → Lattice F ω ν → Option (Lattice F ω ν) → Py (Lattice F ω ν)
  | 0, _, none => .error .nameError
  | 0, _, some L => .ok L
  | n + 1, L, new => do
    let L' ← expandOnce nrm latTol render dflt origVectors G tol L new
    expansions nrm latTol render dflt origVectors G tol n L' (some L')

/-- `symmetrize_lattice` (symmetrization.py:206-291); `fuel` bounds the loop that generates the group -/
def symmetrizeLattice (nrm : List F → F) (latTol : F) (render : List F → ν) (dflt : ω) (L : Lattice F ω ν) (gens : List (List (List F)))
    (numExpansions : ℕ) (tol : F) (fuel : ℕ) : Py (Option (Lattice F ω ν)) := do
  let G ← pointGroup L.numCells.length gens fuel
  match G with
  | none => .ok none
  | some G => do
    let r ← expansions nrm latTol render dflt L.unitCell.vectors G tol numExpansions L none
    .ok (some r)

end Qosy
