import Verif.Model.Basis
import Mathlib.Algebra.Order.Field.Basic

/-!
# Model of `qosy/lattice.py`

Coordinates are elements of an ordered field `F` (exact arithmetic; Python uses floats), orbital names any type `ω` with decidable
equality.  `np.array2string(pos, precision=8)`, which turns a position into a dictionary key, is a parameter `render` with values in any
type `ν`; `np.linalg.norm` is a parameter of `distance`.
-/

namespace Qosy

/-- A Python dictionary in insertion order -/
abbrev Assoc (κ V : Type) := List (κ × V)

/-- `d[k]` / `k in d` -/
def Assoc.get? {κ V : Type} [DecidableEq κ] (d : Assoc κ V) (k : κ) : Option V :=
  match d with
  | [] => none
  | (k', v) :: d' => if k' = k then some v else Assoc.get? d' k

/-- `d[k] = v` -/
def Assoc.set {κ V : Type} [DecidableEq κ] (d : Assoc κ V) (k : κ) (v : V) : Assoc κ V :=
  match d with
  | [] => [(k, v)]
  | (k', v') :: d' => if k' = k then (k', v) :: d' else (k', v') :: Assoc.set d' k v

variable {F ω ν : Type}

/-- `UnitCell` (lattice.py:15-43) -/
structure UnitCell (F ω : Type) where
  vectors : List (List F)
  positions : List (List F)
  orbitals : List (List ω)

/-- `UnitCell(lattice_vectors)` (lattice.py:31-43) -/
def UnitCell.new (vectors : List (List F)) : UnitCell F ω := ⟨vectors, [], []⟩

/-- `UnitCell.add_atom` (lattice.py:45-61); `dflt` is the name `''` -/
def UnitCell.addAtom (u : UnitCell F ω) (dflt : ω) (position : List F) (orbitals : Option (List ω)) : UnitCell F ω :=
  ⟨u.vectors, u.positions ++ [position], u.orbitals ++ [orbitals.getD [dflt]]⟩

/-- an entry of `_orbitals`: position, name, coordinates of the unit cell (lattice.py:92-95) -/
abbrev Orbital (F ω : Type) := List F × ω × List ℕ

/-- `Lattice` objects (lattice.py:63-83) -/
structure Lattice (F ω ν : Type) where
  unitCell : UnitCell F ω
  numCells : List ℕ
  periodic : List Bool
  tol : F
  render : List F → ν
  orbitals : List (Orbital F ω)
  indices : Assoc (ν × ω) ℕ
  boundary : List (List F)

/-- `itertools.product(range(n1), range(n2), ...)` (lattice.py:102-103) -/
def gridCells : List ℕ → List (List ℕ)
  | [] => [[]]
  | n :: ns => (List.range n).flatMap fun i => (gridCells ns).map (i :: ·)

section
variable [Field F] [LinearOrder F]

/-- `a + b` and `a += b` for arrays.  Simplification: numpy also accepts arrays of length one next to any other length. -/
def vadd (a b : List F) : Py (List F) :=
  if a.length = b.length then .ok (List.zipWith (· + ·) a b) else .error .valueError

/-- `x * a` for a number and an array -/
def vscale (x : F) (a : List F) : List F := a.map (x * ·)

/-- set tiny coordinates to zero (lattice.py:120, 168) -/
def cleanPosition (tol : F) (p : List F) : List F := p.map fun x => if tol < |x| then x else 0

/-- the loop adding multiples of the lattice vectors (lattice.py:115-116); `k` is `ind_vec` -/
def addVectors (vectors : List (List F)) : List ℕ → ℕ → List F → Py (List F)
  | [], _, pos => .ok pos
  | c :: cs, k, pos => do
    let v ← pyGet vectors k
    let pos ← vadd pos (vscale (c : F) v)
    addVectors vectors cs (k + 1) pos

section
variable [DecidableEq ω] [DecidableEq ν]

/-- the loop over the orbitals of an atom (lattice.py:123-126) -/
def addOrbitals (pos : List F) (posName : ν) (cell : List ℕ) :
    List ω → List (Orbital F ω) × Assoc (ν × ω) ℕ → List (Orbital F ω) × Assoc (ν × ω) ℕ
  | [], st => st
  | o :: os, (orbs, inds) => addOrbitals pos posName cell os (orbs ++ [(pos, o, cell)], inds.set (posName, o) orbs.length)

/-- the loop over the atoms of a unit cell (lattice.py:113-126) -/
def addAtoms (dim : ℕ) (vectors : List (List F)) (tol : F) (render : List F → ν) (cell : List ℕ) :
    List (List F × List ω) → List (Orbital F ω) × Assoc (ν × ω) ℕ → Py (List (Orbital F ω) × Assoc (ν × ω) ℕ)
  | [], st => .ok st
  | (atom, names) :: rest, st => do
    let pos ← addVectors vectors cell 0 (List.replicate dim 0)
    let pos ← vadd pos atom
    let pos := cleanPosition tol pos
    addAtoms dim vectors tol render cell rest (addOrbitals pos (render pos) cell names st)

/-- the loop over the unit cells (lattice.py:112-126) -/
def addCells (dim : ℕ) (u : UnitCell F ω) (tol : F) (render : List F → ν) :
    List (List ℕ) → List (Orbital F ω) × Assoc (ν × ω) ℕ → Py (List (Orbital F ω) × Assoc (ν × ω) ℕ)
  | [], st => .ok st
  | cell :: cells, st => do
    let st ← addAtoms dim u.vectors tol render cell (u.positions.zip u.orbitals) st
    addCells dim u tol render cells st
end

/-- the loop building `_boundary_vectors` (lattice.py:131-139) -/
def boundaryVectors (vectors : List (List F)) (periodic : List Bool) : List ℕ → ℕ → List (List F) → Py (List (List F))
  | [], _, acc => .ok acc
  | n :: ns, k, acc => do
    let p ← pyGet periodic k
    if p then
      let v ← pyGet vectors k
      let plus ← acc.mapM fun pbv => vadd (vscale (n : F) v) pbv
      let minus ← acc.mapM fun pbv => vadd (vscale (-1) (vscale (n : F) v)) pbv
      boundaryVectors vectors periodic ns (k + 1) (acc ++ plus ++ minus)
    else boundaryVectors vectors periodic ns (k + 1) acc

variable [DecidableEq ω] [DecidableEq ν]

/-- `Lattice(unit_cell, num_cells, periodic_boundaries, precision)` (lattice.py:85-139); `tol` is `10**(-precision)`.
Simplification: the numbers of cells are natural numbers. -/
def mkLattice (u : UnitCell F ω) (numCells : List ℕ) (periodic : Option (List Bool)) (tol : F) (render : List F → ν) :
    Py (Lattice F ω ν) := do
  let dim := numCells.length
  let per := periodic.getD (List.replicate dim false)
  let (orbs, inds) ← addCells dim u tol render (gridCells numCells) ([], [])
  let bvs ← boundaryVectors u.vectors per numCells 0 [List.replicate dim 0]
  .ok ⟨u, numCells, per, tol, render, orbs, inds, bvs⟩

/-- the loop of `Lattice.index` (lattice.py:164-175) -/
def Lattice.indexLoop (L : Lattice F ω ν) (position : List F) (name : ω) : List (List F) → Py ℤ
  | [] => .ok (-1)
  | bv :: bvs => do
    let pos ← vadd position bv
    match L.indices.get? (L.render (cleanPosition L.tol pos), name) with
    | some i => .ok i
    | none => L.indexLoop position name bvs

/-- `Lattice.index` (lattice.py:141-175) -/
def Lattice.index (L : Lattice F ω ν) (position : List F) (name : ω) : Py ℤ := L.indexLoop position name L.boundary

/-- a position, or the index of an orbital (lattice.py:203-211) -/
inductive PosArg (F : Type) where
  | at (p : List F)
  | orbital (i : ℤ)

/-- `_orbitals[i][0]`, with Python's negative indices (lattice.py:204, 209, 231) -/
def Lattice.orbitalPosition (L : Lattice F ω ν) (i : ℤ) : Py (List F) := do
  let o ← if i < 0 then (if i + L.orbitals.length < 0 then .error .indexError else pyGet L.orbitals (i + L.orbitals.length).toNat)
    else pyGet L.orbitals i.toNat
  .ok o.1

/-- the position meant by an argument of `distance` (lattice.py:203-211) -/
def Lattice.resolve (L : Lattice F ω ν) : PosArg F → Py (List F)
  | .at p => .ok p
  | .orbital i => L.orbitalPosition i

/-- `np.min` of a list -/
def minList : List F → Py F
  | [] => .error .valueError
  | x :: xs => .ok (xs.foldl min x)

/-- `Lattice.distance` (lattice.py:177-214); `nrm` is `np.linalg.norm` -/
def Lattice.distance (nrm : List F → F) (L : Lattice F ω ν) (position1 position2 : PosArg F) : Py F := do
  let pos1 ← L.resolve position1
  let pos2 ← L.resolve position2
  let ds ← L.boundary.mapM fun bv => do
    let q ← vadd pos1 bv
    let q ← vadd q (vscale (-1) pos2)
    .ok (nrm q)
  minList ds

/-- `Lattice.position` (lattice.py:216-231) -/
def Lattice.position (L : Lattice F ω ν) (i : ℤ) : Py (List F) := L.orbitalPosition i

/-- `Lattice.__len__` (lattice.py:249-253) -/
def Lattice.len (L : Lattice F ω ν) : ℕ := L.orbitals.length

/-- the unit vector with entry one at `k` (lattice.py:311-314) -/
def unitVector (d k : ℕ) : List F := (List.range d).map fun j => if j = k then 1 else 0

/-- `cubic` (lattice.py:275-326) -/
def cubic (d : ℕ) (numCells : List ℕ) (periodic : Option (List Bool)) (names : Option (List ω)) (dflt : ω) (tol : F) (render : List F → ν) :
    Py (Lattice F ω ν) :=
  let per := periodic.getD (List.replicate d false)
  let u : UnitCell F ω := UnitCell.new ((List.range d).map (unitVector d))
  mkLattice (u.addAtom dflt (List.replicate d 0) (some (names.getD [dflt]))) numCells (some per) tol render

/-- `square` (lattice.py:328-359) -/
def square (n1 n2 : ℕ) (periodic : Option (List Bool)) (names : Option (List ω)) (dflt : ω) (tol : F) (render : List F → ν) :
    Py (Lattice F ω ν) := cubic 2 [n1, n2] periodic names dflt tol render

/-- `chain` (lattice.py:361-387) -/
def chain (n : ℕ) (periodic : Bool) (names : Option (List ω)) (dflt : ω) (tol : F) (render : List F → ν) :
    Py (Lattice F ω ν) := cubic 1 [n] (some [periodic]) names dflt tol render

/-- `kagome` (lattice.py:389-445); `r3` is the square root of three -/
def kagome (r3 : F) (n1 n2 : ℕ) (periodic : Option (List Bool)) (names : Option (List ω)) (dflt : ω) (tol : F) (render : List F → ν) :
    Py (Lattice F ω ν) :=
  let a1 : List F := [1, 0]
  let a2 : List F := [1 / 2, r3 / 2]
  let u : UnitCell F ω := UnitCell.new [a1, a2]
  let u := ((u.addAtom dflt [0, 0] names).addAtom dflt (a1.map (· / 2)) names).addAtom dflt (a2.map (· / 2)) names
  mkLattice u [n1, n2] (some (periodic.getD [false, false])) tol render

end

end Qosy
