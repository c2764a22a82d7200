import Verif.Model.Lattice
import Mathlib.LinearAlgebra.LinearIndependent.Defs
import Mathlib.Algebra.BigOperators.Fin
import Mathlib.LinearAlgebra.Matrix.Defs
import Mathlib.Algebra.Order.Round
import Mathlib.Analysis.SpecialFunctions.Pow.Real

/-!
# Specification: crystals

The infinite crystal of a unit cell: atom `a` of cell `m`, for integers `m`, sits at `r_a + ∑ m_l a_l`.
-/

namespace Qosy
variable {F ω ν : Type} [Field F] [LinearOrder F]

/-- a list of coordinates as a vector -/
def vec (d : ℕ) (p : List F) : Fin d → F := fun i => p.getD i 0

/-- a unit cell in dimension `d`: `d` lattice vectors, any number of atoms, each with a list of orbitals -/
structure UnitCell.WF (u : UnitCell F ω) (d : ℕ) : Prop where
  vectors : u.vectors.length = d
  vector : ∀ v ∈ u.vectors, v.length = d
  positions : u.positions.length = u.orbitals.length
  position : ∀ p ∈ u.positions, p.length = d

/-- the `l`-th lattice vector -/
def UnitCell.vec (u : UnitCell F ω) (d : ℕ) (l : Fin d) : Fin d → F := Qosy.vec d (u.vectors.getD l [])

/-- the position of atom `a` in cell `m` of the infinite crystal -/
def UnitCell.point (u : UnitCell F ω) (d : ℕ) (m : Fin d → ℤ) (a : ℕ) : Fin d → F :=
  Qosy.vec d (u.positions.getD a []) + ∑ l, (m l : F) • u.vec d l

/-- the lattice vectors are linearly independent and orbitals of one name sit on atoms that are not translates of each other -/
structure UnitCell.Primitive (u : UnitCell F ω) (d : ℕ) : Prop where
  independent : LinearIndependent F (u.vec d)
  distinct : ∀ (m : Fin d → ℤ) (a b : ℕ) (ha : a < u.orbitals.length) (hb : b < u.orbitals.length) (o : ω), o ∈ u.orbitals[a] → o ∈ u.orbitals[b] →
    u.point d m a = u.point d 0 b → a = b
  names : ∀ l ∈ u.orbitals, l.Nodup

/-- the text of a position distinguishes the positions of the cells `m` with `P m`, none of which has a tiny non-zero coordinate -/
structure UnitCell.Resolved (u : UnitCell F ω) (d : ℕ) (tol : F) (render : List F → ν) (P : (Fin d → ℤ) → Prop) : Prop where
  coordinates : ∀ m, P m → ∀ a < u.orbitals.length, ∀ i, u.point d m a i = 0 ∨ tol < |u.point d m a i|
  render : ∀ m m', P m → P m' → ∀ a < u.orbitals.length, ∀ b < u.orbitals.length,
    render (List.ofFn (u.point d m a)) = render (List.ofFn (u.point d m' b)) → u.point d m a = u.point d m' b

/-- the numbers of cells -/
def sizes (N : List ℕ) : Fin N.length → ℕ := fun l => N.getD l 0

/-- is direction `l` periodic?  Without an argument no direction is. -/
def isPeriodic (periodic : Option (List Bool)) (l : ℕ) : Bool :=
  match periodic with
  | none => false
  | some p => p.getD l false

/-- the cell `m` belongs to a lattice with `N` cells in each direction -/
def InCells {d : ℕ} (N : Fin d → ℕ) (m : Fin d → ℤ) : Prop := ∀ l, 0 ≤ m l ∧ m l < N l

/-- the translations by full periods: `c_l N_l` cells in periodic directions -/
def Period (periodic : Option (List Bool)) {d : ℕ} (c : Fin d → ℤ) : Prop := ∀ l : Fin d, isPeriodic periodic l = false → c l = 0

/-- at most one period in each direction -/
def Near {d : ℕ} (c : Fin d → ℤ) : Prop := ∀ l, c l = -1 ∨ c l = 0 ∨ c l = 1

instance {d : ℕ} (c : Fin d → ℤ) : Decidable (Near c) := by unfold Near; infer_instance

/-- the vector of the translation by `c_l` periods in direction `l` -/
def UnitCell.shift (u : UnitCell F ω) (d : ℕ) (N : Fin d → ℕ) (c : Fin d → ℤ) : Fin d → F := ∑ l, ((c l : F) * (N l : F)) • u.vec d l

/-- rounding to `k` decimal places, as the text of a position does -/
def decimals [FloorRing F] (k : ℕ) (p : List F) : List ℤ := p.map fun x => round (x * 10 ^ k)

/-- the Euclidean length -/
noncomputable def euclid (p : List ℝ) : ℝ := Real.sqrt ((p.map (· ^ 2)).sum)

/-- the Euclidean distance -/
noncomputable def separation {d : ℕ} (x y : Fin d → ℝ) : ℝ := Real.sqrt (∑ i, (x i - y i) ^ 2)

/-- the lattice vectors are orthogonal -/
def UnitCell.Orthogonal (u : UnitCell ℝ ω) (d : ℕ) : Prop := ∀ l l', l ≠ l' → ∑ i, u.vec d l i * u.vec d l' i = 0

end Qosy
