import Verif.Spec.Lattice
import Verif.Model.LatticeSymmetry
import Mathlib.LinearAlgebra.Matrix.GeneralLinearGroup.Defs
import Mathlib.Algebra.Group.Subgroup.Lattice

/-!
# Specification: point groups acting on crystals
-/

namespace Qosy
open scoped MatrixGroups
variable {ω ν : Type} {d : ℕ}

/-- a matrix as the list of its rows, the way it is passed to `symmetrize_lattice` -/
def rowsOf (A : Matrix (Fin d) (Fin d) ℝ) : List (List ℝ) := List.ofFn fun i => List.ofFn (A i)

/-- two matrices that `np.allclose` with absolute tolerance `10^-12` cannot distinguish -/
def Indistinct (A B : Matrix (Fin d) (Fin d) ℝ) : Prop := ∀ i j, |A i j - B i j| ≤ 1 / 10 ^ 12 + 1 / 10 ^ 5 * |B i j|

/-- the generators of a finite point group: distinct, not the identity, and different elements of the group can be told apart numerically -/
structure PointGenerators (gens : List (GL (Fin d) ℝ)) : Prop where
  distinct : gens.Nodup
  proper : 1 ∉ gens
  finite : Finite (Subgroup.closure {g | g ∈ gens})
  separated : ∀ g ∈ Subgroup.closure {g | g ∈ gens}, ∀ h ∈ Subgroup.closure {g | g ∈ gens}, Indistinct g.1 h.1 → g = h

/-- the atoms of the unit cell of a lattice: positions and orbitals -/
def Lattice.atoms (L : Lattice ℝ ω ν) : List (List ℝ × List ω) := L.unitCell.positions.zip L.unitCell.orbitals

/-- two positions that agree up to `tol` and translations by lattice vectors in the periodic directions -/
def Lattice.Equivalent (L : Lattice ℝ ω ν) (d : ℕ) (tol : ℝ) (x y : Fin d → ℝ) : Prop :=
  ∃ c : Fin d → ℤ, Period (some L.periodic) c ∧ separation (x + ∑ l, (c l : ℝ) • L.unitCell.vec d l) y < tol

/-- a lattice in dimension `d` with a proper unit cell -/
structure Lattice.Proper (L : Lattice ℝ ω ν) (d : ℕ) : Prop where
  dim : L.numCells.length = d
  cell : L.unitCell.WF d
  periodic : L.periodic.length = d

end Qosy
