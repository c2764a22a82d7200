import Verif.Spec.SpaceGroup

/-! # Specification: the space group of a lattice -/

namespace Qosy
variable {F ω : Type} [Field F] [LinearOrder F]

/-- `r ↦ R r + d` is a symmetry of the lattice: orbitals go to orbitals with the same name, and `R` maps exactly the periods to periods. -/
structure UnitCell.IsSymmetry (u : UnitCell F ω) (N : List ℕ) (periodic : Option (List Bool)) (R : Matrix (Fin N.length) (Fin N.length) F)
    (d : Fin N.length → F) : Prop where
  maps : u.MapsOrbitals N periodic R d
  periods : ∀ x, u.IsPeriod N periodic (R.mulVec x) ↔ u.IsPeriod N periodic x

/-- the translation part of the `n`-th power of `r ↦ R r + d` -/
def iteratedShift {k : ℕ} (R : Matrix (Fin k) (Fin k) F) (d : Fin k → F) : ℕ → (Fin k → F)
  | 0 => 0
  | n + 1 => R.mulVec (iteratedShift R d n) + d

/-- the translation by whole cells -/
def UnitCell.translation (u : UnitCell F ω) (N : List ℕ) (v : Fin N.length → ℤ) : Fin N.length → F := ∑ l, (v l : F) • u.vec N.length l

/-- a translation by less than the size of the lattice, along periodic directions only -/
def CellTranslation (N : List ℕ) (periodic : Option (List Bool)) (v : Fin N.length → ℤ) : Prop := (∀ l, |v l| ≤ (sizes N l : ℤ)) ∧ Period periodic v

end Qosy
