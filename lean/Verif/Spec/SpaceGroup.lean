import Verif.Spec.Transformation
import Verif.Spec.LatticeSymmetry
import Verif.Spec.Names

/-! # Specification: symmetries of crystals and of spins -/

namespace Qosy
variable {F ω ν : Type} [Field F] [LinearOrder F]

/-- looking up an orbital gives its index: see C53 for lattices with this property -/
def Lattice.Indexed [DecidableEq ω] [DecidableEq ν] (L : Lattice F ω ν) : Prop :=
  ∀ (i : ℕ) (x : Orbital F ω), L.orbitals[i]? = some x → L.index x.1 x.2.1 = .ok i

/-- a translation by full periods -/
def UnitCell.IsPeriod (u : UnitCell F ω) (N : List ℕ) (periodic : Option (List Bool)) (x : Fin N.length → F) : Prop :=
  ∃ c, Period periodic c ∧ x = u.shift N.length (sizes N) c

/-- Every orbital of the lattice is moved by `r ↦ R r + d` to an orbital with the same name, up to a translation by at most one period in
every periodic direction. -/
def UnitCell.MapsOrbitals (u : UnitCell F ω) (N : List ℕ) (periodic : Option (List Bool)) (R : Matrix (Fin N.length) (Fin N.length) F)
    (d : Fin N.length → F) : Prop :=
  ∀ m, InCells (sizes N) m → ∀ a (ha : a < u.orbitals.length), ∀ o ∈ u.orbitals[a], ∃ m' c b, ∃ hb : b < u.orbitals.length,
    InCells (sizes N) m' ∧ Near c ∧ Period periodic c ∧ o ∈ u.orbitals[b] ∧
    (fun i => ∑ j, R i j * u.point N.length m a j + d i) = u.point N.length m' b + u.shift N.length (sizes N) c

/-- `e` maps the index of every orbital to the index of the orbital with the same name at `R r + d`, up to full periods. -/
def Lattice.Moves (L : Lattice F ω ν) (u : UnitCell F ω) (N : List ℕ) (periodic : Option (List Bool)) (R : Matrix (Fin N.length) (Fin N.length) F)
    (d : Fin N.length → F) (e : ℤ → ℤ) : Prop :=
  ∀ (i : ℕ) (x : Orbital F ω), L.orbitals[i]? = some x → ∃ (j : ℕ) (y : Orbital F ω), e i = j ∧ L.orbitals[j]? = some y ∧ y.2.1 = x.2.1 ∧
    u.IsPeriod N periodic (R.mulVec (vec N.length x.1) + d - vec N.length y.1)

/-- The names of the orbitals of every atom come in pairs with opposite spins, and the names of the spins are such that `swap` finds them. -/
structure UnitCell.Spinful (u : UnitCell F (List Char)) (up dn : List Char) : Prop where
  overlap : OverlapFree up dn
  plainUp : Plain up
  plainDn : Plain dn
  plain : ∀ os ∈ u.orbitals, ∀ o ∈ os, '(' ∉ o
  pairs : ∀ os ∈ u.orbitals, ∀ o ∈ os, ∀ o', Swapped up dn o o' → o' ∈ os

/-- `e` maps the index of every orbital to the index of the orbital at the same position whose name has the opposite spin. -/
def Lattice.Flips (L : Lattice F (List Char) ν) (up dn : List Char) (e : ℤ → ℤ) : Prop :=
  ∀ (i : ℕ) (x : Orbital F (List Char)), L.orbitals[i]? = some x →
    ∃ (j : ℕ) (y : Orbital F (List Char)), e i = j ∧ L.orbitals[j]? = some y ∧ y.1 = x.1 ∧ Swapped up dn x.2.1 y.2.1

/-- for every orbital there is one with the opposite spin at the same position -/
def Lattice.SpinPairs (L : Lattice F (List Char) ν) (up dn : List Char) : Prop :=
  ∀ x ∈ L.orbitals, ∀ o, Swapped up dn x.2.1 o → ∃ y ∈ L.orbitals, y.1 = x.1 ∧ y.2.1 = o

/-- the labels of the orbitals whose names contain `name` -/
def Lattice.named (L : Lattice F (List Char) ν) (name : List Char) : Set ℤ :=
  {l | ∃ (i : ℕ) (x : Orbital F (List Char)), l = i ∧ L.orbitals[i]? = some x ∧ name <:+: x.2.1}

section
variable {K : Type} [Field K] [StarRing K] [Coef K] {𝔸 : Type} [Ring 𝔸] [Algebra K 𝔸] {S : Set ℤ}

/-- `T` relabels the site operators of `n` orbitals: the image of a string is the string built from the operators with the new labels. -/
def Transformation.Relabels (T : Transformation K) (n : ℕ) (e : ℤ → ℤ) : Prop :=
  ∃ (he : Set.InjOn e (siteLabels n)) (hT : Set.MapsTo e (siteLabels n) (siteLabels n)),
    (∀ s, PauliString (siteLabels n) s → ∃ s', T.Sends s 1 s' ∧ PauliString (siteLabels n) s' ∧
      ∀ {𝔸 : Type} [Ring 𝔸] [Algebra K 𝔸] (R : PauliRep K 𝔸 (siteLabels n)), (R.relabelOn e he hT).den s = R.den s') ∧
    (∀ s, MajoranaString (siteLabels n) s → ∃ (ε : K) (s' : OpString), T.Sends s ε s' ∧ MajoranaString (siteLabels n) s' ∧
      ∀ {𝔸 : Type} [Ring 𝔸] [Algebra K 𝔸] (R : MajoranaRep K 𝔸 (siteLabels n)), (R.relabelOn e he hT).den s = ε • R.den s')

open Classical in
/-- The Majorana operators with the signs of those in `D` reversed. -/
noncomputable def MajoranaRep.negOn (R : MajoranaRep K 𝔸 S) (D : Set ℤ) : MajoranaRep K 𝔸 S where
  a i := if i ∈ D then -R.a i else R.a i
  b i := if i ∈ D then -R.b i else R.b i
  a_sq i hi := by split <;> simp [R.a_sq i hi]
  b_sq i hi := by split <;> simp [R.b_sq i hi]
  ab i hi j hj := by split <;> split <;> simp [R.ab i hi j hj]
  aa i hi j hj h := by split <;> split <;> simp [R.aa i hi j hj h]
  bb i hi j hj h := by split <;> split <;> simp [R.bb i hi j hj h]

/-- time reversal of fermions with spin, where `e` flips the spins and `D` are the orbitals with spin down:
`a_↑ ↦ a_↓`, `b_↑ ↦ -b_↓`, `a_↓ ↦ -a_↑`, `b_↓ ↦ b_↑` -/
def Antilinear.ReversesSpinful (τ : Antilinear K 𝔸) (R : MajoranaRep K 𝔸 S) (e : ℤ → ℤ) (D : Set ℤ) : Prop :=
  ∀ i ∈ S, (i ∉ D → τ.toFun (R.a i) = R.a (e i) ∧ τ.toFun (R.b i) = -R.b (e i)) ∧
    (i ∈ D → τ.toFun (R.a i) = -R.a (e i) ∧ τ.toFun (R.b i) = R.b (e i))
end

end Qosy
