import Verif.Spec.Fermion
import Verif.Spec.JordanWigner

/-!
# Specification: strings of all types in one spin system

Pauli strings act on the spins, Majorana and Fermion strings through the Jordan-Wigner operators.
-/

namespace Qosy
variable {K : Type} [Field K] [StarRing K] [Coef K]
variable {𝔸 : Type} [Ring 𝔸] [Algebra K 𝔸] {S : Set ℤ}

/-- the operator denoted by a string of any type -/
def PauliRep.anyDen [StarRing 𝔸] (R : PauliRep K 𝔸 S) (s : OpString) : 𝔸 :=
  match s.opType with
  | .pauli => R.den s
  | .majorana => R.jordanWigner.den s
  | .fermion => R.jordanWigner.fden s
  | .other _ => 0

/-- the representation consists of Hermitian operators -/
def PauliRep.Hermitian [StarRing 𝔸] (R : PauliRep K 𝔸 S) : Prop :=
  ∀ i ∈ S, star (R.X i) = R.X i ∧ star (R.Y i) = R.Y i ∧ star (R.Z i) = R.Z i

/-- a valid string of some type -/
def ValidString (S : Set ℤ) (s : OpString) : Prop := PauliString S s ∨ MajoranaString S s ∨ FermionString S s

/-- The Fermion strings whose conversion to another type is not empty and whose coefficients are above the tolerance of the
code: fewer than 52 orbitals; not the identity, unless the identity is to be included; and not one of the strings with
prefactor `i` on paired orbitals that denote zero. -/
def FermionConvertible (s : OpString) (incl : Bool) : Prop :=
  s.labels.toFinset.card < 52 ∧ (s.labels ≠ [] ∨ incl = true) ∧
    (s.OwnConjugate ∨ s.pref ≠ .imag ∨ ∃ l, ¬ (l ∈ s.cdagLabels ↔ l ∈ s.cLabels))

end Qosy
