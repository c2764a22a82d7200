import Verif.Model.OpString
import Mathlib.Algebra.Algebra.Basic
import Mathlib.Algebra.Star.Module

/-!
# Specification: what Pauli, Majorana and Fermion strings denote

The specification does not use qosy's algorithms.  It says which relations the site operators satisfy
and that a string is its prefactor times the ordered product of its site operators.  All theorems
quantify over *every* algebra `𝔸` and every family of site operators satisfying the relations on a set `S` of
labels, so in particular they hold for the actual matrices.
-/

namespace Qosy

variable {K : Type} [Field K] [StarRing K] [Coef K]
variable {𝔸 : Type} [Ring 𝔸] [Algebra K 𝔸]

/-- Spin operators `X i, Y i, Z i` on the sites `i ∈ S`: the Pauli relations on each site, and operators
on different sites commute. -/
structure PauliRep (K : Type) [Field K] [StarRing K] [Coef K] (𝔸 : Type) [Ring 𝔸] [Algebra K 𝔸] (S : Set ℤ) where
  X : ℤ → 𝔸
  Y : ℤ → 𝔸
  Z : ℤ → 𝔸
  x_sq : ∀ i ∈ S, X i * X i = 1
  y_sq : ∀ i ∈ S, Y i * Y i = 1
  z_sq : ∀ i ∈ S, Z i * Z i = 1
  x_mul_y : ∀ i ∈ S, X i * Y i = (I : K) • Z i
  y_mul_z : ∀ i ∈ S, Y i * Z i = (I : K) • X i
  z_mul_x : ∀ i ∈ S, Z i * X i = (I : K) • Y i
  y_mul_x : ∀ i ∈ S, Y i * X i = -((I : K) • Z i)
  z_mul_y : ∀ i ∈ S, Z i * Y i = -((I : K) • X i)
  x_mul_z : ∀ i ∈ S, X i * Z i = -((I : K) • Y i)
  xx : ∀ i ∈ S, ∀ j ∈ S, i ≠ j → X i * X j = X j * X i
  xy : ∀ i ∈ S, ∀ j ∈ S, i ≠ j → X i * Y j = Y j * X i
  xz : ∀ i ∈ S, ∀ j ∈ S, i ≠ j → X i * Z j = Z j * X i
  yy : ∀ i ∈ S, ∀ j ∈ S, i ≠ j → Y i * Y j = Y j * Y i
  yz : ∀ i ∈ S, ∀ j ∈ S, i ≠ j → Y i * Z j = Z j * Y i
  zz : ∀ i ∈ S, ∀ j ∈ S, i ≠ j → Z i * Z j = Z j * Z i

/-- Majorana operators `a i, b i` on the orbitals `i ∈ S`: all square to one and different ones anticommute. -/
structure MajoranaRep (K : Type) [Field K] [StarRing K] [Coef K] (𝔸 : Type) [Ring 𝔸] [Algebra K 𝔸] (S : Set ℤ) where
  a : ℤ → 𝔸
  b : ℤ → 𝔸
  a_sq : ∀ i ∈ S, a i * a i = 1
  b_sq : ∀ i ∈ S, b i * b i = 1
  ab : ∀ i ∈ S, ∀ j ∈ S, a i * b j = -(b j * a i)
  aa : ∀ i ∈ S, ∀ j ∈ S, i ≠ j → a i * a j = -(a j * a i)
  bb : ∀ i ∈ S, ∀ j ∈ S, i ≠ j → b i * b j = -(b j * b i)

/-- `d_j = -i a_j b_j` (operatorstring.py documentation: `\hat{d}_j = -i \hat{a}_j \hat{b}_j`) -/
def MajoranaRep.d {S : Set ℤ} (R : MajoranaRep K 𝔸 S) (i : ℤ) : 𝔸 := -((I : K) • (R.a i * R.b i))

/-- The meaning of one Pauli operator on a site; operators of other families have no meaning here. -/
def PauliRep.site {S : Set ℤ} (R : PauliRep K 𝔸 S) : Op → ℤ → 𝔸
  | .X, i => R.X i
  | .Y, i => R.Y i
  | .Z, i => R.Z i
  | _, _ => 0

/-- The meaning of one Majorana operator on an orbital. -/
def MajoranaRep.site {S : Set ℤ} (R : MajoranaRep K 𝔸 S) : Op → ℤ → 𝔸
  | .A, i => R.a i
  | .B, i => R.b i
  | .D, i => R.d i
  | _, _ => 0

/-- The ordered product of the site operators of a word. -/
def wordProd {M : Type} [Monoid M] (site : Op → ℤ → M) : List Op → List Int → M
  | op :: ops, l :: ls => site op l * wordProd site ops ls
  | _, _ => 1

/-- The operator denoted by a Pauli string. -/
def PauliRep.den {S : Set ℤ} (R : PauliRep K 𝔸 S) (s : OpString) : 𝔸 :=
  (s.pref.val : K) • wordProd R.site s.ops s.labels

/-- The operator denoted by a Majorana string. -/
def MajoranaRep.den {S : Set ℤ} (R : MajoranaRep K 𝔸 S) (s : OpString) : 𝔸 :=
  (s.pref.val : K) • wordProd R.site s.ops s.labels

/-- What a user may pass as a Pauli string: Pauli operators on distinct orbitals (in any order), one operator per
label, prefactor 1. -/
structure PauliString (S : Set ℤ) (s : OpString) : Prop where
  type : s.opType = .pauli
  ops : ∀ op ∈ s.ops, op = .X ∨ op = .Y ∨ op = .Z
  len : s.ops.length = s.labels.length
  nodup : s.labels.Nodup
  mem : ∀ l ∈ s.labels, l ∈ S
  pref : s.pref ≠ .imag

/-- What a user may pass as a Majorana string: Majorana operators on distinct orbitals (in any order), with the
prefactor that makes it Hermitian: `i` exactly when reversing the `n` anticommuting operators gives a minus sign,
i.e. when `n(n-1)/2` is odd. -/
structure MajoranaString (S : Set ℤ) (s : OpString) : Prop where
  type : s.opType = .majorana
  ops : ∀ op ∈ s.ops, op = .A ∨ op = .B ∨ op = .D
  len : s.ops.length = s.labels.length
  nodup : s.labels.Nodup
  mem : ∀ l ∈ s.labels, l ∈ S
  pref : s.pref = .imag ↔
    ((s.ops.filter (fun op => op = .A ∨ op = .B)).length.choose 2) % 2 = 1

/-- a string as the algebra functions return it: labels in increasing order and a canonical prefactor -/
def OpString.Canonical (s : OpString) : Prop := s.labels.Pairwise (· < ·) ∧ (s.pref = .imag ∨ s.pref = .float1)

end Qosy
