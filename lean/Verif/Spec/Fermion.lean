import Verif.Spec.Rep

/-!
# Specification: what Fermion strings denote

`c_j = (a_j + i b_j)/2` and `c†_j = (a_j - i b_j)/2` (conversion.py documentation: `a_j = c_j + c†_j`,
`b_j = -i c_j + i c†_j`).  A Fermion string `c†_{i_1} ⋯ c†_{i_m} c_{j_l} ⋯ c_{j_1}` stands for the product itself if it is its
own Hermitian conjugate and for the product plus its Hermitian conjugate otherwise (operatorstring.py documentation).
-/

namespace Qosy
variable {K : Type} [Field K] [StarRing K] [Coef K]
variable {𝔸 : Type} [Ring 𝔸] [Algebra K 𝔸] {S : Set ℤ}

/-- the annihilation operator `c_j` -/
def MajoranaRep.c (R : MajoranaRep K 𝔸 S) (j : ℤ) : 𝔸 := (1 / 2 : K) • (R.a j + (I : K) • R.b j)

/-- the creation operator `c†_j` -/
def MajoranaRep.cdag (R : MajoranaRep K 𝔸 S) (j : ℤ) : 𝔸 := (1 / 2 : K) • (R.a j - (I : K) • R.b j)

/-- The meaning of one Fermion operator on an orbital. -/
def MajoranaRep.fsite (R : MajoranaRep K 𝔸 S) : Op → ℤ → 𝔸
  | .CDag, j => R.cdag j
  | .C, j => R.c j
  | _, _ => 0

/-- labels of the creation operators, in order -/
def OpString.cdagLabels (s : OpString) : List Int := ((s.ops.zip s.labels).filter (fun x => decide (x.1 = .CDag))).map Prod.snd

/-- labels of the annihilation operators, in order -/
def OpString.cLabels (s : OpString) : List Int := ((s.ops.zip s.labels).filter (fun x => decide (x.1 = .C))).map Prod.snd

/-- the product `c†_{i_1} ⋯ c†_{i_m} c_{j_l} ⋯ c_{j_1}` is literally its own conjugate `c†_{j_1} ⋯ c†_{j_l} c_{i_m} ⋯ c_{i_1}` -/
def OpString.OwnConjugate (s : OpString) : Prop := s.cdagLabels = s.cLabels.reverse

instance (s : OpString) : Decidable s.OwnConjugate := inferInstanceAs (Decidable (_ = _))

/-- prefactor times the ordered product -/
def MajoranaRep.fword (R : MajoranaRep K 𝔸 S) (s : OpString) : 𝔸 := (s.pref.val : K) • wordProd R.fsite s.ops s.labels

/-- the operator denoted by a Fermion string -/
def MajoranaRep.fden [StarRing 𝔸] (R : MajoranaRep K 𝔸 S) (s : OpString) : 𝔸 :=
  if s.OwnConjugate then R.fword s else R.fword s + star (R.fword s)

/-- A normal-ordered Fermion string: creation operators on distinct orbitals, then annihilation operators on distinct
orbitals, in any order. -/
structure FermionString (S : Set ℤ) (s : OpString) : Prop where
  type : s.opType = .fermion
  len : s.ops.length = s.labels.length
  ordered : s.ops = List.replicate s.cdagLabels.length .CDag ++ List.replicate s.cLabels.length .C
  cdag_nodup : s.cdagLabels.Nodup
  c_nodup : s.cLabels.Nodup
  mem : ∀ l ∈ s.labels, l ∈ S

end Qosy
