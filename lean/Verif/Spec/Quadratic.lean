import Verif.Model.Quadratic
import Verif.Spec.Fermion
import Verif.Spec.Linear
import Verif.Spec.MatrixRep

/-!
# Specification: quadratic Hamiltonians
-/

namespace Qosy
variable {K : Type} [Field K] [StarRing K] [Coef K]
variable {𝔸 : Type} [Ring 𝔸] [Algebra K 𝔸] {S : Set ℤ}

/-- the Majorana operators in the order `a_0, b_0, a_1, b_1, …` -/
def MajoranaRep.γ (R : MajoranaRep K 𝔸 S) (k : ℕ) : 𝔸 := if k % 2 = 0 then R.a ((k / 2 : ℕ) : ℤ) else R.b ((k / 2 : ℕ) : ℤ)

/-- a string `d_j` or `i γ_j γ_k` with `γ` one of `a`, `b` -/
def QuadraticMajorana (n : ℕ) (s : OpString) : Prop :=
  MajoranaString (siteLabels n) s ∧ (s.ops = [.D] ∨ ∃ p q, s.ops = [p, q] ∧ (p = .A ∨ p = .B) ∧ (q = .A ∨ q = .B))

/-- a string `c†_i c_j + h.c.`, `i c†_i c_j + h.c.` or `c†_i c_i` -/
def Hopping (n : ℕ) (s : OpString) : Prop :=
  FermionString (siteLabels n) s ∧ s.ops = [.CDag, .C] ∧ (s.OwnConjugate → s.pref ≠ .imag)

/-- a string `c†_i c†_j + h.c.` or `i c†_i c†_j + h.c.` -/
def Pairing (n : ℕ) (s : OpString) : Prop := FermionString (siteLabels n) s ∧ s.ops = [.CDag, .CDag]

/-- the Nambu operators `Ψ = (c_0, …, c_{n-1}, c†_0, …, c†_{n-1})` -/
def MajoranaRep.nambu (R : MajoranaRep K 𝔸 S) (n k : ℕ) : 𝔸 := if k < n then R.c (k : ℤ) else R.cdag ((k - n : ℕ) : ℤ)

/-- their conjugates `Ψ† = (c†_0, …, c†_{n-1}, c_0, …, c_{n-1})` -/
def MajoranaRep.nambuDag (R : MajoranaRep K 𝔸 S) (n k : ℕ) : 𝔸 := if k < n then R.cdag (k : ℤ) else R.c ((k - n : ℕ) : ℤ)

/-- the particle-hole transformation of the Nambu indices, exchanging `c_k` and `c†_k` -/
def halfSwap (n k : ℕ) : ℕ := if k < n then k + n else k - n

/-- The contract of `sla.schur(A, output='real')` for the real antisymmetric matrix `A`, in the case in which the diagonal blocks of
`T` are aligned: `A = Z T Zᵀ` with `Z` orthogonal and `T` zero outside the blocks with rows and columns `2m`, `2m+1`.  Real
numbers are elements of an ordered field `F`, embedded into the coefficients by `ι`. -/
structure IsSchur {F : Type} [Field F] [LinearOrder F] (ι : F →+* K) (n : ℕ) (A : Mat K) (T Z : Dense F) : Prop where
  orthogonal : ∀ k l, k < 2 * n → l < 2 * n → ∑ i ∈ Finset.range (2 * n), Z.get i k * Z.get i l = if k = l then 1 else 0
  decomposition : ∀ i j, i < 2 * n → j < 2 * n →
    A.get i j = ι (∑ k ∈ Finset.range (2 * n), ∑ l ∈ Finset.range (2 * n), Z.get i k * T.get k l * Z.get j l)
  blocks : ∀ k l, k < 2 * n → l < 2 * n → k / 2 ≠ l / 2 → T.get k l = 0

/-- What a real Schur decomposition promises in general: `A = Z T Zᵀ` with `Z` orthogonal and `T` quasi upper triangular, with diagonal
blocks of size one and two at any position. -/
structure IsRealSchur {F : Type} [Field F] [LinearOrder F] (ι : F →+* K) (n : ℕ) (A : Mat K) (T Z : Dense F) : Prop where
  orthogonal : ∀ k l, k < 2 * n → l < 2 * n → ∑ i ∈ Finset.range (2 * n), Z.get i k * Z.get i l = if k = l then 1 else 0
  decomposition : ∀ i j, i < 2 * n → j < 2 * n →
    A.get i j = ι (∑ k ∈ Finset.range (2 * n), ∑ l ∈ Finset.range (2 * n), Z.get i k * T.get k l * Z.get j l)
  triangular : ∀ k l, k < 2 * n → l < 2 * n → l + 1 < k → T.get k l = 0
  blocks : ∀ k, k + 2 < 2 * n → T.get (k + 1) k ≠ 0 → T.get (k + 2) (k + 1) = 0

/-- the Majorana operator given by a column of a matrix -/
def MajoranaRep.combo {F : Type} [Field F] (R : MajoranaRep K 𝔸 S) (ι : F →+* K) (n : ℕ) (Z : Dense F) (k : ℕ) : 𝔸 :=
  ∑ l ∈ Finset.range (2 * n), ι (Z.get l k) • R.γ l

/-- the annihilation operator `f_m` of a mode: `γ'_{2m} = f_m + f†_m` and `γ'_{2m+1} = -i f_m + i f†_m` -/
def MajoranaRep.mode {F : Type} [Field F] (R : MajoranaRep K 𝔸 S) (ι : F →+* K) (n : ℕ) (Z : Dense F) (m : ℕ) : 𝔸 :=
  (1 / 2 : K) • (R.combo ι n Z (2 * m) + (I : K) • R.combo ι n Z (2 * m + 1))

/-- the creation operator `f†_m` of a mode -/
def MajoranaRep.modeDag {F : Type} [Field F] (R : MajoranaRep K 𝔸 S) (ι : F →+* K) (n : ℕ) (Z : Dense F) (m : ℕ) : 𝔸 :=
  (1 / 2 : K) • (R.combo ι n Z (2 * m) - (I : K) • R.combo ι n Z (2 * m + 1))

end Qosy
