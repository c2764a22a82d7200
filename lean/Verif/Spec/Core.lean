import Verif.Model.Core
import Verif.Spec.LinAlg
import Verif.Spec.Matrix
import Verif.Lemmas.Matrix
import Verif.Spec.Transformation

/-! # Specification: (anti)commuting and invariant operators -/

namespace Qosy
open Matrix
variable {𝔸 : Type} [Ring 𝔸] [Algebra ℂ 𝔸]

/-- an exact eigensolver for Hermitian matrices of all sizes -/
def ExactEigh (eigh : Eigh) : Prop := ∀ (n : ℕ) (D : Matrix (Fin n) (Fin n) ℂ), D.IsHermitian → IsEigh D (eigh n D)

/-- no eigenvalue of `M` other than `target` is within the tolerance of it -/
def SpectralGap {n : ℕ} (M : Matrix (Fin n) (Fin n) ℂ) (target tol : ℝ) : Prop :=
  ∀ (μ : ℝ) (z : Fin n → ℂ), z ≠ 0 → M *ᵥ z = (μ : ℂ) • z → |μ - target| < tol → μ = target

/-- What `commuting_operators` has to return for the operators `x` and the operator `O`: orthonormal coefficient vectors whose span
contains the coefficients of all operators `∑ v_j x_j` whose bracket with `O` vanishes; the bracket of an operator in the span has
squared norm at most `tol * ∑ |v_j|²` (in the coefficients of distinct strings); and if the superoperator `M` has no small non-zero
eigenvalue, the span consists exactly of the operators with vanishing bracket. -/
structure CommutingBasis (den : OpString → 𝔸) (mode : Mode) (x : List 𝔸) (O : 𝔸) (tol : ℝ) (vecs : List (Fin x.length → ℂ))
    (M : Matrix (Fin x.length) (Fin x.length) ℂ) : Prop where
  orthonormal : OrthonormalColumns vecs
  complete : ∀ v : Fin x.length → ℂ, bracketOf mode (∑ j, v j • x[j]) O = 0 → v ∈ colSpan vecs
  approx : ∀ v ∈ colSpan vecs, ∃ (strs : List OpString) (w : ℕ → ℂ), strs.Nodup ∧ (∀ s ∈ strs, s.Canonical) ∧
    bracketOf mode (∑ j, v j • x[j]) O = linComb den strs w ∧ ∑ c : Fin strs.length, ‖w c‖ ^ 2 ≤ tol * ∑ j, ‖v j‖ ^ 2
  exact : SpectralGap M 0 tol → ∀ v, v ∈ colSpan vecs ↔ bracketOf mode (∑ j, v j • x[j]) O = 0

/-- two of the Penrose equations for numpy's `pinv`: `C P C = C` and `C P` is Hermitian -/
def IsPinv (pinv : Mat ℂ → Py (Mat ℂ)) : Prop :=
  ∀ C : Mat ℂ, C.WF → ∃ P, pinv C = .ok P ∧ P.WF ∧ P.nrows = C.ncols ∧ P.ncols = C.nrows ∧
    C.toMatrix * P.rect C.ncols C.nrows * C.toMatrix = C.toMatrix ∧
    (C.toMatrix * P.rect C.ncols C.nrows)ᴴ = C.toMatrix * P.rect C.ncols C.nrows

/-- the number of elements of a basis argument -/
def BasisArg.len : BasisArg ℂ → ℕ
  | .strings b => b.strs.length
  | .operators l => l.length

/-- the coefficient of the string `s` in the `j`-th element of a basis argument -/
noncomputable def BasisArg.coef : (x : BasisArg ℂ) → Fin x.len → OpString → ℂ
  | .strings b, j, s => if b.strs[(j : ℕ)]'j.2 = s then 1 else 0
  | .operators l, j, s => (l[(j : ℕ)]'j.2).coef s

/-- a Basis, or a list of Operators on the strings `V` that are orthonormal for `⟨A, B⟩ = ∑ s, conj (A_s) * B_s` -/
def BasisArg.Orthonormal (t : OpType) (V : OpString → Prop) : BasisArg ℂ → Prop
  | .strings b => b.Inv ∧ ∀ s ∈ b.strs, V s
  | .operators l => (∀ o ∈ l, o.On t V) ∧ ∀ (i j : ℕ) (hi : i < l.length) (hj : j < l.length),
      ∑ s ∈ l[i].basis.strs.toFinset, star (l[i].coef s) * l[j].coef s = if i = j then 1 else 0

/-- What `invariant_operators` has to return for the transformation `T` and the sign: orthonormal coefficient vectors whose span
contains the coefficients of all operators `A = ∑ v_j x_j` with `T(A) = sign * A`; for `A` in the span, the squared norm of
`T(A) - sign * A` is at most `2 * tol * ∑ |v_j|²`; and if the superoperator `M` has no small non-zero eigenvalue, the span consists
exactly of the operators with `T(A) = sign * A`. -/
structure InvariantBasis (T : Transformation ℂ) (t : OpType) (V : OpString → Prop) (sign : ℤ) {n : ℕ} (cf : Fin n → OpString → ℂ) (tol : ℝ)
    (vecs : List (Fin n → ℂ)) (M : Matrix (Fin n) (Fin n) ℂ) : Prop where
  orthonormal : OrthonormalColumns vecs
  total : ∀ A : Operator ℂ, A.On t V → ∃ B, T.apply A = .ok B
  complete : ∀ (v : Fin n → ℂ) (A B : Operator ℂ), A.On t V → (∀ s, A.coef s = ∑ j, v j * cf j s) → T.apply A = .ok B →
    (∀ s, B.coef s = sign * A.coef s) → v ∈ colSpan vecs
  approx : ∀ v ∈ colSpan vecs, ∀ A B : Operator ℂ, A.On t V → (∀ s, A.coef s = ∑ j, v j * cf j s) → T.apply A = .ok B →
    ∀ F : Finset OpString, ∑ s ∈ F, ‖B.coef s - sign * A.coef s‖ ^ 2 ≤ 2 * tol * ∑ j, ‖v j‖ ^ 2
  exact : SpectralGap M 0 tol → ∀ (v : Fin n → ℂ) (A B : Operator ℂ), A.On t V → (∀ s, A.coef s = ∑ j, v j * cf j s) → T.apply A = .ok B →
    (v ∈ colSpan vecs ↔ ∀ s, B.coef s = sign * A.coef s)

end Qosy
