import Verif.Model.Ladder
import Verif.Spec.SelectedCi

/-! # Specification: ladder operators -/

namespace Qosy
variable {K : Type} [Field K] [StarRing K] [Coef K] [RealCoef K]
variable {𝔸 : Type} [Ring 𝔸] [Algebra K 𝔸]

/-- orthonormal vectors with `n` entries -/
structure OrthonormalVectors (n : ℕ) (l : List (List K)) : Prop where
  dim : ∀ v ∈ l, v.length = n
  unit : ∀ v ∈ l, ∑ j : Fin n, star (v.getD j 0) * v.getD j 0 = 1
  orthogonal : l.Pairwise (fun v w => ∑ j : Fin n, star (v.getD j 0) * w.getD j 0 = 0)

/-- singular values and right singular vectors of a matrix: there are as many values as the smaller dimension, the vectors are an orthonormal basis,
and `M† M v = s² v`, where the vectors beyond the last value belong to `s = 0` -/
structure IsSvd (M : Mat K) (r : List K × List (List K)) : Prop where
  lenS : r.1.length = min M.nrows M.ncols
  lenV : r.2.length = M.ncols
  ortho : OrthonormalVectors M.ncols r.2
  gram : ∀ i v, r.2[i]? = some v → ∀ j, j < M.ncols →
    ∑ k : Fin M.nrows, star (M.get k j) * ∑ l : Fin M.ncols, M.get k l * v.getD l 0 = r.1.getD i 0 ^ 2 * v.getD j 0

/-- the vector `w` with `n` entries is a combination of the vectors of the list -/
def IsColumnCombination (n : ℕ) (l : List (List K)) (w : List K) : Prop :=
  ∃ c : ℕ → K, ∀ i, i < n → w.getD i 0 = ∑ k : Fin l.length, c k * l[k].getD i 0

/-- what the numerical routines promise whenever they return a result: singular values and all eigenvectors are right; `M P M = M` for the pseudo-inverse; `sparsify` replaces
orthonormal columns by as many normalised combinations of them that span the same space (C66) -/
structure IsLadderNumerics (num : LadderNumerics K) : Prop where
  svd : ∀ M r, num.svd M = .ok r → IsSvd M r
  eigh : ∀ M r, M.IsHermitian M.nrows → num.eigh M = .ok r → IsEigenpairs M M.nrows r ∧ r.1.length = M.nrows
  pinv : ∀ M P, num.pinv M = .ok P → P.nrows = M.ncols ∧ P.ncols = M.nrows ∧
    ∀ v : ℕ → K, ∀ i, i < M.nrows → M.mulVec (P.mulVec (M.mulVec v)) i = M.mulVec v i
  argsort : IsArgsort num.argsort
  sqrt : ∀ x y, IsReal x → 0 ≤ toR x → num.sqrt x = .ok y → IsReal y ∧ 0 ≤ toR y ∧ y ^ 2 = x
  sparsify : ∀ n l r, OrthonormalVectors n l → num.sparsify l = .ok r → r.length = l.length ∧
    (∀ w ∈ r, w.length = n ∧ ∑ j : Fin n, star (w.getD j 0) * w.getD j 0 = 1 ∧ IsColumnCombination n l w) ∧ ∀ v ∈ l, IsColumnCombination n r v

/-- the span of the strings is closed under commutation with `O`: no commutator of one of them with a term of `O` leads to another string -/
def ClosedUnder (Str : OpString → Prop) (den : OpString → 𝔸) (strs : List OpString) (O : Operator K) : Prop :=
  ∀ t, Reached Str den strs O none t → t ∈ strs

/-- a normalised operator over the strings of a list -/
structure UnitOver (strs : List OpString) (A : Operator K) : Prop where
  over : A.basis.strs = strs
  len : A.coeffs.length = strs.length
  unit : ∑ j : Fin strs.length, star (A.coeffs.getD j 0) * A.coeffs.getD j 0 = 1

/-- operators over the strings of a list with overlap zero -/
def OrthogonalOver (strs : List OpString) (A B : Operator K) : Prop := ∑ j : Fin strs.length, star (A.coeffs.getD j 0) * B.coeffs.getD j 0 = 0

/-- `R` is a ladder operator of `O` that raises its eigenvalues by `δ`: `[O, R] = δ R` -/
def IsLadder (O R : 𝔸) (δ : K) : Prop := bracketOf .commutator O R = δ • R

/-- the commutator of `O` with the operator with coefficients `v` has a part outside the span of the strings that is smaller than `tol`, and the overlap of the operator
with the part inside is `δ` -/
def IsProjectedLadder (P : OpString → Prop) (den : OpString → 𝔸) (strs : List OpString) (O : 𝔸) (tol : ℚ) (v : ℕ → K) (δ : K) : Prop :=
  ∃ (w : ℕ → K) (out : List OpString) (y : ℕ → K), out.Nodup ∧ (∀ s ∈ out, P s ∧ s ∉ strs) ∧
    bracketOf .commutator O (linComb den strs v) = linComb den strs w + linComb den out y ∧
    ∑ i : Fin out.length, ‖Coef.toC (y i)‖ ^ 2 < (tol : ℝ) ^ 2 ∧ ∑ j : Fin strs.length, star (v j) * w j = δ

/-- an operator is a combination of distinct strings whose coefficients have a norm smaller than `tol` -/
def IsSmall (K : Type) [Field K] [StarRing K] [Coef K] {𝔸 : Type} [Ring 𝔸] [Algebra K 𝔸] (P : OpString → Prop) (den : OpString → 𝔸) (tol : ℚ) (a : 𝔸) : Prop :=
  ∃ (out : List OpString) (y : ℕ → K), out.Nodup ∧ (∀ s ∈ out, P s) ∧ a = linComb den out y ∧ ∑ i : Fin out.length, ‖Coef.toC (y i)‖ ^ 2 < (tol : ℝ) ^ 2

/-- `B` has the coefficients `x` of the strings with `|x| > tol`, divided by the norm `N` of these coefficients -/
structure IsCleaned (tol : ℚ) (strs : List OpString) (x : List K) (B : Operator K) (N : K) : Prop where
  len : x.length = strs.length
  real : IsReal N
  nonneg : 0 ≤ toR N
  norm : N ^ 2 = (((x.zip strs).filter (fun t => decide ((tol : ℝ) < ‖Coef.toC t.1‖))).map (fun t => star t.1 * t.1)).sum
  terms : B.terms = ((x.zip strs).filter (fun t => decide ((tol : ℝ) < ‖Coef.toC t.1‖))).map (fun t => (t.1 / N, t.2))

/-- the span of the operators whose eigenvalue is `δ` -/
def ladderSpan (den : OpString → 𝔸) (ops : List (Operator K)) (evals : List K) (δ : K) : Submodule K 𝔸 :=
  Submodule.span K {x | ∃ A, (A, δ) ∈ ops.zip evals ∧ x = A.den den}

/-- different values of the ladder operators in the span of the strings are far apart -/
def WellSeparated (den : OpString → 𝔸) (strs : List OpString) (O : 𝔸) : Prop :=
  ∀ (v w : ℕ → K) (δ ε : K), linComb den strs v ≠ 0 → linComb den strs w ≠ 0 → IsLadder O (linComb den strs v) δ → IsLadder O (linComb den strs w) ε →
    δ ≠ ε → (1 / 10 ^ 10 : ℝ) < ‖Coef.toC (δ - ε)‖

end Qosy
