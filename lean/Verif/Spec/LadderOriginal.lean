import Verif.Model.LadderOriginal
import Verif.Spec.Ladder

/-! # Specification: the routines of `_ladder_operators_original` -/

namespace Qosy
variable {K : Type} [Field K] [StarRing K] [Coef K] [RealCoef K]

/-- `nla.eig`: as many normalised eigenvectors as the matrix has rows, and for a Hermitian matrix they are a basis (`dual` is the inverse of the matrix of
eigenvectors).  They need not be orthogonal. -/
structure IsEig (M : Mat K) (r : List K × List (List K)) : Prop where
  len : r.1.length = M.nrows
  lenV : r.2.length = M.nrows
  dim : ∀ v ∈ r.2, v.length = M.nrows
  unit : ∀ v ∈ r.2, ∑ j : Fin M.nrows, star (v.getD j 0) * v.getD j 0 = 1
  eigen : ∀ e ∈ r.1.zip r.2, ∀ i, i < M.nrows → ∑ j : Fin M.nrows, M.get i j * e.2.getD j 0 = e.1 * e.2.getD i 0
  complete : M.IsHermitian M.nrows → ∃ dual : List (List K), ∀ i j, i < M.nrows → j < M.nrows →
    ∑ k : Fin M.nrows, (r.2.getD k []).getD i 0 * (dual.getD k []).getD j 0 = if i = j then 1 else 0

/-- `np.allclose(M, N)`: every entry satisfies `|M - N| ≤ 1e-8 + 1e-5 |N|` -/
def IsAllclose (M N : Mat K) : Prop :=
  ∀ i j, i < M.nrows → j < M.ncols → ‖Coef.toC (M.get i j - N.get i j)‖ ≤ 1 / 10 ^ 8 + 1 / 10 ^ 5 * ‖Coef.toC (N.get i j)‖

/-- whatever the numerical routines return is right -/
structure IsOriginalNumerics (num : OriginalNumerics K) : Prop where
  ladder : IsLadderNumerics num.toLadderNumerics
  eig : ∀ M r, M.ncols = M.nrows → num.eig M = .ok r → IsEig M r
  allclose : ∀ M N : Mat K, M.nrows = N.nrows → M.ncols = N.ncols → (num.allclose M N = true ↔ IsAllclose M N)

/-- `eig` returns orthogonal eigenvectors of Hermitian matrices -/
def OrthogonalEig (num : OriginalNumerics K) : Prop :=
  ∀ M r, M.IsHermitian M.nrows → num.eig M = .ok r → r.2.Pairwise (fun v w => ∑ j : Fin M.nrows, star (v.getD j 0) * w.getD j 0 = 0)

end Qosy
