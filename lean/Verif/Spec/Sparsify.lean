import Verif.Model.Sparsify
import Verif.Spec.LinAlg

/-! # Specification: LU decomposition with a row permutation -/

namespace Qosy

/-- What `scipy.linalg.lu(A, permute_l=True)` promises for a matrix with the columns `cols`: `A = (P L) U`, where `P` permutes the
rows, `L` is lower triangular with ones on the diagonal and has `min n k` columns, and `U` is upper triangular. -/
structure IsPermutedLu {n : ℕ} (cols pl : List (Fin n → ℂ)) : Prop where
  len : pl.length = min n cols.length
  lower : ∃ σ : Equiv.Perm (Fin n), ∀ (i j : ℕ) (hi : i < n) (hj : j < pl.length), i ≤ j → pl[j] (σ ⟨i, hi⟩) = if i = j then 1 else 0
  upper : ∃ U : ℕ → ℕ → ℂ, (∀ i j, j < i → U i j = 0) ∧ ∀ (j : ℕ) (hj : j < cols.length), cols[j] = ∑ i : Fin pl.length, U i j • pl[i]

/-- a routine that decomposes all matrices -/
def ExactLu (lu : PermutedLu) : Prop := ∀ (n : ℕ) (cols : List (Fin n → ℂ)), IsPermutedLu cols (lu n cols)

/-- What `np.argsort` promises for a list of numbers: a permutation of the positions that sorts them, ties in any order -/
def IsSort (argsort : List ℕ → List ℕ) : Prop :=
  ∀ l : List ℕ, (argsort l).Perm (List.range l.length) ∧ (argsort l).Pairwise (fun i j => l.getD i 0 ≤ l.getD j 0)

/-- the columns are linearly independent -/
def IndependentColumns {n : ℕ} (q : List (Fin n → ℂ)) : Prop := LinearIndependent ℂ (fun i : Fin q.length => q[i])

end Qosy
