import Verif.Spec.Ladder
import Verif.Lemmas.GreedyNumerics
import Mathlib.LinearAlgebra.Matrix.Rank
import Mathlib.LinearAlgebra.Matrix.Diagonal

/-!
# Exact numerical routines for ladder operators exist and always return a result
-/

namespace Qosy
open Matrix Coef RealOps

/-- at most as many eigenvalues of `M† M` as `M` has rows are not zero -/
private theorem gram_zero {m n : ℕ} {A : Matrix (Fin m) (Fin n) ℂ} {r : EighResult (Fin n) n} (h : IsEigh (Aᴴ * A) r) (hs : Monotone r.evals) (hp : ∀ j, 0 ≤ r.evals j)
    (k : ℕ) (hk : m ≤ k) (hkn : k < n) : r.evals (Fin.rev ⟨k, hkn⟩) = 0 := by
  by_contra hne
  have hpos : 0 < r.evals (Fin.rev ⟨k, hkn⟩) := lt_of_le_of_ne (hp _) (Ne.symm hne)
  have e : diagonal (fun j => (r.evals j : ℂ)) = r.evecsᴴ * (Aᴴ * A) * r.evecs := by
    rw [mul_assoc, h.eigen, ← mul_assoc, h.orthonormal, one_mul]
  have hr : (diagonal (fun j => (r.evals j : ℂ))).rank ≤ m := by
    rw [e]
    calc _ ≤ (r.evecsᴴ * (Aᴴ * A)).rank := rank_mul_le_left _ _
      _ ≤ (Aᴴ * A).rank := rank_mul_le_right _ _
      _ ≤ A.rank := rank_mul_le_right _ _
      _ ≤ m := by simpa using A.rank_le_height
  rw [rank_diagonal] at hr
  have : k + 1 ≤ Fintype.card {j // (r.evals j : ℂ) ≠ 0} := by
    rw [← Fintype.card_fin (k + 1)]
    refine Fintype.card_le_of_injective (fun i : Fin (k + 1) => ⟨Fin.rev ⟨i, by omega⟩, ?_⟩) ?_
    · rw [Complex.ofReal_ne_zero]
      refine (lt_of_lt_of_le hpos (hs ?_)).ne'
      rw [Fin.rev_le_rev]
      exact Fin.mk_le_mk.mpr (by omega)
    · intro a b hab
      have := congrArg Subtype.val hab
      simpa [Fin.ext_iff] using Fin.rev_injective this
  omega

theorem exists_svd (M : Mat ℂ) : ∃ r, IsSvd M r := by
  let A : Matrix (Fin M.nrows) (Fin M.ncols) ℂ := fun i j => M.get i j
  obtain ⟨r, h1, h2, -⟩ := exists_sorted_eigh (isHermitian_conjTranspose_mul_self A)
  have hin : ∀ i j, ∑ k, star (r.evecs k i) * r.evecs k j = if i = j then 1 else 0 := by
    intro i j
    have := congrFun (congrFun h1.orthonormal i) j
    rw [Matrix.mul_apply, Matrix.one_apply] at this
    exact this
  have heig : ∀ j i, ∑ k, star (A k i) * ∑ l, A k l * r.evecs l j = r.evals j * r.evecs i j := by
    intro j i
    have := congrFun (congrFun h1.eigen i) j
    rw [Matrix.mul_diagonal, Matrix.mul_assoc, Matrix.mul_apply, mul_comm] at this
    rw [← this]
    exact Finset.sum_congr rfl fun k _ => by rw [conjTranspose_apply, Matrix.mul_apply]
  have hp : ∀ j, 0 ≤ r.evals j := by
    intro j
    have e : diagonal (fun j => (r.evals j : ℂ)) = (A * r.evecs)ᴴ * (A * r.evecs) := by
      rw [conjTranspose_mul, Matrix.mul_assoc, ← Matrix.mul_assoc Aᴴ, h1.eigen, ← Matrix.mul_assoc, h1.orthonormal, Matrix.one_mul]
    have := congrFun (congrFun e j) j
    rw [diagonal_apply_eq, Matrix.mul_apply] at this
    have h3 : r.evals j = ∑ k, Complex.normSq ((A * r.evecs) k j) := by
      apply Complex.ofReal_injective
      rw [this, Complex.ofReal_sum]
      exact Finset.sum_congr rfl fun k _ => by rw [conjTranspose_apply, Complex.normSq_eq_conj_mul_self]; rfl
    rw [h3]
    exact Finset.sum_nonneg fun k _ => Complex.normSq_nonneg _
  have hz := gram_zero h1 h2 hp
  let V : Fin M.ncols → List ℂ := fun j => List.ofFn fun i => r.evecs i (Fin.rev j)
  have hV : ∀ (j i : Fin M.ncols), (V j).getD i 0 = r.evecs i (Fin.rev j) := by
    intro j i
    simp [V]
  refine ⟨(List.ofFn fun j : Fin (min M.nrows M.ncols) => ((Real.sqrt (r.evals (Fin.rev ⟨j, by omega⟩)) : ℝ) : ℂ), List.ofFn V), ?_, ?_, ⟨?_, ?_, ?_⟩, ?_⟩
  · simp
  · simp
  · intro v hv
    obtain ⟨j, rfl⟩ := (List.mem_ofFn' _ _).mp hv
    simp [V]
  · intro v hv
    obtain ⟨j, rfl⟩ := (List.mem_ofFn' _ _).mp hv
    simp only [hV]
    rw [hin, if_pos rfl]
  · rw [List.pairwise_ofFn]
    intro i j hij
    simp only [hV]
    rw [hin, if_neg fun h => hij.ne (Fin.rev_injective h)]
  · intro i v hv j hj
    obtain ⟨hi, rfl⟩ := List.getElem?_eq_some_iff.mp hv
    simp only [List.length_ofFn] at hi
    simp only [List.getElem_ofFn]
    have e1 := heig (Fin.rev ⟨i, hi⟩) ⟨j, hj⟩
    have e2 : (r.evals (Fin.rev ⟨i, hi⟩) : ℂ) =
        (List.ofFn fun j : Fin (min M.nrows M.ncols) => ((Real.sqrt (r.evals (Fin.rev ⟨j, by omega⟩)) : ℝ) : ℂ)).getD i 0 ^ 2 := by
      by_cases hi2 : i < min M.nrows M.ncols
      · rw [List.getD_eq_getElem _ _ (by simpa using hi2), List.getElem_ofFn, ← Complex.ofReal_pow, Real.sq_sqrt (hp _)]
      · rw [List.getD_eq_default _ _ (by rw [List.length_ofFn]; omega), hz i (by omega) hi]
        simp
    rw [← e2]
    have e3 := hV ⟨i, hi⟩ ⟨j, hj⟩
    dsimp only at e3
    rw [e3, ← e1]
    exact Finset.sum_congr rfl fun k _ => by simp only [hV]; rfl

private theorem exists_eigh_lists (M : Mat ℂ) : ∃ r : List ℂ × List (List ℂ), M.IsHermitian M.nrows → IsEigenpairs M M.nrows r ∧ r.1.length = M.nrows := by
  by_cases hM : M.IsHermitian M.nrows
  · let D : Matrix (Fin M.nrows) (Fin M.nrows) ℂ := fun i j => M.get i j
    have hD : D.IsHermitian := by
      ext i j
      show star (M.get j i) = M.get i j
      rw [hM.2.2 i j i.2 j.2, star_star]
    obtain ⟨r, h1, -, h3⟩ := exists_sorted_eigh hD
    exact ⟨r.lists, fun _ => ⟨isEigenpairs_lists (fun _ _ => rfl) h1 h3, by simp [EighResult.lists]⟩⟩
  · exact ⟨([], []), fun h => absurd h hM⟩

/-- there are exact routines that return a result for every matrix (the pseudo-inverse, which the search for ladder operators does not use, is left out) -/
theorem exists_ladderNumerics : ∃ num : LadderNumerics ℂ, IsLadderNumerics num ∧ (∀ M e, num.svd M ≠ .error e) ∧ (∀ M e, num.eigh M ≠ .error e) ∧
    ∀ l e, num.sparsify l ≠ .error e := by
  obtain ⟨as, has⟩ := exists_isArgsort (K := ℂ)
  choose f hf using exists_svd
  choose g hg using exists_eigh_lists
  refine ⟨⟨fun M => .ok (f M), fun M => .ok (g M), fun _ => .error .valueError, as, fun x => .ok ((Real.sqrt x.re : ℝ) : ℂ), fun l => .ok l⟩, ⟨?_, ?_, ?_, has, ?_, ?_⟩, ?_, ?_, ?_⟩
  · rintro M r ⟨⟩
    exact hf M
  · rintro M r hM ⟨⟩
    exact hg M hM
  · rintro M P ⟨⟩
  · rintro x y hx h0 ⟨⟩
    have h0' : 0 ≤ x.re := h0
    refine ⟨Complex.conj_ofReal _, ?_, ?_⟩
    · show 0 ≤ (((Real.sqrt x.re : ℝ)) : ℂ).re
      rw [Complex.ofReal_re]
      exact Real.sqrt_nonneg _
    · rw [← Complex.ofReal_pow, Real.sq_sqrt h0']
      exact Complex.conj_eq_iff_re.mp hx
  · rintro n l r hl ⟨⟩
    have self : ∀ v ∈ l, IsColumnCombination n l v := by
      intro v hv
      obtain ⟨k, hk, rfl⟩ := List.mem_iff_getElem.mp hv
      refine ⟨fun i => if i = k then 1 else 0, fun i _ => ?_⟩
      rw [Finset.sum_eq_single ⟨k, hk⟩]
      · simp
      · intro b _ hb
        have : (b : ℕ) ≠ k := fun h => hb (Fin.ext h)
        simp [this]
      · simp
    exact ⟨rfl, fun w hw => ⟨hl.dim w hw, hl.unit w hw, self w hw⟩, self⟩
  · rintro M e ⟨⟩
  · rintro M e ⟨⟩
  · rintro l e ⟨⟩

end Qosy
