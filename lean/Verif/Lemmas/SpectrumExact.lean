import Verif.Lemmas.Spectrum
import Verif.Lemmas.GreedyNumerics
import Mathlib.LinearAlgebra.Matrix.Charpoly.Eigs
import Mathlib.LinearAlgebra.Eigenspace.Minpoly
import Mathlib.LinearAlgebra.Matrix.ToLinearEquiv
import Mathlib.Analysis.Complex.Polynomial.Basic

/-! # The contracts of the eigensolvers can be met -/

namespace Qosy
open Matrix
variable {n : ℕ}

/-- the Hermitian matrix with the lower triangle of `D` -/
noncomputable def lowerHermitian (D : Matrix (Fin n) (Fin n) ℂ) : Matrix (Fin n) (Fin n) ℂ :=
  Matrix.of fun i j => if j < i then D i j else if i < j then star (D j i) else ((D i i).re : ℂ)

theorem lowerHermitian_isHermitian (D : Matrix (Fin n) (Fin n) ℂ) : (lowerHermitian D).IsHermitian := by
  ext i j
  simp only [Matrix.conjTranspose_apply, lowerHermitian, Matrix.of_apply]
  rcases lt_trichotomy i j with h | h | h
  · simp [h, not_lt_of_gt h]
  · subst h; simp
  · simp [h, not_lt_of_gt h]

theorem lowerHermitian_eq {D : Matrix (Fin n) (Fin n) ℂ} (hD : D.IsHermitian) : lowerHermitian D = D := by
  ext i j
  simp only [lowerHermitian, Matrix.of_apply]
  rcases lt_trichotomy i j with h | h | h
  · simp only [h, not_lt_of_gt h, if_true, if_false]; exact hD.apply i j
  · subst h; simp only [lt_irrefl, if_false]; exact Complex.conj_eq_iff_re.mp (hD.apply i i)
  · simp [h]

theorem lowerHermitian_congr {D E : Matrix (Fin n) (Fin n) ℂ} (h : ∀ i j, j < i → D i j = E i j) (hd : ∀ i, (D i i).re = (E i i).re) :
    lowerHermitian D = lowerHermitian E := by
  ext i j
  simp only [lowerHermitian, Matrix.of_apply]
  split
  · rename_i h1; exact h i j h1
  · split
    · rename_i h2; rw [h j i h2]
    · rw [hd]

theorem lowest_take {ι : Type} [Fintype ι] {D : Matrix ι ι ℂ} (hD : D.IsHermitian) {r : List (ℝ × (ι → ℂ))} (h : LowestEigenpairs D r)
    (hs : r.Pairwise fun p q => p.1 ≤ q.1) (k : ℕ) (hk : k < r.length) : LowestEigenpairs D (r.take k) := by
  have hmap : (r.take k).map Prod.snd = (r.map Prod.snd).take k := by rw [List.map_take]
  refine ⟨⟨fun v hv => h.orthonormal.1 v ?_, ?_⟩, fun p hp => h.eigen p (List.mem_of_mem_take hp), fun p hp u hu => ?_⟩
  · rw [hmap] at hv; exact List.mem_of_mem_take hv
  · rw [hmap]; exact h.orthonormal.2.sublist (List.take_sublist _ _)
  · have hb := h.minmax hD hs hk u hu
    obtain ⟨i, hi, rfl⟩ := List.mem_iff_getElem.mp hp
    have hi' : i < k ∧ i < r.length := by rw [List.length_take] at hi; omega
    have hle : r[i].1 ≤ r[k].1 := List.pairwise_iff_getElem.mp hs i k hi'.2 hk hi'.1
    rw [List.getElem_take]
    exact (mul_le_mul_of_nonneg_right hle (Finset.sum_nonneg fun _ _ => by positivity)).trans hb

theorem exists_eig (D : Matrix (Fin n) (Fin n) ℂ) : ∃ r : List (ℂ × (Fin n → ℂ)), r.length = n ∧
    (∀ p ∈ r, ∑ i, ‖p.2 i‖ ^ 2 = 1 ∧ D.mulVec p.2 = p.1 • p.2) ∧ ∀ (μ : ℂ) (v : Fin n → ℂ), v ≠ 0 → D.mulVec v = μ • v → μ ∈ r.map Prod.fst := by
  have hvec : ∀ μ : ℂ, ∃ v : Fin n → ℂ, μ ∈ D.charpoly.roots → ∑ i, ‖v i‖ ^ 2 = 1 ∧ D.mulVec v = μ • v := by
    intro μ
    by_cases hμ : μ ∈ D.charpoly.roots
    · have hroot := Polynomial.isRoot_of_mem_roots hμ
      have hdet : (Matrix.scalar (Fin n) μ - D).det = 0 := by
        rw [← Matrix.eval_charpoly]; exact hroot
      obtain ⟨v, hv0, hv⟩ := Matrix.exists_mulVec_eq_zero_iff.mpr hdet
      have hev : D.mulVec v = μ • v := by
        rw [Matrix.sub_mulVec, sub_eq_zero] at hv
        rw [← hv]
        funext i; simp [Matrix.scalar, Matrix.mulVec_diagonal]
      set s : ℝ := ∑ i, ‖v i‖ ^ 2 with hs
      have hspos : 0 < s := by
        obtain ⟨i, hi⟩ := Function.ne_iff.mp hv0
        exact Finset.sum_pos' (fun _ _ => by positivity) ⟨i, Finset.mem_univ _, by have : 0 < ‖v i‖ := norm_pos_iff.mpr hi; positivity⟩
      refine ⟨((Real.sqrt s)⁻¹ : ℂ) • v, fun _ => ⟨?_, ?_⟩⟩
      · simp only [Pi.smul_apply, smul_eq_mul, norm_mul, mul_pow, ← Finset.mul_sum, ← hs]
        rw [norm_inv, Complex.norm_real, Real.norm_of_nonneg (Real.sqrt_nonneg _), inv_pow, Real.sq_sqrt hspos.le, inv_mul_cancel₀ hspos.ne']
      · rw [Matrix.mulVec_smul, hev, smul_comm]
    · exact ⟨0, fun h => absurd h hμ⟩
  choose f hf using hvec
  refine ⟨D.charpoly.roots.toList.map fun μ => (μ, f μ), ?_, ?_, ?_⟩
  · rw [List.length_map, Multiset.length_toList, ← (IsAlgClosed.splits D.charpoly).natDegree_eq_card_roots, Matrix.charpoly_natDegree_eq_dim, Fintype.card_fin]
  · intro p hp
    obtain ⟨μ, hμ, rfl⟩ := List.mem_map.mp hp
    exact hf μ (Multiset.mem_toList.mp hμ)
  · intro μ v hv he
    rw [List.map_map, List.mem_map]
    refine ⟨μ, ?_, rfl⟩
    rw [Multiset.mem_toList, Polynomial.mem_roots (Matrix.charpoly_monic D).ne_zero, Polynomial.IsRoot, Matrix.eval_charpoly]
    refine Matrix.exists_mulVec_eq_zero_iff.mp ⟨v, hv, ?_⟩
    rw [Matrix.sub_mulVec, he, sub_eq_zero]
    funext i; simp [Matrix.scalar, Matrix.mulVec_diagonal]

theorem isUnit_sub_of_not_eigenvalue {D : Matrix (Fin n) (Fin n) ℂ} {σ : ℝ} (h : ¬ IsEigenvalue D σ) : IsUnit (D - (σ : ℂ) • 1).det := by
  rw [isUnit_iff_ne_zero]
  intro h0
  obtain ⟨v, hv, he⟩ := Matrix.exists_mulVec_eq_zero_iff.mpr h0
  refine h ⟨v, hv, ?_⟩
  rw [Matrix.sub_mulVec, sub_eq_zero] at he
  rw [he, Matrix.smul_mulVec, Matrix.one_mulVec]

theorem isHermitian_sub_real {D : Matrix (Fin n) (Fin n) ℂ} (hD : D.IsHermitian) (σ : ℝ) : (D - (σ : ℂ) • 1).IsHermitian := by
  refine hD.sub ?_
  rw [Matrix.IsHermitian, Matrix.conjTranspose_smul, Matrix.conjTranspose_one]
  congr 1
  exact Complex.conj_ofReal _

/-- an eigenvector of the inverse of `D - σ` is an eigenvector of `D` -/
theorem of_inverse_eigen {D : Matrix (Fin n) (Fin n) ℂ} {σ : ℝ} (hu : IsUnit (D - (σ : ℂ) • 1).det) {μ : ℝ} {v : Fin n → ℂ}
    (h : (D - (σ : ℂ) • 1)⁻¹.mulVec v = (μ : ℂ) • v) (hv : ∑ i, ‖v i‖ ^ 2 = 1) : μ ≠ 0 ∧ D.mulVec v = ((σ + 1 / μ : ℝ) : ℂ) • v := by
  have h1 := congrArg ((D - (σ : ℂ) • 1) *ᵥ ·) h
  simp only [Matrix.mulVec_mulVec, Matrix.mul_nonsing_inv _ hu, Matrix.one_mulVec, Matrix.mulVec_smul, Matrix.sub_mulVec, Matrix.smul_mulVec] at h1
  have hμ : μ ≠ 0 := by
    rintro rfl
    rw [Complex.ofReal_zero, zero_smul] at h1
    subst h1
    simp at hv
  refine ⟨hμ, ?_⟩
  have hc : (μ : ℂ) ≠ 0 := by exact_mod_cast hμ
  have h2 : D.mulVec v = (σ : ℂ) • v + (μ : ℂ)⁻¹ • v := by
    nth_rewrite 3 [h1]
    rw [smul_smul, inv_mul_cancel₀ hc, one_smul]
    abel
  rw [h2]
  push_cast
  rw [add_smul, one_div]

theorem exists_exactEigensolvers : ∃ num : Eigensolvers, num.Exact := by
  classical
  let eigh : Eigh := fun n D => (exists_sorted_eigh (lowerHermitian_isHermitian D)).choose
  have hspec : ∀ n (D : Matrix (Fin n) (Fin n) ℂ), IsEigh (lowerHermitian D) (eigh n D) ∧ Monotone (eigh n D).evals := fun n D =>
    ⟨(exists_sorted_eigh (lowerHermitian_isHermitian D)).choose_spec.1, (exists_sorted_eigh (lowerHermitian_isHermitian D)).choose_spec.2.1⟩
  refine ⟨⟨eigh, fun n D k => if n ≤ k + 1 then .error .typeError else .ok ((List.ofFn fun j => ((eigh n D).evals j, fun i => (eigh n D).evecs i j)).take k),
    fun n D k σ => if IsEigenvalue D σ then .error .valueError else .ok (((List.ofFn fun j => ((eigh n (D - (σ : ℂ) • 1)⁻¹).evals j,
      fun i => (eigh n (D - (σ : ℂ) • 1)⁻¹).evecs i j)).take k).map fun p => (σ + 1 / p.1, p.2)), fun n D => (exists_eig D).choose,
    fun n D k => .ok ((exists_eig D).choose.take k),
    fun l => (List.range l.length).mergeSort (fun i j => decide (l.getD i 0 ≤ l.getD j 0))⟩, ⟨?_, ?_, ?_, ?_, ?_, ?_, ?_, ?_, ?_⟩⟩
  · intro n D hD
    have := (hspec n D).1
    rwa [lowerHermitian_eq hD] at this
  · intro n D E h hd
    have : ∀ (A B : Matrix (Fin n) (Fin n) ℂ) (e : A = B) (hA : A.IsHermitian) (hB : B.IsHermitian),
        (exists_sorted_eigh hA).choose = (exists_sorted_eigh hB).choose := by rintro A _ rfl _ _; rfl
    exact this _ _ (lowerHermitian_congr h hd) (lowerHermitian_isHermitian D) (lowerHermitian_isHermitian E)
  · intro n D k hD hk hkn
    have h1 := (hspec n D).1
    rw [lowerHermitian_eq hD] at h1
    refine ⟨_, if_neg (by omega), by simp; omega, lowest_take hD (lowest_of_eigh h1) ?_ k (by simp; omega)⟩
    rw [List.pairwise_ofFn]
    exact fun i j hij => (hspec n D).2 hij.le
  · exact fun n D k hk => ⟨_, if_pos hk⟩
  · intro n D k σ hD hk hkn hσ
    have hu := isUnit_sub_of_not_eigenvalue hσ
    have hI := (isHermitian_sub_real hD σ).inv
    have h1 := (hspec n (D - (σ : ℂ) • 1)⁻¹).1
    rw [lowerHermitian_eq hI] at h1
    have hlow := lowest_take hI (lowest_of_eigh h1) (by rw [List.pairwise_ofFn]; exact fun i j hij => (hspec n _).2 hij.le) k (by simp; omega)
    set l := (List.ofFn fun j => ((eigh n (D - (σ : ℂ) • 1)⁻¹).evals j, fun i => (eigh n (D - (σ : ℂ) • 1)⁻¹).evecs i j)).take k with hl
    have hpair := fun p hp => of_inverse_eigen hu (hlow.eigen p hp) (hlow.orthonormal.1 p.2 (List.mem_map_of_mem hp))
    refine ⟨_, if_neg hσ, by rw [List.length_map]; simp; omega, ?_, ?_⟩
    · intro p hp
      obtain ⟨p', hp', rfl⟩ := List.mem_map.mp hp
      exact (hpair p' hp').2
    · rw [List.map_map]
      convert hlow using 1
      conv_rhs => rw [← List.map_id l]
      refine List.map_congr_left fun p hp => ?_
      simp only [Function.comp, id, add_sub_cancel_left, one_div, inv_inv]
  · exact fun n D k σ hD hσ => ⟨_, if_pos hσ⟩
  · exact fun n D => (exists_eig D).choose_spec
  · intro n D k hk hkn
    obtain ⟨h1, h2, -⟩ := (exists_eig D).choose_spec
    exact ⟨_, rfl, by rw [List.length_take, h1]; omega, fun p hp => h2 p (List.mem_of_mem_take hp)⟩
  · intro l
    refine ⟨List.mergeSort_perm _ _, ?_⟩
    have := List.pairwise_mergeSort (le := fun i j => decide (l.getD i 0 ≤ l.getD j 0)) (by
      intro a b c h1 h2
      simp only [decide_eq_true_eq] at h1 h2 ⊢
      exact h1.trans h2) (by
      intro a b
      simp only [Bool.or_eq_true, decide_eq_true_eq]
      exact le_total _ _) (List.range l.length)
    simpa using this

end Qosy
