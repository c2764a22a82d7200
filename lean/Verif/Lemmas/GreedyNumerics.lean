import Verif.Lemmas.GreedyLoop
import Verif.Lemmas.Core
import Mathlib.Analysis.Matrix.Spectrum
import Mathlib.Data.Fin.Tuple.Sort

/-! # Numerical routines that keep their promises exist -/

namespace Qosy
open Coef RealOps Matrix

variable {n : ℕ}

theorem exists_eigh_of_isHermitian {D : Matrix (Fin n) (Fin n) ℂ} (hD : D.IsHermitian) : ∃ r : EighResult (Fin n) n, IsEigh D r := by
  let U : Matrix (Fin n) (Fin n) ℂ := hD.eigenvectorUnitary
  have hU1 : Uᴴ * U = 1 := Unitary.coe_star_mul_self hD.eigenvectorUnitary
  have hU2 : U * Uᴴ = 1 := Unitary.coe_mul_star_self hD.eigenvectorUnitary
  refine ⟨⟨hD.eigenvalues, U⟩, hU1, hU2, ?_⟩
  ext i j
  have := congrFun (hD.mulVec_eigenvectorBasis j) i
  rw [Matrix.mul_diagonal]
  simp only [U, Matrix.IsHermitian.eigenvectorUnitary_apply, Matrix.mul_apply]
  simp only [Matrix.mulVec, dotProduct, Pi.smul_apply, Complex.real_smul] at this
  rw [mul_comm, ← this]

theorem exists_eigh_of_real {D : Matrix (Fin n) (Fin n) ℂ} (hD : D.IsHermitian) (hr : ∀ i j, star (D i j) = D i j) :
    ∃ r : EighResult (Fin n) n, IsEigh D r ∧ ∀ i j, star (r.evecs i j) = r.evecs i j := by
  set B : Matrix (Fin n) (Fin n) ℝ := fun i j => (D i j).re with hB
  have hDB : D = B.map (algebraMap ℝ ℂ) := by
    ext i j
    rw [Matrix.map_apply, hB]
    exact (Complex.conj_eq_iff_re.mp (hr i j)).symm
  have hBh : B.IsHermitian := by
    ext i j
    show (D j i).re = (D i j).re
    rw [← hD.apply i j]
    exact (Complex.conj_re _).symm
  let U : Matrix (Fin n) (Fin n) ℝ := hBh.eigenvectorUnitary
  have hU1 : Uᴴ * U = 1 := Unitary.coe_star_mul_self hBh.eigenvectorUnitary
  have hU2 : U * Uᴴ = 1 := Unitary.coe_mul_star_self hBh.eigenvectorUnitary
  have hUm : (U.map (algebraMap ℝ ℂ))ᴴ = Uᴴ.map (algebraMap ℝ ℂ) := by
    ext i j
    show star ((U j i : ℝ) : ℂ) = ((star (U j i) : ℝ) : ℂ)
    exact Complex.conj_ofReal _
  refine ⟨⟨hBh.eigenvalues, U.map (algebraMap ℝ ℂ)⟩, ⟨?_, ?_, ?_⟩, fun i j => Complex.conj_ofReal _⟩
  · show (U.map (algebraMap ℝ ℂ))ᴴ * U.map (algebraMap ℝ ℂ) = 1
    rw [hUm, ← Matrix.map_mul, hU1, Matrix.map_one _ (map_zero _) (map_one _)]
  · show U.map (algebraMap ℝ ℂ) * (U.map (algebraMap ℝ ℂ))ᴴ = 1
    rw [hUm, ← Matrix.map_mul, hU2, Matrix.map_one _ (map_zero _) (map_one _)]
  · have key : B * U = U * Matrix.diagonal hBh.eigenvalues := by
      ext i j
      have := congrFun (hBh.mulVec_eigenvectorBasis j) i
      rw [Matrix.mul_diagonal]
      simp only [U, Matrix.IsHermitian.eigenvectorUnitary_apply, Matrix.mul_apply]
      simp only [Matrix.mulVec, dotProduct, Pi.smul_apply, smul_eq_mul] at this
      rw [mul_comm, ← this]
    show D * U.map (algebraMap ℝ ℂ) = _
    conv_lhs => rw [hDB, ← Matrix.map_mul, key, Matrix.map_mul]
    congr 1
    ext i j
    by_cases h : i = j
    · subst h; simp
    · simp [Matrix.diagonal_apply_ne _ h]

theorem exists_sorted_eigh {D : Matrix (Fin n) (Fin n) ℂ} (hD : D.IsHermitian) :
    ∃ r : EighResult (Fin n) n, IsEigh D r ∧ Monotone r.evals ∧ ((∀ i j, star (D i j) = D i j) → ∀ i j, star (r.evecs i j) = r.evecs i j) := by
  obtain ⟨r, h1, h2⟩ : ∃ r : EighResult (Fin n) n, IsEigh D r ∧ ((∀ i j, star (D i j) = D i j) → ∀ i j, star (r.evecs i j) = r.evecs i j) := by
    by_cases hr : ∀ i j, star (D i j) = D i j
    · obtain ⟨r, h1, h2⟩ := exists_eigh_of_real hD hr
      exact ⟨r, h1, fun _ => h2⟩
    · obtain ⟨r, h1⟩ := exists_eigh_of_isHermitian hD
      exact ⟨r, h1, fun h => absurd h hr⟩
  let σ := Tuple.sort r.evals
  refine ⟨⟨r.evals ∘ σ, r.evecs.submatrix id σ⟩, ⟨?_, ?_, ?_⟩, Tuple.monotone_sort _, fun h i j => h2 h _ _⟩
  · show (r.evecs.submatrix id σ)ᴴ * r.evecs.submatrix id σ = 1
    rw [Matrix.conjTranspose_submatrix, Matrix.submatrix_mul _ _ _ _ _ Function.bijective_id |>.symm, h1.orthonormal]
    exact Matrix.submatrix_one_equiv σ
  · show r.evecs.submatrix id σ * (r.evecs.submatrix id σ)ᴴ = 1
    rw [Matrix.conjTranspose_submatrix, Matrix.submatrix_mul_equiv, h1.complete]
    rfl
  · show D * r.evecs.submatrix id σ = r.evecs.submatrix id σ * _
    have := congrArg (fun M => M.submatrix id σ) h1.eigen
    ext i j
    have := congrFun (congrFun h1.eigen i) (σ j)
    rw [Matrix.mul_diagonal] at this ⊢
    simpa [Matrix.mul_apply] using this

theorem rayleigh_of_eigh {D : Matrix (Fin n) (Fin n) ℂ} {r : EighResult (Fin n) n} (h : IsEigh D r) {x : ℝ} (hx : ∀ k, x ≤ r.evals k) (u : Fin n → ℂ) :
    x * ∑ j, ‖u j‖ ^ 2 ≤ (∑ i, ∑ j, star (u i) * D i j * u j).re := by
  have hiso : ∀ x y : Fin n → ℂ, vdot x y = vdot (r.evecsᴴ *ᵥ x) (r.evecsᴴ *ᵥ y) := by
    intro x y
    rw [vdot_mulVec_left, conjTranspose_conjTranspose, Matrix.mulVec_mulVec, h.complete, Matrix.one_mulVec]
  have e1 : ∑ i, ∑ j, star (u i) * D i j * u j = vdot u (D *ᵥ u) := by
    simp only [vdot, Matrix.mulVec, dotProduct, Finset.mul_sum, mul_assoc]
  have e2 : ((∑ j, ‖u j‖ ^ 2 : ℝ) : ℂ) = vdot u u := by
    rw [vdot]
    push_cast
    refine Finset.sum_congr rfl fun j _ => ?_
    rw [← Complex.ofReal_pow, ← Complex.normSq_eq_norm_sq]
    exact Complex.normSq_eq_conj_mul_self
  have e3 : (∑ j, ‖u j‖ ^ 2 : ℝ) = ∑ j, ‖(r.evecsᴴ *ᵥ u) j‖ ^ 2 := by
    have : ((∑ j, ‖u j‖ ^ 2 : ℝ) : ℂ) = ((∑ j, ‖(r.evecsᴴ *ᵥ u) j‖ ^ 2 : ℝ) : ℂ) := by
      rw [e2, hiso, vdot]
      push_cast
      refine Finset.sum_congr rfl fun j _ => ?_
      rw [← Complex.ofReal_pow, ← Complex.normSq_eq_norm_sq]
      exact Complex.normSq_eq_conj_mul_self.symm
    exact_mod_cast this
  have e4 : (vdot u (D *ᵥ u)).re = ∑ k, r.evals k * ‖(r.evecsᴴ *ᵥ u) k‖ ^ 2 := by
    rw [hiso, vdot]
    simp only [h.coords]
    rw [Complex.re_sum]
    refine Finset.sum_congr rfl fun k _ => ?_
    have : star ((r.evecsᴴ *ᵥ u) k) * ((r.evals k : ℂ) * (r.evecsᴴ *ᵥ u) k) = ((r.evals k * ‖(r.evecsᴴ *ᵥ u) k‖ ^ 2 : ℝ) : ℂ) := by
      rw [← Complex.normSq_eq_norm_sq]
      push_cast
      rw [Complex.normSq_eq_conj_mul_self]
      show (starRingEnd ℂ) _ * _ = _
      ring
    rw [this, Complex.ofReal_re]
  rw [e1, e3, e4, Finset.mul_sum]
  exact Finset.sum_le_sum fun k _ => mul_le_mul_of_nonneg_right (hx k) (by positivity)

/-- eigenvalues and eigenvectors as lists -/
noncomputable def EighResult.lists (r : EighResult (Fin n) n) : List ℂ × List (List ℂ) :=
  (List.ofFn fun j => ((r.evals j : ℝ) : ℂ), List.ofFn fun j => List.ofFn fun i => r.evecs i j)

theorem getD_ofFn (f : Fin n → ℂ) (j : Fin n) : (List.ofFn f).getD j 0 = f j := by
  rw [List.getD_eq_getElem _ _ (by simp)]; simp

theorem isEigenpairs_take {M : Mat ℂ} {r : List ℂ × List (List ℂ)} (h : IsEigenpairs M n r) (k : ℕ) : IsEigenpairs M n (r.1.take k, r.2.take k) where
  len := by simp [h.len]
  dim := fun v hv => h.dim v (List.mem_of_mem_take hv)
  unit := fun v hv => h.unit v (List.mem_of_mem_take hv)
  orthogonal := h.orthogonal.sublist (List.take_sublist _ _)
  eigen := fun e he => h.eigen e (by
    have he' : e ∈ (r.1.take k).zip (r.2.take k) := he
    rw [List.zip, ← List.take_zipWith] at he'
    exact List.mem_of_mem_take he')
  real := fun x hx => h.real x (List.mem_of_mem_take hx)
  realVectors := fun hr v hv => h.realVectors hr v (List.mem_of_mem_take hv)

theorem isEigenpairs_lists {M : Mat ℂ} {D : Matrix (Fin n) (Fin n) ℂ} (hM : ∀ i j : Fin n, M.get i j = D i j) {r : EighResult (Fin n) n}
    (h : IsEigh D r) (hr : (∀ i j, star (D i j) = D i j) → ∀ i j, star (r.evecs i j) = r.evecs i j) : IsEigenpairs M n r.lists := by
  have hin : ∀ i j : Fin n, ∑ k : Fin n, star (r.evecs k i) * r.evecs k j = if i = j then 1 else 0 := by
    intro i j
    have := congrFun (congrFun h.orthonormal i) j
    rw [Matrix.mul_apply, Matrix.one_apply] at this
    exact this
  refine ⟨by simp [EighResult.lists], ?_, ?_, ?_, ?_, ?_, ?_⟩
  · intro v hv
    obtain ⟨j, rfl⟩ := (List.mem_ofFn' _ _).mp hv
    simp
  · intro v hv
    obtain ⟨j, rfl⟩ := (List.mem_ofFn' _ _).mp hv
    simp only [getD_ofFn]
    rw [hin, if_pos rfl]
  · show List.Pairwise _ (List.ofFn fun j => List.ofFn fun i => r.evecs i j)
    rw [List.pairwise_ofFn]
    intro i j hij
    simp only [getD_ofFn]
    rw [hin, if_neg hij.ne]
  · intro e he i hi
    obtain ⟨k, hk, rfl⟩ := List.mem_iff_getElem.mp he
    have hk' : k < n := by simp [EighResult.lists] at hk; omega
    have := congrFun (congrFun h.eigen ⟨i, hi⟩) ⟨k, hk'⟩
    rw [Matrix.mul_diagonal, Matrix.mul_apply] at this
    simp only [EighResult.lists, List.getElem_zip, List.getElem_ofFn, getD_ofFn]
    have e2 : (List.ofFn fun i => r.evecs i ⟨k, hk'⟩).getD i 0 = r.evecs ⟨i, hi⟩ ⟨k, hk'⟩ := getD_ofFn (fun i => r.evecs i ⟨k, hk'⟩) ⟨i, hi⟩
    rw [e2, mul_comm, ← this]
    exact Finset.sum_congr rfl fun j _ => by rw [← hM ⟨i, hi⟩ j]
  · intro x hx
    obtain ⟨j, rfl⟩ := (List.mem_ofFn' _ _).mp hx
    exact Complex.conj_ofReal _
  · intro hreal v hv x hx
    obtain ⟨j, rfl⟩ := (List.mem_ofFn' _ _).mp hv
    obtain ⟨i, rfl⟩ := (List.mem_ofFn' _ _).mp hx
    exact hr (fun a b => by rw [← hM]; exact hreal a b a.2 b.2) i j

theorem exists_numerics : ∃ num : Numerics ℂ, IsNumerics num := by
  classical
  obtain ⟨as, has⟩ := exists_isArgsort (K := ℂ)
  have key : ∀ M : Mat ℂ, ∃ r : List ℂ × List (List ℂ), ∀ n, M.IsHermitian n → IsEigenpairs M n r ∧ r.1.length = n ∧
      ∀ x ∈ r.1.head?, ∀ u : ℕ → ℂ, toR x * ∑ j : Fin n, ‖toC (u j)‖ ^ 2 ≤ toR (M.form n u) := by
    intro M
    by_cases hM : M.IsHermitian M.nrows
    · set n := M.nrows with hn
      let D : Matrix (Fin n) (Fin n) ℂ := fun i j => M.get i j
      have hD : D.IsHermitian := by
        ext i j
        show star (M.get j i) = M.get i j
        rw [hM.2.2 i j i.2 j.2, star_star]
      obtain ⟨r, h1, h2, h3⟩ := exists_sorted_eigh hD
      refine ⟨r.lists, fun m hm => ?_⟩
      have : m = n := hm.1.symm
      subst this
      refine ⟨isEigenpairs_lists (fun _ _ => rfl) h1 h3, by simp [EighResult.lists], ?_⟩
      intro x hx u
      rw [List.head?_eq_getElem?, Option.mem_def, List.getElem?_eq_some_iff] at hx
      obtain ⟨h0, hx⟩ := hx
      simp only [EighResult.lists, List.length_ofFn] at h0
      simp only [EighResult.lists, List.getElem_ofFn] at hx
      have := rayleigh_of_eigh h1 (x := r.evals ⟨0, h0⟩) (fun k => h2 (Fin.mk_le_of_le_val (Nat.zero_le _))) (fun j => u j)
      rw [← hx]
      exact this
    · exact ⟨([], []), fun n h => absurd (h.1.symm ▸ h) hM⟩
  choose f hf using key
  refine ⟨⟨as, f, fun k M => ((f M).1.take k, (f M).2.take k), fun x => ((Real.sqrt x.re : ℝ) : ℂ)⟩, has, fun M n h => hf M n h, ?_, ?_⟩
  · intro k M n hk hkn h
    obtain ⟨h1, h2, h3⟩ := hf M n h
    refine ⟨isEigenpairs_take h1 k, by simp [h2]; omega, fun _ => ?_⟩
    have hpos : 0 < (f M).1.length := by omega
    refine ⟨(f M).1[0], ?_, h3 _ ?_⟩
    · rw [List.mem_take_iff_getElem]
      exact ⟨0, by omega, rfl⟩
    · rw [List.head?_eq_getElem?, List.getElem?_eq_getElem hpos]; rfl
  · intro x hx h0
    refine ⟨Complex.conj_ofReal _, ?_⟩
    show (((Real.sqrt x.re : ℝ)) : ℂ) ^ 2 = x
    have h0' : 0 ≤ x.re := h0
    rw [← Complex.ofReal_pow, Real.sq_sqrt h0']
    exact Complex.conj_eq_iff_re.mp hx

end Qosy
