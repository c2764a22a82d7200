import Verif.Lemmas.LinAlg
import Mathlib.Analysis.Matrix.Spectrum

/-!
# Properties C27, C28: `gram_schmidt` and `intersection`

Exact complex arithmetic.
-/

namespace Qosy
variable {n : ℕ}

/-! ### C27 -/

/-- **C27**: for a matrix with a non-zero first column, `gram_schmidt` returns orthonormal columns in the column space of the matrix;
every given column is within distance `tol` of the span of the returned ones. -/
theorem C27_gram_schmidt {c : Fin n → ℂ} (cols : List (Fin n → ℂ)) (hc : c ≠ 0) {tol : ℝ} (ht : 0 ≤ tol) :
    ∃ q, gramSchmidt (c :: cols) tol = some q ∧ OrthonormalColumns q ∧ colSpan q ≤ colSpan (c :: cols) ∧
      ∀ x ∈ c :: cols, ∃ w ∈ colSpan q, vnorm (x - w) ≤ tol := by
  have hn : n ≠ 0 := by rintro rfl; exact hc (Subsingleton.elim _ _)
  have h0 : vnorm c ≠ 0 := fun h => hc (vnorm_eq_zero.mp h)
  have ho : Ortho [vdiv c (vnorm c)] := ⟨by simpa using vdiv_unit h0, List.pairwise_singleton _ _⟩
  obtain ⟨a, b, d, e⟩ := gsLoop_spec ht cols _ ho
  refine ⟨gsLoop tol cols [vdiv c (vnorm c)], by rw [gramSchmidt, if_neg hn, if_neg h0], a.columns, d.trans ?_, ?_⟩
  · apply Submodule.span_le.mpr
    intro x hx
    rcases List.mem_append.mp hx with hx | hx
    · rw [List.mem_singleton.mp hx, vdiv_eq]
      exact Submodule.smul_mem _ _ (Submodule.subset_span (List.mem_cons_self ..))
    · exact Submodule.subset_span (List.mem_cons_of_mem _ hx)
  · intro x hx
    rcases List.mem_cons.mp hx with rfl | hx
    · refine ⟨x, ?_, by rw [sub_self, vnorm_eq_zero.mpr rfl]; exact ht⟩
      have : x = (vnorm x : ℂ) • vdiv x (vnorm x) := by
        rw [vdiv_eq, smul_smul, mul_inv_cancel₀ (by exact_mod_cast h0), one_smul]
      have hm : vdiv x (vnorm x) ∈ colSpan (gsLoop tol cols [vdiv x (vnorm x)]) := Submodule.subset_span (b.subset (by simp))
      rw [this]
      refine Submodule.smul_mem _ _ ?_
      rw [← this]
      exact hm
    · exact e x hx

/-- **C27** (tolerance 0): the returned columns are an orthonormal basis of the column space. -/
theorem C27_span {c : Fin n → ℂ} (cols : List (Fin n → ℂ)) (hc : c ≠ 0) :
    ∃ q, gramSchmidt (c :: cols) = some q ∧ OrthonormalColumns q ∧ colSpan q = colSpan (c :: cols) := by
  obtain ⟨q, h1, h2, h3, h4⟩ := C27_gram_schmidt cols hc (le_refl 0)
  refine ⟨q, h1, h2, le_antisymm h3 ?_⟩
  apply Submodule.span_le.mpr
  intro x hx
  obtain ⟨w, hw, h⟩ := h4 x hx
  have := vnorm_eq_zero.mp (le_antisymm h (vnorm_nonneg _))
  rw [sub_eq_zero.mp this]; exact hw

/-- **C27** (from left to right): the result for the first columns is the beginning of the result for all columns. -/
theorem C27_prefix {c : Fin n → ℂ} (cols cols' : List (Fin n → ℂ)) (hc : c ≠ 0) {tol : ℝ} (ht : 0 ≤ tol) :
    ∃ q q', gramSchmidt (c :: cols) tol = some q ∧ gramSchmidt (c :: (cols ++ cols')) tol = some (q ++ q') := by
  have hn : n ≠ 0 := by rintro rfl; exact hc (Subsingleton.elim _ _)
  have h0 : vnorm c ≠ 0 := fun h => hc (vnorm_eq_zero.mp h)
  have ho : Ortho [vdiv c (vnorm c)] := ⟨by simpa using vdiv_unit h0, List.pairwise_singleton _ _⟩
  obtain ⟨a, b, d, e⟩ := gsLoop_spec ht cols _ ho
  obtain ⟨q', hq⟩ := (gsLoop_spec ht cols' _ a).2.1
  refine ⟨gsLoop tol cols [vdiv c (vnorm c)], q', by rw [gramSchmidt, if_neg hn, if_neg h0], ?_⟩
  rw [gramSchmidt, if_neg hn, if_neg h0, gsLoop_append, ← hq]

/-- Without the hypothesis on the first column the result contains nan. -/
theorem C27_zero_first_column (hn : n ≠ 0) (cols : List (Fin n → ℂ)) (tol : ℝ) : gramSchmidt ((0 : Fin n → ℂ) :: cols) tol = none := by
  rw [gramSchmidt, if_neg hn, if_pos (vnorm_eq_zero.mpr rfl)]

/-- a matrix with dependent columns -/
example : ∃ q, gramSchmidt [![1, 1], ![2, 2], (![0, 1] : Fin 2 → ℂ)] = some q ∧ OrthonormalColumns q ∧ colSpan q = colSpan [![1, 1], ![2, 2], ![0, 1]] :=
  C27_span _ (by intro h; simpa using congrFun h 0)

/-! ### C28 -/

open Matrix

section
variable {p q : ℕ} {A : Matrix (Fin n) (Fin p) ℂ} {B : Matrix (Fin n) (Fin q) ℂ}

/-- **C28**: for matrices with orthonormal columns and an exact eigensolver, if no eigenvalue of `[A,-B]† [A,-B]` other than 0 is smaller than
the tolerance, the returned columns are an orthonormal basis of the intersection of the column spaces. -/
theorem C28_intersection (hA : Aᴴ * A = 1) (hB : Bᴴ * B = 1) {eigh : Matrix (Fin p ⊕ Fin q) (Fin p ⊕ Fin q) ℂ → EighResult (Fin p ⊕ Fin q) (p + q)}
    (heigh : ∀ D : Matrix (Fin p ⊕ Fin q) (Fin p ⊕ Fin q) ℂ, D.IsHermitian → IsEigh D (eigh D)) {tol : ℝ} (ht : 0 < tol)
    (hgap : ∀ (μ : ℝ) (z : Fin p ⊕ Fin q → ℂ), z ≠ 0 → ((hstackNeg A B)ᴴ * hstackNeg A B) *ᵥ z = (μ : ℂ) • z → |μ| < tol → μ = 0) :
    ∃ c : List (Fin n → ℂ), intersection eigh A B tol = .ok (c.map some) ∧ OrthonormalColumns c ∧ colSpan c = columnSpace A ⊓ columnSpace B := by
  have hr := heigh _ (Matrix.isHermitian_conjTranspose_mul_self (hstackNeg A B))
  generalize hrr : eigh ((hstackNeg A B)ᴴ * hstackNeg A B) = r at hr
  -- the selected eigenvalues are zero
  have hzero : ∀ k, |r.evals k| < tol → r.evals k = 0 := by
    intro k hk
    refine hgap _ _ ?_ (hr.column k) hk
    intro h0
    have := hr.inner k k
    rw [if_pos rfl] at this
    have h1 : ∀ i, r.evecs i k = 0 := fun i => congrFun h0 i
    simp [h1] at this
  have hAB : ∀ k, |r.evals k| < tol → A *ᵥ (fun j => r.evecs (Sum.inl j) k) = B *ᵥ (fun j => r.evecs (Sum.inr j) k) := by
    intro k hk
    have := (hr.parts k k).2
    rw [if_pos rfl, hzero k hk, Complex.ofReal_zero, ← vnorm_sq] at this
    have h0 : vnorm (A *ᵥ (fun j => r.evecs (Sum.inl j) k) - B *ᵥ (fun j => r.evecs (Sum.inr j) k)) = 0 := by
      have h1 : vnorm (A *ᵥ (fun j => r.evecs (Sum.inl j) k) - B *ᵥ (fun j => r.evecs (Sum.inr j) k)) ^ 2 = 0 := by exact_mod_cast this
      exact pow_eq_zero_iff (two_ne_zero) |>.mp h1
    exact sub_eq_zero.mp (vnorm_eq_zero.mp h0)
  have hinner : ∀ k l, |r.evals k| < tol → |r.evals l| < tol →
      vdot (A *ᵥ (fun j => r.evecs (Sum.inl j) k)) (A *ᵥ (fun j => r.evecs (Sum.inl j) l)) = if k = l then 1 / 2 else 0 := by
    intro k l hk hl
    have h1 := (hr.parts k l).1
    have h2 : vdot (A *ᵥ (fun j => r.evecs (Sum.inl j) k)) (A *ᵥ (fun j => r.evecs (Sum.inl j) l)) =
        vdot (fun j => r.evecs (Sum.inr j) k) (fun j => r.evecs (Sum.inr j) l) := by
      rw [hAB k hk, hAB l hl, vdot_isometry hB]
    rw [← vdot_isometry hA, ← h2] at h1
    split
    · rename_i h; rw [if_pos h] at h1; linear_combination h1 / 2
    · rename_i h; rw [if_neg h] at h1; linear_combination h1 / 2
  have hne : ∀ k, |r.evals k| < tol → vnorm (A *ᵥ (fun j => r.evecs (Sum.inl j) k)) ≠ 0 := by
    intro k hk h0
    have := hinner k k hk hk
    rw [if_pos rfl, vnorm_eq_zero.mp h0] at this
    simp [vdot] at this
  obtain ⟨inds, i1, i2, i3⟩ := intersection_ok hrr hne
  refine ⟨_, i3, ?_, ?_⟩
  · apply Ortho.columns
    constructor
    · intro e he
      obtain ⟨k, hk, rfl⟩ := List.mem_map.mp he
      exact vdiv_unit (hne k ((i2 k).mp hk))
    · rw [List.pairwise_map]
      refine i1.imp_of_mem ?_
      intro k l hk hl hkl
      rw [vdiv_eq, vdiv_eq, vdot_smul, vdot_smul_left, hinner k l ((i2 k).mp hk) ((i2 l).mp hl), if_neg hkl, mul_zero, mul_zero]
  · apply le_antisymm
    · apply Submodule.span_le.mpr
      intro v hv
      obtain ⟨k, hk, rfl⟩ := List.mem_map.mp hv
      rw [vdiv_eq]
      refine ⟨Submodule.smul_mem _ _ ⟨_, rfl⟩, Submodule.smul_mem _ _ ⟨_, (hAB k ((i2 k).mp hk)).symm⟩⟩
    · rintro w ⟨⟨x, hx⟩, ⟨y, hy⟩⟩
      have hz : ((hstackNeg A B)ᴴ * hstackNeg A B) *ᵥ (Sum.elim x y) = 0 := by
        rw [← Matrix.mulVec_mulVec, hstackNeg_mulVec]
        simp only [Sum.elim_inl, Sum.elim_inr]
        have : A *ᵥ x - B *ᵥ y = 0 := by
          rw [Matrix.mulVecLin_apply] at hx hy
          rw [hx, hy, sub_self]
        rw [show (fun j => x j) = x from rfl, show (fun j => y j) = y from rfl, this, Matrix.mulVec_zero]
      obtain ⟨c, c1, c2⟩ := hr.null hz
      have hw : w = ∑ k, c k • (A *ᵥ (fun j => r.evecs (Sum.inl j) k)) := by
        have hxx : x = ∑ k, c k • (fun j => r.evecs (Sum.inl j) k) := by
          funext j
          have := c2 (Sum.inl j)
          rw [Sum.elim_inl] at this
          rw [this, Finset.sum_apply]; rfl
        rw [← hx, Matrix.mulVecLin_apply, hxx, Matrix.mulVec_sum]
        exact Finset.sum_congr rfl (fun k _ => Matrix.mulVec_smul _ _ _)
      rw [hw]
      apply Submodule.sum_mem
      intro k _
      by_cases hk : |r.evals k| < tol
      · have hn := hne k hk
        have : A *ᵥ (fun j => r.evecs (Sum.inl j) k) = (vnorm (A *ᵥ (fun j => r.evecs (Sum.inl j) k)) : ℂ) • vdiv (A *ᵥ (fun j => r.evecs (Sum.inl j) k))
            (vnorm (A *ᵥ (fun j => r.evecs (Sum.inl j) k))) := by
          rw [vdiv_eq, smul_smul, mul_inv_cancel₀ (by exact_mod_cast hn), one_smul]
        rw [this, smul_smul]
        refine Submodule.smul_mem _ _ (Submodule.subset_span ?_)
        exact List.mem_map.mpr ⟨k, (i2 k).mpr hk, rfl⟩
      · have : r.evals k ≠ 0 := by
          intro h0; rw [h0, abs_zero] at hk; exact hk ht
        rw [c1 k this, zero_smul]
        exact Submodule.zero_mem _

/-- **C28** (tolerance): without a hypothesis on the eigenvalues, for `tol ≤ 1`, every returned column is a unit vector of the first
space at a squared distance at most `2 tol` from the second space. -/
theorem C28_tolerance (hA : Aᴴ * A = 1) (hB : Bᴴ * B = 1) {eigh : Matrix (Fin p ⊕ Fin q) (Fin p ⊕ Fin q) ℂ → EighResult (Fin p ⊕ Fin q) (p + q)}
    (heigh : ∀ D : Matrix (Fin p ⊕ Fin q) (Fin p ⊕ Fin q) ℂ, D.IsHermitian → IsEigh D (eigh D)) {tol : ℝ} (ht1 : tol ≤ 1) :
    ∃ c : List (Fin n → ℂ), intersection eigh A B tol = .ok (c.map some) ∧
      ∀ v ∈ c, vnorm v = 1 ∧ v ∈ columnSpace A ∧ ∃ w ∈ columnSpace B, vnorm (v - w) ^ 2 ≤ 2 * tol := by
  have hr := heigh _ (Matrix.isHermitian_conjTranspose_mul_self (hstackNeg A B))
  generalize hrr : eigh ((hstackNeg A B)ᴴ * hstackNeg A B) = r at hr
  -- both parts of the eigenvector have norm² 1/2
  have hnorm : ∀ k, |r.evals k| < tol → vnorm (A *ᵥ (fun j => r.evecs (Sum.inl j) k)) ^ 2 = 1 / 2 := by
    intro k hk
    set a := (fun j => r.evecs (Sum.inl j) k) with ha
    set b := (fun j => r.evecs (Sum.inr j) k) with hb
    have hlt : r.evals k < 1 := lt_of_lt_of_le (lt_of_le_of_lt (le_abs_self _) hk) ht1
    have h1 := (hr.parts k k).1
    rw [if_pos rfl] at h1
    have hcol := hr.column k
    rw [← Matrix.mulVec_mulVec, hstackNeg_mulVec] at hcol
    have hC : (hstackNeg A B)ᴴ = Matrix.fromRows Aᴴ (-Bᴴ) := by
      rw [hstackNeg, Matrix.conjTranspose_fromCols_eq_fromRows_conjTranspose, Matrix.conjTranspose_neg]
    rw [hC, Matrix.fromRows_mulVec] at hcol
    have e1 : a - Aᴴ *ᵥ (B *ᵥ b) = (r.evals k : ℂ) • a := by
      have : Aᴴ *ᵥ (A *ᵥ a - B *ᵥ b) = (r.evals k : ℂ) • a := by
        funext j
        exact congrFun hcol (Sum.inl j)
      rw [Matrix.mulVec_sub, Matrix.mulVec_mulVec, hA, Matrix.one_mulVec] at this
      exact this
    have e2 : b - Bᴴ *ᵥ (A *ᵥ a) = (r.evals k : ℂ) • b := by
      have : (-Bᴴ) *ᵥ (A *ᵥ a - B *ᵥ b) = (r.evals k : ℂ) • b := by
        funext j
        exact congrFun hcol (Sum.inr j)
      rw [Matrix.mulVec_sub, Matrix.neg_mulVec, Matrix.neg_mulVec, Matrix.mulVec_mulVec, Matrix.mulVec_mulVec, hB, Matrix.one_mulVec] at this
      rw [← this, ← Matrix.mulVec_mulVec]; abel
    have f1 : vdot a a - vdot (A *ᵥ a) (B *ᵥ b) = (r.evals k : ℂ) * vdot a a := by
      rw [← vdot_smul, ← e1, vdot_sub]
      congr 1
      rw [vdot_eq, vdot_eq, Matrix.star_mulVec, ← Matrix.dotProduct_mulVec]
    have f2 : vdot b b - vdot (B *ᵥ b) (A *ᵥ a) = (r.evals k : ℂ) * vdot b b := by
      rw [← vdot_smul, ← e2, vdot_sub]
      congr 1
      rw [vdot_eq, vdot_eq, Matrix.star_mulVec, ← Matrix.dotProduct_mulVec]
    have f3 : star (vdot a a - vdot (A *ᵥ a) (B *ᵥ b)) = star ((r.evals k : ℂ) * vdot a a) := by rw [f1]
    rw [star_sub, star_mul, vdot_star, vdot_star] at f3
    have f4 : star (r.evals k : ℂ) = (r.evals k : ℂ) := by simp
    rw [f4] at f3
    have hne1 : (1 : ℂ) - (r.evals k : ℂ) ≠ 0 := by
      intro h
      have : (1 : ℝ) - r.evals k = 0 := by exact_mod_cast h
      linarith
    have f5 : vdot a a = vdot b b := by
      apply mul_left_cancel₀ hne1
      linear_combination f3 - f2
    have f6 : ((vnorm (A *ᵥ a) ^ 2 : ℝ) : ℂ) = ((1 / 2 : ℝ) : ℂ) := by
      rw [vnorm_sq, vdot_isometry hA]
      push_cast
      linear_combination (h1 + f5) / 2
    exact_mod_cast f6
  have hne : ∀ k, |r.evals k| < tol → vnorm (A *ᵥ (fun j => r.evecs (Sum.inl j) k)) ≠ 0 := by
    intro k hk h0
    have := hnorm k hk
    rw [h0] at this
    norm_num at this
  obtain ⟨inds, i1, i2, i3⟩ := intersection_ok hrr hne
  refine ⟨_, i3, ?_⟩
  intro v hv
  obtain ⟨k, hk, rfl⟩ := List.mem_map.mp hv
  have hk' := (i2 k).mp hk
  have hn := hnorm k hk'
  have h0 := hne k hk'
  set x := A *ᵥ (fun j => r.evecs (Sum.inl j) k) with hx
  set y := B *ᵥ (fun j => r.evecs (Sum.inr j) k) with hy
  refine ⟨?_, ?_, ((vnorm x : ℂ)⁻¹) • y, Submodule.smul_mem _ _ ⟨_, rfl⟩, ?_⟩
  · have : ((vnorm (vdiv x (vnorm x)) ^ 2 : ℝ) : ℂ) = 1 := by rw [vnorm_sq, vdiv_unit h0]
    have h2 : vnorm (vdiv x (vnorm x)) ^ 2 = 1 := by exact_mod_cast this
    have h3 := vnorm_nonneg (vdiv x (vnorm x))
    nlinarith
  · rw [vdiv_eq]; exact Submodule.smul_mem _ _ ⟨_, rfl⟩
  · have hp := (hr.parts k k).2
    rw [if_pos rfl] at hp
    have : ((vnorm (vdiv x (vnorm x) - ((vnorm x : ℂ)⁻¹) • y) ^ 2 : ℝ) : ℂ) = ((2 * r.evals k : ℝ) : ℂ) := by
      rw [vnorm_sq, vdiv_eq, ← smul_sub, vdot_smul, vdot_smul_left, hp]
      have hs : star ((vnorm x : ℂ)⁻¹) = (vnorm x : ℂ)⁻¹ := by simp
      rw [hs, ← mul_assoc, ← mul_inv, ← pow_two]
      have : ((vnorm x : ℂ)) ^ 2 = 1 / 2 := by
        have h9 := congrArg (fun t : ℝ => (t : ℂ)) hn
        push_cast at h9
        exact h9
      rw [this]; push_cast; ring
    have h4 : vnorm (vdiv x (vnorm x) - ((vnorm x : ℂ)⁻¹) • y) ^ 2 = 2 * r.evals k := by exact_mod_cast this
    rw [h4]
    have := lt_of_le_of_lt (le_abs_self _) hk'
    linarith

/-- **C28** (errors): ValueError when the vectors have different lengths. -/
theorem C28_error {m : ℕ} (B' : Matrix (Fin m) (Fin q) ℂ) (eigh : Matrix (Fin p ⊕ Fin q) (Fin p ⊕ Fin q) ℂ → EighResult (Fin p ⊕ Fin q) (p + q))
    (tol : ℝ) (h : n ≠ m) : intersection eigh A B' tol = .error .valueError := by
  rw [intersection, dif_neg h]

end

/-! ### An exact eigensolver exists, and the hypotheses of C28 are met -/

/-- an exact eigensolver, from the spectral theorem -/
theorem exists_eigh (p q : ℕ) : ∃ eigh : Matrix (Fin p ⊕ Fin q) (Fin p ⊕ Fin q) ℂ → EighResult (Fin p ⊕ Fin q) (p + q),
    ∀ D : Matrix (Fin p ⊕ Fin q) (Fin p ⊕ Fin q) ℂ, D.IsHermitian → IsEigh D (eigh D) := by
  have : ∀ D : Matrix (Fin p ⊕ Fin q) (Fin p ⊕ Fin q) ℂ, ∃ r : EighResult (Fin p ⊕ Fin q) (p + q), D.IsHermitian → IsEigh D r := by
    intro D
    by_cases hD : D.IsHermitian
    · let U : Matrix (Fin p ⊕ Fin q) (Fin p ⊕ Fin q) ℂ := hD.eigenvectorUnitary
      have hU1 : Uᴴ * U = 1 := Unitary.coe_star_mul_self hD.eigenvectorUnitary
      have hU2 : U * Uᴴ = 1 := Unitary.coe_mul_star_self hD.eigenvectorUnitary
      have hU3 : D * U = U * Matrix.diagonal (fun j => (hD.eigenvalues j : ℂ)) := by
        ext i j
        have := congrFun (hD.mulVec_eigenvectorBasis j) i
        rw [Matrix.mul_diagonal]
        simp only [U, Matrix.IsHermitian.eigenvectorUnitary_apply, Matrix.mul_apply]
        simp only [Matrix.mulVec, dotProduct, Pi.smul_apply, Complex.real_smul] at this
        rw [mul_comm, ← this]
      let e : Fin p ⊕ Fin q ≃ Fin (p + q) := finSumFinEquiv
      refine ⟨⟨fun j => hD.eigenvalues (e.symm j), U.submatrix id e.symm⟩, fun _ => ⟨?_, ?_, ?_⟩⟩
      · have := congrArg (fun M : Matrix _ _ ℂ => M.submatrix e.symm e.symm) hU1
        simp only [Matrix.submatrix_one_equiv] at this
        rw [← this, Matrix.conjTranspose_submatrix]
        exact Matrix.submatrix_mul_equiv _ _ e.symm (Equiv.refl _) e.symm
      · rw [Matrix.conjTranspose_submatrix]
        exact (Matrix.submatrix_mul_equiv U Uᴴ id e.symm id).trans (by rw [hU2]; rfl)
      · ext i j
        have := congrFun (congrFun hU3 i) (e.symm j)
        rw [Matrix.mul_diagonal] at this ⊢
        exact this
    · exact ⟨⟨fun _ => 0, 0⟩, fun h => absurd h hD⟩
  exact ⟨fun D => (this D).choose, fun D => (this D).choose_spec⟩

/-- two lines in the plane that coincide: the hypothesis on the eigenvalues holds -/
example : ∃ (A B : Matrix (Fin 2) (Fin 1) ℂ), Aᴴ * A = 1 ∧ Bᴴ * B = 1 ∧ ∀ (μ : ℝ) (z : Fin 1 ⊕ Fin 1 → ℂ), z ≠ 0 →
    ((hstackNeg A B)ᴴ * hstackNeg A B) *ᵥ z = (μ : ℂ) • z → |μ| < 1 / 10 ^ 10 → μ = 0 := by
  refine ⟨!![1; 0], !![1; 0], ?_, ?_, ?_⟩
  · ext i j; fin_cases i; fin_cases j; simp [Matrix.mul_apply]
  · ext i j; fin_cases i; fin_cases j; simp [Matrix.mul_apply]
  · intro μ z hz h hμ
    have h1 := congrFun h (Sum.inl 0)
    have h2 := congrFun h (Sum.inr 0)
    rw [← Matrix.mulVec_mulVec, hstackNeg_mulVec] at h1 h2
    simp [hstackNeg, Matrix.mulVec, dotProduct, Matrix.fromCols] at h1 h2
    by_contra h0
    have hc : (μ : ℂ) ≠ 0 := by exact_mod_cast h0
    have h3 : z (Sum.inr 0) = - z (Sum.inl 0) := by
      apply mul_left_cancel₀ hc
      linear_combination -h1 - h2
    have h4 : ((2 : ℝ) - μ : ℂ) * z (Sum.inl 0) = 0 := by
      rw [h3] at h1
      push_cast
      linear_combination h1
    rcases mul_eq_zero.mp h4 with h5 | h5
    · have : (2 : ℝ) - μ = 0 := by exact_mod_cast h5
      have h6 : μ = 2 := by linarith
      rw [h6] at hμ
      norm_num at hμ
    · apply hz
      funext i
      rcases i with i | i
      · fin_cases i; exact h5
      · fin_cases i
        have : z (Sum.inr 0) = 0 := by rw [h3, h5, neg_zero]
        exact this

end Qosy
