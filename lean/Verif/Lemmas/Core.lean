import Verif.Model.Core
import Verif.Spec.LinAlg
import Verif.Lemmas.LinAlg

/-! # Selecting eigenvectors; eigenvectors of the Hermitian part of a contraction -/

namespace Qosy
open Matrix

section
variable {n : ℕ} {D : Matrix (Fin n) (Fin n) ℂ} {r : EighResult (Fin n) n} {σ tol : ℝ}

theorem vdot_mulVec_right {m : ℕ} (A : Matrix (Fin m) (Fin n) ℂ) (x : Fin m → ℂ) (y : Fin n → ℂ) : vdot x (A *ᵥ y) = vdot (Aᴴ *ᵥ x) y := by
  rw [vdot_eq, vdot_eq, star_mulVec, conjTranspose_conjTranspose, dotProduct_mulVec]

theorem vdot_mulVec_left {m : ℕ} (A : Matrix (Fin m) (Fin n) ℂ) (x : Fin n → ℂ) (y : Fin m → ℂ) : vdot (A *ᵥ x) y = vdot x (Aᴴ *ᵥ y) := by
  rw [vdot_mulVec_right, conjTranspose_conjTranspose]

theorem select_orthonormal (h : IsEigh D r) : OrthonormalColumns (selectColumns r σ tol) := by
  classical
  intro i j hi hj
  have hn : ((List.finRange n).filter (fun k => |r.evals k - σ| < tol)).Nodup := (List.nodup_finRange n).filter _
  have hi' : i < ((List.finRange n).filter (fun k => |r.evals k - σ| < tol)).length := by
    rw [selectColumns, List.length_map] at hi; convert hi
  have hj' : j < ((List.finRange n).filter (fun k => |r.evals k - σ| < tol)).length := by
    rw [selectColumns, List.length_map] at hj; convert hj
  have g : ∀ (i : ℕ) (hi : i < (selectColumns r σ tol).length) (hi' : i < ((List.finRange n).filter (fun k => |r.evals k - σ| < tol)).length),
      (selectColumns r σ tol)[i] = fun x => r.evecs x (((List.finRange n).filter (fun k => |r.evals k - σ| < tol))[i]) := by
    intro i hi hi'
    have e : selectColumns r σ tol = ((List.finRange n).filter (fun k => |r.evals k - σ| < tol)).map (fun k i => r.evecs i k) := by
      rw [selectColumns]
    refine Eq.trans ?_ (List.getElem_map (l := (List.finRange n).filter (fun k => |r.evals k - σ| < tol)) (fun k i => r.evecs i k) (h := by rw [List.length_map]; exact hi'))
    congr 1
  rw [g i hi hi', g j hj hj']
  refine (h.inner _ _).trans ?_
  by_cases hij : i = j
  · subst hij; simp
  · rw [if_neg hij, if_neg]
    intro he
    exact hij ((hn.getElem_inj_iff).mp he)

theorem mem_colSpan_select (h : IsEigh D r) (v : Fin n → ℂ) :
    v ∈ colSpan (selectColumns r σ tol) ↔ ∀ k, ¬ |r.evals k - σ| < tol → (r.evecsᴴ *ᵥ v) k = 0 := by
  classical
  constructor
  · intro hv
    induction hv using Submodule.span_induction with
    | mem x hx =>
      intro k hk
      simp only [Set.mem_ofPred_eq, selectColumns, List.mem_map, List.mem_filter, List.mem_finRange, true_and, decide_eq_true_eq] at hx
      obtain ⟨l, hl, rfl⟩ := hx
      have := h.inner k l
      rw [if_neg (by rintro rfl; exact hk hl)] at this
      exact this
    | zero => intro k _; simp
    | add x y _ _ hx hy => intro k hk; rw [mulVec_add, Pi.add_apply, hx k hk, hy k hk, add_zero]
    | smul a x _ hx => intro k hk; rw [mulVec_smul, Pi.smul_apply, hx k hk, smul_zero]
  · intro hv
    have h1 : v = r.evecs *ᵥ (r.evecsᴴ *ᵥ v) := by rw [Matrix.mulVec_mulVec, h.complete, Matrix.one_mulVec]
    have h2 : v = ∑ k, (r.evecsᴴ *ᵥ v) k • (fun i => r.evecs i k) := by
      conv_lhs => rw [h1]
      funext i
      rw [Matrix.mulVec, dotProduct, Finset.sum_apply]
      exact Finset.sum_congr rfl (fun k _ => mul_comm _ _)
    rw [h2]
    refine Submodule.sum_mem _ (fun k _ => ?_)
    by_cases hk : |r.evals k - σ| < tol
    · refine Submodule.smul_mem _ _ (Submodule.subset_span ?_)
      simp only [Set.mem_ofPred_eq, selectColumns, List.mem_map, List.mem_filter, List.mem_finRange, true_and, decide_eq_true_eq]
      exact ⟨k, hk, rfl⟩
    · rw [hv k hk, zero_smul]; exact Submodule.zero_mem _

theorem IsEigh.coords (h : IsEigh D r) (v : Fin n → ℂ) (k : Fin n) : (r.evecsᴴ *ᵥ (D *ᵥ v)) k = r.evals k * (r.evecsᴴ *ᵥ v) k := by
  have h1 : v = r.evecs *ᵥ (r.evecsᴴ *ᵥ v) := by rw [Matrix.mulVec_mulVec, h.complete, Matrix.one_mulVec]
  conv_lhs => rw [h1]
  rw [Matrix.mulVec_mulVec _ D, h.eigen, ← Matrix.mulVec_mulVec, Matrix.mulVec_mulVec _ (r.evecsᴴ), h.orthonormal, Matrix.one_mulVec,
    Matrix.mulVec_diagonal]

theorem select_of_eigen (h : IsEigh D r) (ht : 0 < tol) {v : Fin n → ℂ} (hv : D *ᵥ v = (σ : ℂ) • v) : v ∈ colSpan (selectColumns r σ tol) := by
  rw [mem_colSpan_select h]
  intro k hk
  have h1 := h.coords v k
  rw [hv, mulVec_smul, Pi.smul_apply, smul_eq_mul] at h1
  by_contra h0
  apply hk
  have : (σ : ℂ) = r.evals k := mul_right_cancel₀ h0 h1
  have : σ = r.evals k := by exact_mod_cast this
  rw [this]; simpa using ht

/-- the eigenvalues are those of the eigensolver -/
theorem IsEigh.eigenvalue (h : IsEigh D r) {μ : ℝ} {z : Fin n → ℂ} (hz : z ≠ 0) (he : D *ᵥ z = (μ : ℂ) • z) : ∃ k, r.evals k = μ := by
  by_contra hne
  push Not at hne
  apply hz
  have h1 : z = r.evecs *ᵥ (r.evecsᴴ *ᵥ z) := by rw [Matrix.mulVec_mulVec, h.complete, Matrix.one_mulVec]
  have h2 : r.evecsᴴ *ᵥ z = 0 := by
    funext k
    have h1 := h.coords z k
    rw [he, mulVec_smul, Pi.smul_apply, smul_eq_mul] at h1
    by_contra h0
    exact hne k (by exact_mod_cast (mul_right_cancel₀ h0 h1).symm)
  rw [h1, h2, mulVec_zero]

/-- every Hermitian matrix has a gap around `σ` -/
theorem IsEigh.exists_gap (h : IsEigh D r) (σ : ℝ) : ∃ δ : ℝ, 0 < δ ∧ ∀ tol ≤ δ, ∀ (μ : ℝ) (z : Fin n → ℂ), z ≠ 0 → D *ᵥ z = (μ : ℂ) • z →
    |μ - σ| < tol → μ = σ := by
  have : ∃ δ : ℝ, 0 < δ ∧ ∀ k, r.evals k ≠ σ → δ ≤ |r.evals k - σ| := by
    by_cases hne : (Finset.univ.filter (fun k => r.evals k ≠ σ)).Nonempty
    · obtain ⟨k, hk, hmin⟩ := Finset.exists_min_image _ (fun k => |r.evals k - σ|) hne
      exact ⟨_, abs_pos.mpr (sub_ne_zero.mpr (Finset.mem_filter.mp hk).2), fun j hj => hmin j (Finset.mem_filter.mpr ⟨Finset.mem_univ _, hj⟩)⟩
    · refine ⟨1, one_pos, fun k hk => absurd ⟨k, Finset.mem_filter.mpr ⟨Finset.mem_univ _, hk⟩⟩ hne⟩
  obtain ⟨δ, hδ, hmin⟩ := this
  refine ⟨δ, hδ, fun tol ht μ z hz he hlt => ?_⟩
  obtain ⟨k, rfl⟩ := h.eigenvalue hz he
  by_contra hk
  exact absurd hlt (not_lt.mpr (ht.trans (hmin k hk)))

/-- the selected vectors are exactly the eigenvectors, if no other eigenvalue is within the tolerance -/
theorem mem_select_iff (h : IsEigh D r) (ht : 0 < tol)
    (hgap : ∀ (μ : ℝ) (z : Fin n → ℂ), z ≠ 0 → D *ᵥ z = (μ : ℂ) • z → |μ - σ| < tol → μ = σ) (v : Fin n → ℂ) :
    v ∈ colSpan (selectColumns r σ tol) ↔ D *ᵥ v = (σ : ℂ) • v := by
  refine ⟨fun hv => ?_, select_of_eigen h ht⟩
  rw [mem_colSpan_select h] at hv
  have hinj : ∀ x y : Fin n → ℂ, r.evecsᴴ *ᵥ x = r.evecsᴴ *ᵥ y → x = y := by
    intro x y hxy
    have := congrArg (fun z => r.evecs *ᵥ z) hxy
    simpa only [Matrix.mulVec_mulVec, h.complete, Matrix.one_mulVec] using this
  apply hinj
  funext k
  rw [h.coords, mulVec_smul, Pi.smul_apply, smul_eq_mul]
  by_cases hk : |r.evals k - σ| < tol
  · rw [hgap (r.evals k) (fun i => r.evecs i k) _ (h.column k) hk]
    intro h0
    have := h.inner k k
    have h1 : ∀ i, r.evecs i k = 0 := fun i => congrFun h0 i
    simp [h1] at this
  · rw [hv k hk, mul_zero, mul_zero]

/-- the quadratic form is close to the target on the span of the selected vectors -/
theorem select_form (h : IsEigh D r) (ht : 0 < tol) {v : Fin n → ℂ} (hv : v ∈ colSpan (selectColumns r σ tol)) :
    ‖vdot v (D *ᵥ v) - σ * vdot v v‖ ≤ tol * vnorm v ^ 2 := by
  rw [mem_colSpan_select h] at hv
  have hiso : ∀ x y : Fin n → ℂ, vdot x y = vdot (r.evecsᴴ *ᵥ x) (r.evecsᴴ *ᵥ y) := by
    intro x y
    rw [vdot_mulVec_left, conjTranspose_conjTranspose, Matrix.mulVec_mulVec, h.complete, Matrix.one_mulVec]
  have hn : vnorm v ^ 2 = ∑ k, ‖(r.evecsᴴ *ᵥ v) k‖ ^ 2 := by
    have h1 : ((vnorm v ^ 2 : ℝ) : ℂ) = ((vnorm (r.evecsᴴ *ᵥ v) ^ 2 : ℝ) : ℂ) := by rw [vnorm_sq, vnorm_sq, hiso]
    have h2 : vnorm v ^ 2 = vnorm (r.evecsᴴ *ᵥ v) ^ 2 := by exact_mod_cast h1
    rw [h2, vnorm, Real.sq_sqrt (Finset.sum_nonneg (fun i _ => by positivity))]
  have he : vdot v (D *ᵥ v) - σ * vdot v v = ∑ k, (((r.evals k - σ : ℝ) : ℂ) * (star ((r.evecsᴴ *ᵥ v) k) * (r.evecsᴴ *ᵥ v) k)) := by
    rw [hiso v (D *ᵥ v), hiso v v]
    simp only [vdot, h.coords, Finset.mul_sum]
    rw [← Finset.sum_sub_distrib]
    refine Finset.sum_congr rfl (fun k _ => ?_)
    push_cast; ring
  rw [he, hn, Finset.mul_sum]
  refine le_trans (norm_sum_le _ _) (Finset.sum_le_sum (fun k _ => ?_))
  have e1 : ‖((r.evals k - σ : ℝ) : ℂ) * (star ((r.evecsᴴ *ᵥ v) k) * (r.evecsᴴ *ᵥ v) k)‖ = |r.evals k - σ| * ‖(r.evecsᴴ *ᵥ v) k‖ ^ 2 := by
    rw [norm_mul, norm_mul, norm_star, Complex.norm_real, Real.norm_eq_abs]; ring
  rw [e1]
  by_cases hk : |r.evals k - σ| < tol
  · exact mul_le_mul_of_nonneg_right hk.le (by positivity)
  · rw [hv k hk]; simp

end

/-! ### contractions -/

section
variable {n : ℕ} {S : Matrix (Fin n) (Fin n) ℂ}

theorem vnorm_sq_re (x : Fin n → ℂ) : vnorm x ^ 2 = (vdot x x).re := by rw [← vnorm_sq, Complex.ofReal_re]

theorem vnorm_sub_smul_sq (x y : Fin n → ℂ) (σ : ℝ) :
    vnorm (x - (σ : ℂ) • y) ^ 2 = vnorm x ^ 2 - 2 * σ * (vdot y x).re + σ ^ 2 * vnorm y ^ 2 := by
  have hr : (vdot x y).re = (vdot y x).re := by rw [← vdot_star y x]; simp
  have h1 : vdot (x - (σ : ℂ) • y) (x - (σ : ℂ) • y) = vdot x x - σ * vdot x y - σ * vdot y x + σ * σ * vdot y y := by
    have hl : ∀ z, vdot (x - (σ : ℂ) • y) z = vdot x z - σ * vdot y z := by
      intro z
      rw [← vdot_star, vdot_sub, vdot_smul, star_sub, star_mul, vdot_star, vdot_star, mul_comm]; simp
    rw [hl, vdot_sub, vdot_sub, vdot_smul, vdot_smul]; ring
  rw [vnorm_sq_re, h1, vnorm_sq_re x, vnorm_sq_re y]
  simp only [Complex.add_re, Complex.sub_re, Complex.mul_re, Complex.mul_im, Complex.ofReal_re, Complex.ofReal_im, hr]
  ring

/-- the adjoint of a contraction is a contraction -/
theorem contraction_adjoint (hS : ∀ v, vnorm (S *ᵥ v) ≤ vnorm v) (v : Fin n → ℂ) : vnorm (Sᴴ *ᵥ v) ≤ vnorm v := by
  -- ‖S S† v - v‖² ≥ 0 with ‖S S† v‖ ≤ ‖S† v‖
  have h0 := sq_nonneg (vnorm (S *ᵥ (Sᴴ *ᵥ v) - ((1 : ℝ) : ℂ) • v))
  rw [vnorm_sub_smul_sq, vdot_mulVec_right, ← vnorm_sq_re] at h0
  have h1 := hS (Sᴴ *ᵥ v)
  have h2 : vnorm (S *ᵥ (Sᴴ *ᵥ v)) ^ 2 ≤ vnorm (Sᴴ *ᵥ v) ^ 2 := pow_le_pow_left₀ (vnorm_nonneg _) h1 2
  have h3 : vnorm (Sᴴ *ᵥ v) ^ 2 ≤ vnorm v ^ 2 := by linarith
  exact le_of_sq_le_sq h3 (vnorm_nonneg _)
where
  le_of_sq_le_sq {a b : ℝ} (h : a ^ 2 ≤ b ^ 2) (hb : 0 ≤ b) : a ≤ b := by
    nlinarith [sq_nonneg (a - b), sq_nonneg (a + b)]

/-- the Hermitian part -/
noncomputable def hermitianPart (S : Matrix (Fin n) (Fin n) ℂ) : Matrix (Fin n) (Fin n) ℂ := (1 / 2 : ℂ) • (S + Sᴴ)

theorem hermitianPart_isHermitian (S : Matrix (Fin n) (Fin n) ℂ) : (hermitianPart S).IsHermitian := by
  rw [Matrix.IsHermitian, hermitianPart, conjTranspose_smul, conjTranspose_add, conjTranspose_conjTranspose, add_comm]
  congr 1
  simp

theorem hermitianPart_mulVec (v : Fin n → ℂ) : hermitianPart S *ᵥ v = (1 / 2 : ℂ) • (S *ᵥ v + Sᴴ *ᵥ v) := by
  rw [hermitianPart, smul_mulVec, add_mulVec]

theorem hermitianPart_form (v : Fin n → ℂ) : vdot v (hermitianPart S *ᵥ v) = (((vdot v (S *ᵥ v)).re : ℝ) : ℂ) := by
  have h : vdot v (Sᴴ *ᵥ v) = star (vdot v (S *ᵥ v)) := by rw [vdot_star, vdot_mulVec_left]
  rw [hermitianPart_mulVec, vdot_smul, vdot_add, h, Complex.re_eq_add_conj]
  simp only [starRingEnd_apply]; ring

/-- a vector on which the Hermitian part of a contraction is nearly `σ = ±1` is nearly an eigenvector -/
theorem contraction_near (hS : ∀ v, vnorm (S *ᵥ v) ≤ vnorm v) {σ : ℝ} (hσ : σ ^ 2 = 1) {δ : ℝ} {v : Fin n → ℂ}
    (h : ‖vdot v (hermitianPart S *ᵥ v) - σ * vdot v v‖ ≤ δ) : vnorm (S *ᵥ v - (σ : ℂ) • v) ^ 2 ≤ 2 * δ := by
  rw [vnorm_sub_smul_sq, hσ, one_mul]
  rw [hermitianPart_form, ← vnorm_sq] at h
  have e : (((vdot v (S *ᵥ v)).re : ℝ) : ℂ) - σ * ((vnorm v ^ 2 : ℝ) : ℂ) = (((vdot v (S *ᵥ v)).re - σ * vnorm v ^ 2 : ℝ) : ℂ) := by push_cast; ring
  rw [e, Complex.norm_real, Real.norm_eq_abs] at h
  have h2 : vnorm (S *ᵥ v) ^ 2 ≤ vnorm v ^ 2 := pow_le_pow_left₀ (vnorm_nonneg _) (hS v) 2
  have hab : |σ| = 1 := by
    have : |σ| ^ 2 = 1 := by rw [sq_abs, hσ]
    nlinarith [abs_nonneg σ]
  have h3 : |σ * ((vdot v (S *ᵥ v)).re - σ * vnorm v ^ 2)| ≤ δ := by rw [abs_mul, hab, one_mul]; exact h
  have h4 : -δ ≤ σ * ((vdot v (S *ᵥ v)).re - σ * vnorm v ^ 2) := (abs_le.mp h3).1
  have h5 : σ * ((vdot v (S *ᵥ v)).re - σ * vnorm v ^ 2) = σ * (vdot v (S *ᵥ v)).re - vnorm v ^ 2 := by
    have : σ * (σ * vnorm v ^ 2) = vnorm v ^ 2 := by rw [← mul_assoc, ← sq, hσ, one_mul]
    rw [mul_sub, this]
  rw [h5] at h4
  linarith

/-- the `±1` eigenvectors of the Hermitian part of a contraction are those of the contraction -/
theorem contraction_eigen (hS : ∀ v, vnorm (S *ᵥ v) ≤ vnorm v) {σ : ℝ} (hσ : σ ^ 2 = 1) (v : Fin n → ℂ) :
    hermitianPart S *ᵥ v = (σ : ℂ) • v ↔ S *ᵥ v = (σ : ℂ) • v := by
  have zero_of {x : Fin n → ℂ} (h : vnorm x ^ 2 ≤ 2 * 0) : x = 0 := by
    rw [← vnorm_eq_zero]
    nlinarith [vnorm_nonneg x]
  constructor
  · intro h
    rw [← sub_eq_zero]
    apply zero_of
    apply contraction_near hS hσ
    rw [h, vdot_smul, sub_self, norm_zero]
  · intro h
    have h' : Sᴴ *ᵥ v = (σ : ℂ) • v := by
      rw [← sub_eq_zero]
      apply zero_of
      apply contraction_near (contraction_adjoint hS) hσ
      have e : hermitianPart Sᴴ = hermitianPart S := by rw [hermitianPart, hermitianPart, conjTranspose_conjTranspose, add_comm]
      rw [e, hermitianPart_form, h, vdot_smul, ← vnorm_sq]
      simp [← Complex.ofReal_pow, ← Complex.ofReal_mul]
    rw [hermitianPart_mulVec, h, h', ← two_smul ℂ, smul_smul]; norm_num

end

end Qosy
