import Verif.Spec.Rounding
import Verif.Props.Core
import Mathlib.Analysis.InnerProductSpace.PiL2

/-! # Eigensolvers with rounding errors -/

namespace Qosy
open Matrix

section
variable {m n : ℕ}

theorem vnorm_eq_norm (v : Fin n → ℂ) : vnorm v = ‖WithLp.toLp 2 v‖ := by rw [EuclideanSpace.norm_eq]; rfl

theorem vnorm_add_le (x y : Fin n → ℂ) : vnorm (x + y) ≤ vnorm x + vnorm y := by
  simp only [vnorm_eq_norm, WithLp.toLp_add]; exact norm_add_le _ _

theorem vnorm_neg (x : Fin n → ℂ) : vnorm (-x) = vnorm x := by simp [vnorm]

theorem norm_vdot_le (x y : Fin n → ℂ) : ‖vdot x y‖ ≤ vnorm x * vnorm y := by
  have h := norm_inner_le_norm (𝕜 := ℂ) (WithLp.toLp 2 x) (WithLp.toLp 2 y)
  rw [EuclideanSpace.inner_toLp_toLp, dotProduct_comm] at h
  rw [vnorm_eq_norm, vnorm_eq_norm]
  exact h

theorem vnorm_sq_eq_norm (x : Fin n → ℂ) : vnorm x ^ 2 = ‖vdot x x‖ := by
  rw [← vnorm_sq, Complex.norm_real, Real.norm_eq_abs, abs_of_nonneg (sq_nonneg _)]

/-- a vector whose components are at most those of another -/
theorem vnorm_le_mul {x y : Fin n → ℂ} {a : ℝ} (ha : 0 ≤ a) (h : ∀ i, ‖x i‖ ≤ a * ‖y i‖) : vnorm x ≤ a * vnorm y := by
  rw [vnorm, vnorm, Real.sqrt_le_left (by positivity), mul_pow, Real.sq_sqrt (Finset.sum_nonneg fun i _ => by positivity), Finset.mul_sum]
  exact Finset.sum_le_sum fun i _ => by rw [← mul_pow]; exact pow_le_pow_left₀ (norm_nonneg _) (h i) 2

theorem NormAtMost.form {E : Matrix (Fin m) (Fin n) ℂ} {δ : ℝ} (h : NormAtMost E δ) (x : Fin m → ℂ) (y : Fin n → ℂ) :
    ‖vdot x (E *ᵥ y)‖ ≤ vnorm x * (δ * vnorm y) :=
  (norm_vdot_le _ _).trans (mul_le_mul_of_nonneg_left (h y) (vnorm_nonneg _))

theorem NormAtMost.conjTranspose {E : Matrix (Fin m) (Fin n) ℂ} {δ : ℝ} (h : NormAtMost E δ) (h0 : 0 ≤ δ) : NormAtMost Eᴴ δ := by
  intro x
  have h1 := h.form x (Eᴴ *ᵥ x)
  rw [vdot_mulVec_right, ← vnorm_sq_eq_norm] at h1
  rcases (vnorm_nonneg (Eᴴ *ᵥ x)).eq_or_lt with h2 | h2
  · rw [← h2]; exact mul_nonneg h0 (vnorm_nonneg _)
  · nlinarith

end

section
variable {n : ℕ} {D : Matrix (Fin n) (Fin n) ℂ} {r : EighResult (Fin n) n} {σ tol δ : ℝ}

/-- the length of `Q c` -/
theorem NearlyEigh.norm_mulVec (h : NearlyEigh δ D r) (c : Fin n → ℂ) : |vnorm (r.evecs *ᵥ c) ^ 2 - vnorm c ^ 2| ≤ δ * vnorm c ^ 2 := by
  have h1 := h.gram.form c c
  rw [Matrix.sub_mulVec, Matrix.one_mulVec, vdot_sub, ← mulVec_mulVec, vdot_mulVec_right, conjTranspose_conjTranspose, ← vnorm_sq, ← vnorm_sq, ← Complex.ofReal_sub,
    Complex.norm_real, Real.norm_eq_abs] at h1
  linarith

theorem NearlyEigh.norm_mulVec_le (h : NearlyEigh δ D r) (h0 : 0 ≤ δ) (c : Fin n → ℂ) : vnorm (r.evecs *ᵥ c) ≤ (1 + δ) * vnorm c := by
  have h1 := (abs_le.mp (h.norm_mulVec c)).2
  refine abs_le_of_sq_le_sq' ?_ (by have := vnorm_nonneg c; positivity) |>.2
  nlinarith [sq_nonneg (vnorm c), mul_nonneg h0 (sq_nonneg (vnorm c)), mul_nonneg (mul_nonneg h0 h0) (sq_nonneg (vnorm c))]

theorem NearlyEigh.le_norm_mulVec (h : NearlyEigh δ D r) (h0 : 0 ≤ δ) (h1 : δ < 1) (c : Fin n → ℂ) : (1 - δ) * vnorm c ≤ vnorm (r.evecs *ᵥ c) := by
  have h2 := (abs_le.mp (h.norm_mulVec c)).1
  refine abs_le_of_sq_le_sq' ?_ (vnorm_nonneg _) |>.2
  nlinarith [sq_nonneg (vnorm c), mul_nonneg h0 (sq_nonneg (vnorm c)), mul_nonneg (mul_nonneg h0 (sub_nonneg.mpr h1.le)) (sq_nonneg (vnorm c))]

/-- inner products of the columns -/
theorem NearlyEigh.inner (h : NearlyEigh δ D r) (i j : Fin n) : ‖∑ x, star (r.evecs x i) * r.evecs x j - if i = j then 1 else 0‖ ≤ δ := by
  have h1 := h.gram.form (Pi.single i 1) (Pi.single j 1)
  have h2 : ∀ i : Fin n, vnorm (Pi.single i 1 : Fin n → ℂ) = 1 := fun i => by
    have : (vnorm (Pi.single i 1 : Fin n → ℂ)) ^ 2 = 1 := by rw [vnorm_sq_re, vdot]; simp [Pi.single_apply]
    exact (pow_eq_one_iff_of_nonneg (vnorm_nonneg _) two_ne_zero).mp this
  rw [h2, h2, one_mul, mul_one, Matrix.mulVec_single_one] at h1
  have h3 : vdot (Pi.single i 1) ((r.evecsᴴ * r.evecs - 1).col j) = ∑ x, star (r.evecs x i) * r.evecs x j - if i = j then 1 else 0 := by
    rw [vdot]
    simp [Pi.single_apply, Matrix.mul_apply, Matrix.one_apply]
  rw [← h3]; exact h1

/-- inner products of the selected columns -/
theorem NearlyEigh.select_inner (h : NearlyEigh δ D r) (i j : ℕ) (hi : i < (selectColumns r σ tol).length) (hj : j < (selectColumns r σ tol).length) :
    ‖∑ x, star ((selectColumns r σ tol)[i] x) * (selectColumns r σ tol)[j] x - if i = j then 1 else 0‖ ≤ δ := by
  classical
  have hn : ((List.finRange n).filter (fun k => |r.evals k - σ| < tol)).Nodup := (List.nodup_finRange n).filter _
  have hi' : i < ((List.finRange n).filter (fun k => |r.evals k - σ| < tol)).length := by
    rw [selectColumns, List.length_map] at hi; convert hi
  have hj' : j < ((List.finRange n).filter (fun k => |r.evals k - σ| < tol)).length := by
    rw [selectColumns, List.length_map] at hj; convert hj
  have g : ∀ (i : ℕ) (hi : i < (selectColumns r σ tol).length) (hi' : i < ((List.finRange n).filter (fun k => |r.evals k - σ| < tol)).length),
      (selectColumns r σ tol)[i] = fun x => r.evecs x (((List.finRange n).filter (fun k => |r.evals k - σ| < tol))[i]) := by
    intro i hi hi'
    have e : selectColumns r σ tol = ((List.finRange n).filter (fun k => |r.evals k - σ| < tol)).map (fun k i => r.evecs i k) := by
      rw [selectColumns]
    refine Eq.trans ?_ (List.getElem_map (l := (List.finRange n).filter (fun k => |r.evals k - σ| < tol)) (fun k i => r.evecs i k) (h := by rw [List.length_map]; exact hi'))
    congr 1
  have h1 := h.inner (((List.finRange n).filter (fun k => |r.evals k - σ| < tol))[i]) (((List.finRange n).filter (fun k => |r.evals k - σ| < tol))[j])
  rw [g i hi hi', g j hj hj']
  by_cases hij : i = j
  · subst hij
    rw [if_pos rfl] at h1 ⊢
    exact h1
  · rw [if_neg (fun he => hij ((hn.getElem_inj_iff).mp he))] at h1
    rw [if_neg hij]
    exact h1

/-- the span of the selected columns -/
theorem mem_colSpan_selected (v : Fin n → ℂ) :
    v ∈ colSpan (selectColumns r σ tol) ↔ ∃ c : Fin n → ℂ, (∀ k, ¬ |r.evals k - σ| < tol → c k = 0) ∧ v = r.evecs *ᵥ c := by
  classical
  constructor
  · intro hv
    induction hv using Submodule.span_induction with
    | mem w hw =>
      simp only [selectColumns, Set.mem_ofPred_eq, List.mem_map, List.mem_filter, List.mem_finRange, true_and, decide_eq_true_eq] at hw
      obtain ⟨k, hk, rfl⟩ := hw
      refine ⟨Pi.single k 1, fun j hj => ?_, by rw [Matrix.mulVec_single_one]; rfl⟩
      rw [Pi.single_apply, if_neg]
      rintro rfl
      exact hj hk
    | zero => exact ⟨0, fun _ _ => rfl, by simp⟩
    | add x y _ _ hx hy =>
      obtain ⟨c, h1, rfl⟩ := hx
      obtain ⟨d, h2, rfl⟩ := hy
      exact ⟨c + d, fun k hk => by simp [h1 k hk, h2 k hk], (Matrix.mulVec_add ..).symm⟩
    | smul a x _ hx =>
      obtain ⟨c, h1, rfl⟩ := hx
      exact ⟨a • c, fun k hk => by simp [h1 k hk], (Matrix.mulVec_smul ..).symm⟩
  · rintro ⟨c, hc, rfl⟩
    have e : r.evecs *ᵥ c = ∑ k, c k • fun i => r.evecs i k := by
      funext i
      simp [Matrix.mulVec, dotProduct, mul_comm]
    rw [e]
    refine Submodule.sum_mem _ fun k _ => ?_
    by_cases hk : |r.evals k - σ| < tol
    · refine Submodule.smul_mem _ _ (Submodule.subset_span ?_)
      simp only [selectColumns, Set.mem_ofPred_eq, List.mem_map, List.mem_filter, List.mem_finRange, true_and, decide_eq_true_eq]
      exact ⟨k, hk, rfl⟩
    · rw [hc k hk, zero_smul]; exact Submodule.zero_mem _

/-- vectors in the span of the selected columns are nearly eigenvectors -/
theorem NearlyEigh.select_residual (h : NearlyEigh δ D r) (h0 : 0 ≤ δ) (h1 : δ < 1) (ht : 0 < tol) {v : Fin n → ℂ} (hv : v ∈ colSpan (selectColumns r σ tol)) :
    vnorm (D *ᵥ v - (σ : ℂ) • v) ≤ ((1 + δ) * tol + δ) / (1 - δ) * vnorm v := by
  obtain ⟨c, hc, rfl⟩ := (mem_colSpan_selected v).mp hv
  set q := r.evecs *ᵥ c with hq
  have e1 : D *ᵥ q - (σ : ℂ) • q = (D * r.evecs - r.evecs * diagonal fun j => (r.evals j : ℂ)) *ᵥ c +
      r.evecs *ᵥ fun k => ((r.evals k - σ : ℝ) : ℂ) * c k := by
    have e2 : (fun k => ((r.evals k - σ : ℝ) : ℂ) * c k) = (diagonal fun j => (r.evals j : ℂ)) *ᵥ c - (σ : ℂ) • c := by
      funext k
      rw [Pi.sub_apply, mulVec_diagonal, Pi.smul_apply, smul_eq_mul]
      push_cast; ring
    rw [e2, Matrix.mulVec_sub, Matrix.mulVec_smul, Matrix.sub_mulVec, ← mulVec_mulVec, ← mulVec_mulVec, ← hq]
    abel
  have n1 := h.residual c
  have n2 : vnorm (fun k => ((r.evals k - σ : ℝ) : ℂ) * c k) ≤ tol * vnorm c := by
    refine vnorm_le_mul ht.le fun k => ?_
    by_cases hk : |r.evals k - σ| < tol
    · rw [norm_mul, Complex.norm_real, Real.norm_eq_abs]
      exact mul_le_mul_of_nonneg_right hk.le (norm_nonneg _)
    · rw [hc k hk]; simp
  have n3 := (h.norm_mulVec_le h0 fun k => ((r.evals k - σ : ℝ) : ℂ) * c k).trans (mul_le_mul_of_nonneg_left n2 (show 0 ≤ 1 + δ by linarith))
  have n4 := h.le_norm_mulVec h0 h1 c
  rw [← hq] at n4
  rw [e1]
  refine (vnorm_add_le _ _).trans ((add_le_add n1 n3).trans ?_)
  have hd : 0 < 1 - δ := by linarith
  have n5 : vnorm c ≤ vnorm q / (1 - δ) := by rw [le_div_iff₀ hd]; linarith
  calc _ = ((1 + δ) * tol + δ) * vnorm c := by ring
    _ ≤ ((1 + δ) * tol + δ) * (vnorm q / (1 - δ)) := mul_le_mul_of_nonneg_left n5 (by positivity)
    _ = _ := by ring

/-- the quadratic form on the span of the selected columns -/
theorem NearlyEigh.select_form (h : NearlyEigh δ D r) (h0 : 0 ≤ δ) (h1 : δ < 1) (ht : 0 < tol) {v : Fin n → ℂ} (hv : v ∈ colSpan (selectColumns r σ tol)) :
    ‖vdot v (D *ᵥ v) - σ * vdot v v‖ ≤ ((1 + δ) * tol + δ) / (1 - δ) * vnorm v ^ 2 := by
  have h2 := (norm_vdot_le v (D *ᵥ v - (σ : ℂ) • v)).trans (mul_le_mul_of_nonneg_left (h.select_residual h0 h1 ht hv) (vnorm_nonneg v))
  rw [vdot_sub, vdot_smul] at h2
  exact h2.trans (le_of_eq (by ring))

/-- `∑ q_k ⟨q_k, ·⟩` over the selected columns -/
noncomputable def selectMap (r : EighResult (Fin n) n) (σ tol : ℝ) : Matrix (Fin n) (Fin n) ℂ :=
  open Classical in r.evecs * (diagonal fun k => if |r.evals k - σ| < tol then (1 : ℂ) else 0) * r.evecsᴴ

theorem selectMap_mem (w : Fin n → ℂ) : selectMap r σ tol *ᵥ w ∈ colSpan (selectColumns r σ tol) := by
  classical
  rw [mem_colSpan_selected]
  refine ⟨_, fun k hk => ?_, by rw [selectMap, ← mulVec_mulVec, ← mulVec_mulVec]⟩
  rw [mulVec_diagonal, if_neg hk, zero_mul]

/-- the distance to the span of the selected columns -/
theorem NearlyEigh.near_selectMap (h : NearlyEigh δ D r) (hD : D.IsHermitian) (h0 : 0 ≤ δ) (ht : 0 < tol) (w : Fin n → ℂ) :
    vnorm (w - selectMap r σ tol *ᵥ w) ≤ δ * vnorm w + (1 + δ) * (tol⁻¹ * (δ * vnorm w + (1 + δ) * vnorm (D *ᵥ w - (σ : ℂ) • w))) := by
  classical
  set a := r.evecsᴴ *ᵥ w with ha
  set c : Fin n → ℂ := fun k => (if |r.evals k - σ| < tol then 1 else 0) * a k with hc
  set d : Fin n → ℂ := fun k => if |r.evals k - σ| < tol then 0 else a k with hd
  have hcd : a = c + d := by funext k; simp only [hc, hd, Pi.add_apply]; split <;> simp
  have e0 : selectMap r σ tol *ᵥ w = r.evecs *ᵥ c := by
    rw [selectMap, ← mulVec_mulVec, ← mulVec_mulVec, ← ha]
    congr 1
    funext k
    rw [mulVec_diagonal]
  have e1 : w - r.evecs *ᵥ c = -((r.evecs * r.evecsᴴ - 1) *ᵥ w) + r.evecs *ᵥ d := by
    rw [Matrix.sub_mulVec, Matrix.one_mulVec, ← mulVec_mulVec, ← ha, hcd, Matrix.mulVec_add]
    abel
  have e2 : (fun k => ((r.evals k - σ : ℝ) : ℂ) * a k) = -((D * r.evecs - r.evecs * diagonal fun j => (r.evals j : ℂ))ᴴ *ᵥ w) + r.evecsᴴ *ᵥ (D *ᵥ w - (σ : ℂ) • w) := by
    rw [conjTranspose_sub, conjTranspose_mul, conjTranspose_mul, hD.eq, Matrix.sub_mulVec, ← mulVec_mulVec, ← mulVec_mulVec, Matrix.mulVec_sub, Matrix.mulVec_smul, ← ha,
      diagonal_conjTranspose]
    funext k
    simp only [Pi.neg_apply, Pi.sub_apply, Pi.add_apply, mulVec_diagonal, Pi.smul_apply, smul_eq_mul, Pi.star_apply]
    rw [show star (r.evals k : ℂ) = (r.evals k : ℂ) from Complex.conj_ofReal _]
    push_cast; ring
  have hQ : NormAtMost r.evecs (1 + δ) := h.norm_mulVec_le h0
  have n1 : vnorm (fun k => ((r.evals k - σ : ℝ) : ℂ) * a k) ≤ δ * vnorm w + (1 + δ) * vnorm (D *ᵥ w - (σ : ℂ) • w) := by
    rw [e2]
    refine (vnorm_add_le _ _).trans (add_le_add ?_ (hQ.conjTranspose (by linarith) _))
    rw [vnorm_neg]; exact h.residual.conjTranspose h0 w
  have n2 : vnorm d ≤ tol⁻¹ * vnorm (fun k => ((r.evals k - σ : ℝ) : ℂ) * a k) := by
    refine vnorm_le_mul (inv_nonneg.mpr ht.le) fun k => ?_
    simp only [hd]
    split
    · rw [norm_zero]; positivity
    · next hk =>
      rw [norm_mul, Complex.norm_real, Real.norm_eq_abs, ← mul_assoc]
      refine le_mul_of_one_le_left (norm_nonneg _) ?_
      rw [inv_mul_eq_div, le_div_iff₀ ht, one_mul]
      exact not_lt.mp hk
  have n3 := h.norm_mulVec_le h0 d
  have n4 := h.outer w
  rw [e0, e1]
  refine (vnorm_add_le _ _).trans ?_
  rw [vnorm_neg]
  exact add_le_add n4 (n3.trans (mul_le_mul_of_nonneg_left (n2.trans (mul_le_mul_of_nonneg_left n1 (inv_nonneg.mpr ht.le))) (show 0 ≤ 1 + δ by linarith)))

/-- the part of an eigenvector outside of the span of the selected columns -/
theorem NearlyEigh.near_select (h : NearlyEigh δ D r) (hD : D.IsHermitian) (h0 : 0 ≤ δ) (ht : 0 < tol) {w : Fin n → ℂ} (hw : D *ᵥ w = (σ : ℂ) • w) :
    vnorm (w - selectMap r σ tol *ᵥ w) ≤ (δ + (1 + δ) * δ / tol) * vnorm w := by
  refine (h.near_selectMap hD h0 ht w (σ := σ)).trans (le_of_eq ?_)
  rw [hw, sub_self, show vnorm (0 : Fin n → ℂ) = 0 from vnorm_eq_zero.mpr rfl, div_eq_mul_inv]
  ring

theorem IsEigh.nearly (h : IsEigh D r) : NearlyEigh 0 D r := by
  refine ⟨?_, ?_, ?_⟩
  · rw [h.orthonormal, sub_self]; intro y; simp [vnorm]
  · rw [h.complete, sub_self]; intro y; simp [vnorm]
  · rw [h.eigen, sub_self]; intro y; simp [vnorm]

/-- the number of the selected columns is the dimension of their span -/
theorem NearlyEigh.finrank_select (h : NearlyEigh δ D r) (h0 : 0 ≤ δ) (h1 : δ < 1) : Module.finrank ℂ (colSpan (selectColumns r σ tol)) = (selectColumns r σ tol).length := by
  classical
  have hi : LinearIndependent ℂ fun k i => r.evecs i k := by
    rw [Fintype.linearIndependent_iff]
    intro g hg
    have e : r.evecs *ᵥ g = 0 := by
      rw [← hg]; funext i; simp [Matrix.mulVec, dotProduct, mul_comm]
    have h2 := h.le_norm_mulVec h0 h1 g
    rw [e, show vnorm (0 : Fin n → ℂ) = 0 from vnorm_eq_zero.mpr rfl] at h2
    have h3 : vnorm g = 0 := le_antisymm (by nlinarith [vnorm_nonneg g]) (vnorm_nonneg g)
    intro k; rw [vnorm_eq_zero.mp h3]; rfl
  have hs : {v | v ∈ selectColumns r σ tol} = ((Finset.univ.filter fun k => |r.evals k - σ| < tol).image fun k i => r.evecs i k : Finset (Fin n → ℂ)) := by
    ext v
    simp [selectColumns]
  rw [colSpan, hs, finrank_span_finset_eq_card, Finset.card_image_of_injective _ hi.injective, selectColumns, List.length_map]
  · rw [← List.toFinset_card_of_nodup ((List.nodup_finRange n).filter _)]
    congr 1
    ext k; simp
  · rw [Finset.coe_image]
    exact (hi.linearIndepOn (s := _)).id_image
    
/-- If no other eigenvalue is near `σ`, the number of the selected columns is the multiplicity of the eigenvalue `σ`. -/
theorem NearlyEigh.select_length (h : NearlyEigh δ D r) (hD : D.IsHermitian) (h0 : 0 ≤ δ) (h1 : δ < 1) (ht : 0 < tol) {V : Submodule ℂ (Fin n → ℂ)}
    (hV : ∀ w, w ∈ V ↔ D *ᵥ w = (σ : ℂ) • w) {g : ℝ} (hg : SpectralGap D σ g) (h2 : ((1 + δ) * tol + δ) / (1 - δ) < g) (h3 : δ + (1 + δ) * δ / tol < 1) :
    (selectColumns r σ tol).length = Module.finrank ℂ V := by
  obtain ⟨eigh, he⟩ := exists_exactEigh
  have hE := he n D hD
  have hg0 : 0 < g := lt_of_le_of_lt (div_nonneg (by positivity) (by linarith)) h2
  rw [← h.finrank_select h0 h1]
  apply le_antisymm
  · have hmem : ∀ v, selectMap (eigh n D) σ g *ᵥ v ∈ V := fun v => (hV _).mpr ((mem_select_iff hE hg0 hg _).mp (selectMap_mem v))
    refine LinearMap.finrank_le_finrank_of_injective
      (f := ((selectMap (eigh n D) σ g).mulVecLin.comp (colSpan (selectColumns r σ tol)).subtype).codRestrict V fun v => hmem v) ?_
    rw [← LinearMap.ker_eq_bot, LinearMap.ker_eq_bot']
    rintro ⟨v, hv⟩ h4
    have h5 : selectMap (eigh n D) σ g *ᵥ v = 0 := congrArg Subtype.val h4
    have h6 := hE.nearly.near_selectMap hD le_rfl hg0 v (σ := σ)
    have h7 := h.select_residual h0 h1 ht hv
    rw [h5, sub_zero, zero_mul, zero_add, zero_add, add_zero, one_mul, one_mul, inv_mul_eq_div, le_div_iff₀ hg0] at h6
    have h8 : vnorm v = 0 := le_antisymm (by nlinarith [vnorm_nonneg v]) (vnorm_nonneg v)
    exact Subtype.ext (vnorm_eq_zero.mp h8)
  · refine LinearMap.finrank_le_finrank_of_injective
      (f := ((selectMap r σ tol).mulVecLin.comp V.subtype).codRestrict (colSpan (selectColumns r σ tol)) fun v => selectMap_mem _) ?_
    rw [← LinearMap.ker_eq_bot, LinearMap.ker_eq_bot']
    rintro ⟨v, hv⟩ h4
    have h5 : selectMap r σ tol *ᵥ v = 0 := congrArg Subtype.val h4
    have h6 := h.near_select hD h0 ht ((hV v).mp hv)
    rw [h5, sub_zero] at h6
    have h8 : vnorm v = 0 := le_antisymm (by nlinarith [vnorm_nonneg v]) (vnorm_nonneg v)
    exact Subtype.ext (vnorm_eq_zero.mp h8)

/-- the eigenvalue that is closest to the Rayleigh quotient `σ` of a vector -/
theorem NearlyEigh.exists_near (h : NearlyEigh δ D r) (hD : D.IsHermitian) (h0 : 0 ≤ δ) {w : Fin n → ℂ} (hw : w ≠ 0) (σ : ℝ) :
    ∃ k, |r.evals k - σ| * ((1 - δ) * vnorm w) ≤ (1 + δ) * (δ * vnorm w + (1 + δ) * vnorm (D *ᵥ w - (σ : ℂ) • w)) := by
  have hn : Nonempty (Fin n) := by
    by_contra hn
    rw [not_nonempty_iff] at hn
    exact hw (funext fun i => hn.elim i)
  obtain ⟨k, -, hk⟩ := Finset.exists_min_image Finset.univ (fun k => |r.evals k - σ|) Finset.univ_nonempty
  refine ⟨k, ?_⟩
  have hp : 0 ≤ (1 + δ) * (δ * vnorm w + (1 + δ) * vnorm (D *ᵥ w - (σ : ℂ) • w)) := by
    have := vnorm_nonneg w; have := vnorm_nonneg (D *ᵥ w - (σ : ℂ) • w); positivity
  rcases (abs_nonneg (r.evals k - σ)).eq_or_lt with h1 | h1
  · rw [← h1, zero_mul]; exact hp
  · have h2 := h.near_selectMap hD h0 h1 w (σ := σ)
    have e : selectMap r σ |r.evals k - σ| *ᵥ w = 0 := by
      have := selectMap_mem (r := r) (σ := σ) (tol := |r.evals k - σ|) w
      rw [mem_colSpan_selected] at this
      obtain ⟨c, hc, e⟩ := this
      have : c = 0 := funext fun j => hc j (not_lt.mpr (hk j (Finset.mem_univ _)))
      rw [e, this, Matrix.mulVec_zero]
    rw [e, sub_zero] at h2
    have h3 := mul_le_mul_of_nonneg_left h2 h1.le
    have e2 : |r.evals k - σ| * (δ * vnorm w + (1 + δ) * (|r.evals k - σ|⁻¹ * (δ * vnorm w + (1 + δ) * vnorm (D *ᵥ w - (σ : ℂ) • w)))) =
        |r.evals k - σ| * (δ * vnorm w) + (1 + δ) * (δ * vnorm w + (1 + δ) * vnorm (D *ᵥ w - (σ : ℂ) • w)) := by
      field_simp
    rw [e2] at h3
    linarith

theorem NearlyEigh.column_residual (h : NearlyEigh δ D r) (k : Fin n) : vnorm (D *ᵥ (fun i => r.evecs i k) - (r.evals k : ℂ) • fun i => r.evecs i k) ≤ δ := by
  have h1 := h.residual (Pi.single k 1)
  have h2 : vnorm (Pi.single k 1 : Fin n → ℂ) = 1 := by
    have : (vnorm (Pi.single k 1 : Fin n → ℂ)) ^ 2 = 1 := by rw [vnorm_sq_re, vdot]; simp [Pi.single_apply]
    exact (pow_eq_one_iff_of_nonneg (vnorm_nonneg _) two_ne_zero).mp this
  rw [h2, mul_one] at h1
  refine le_trans (le_of_eq ?_) h1
  congr 1
  rw [Matrix.sub_mulVec, ← mulVec_mulVec, ← mulVec_mulVec, Matrix.mulVec_single_one, Matrix.mulVec_single_one]
  congr 1
  funext i
  simp [Matrix.mulVec, dotProduct, Matrix.diagonal_apply, mul_comm]

theorem NearlyEigh.column_norm (h : NearlyEigh δ D r) (k : Fin n) : |∑ i, ‖r.evecs i k‖ ^ 2 - 1| ≤ δ := by
  have h1 := h.inner k k
  rw [if_pos rfl] at h1
  have e : ∑ x, star (r.evecs x k) * r.evecs x k = ((∑ i, ‖r.evecs i k‖ ^ 2 : ℝ) : ℂ) := by
    push_cast
    refine Finset.sum_congr rfl fun i _ => ?_
    rw [← Complex.ofReal_pow, ← Complex.normSq_eq_norm_sq, Complex.normSq_eq_conj_mul_self]; rfl
  rw [e, ← Complex.ofReal_one, ← Complex.ofReal_sub, Complex.norm_real] at h1
  exact h1

/-- every returned eigenvalue is close to an eigenvalue -/
theorem NearlyEigh.evals_near (h : NearlyEigh δ D r) (hD : D.IsHermitian) (h0 : 0 ≤ δ) (h1 : δ < 1) (k : Fin n) :
    ∃ (E : ℝ) (z : Fin n → ℂ), z ≠ 0 ∧ D *ᵥ z = (E : ℂ) • z ∧ |r.evals k - E| ≤ δ / (1 - δ) := by
  obtain ⟨eigh, he⟩ := exists_exactEigh
  have hE := he n D hD
  have h2 : (1 - δ) ≤ vnorm fun i => r.evecs i k := by
    have h3 := h.le_norm_mulVec h0 h1 (Pi.single k 1)
    have h2 : vnorm (Pi.single k 1 : Fin n → ℂ) = 1 := by
      have : (vnorm (Pi.single k 1 : Fin n → ℂ)) ^ 2 = 1 := by rw [vnorm_sq_re, vdot]; simp [Pi.single_apply]
      exact (pow_eq_one_iff_of_nonneg (vnorm_nonneg _) two_ne_zero).mp this
    rw [h2, mul_one, Matrix.mulVec_single_one] at h3
    exact h3
  have hw : (fun i => r.evecs i k) ≠ 0 := fun e => by rw [e, vnorm_eq_zero.mpr rfl] at h2; linarith
  obtain ⟨j, hj⟩ := hE.nearly.exists_near hD le_rfl hw (r.evals k)
  have h3 := h.column_residual k
  refine ⟨(eigh n D).evals j, fun i => (eigh n D).evecs i j, fun e => ?_, hE.column j, ?_⟩
  · have := hE.inner j j
    rw [if_pos rfl] at this
    have h4 : ∀ i, (eigh n D).evecs i j = 0 := fun i => congrFun e i
    simp [h4] at this
  · rw [abs_sub_comm, le_div_iff₀ (by linarith)]
    rw [sub_zero, one_mul, add_zero, one_mul, zero_mul, zero_add, one_mul] at hj
    nlinarith [abs_nonneg ((eigh n D).evals j - r.evals k)]

/-- every eigenvalue is close to a returned one -/
theorem NearlyEigh.evals_complete (h : NearlyEigh δ D r) (hD : D.IsHermitian) (h0 : 0 ≤ δ) (h1 : δ < 1) {E : ℝ} {z : Fin n → ℂ} (hz : z ≠ 0) (he : D *ᵥ z = (E : ℂ) • z) :
    ∃ k, |r.evals k - E| ≤ (1 + δ) * δ / (1 - δ) := by
  obtain ⟨k, hk⟩ := h.exists_near hD h0 hz E
  refine ⟨k, ?_⟩
  rw [he, sub_self, show vnorm (0 : Fin n → ℂ) = 0 from vnorm_eq_zero.mpr rfl, mul_zero, add_zero] at hk
  have hp : 0 < vnorm z := lt_of_le_of_ne (vnorm_nonneg z) fun e => hz (vnorm_eq_zero.mp e.symm)
  rw [le_div_iff₀ (by linarith)]
  refine le_of_mul_le_mul_right ?_ hp
  linarith

end

section
open scoped ComplexOrder
variable {𝔸 : Type} [Ring 𝔸] [Algebra ℂ 𝔸]

theorem StrAlg.commutingOperators_nearly (R : StrAlg ℂ 𝔸) [Nontrivial 𝔸] (mode : Mode) {x : BasisArg ℂ} {O : Operator ℂ} (hx : x.All R.Str)
    (hne : x ≠ .operators []) (hO : ∀ s ∈ O.basis.strs, R.Str s) (eigh : Eigh) {tol : ℝ} (ht : 0 < tol) :
    ∃ vecs M evals evecs, commutingOperators eigh x O mode tol = .ok ⟨(x.den R.den).length, vecs, M, evals, evecs⟩ ∧
      (∃ C ext, commutantMatrix x O mode = .ok (C, ext) ∧ M = C.square _) ∧ ∀ δ, 0 ≤ δ → δ < 1 → NearlyEigh δ M ⟨evals, evecs⟩ →
        NearlyCommuting R.den mode (x.den R.den) (O.den R.den) tol δ vecs ∧
        ∀ g : ℝ, SpectralGap M 0 g → ((1 + δ) * tol + δ) / (1 - δ) < g → δ + (1 + δ) * δ / tol < 1 →
          vecs.length = Module.finrank ℂ (commutingSpace mode (x.den R.den) (O.den R.den)) := by
  have hfacts := fun y => R.commutant_facts mode hx hne hO (y := y)
  generalize x.den R.den = y at *
  obtain ⟨C, ext, h2, h5, hps, hkern, hform⟩ := hfacts y rfl
  have hq := commutingOperators_eq (eigh := eigh) (tol := tol) h2
  have hMC : ∀ (m : ℕ) (hm : C.ncols = m), (⟨C.ncols, selectColumns (eigh C.ncols C.toarray) 0 tol,
      C.toarray, (eigh C.ncols C.toarray).evals, (eigh C.ncols C.toarray).evecs⟩ : Generated) =
      ⟨m, selectColumns (eigh m (C.square m)) 0 tol, C.square m, (eigh m (C.square m)).evals, (eigh m (C.square m)).evecs⟩ := by
    rintro m rfl
    rfl
  refine ⟨_, _, _, _, hq.trans (congrArg _ (hMC _ h5)), ⟨C, ext, h2, rfl⟩, fun δ h0 h1 hE => ⟨⟨?_, ?_, ?_⟩, ?_⟩⟩
  · exact hE.select_inner
  · intro v hv
    obtain ⟨strs, w, k1, k2, k3, k4⟩ := hform v
    refine ⟨strs, w, k1, k2, k3, ?_⟩
    have h := hE.select_form h0 h1 ht hv
    rw [Complex.ofReal_zero, zero_mul, sub_zero, k4, Complex.norm_real, Real.norm_eq_abs, abs_of_nonneg (Finset.sum_nonneg (fun i _ => by positivity)), vnorm,
      Real.sq_sqrt (Finset.sum_nonneg (fun i _ => by positivity))] at h
    exact h
  · intro w hw
    exact ⟨_, selectMap_mem w, hE.near_select hps.isHermitian h0 ht ((hkern w).mpr hw)⟩
  · intro g hg h3 h4
    exact hE.select_length hps.isHermitian h0 h1 ht (fun w => (hkern w).symm) hg h3 h4

end

section
variable {t : OpType} {V : OpString → Prop} {T : Transformation ℂ} {ε : OpString → ℂ} {f : OpString → OpString}

theorem NearlyEigh.of_superoperator {n : ℕ} {δ : ℝ} {H : Matrix (Fin n) (Fin n) ℂ} {r : EighResult (Fin n) n} {σ : ℤ} (hσ : σ ^ 2 = 1)
    (h : NearlyEigh δ (1 - (σ : ℂ) • H) ⟨fun k => 1 - σ * r.evals k, r.evecs⟩) : NearlyEigh δ H r := by
  refine ⟨h.gram, h.outer, fun y => ?_⟩
  have h1 := h.residual y
  have hs : (σ : ℂ) * σ = 1 := by exact_mod_cast (by rw [← sq]; exact hσ : σ * σ = 1)
  have hn : ‖(σ : ℂ)‖ = 1 := by
    have := congrArg norm hs
    rw [norm_mul, norm_one] at this
    nlinarith [norm_nonneg (σ : ℂ)]
  have e : (1 - (σ : ℂ) • H) * r.evecs - r.evecs * diagonal (fun j => ((1 - σ * r.evals j : ℝ) : ℂ)) =
      -(σ : ℂ) • (H * r.evecs - r.evecs * diagonal (fun j => (r.evals j : ℂ))) := by
    rw [Matrix.sub_mul, Matrix.one_mul, Matrix.smul_mul]
    ext i j
    simp only [Matrix.sub_apply, Matrix.smul_apply, Matrix.mul_diagonal, smul_eq_mul]
    push_cast
    ring
  refine le_trans (le_of_eq ?_) h1
  show _ = vnorm (((1 - (σ : ℂ) • H) * r.evecs - r.evecs * diagonal (fun j => ((1 - σ * r.evals j : ℝ) : ℂ))) *ᵥ y)
  rw [e, Matrix.smul_mulVec, vnorm, vnorm]
  congr 1
  exact Finset.sum_congr rfl fun i _ => by rw [Pi.smul_apply, norm_smul, norm_neg, hn, one_mul]

theorem gap_of_superoperator {n : ℕ} {H : Matrix (Fin n) (Fin n) ℂ} {sign : ℤ} (hσ : sign ^ 2 = 1) {g : ℝ} (hgap : SpectralGap (1 - (sign : ℂ) • H) 0 g) :
    SpectralGap H sign g := by
  have hsr : (sign : ℝ) * sign = 1 := by exact_mod_cast (by rw [← sq]; exact hσ : sign * sign = 1)
  intro μ z hz hz' hμ
  have h6 := hgap (1 - sign * μ) z hz ((superoperator_mulVec hσ z _).mpr (by
    rw [hz']; congr 1; push_cast
    have : (sign : ℂ) * sign = 1 := by exact_mod_cast hsr
    linear_combination (-(μ : ℂ)) * this)) (by
    have e : (1 - sign * μ - 0 : ℝ) = -(sign * (μ - sign)) := by rw [mul_sub, hsr]; ring
    have hab : |(sign : ℝ)| = 1 := by
      have : |(sign : ℝ)| * |(sign : ℝ)| = 1 := by rw [abs_mul_abs_self, hsr]
      nlinarith [abs_nonneg (sign : ℝ)]
    rw [e, abs_neg, abs_mul, hab, one_mul]; exact hμ)
  have h7 : (sign : ℝ) * μ = 1 := by linarith
  calc μ = (sign * sign) * μ := by rw [hsr, one_mul]
    _ = sign := by rw [mul_assoc, h7, mul_one]

theorem invariantOperators_nearly (h : SignRule T t V ε f) (hinj : Set.InjOn f {s | V s}) {pinv : Mat ℂ → Py (Mat ℂ)} (hp : IsPinv pinv) {x : BasisArg ℂ}
    (hx : x.Orthonormal t V) (hne : x ≠ .operators []) (eigh : Eigh) {mode : String} {sign : ℤ} (hs : symmetrySign mode = .ok sign) {tol : ℝ} (ht : 0 < tol) :
    ∃ vecs M evals evecs, invariantOperators eigh pinv x T mode tol = .ok ⟨x.len, vecs, M, evals, evecs⟩ ∧
      (∃ S, symmetryMatrixOf pinv x T = .ok S ∧ M = 1 - (sign : ℂ) • hermitianPart (fun i j => S.get i j)) ∧
      ∀ δ, 0 ≤ δ → δ < 1 → NearlyEigh δ M ⟨evals, evecs⟩ → NearlyInvariant T t V sign x.coef tol δ vecs ∧
        ∀ (W : Submodule ℂ (Fin x.len → ℂ)) (g : ℝ), (∀ v, ∃ A B : Operator ℂ, A.On t V ∧ (∀ s, A.coef s = ∑ j, v j * x.coef j s) ∧ T.apply A = .ok B ∧
          (v ∈ W ↔ ∀ s, B.coef s = sign * A.coef s)) → SpectralGap M 0 g → ((1 + δ) * tol + δ) / (1 - δ) < g → δ + (1 + δ) * δ / tol < 1 →
          vecs.length = Module.finrank ℂ W := by
  obtain ⟨S, l, h1, h2, h3, h4, h5⟩ := symmetryMatrixOf_compression h hp hx hne
  have hσ : sign ^ 2 = 1 := by
    unfold symmetrySign at hs
    split at hs
    · simp only [Except.ok.injEq] at hs; subst hs; norm_num
    · split at hs
      · simp only [Except.ok.injEq] at hs; subst hs; norm_num
      · simp at hs
  have hq : invariantOperators eigh pinv x T mode tol = .ok ⟨S.ncols, selectColumns (eigh S.ncols (hermitianPart S.toarray)) sign tol,
      1 - (sign : ℂ) • hermitianPart S.toarray, fun k => 1 - sign * (eigh S.ncols (hermitianPart S.toarray)).evals k,
      (eigh S.ncols (hermitianPart S.toarray)).evecs⟩ := by
    unfold invariantOperators
    simp only [h1, hs, bind, Except.bind]
    rfl
  have hMC : ∀ (m : ℕ) (hm : S.ncols = m), (⟨S.ncols, selectColumns (eigh S.ncols (hermitianPart S.toarray)) sign tol,
      1 - (sign : ℂ) • hermitianPart S.toarray, fun k => 1 - sign * (eigh S.ncols (hermitianPart S.toarray)).evals k,
      (eigh S.ncols (hermitianPart S.toarray)).evecs⟩ : Generated) =
      ⟨m, selectColumns (eigh m (hermitianPart (fun i j => S.get i j))) sign tol,
        1 - (sign : ℂ) • hermitianPart (fun i j => S.get i j), fun k => 1 - sign * (eigh m (hermitianPart (fun i j => S.get i j))).evals k,
        (eigh m (hermitianPart (fun i j => S.get i j))).evecs⟩ := by
    rintro m rfl
    rfl
  refine ⟨_, _, _, _, hq.trans (congrArg _ (hMC _ h2)), ⟨S, h1, rfl⟩, fun δ h0 h1' hE' => ?_⟩
  have hE := NearlyEigh.of_superoperator hσ hE'
  have hH := hermitianPart_isHermitian (fun i j => S.get i j : Matrix (Fin x.len) (Fin x.len) ℂ)
  refine ⟨⟨hE.select_inner, ?_, ?_⟩, ?_⟩
  · intro v hvm A B hA hv hB F
    have := h5.near h hinj h3 h4 hσ (hE.select_form h0 h1' ht hvm) hA hv hB F
    rw [vnorm, Real.sq_sqrt (Finset.sum_nonneg (fun i _ => by positivity))] at this
    rw [mul_assoc]; exact this
  · intro v A B hA hv hB hinv
    exact ⟨_, selectMap_mem v, hE.near_select hH h0 ht ((h5.eigen_iff h hinj h3 h4 hσ hA hv hB).mpr hinv)⟩
  · intro W g hW hg h6 h7
    refine hE.select_length hH h0 h1' ht (fun v => ?_) (gap_of_superoperator hσ hg) h6 h7
    obtain ⟨A, B, hA, hv, hB, hw⟩ := hW v
    rw [hw, ← h5.eigen_iff h hinj h3 h4 hσ hA hv hB]

end

end Qosy
