import Verif.Lemmas.Spectrum
import Mathlib.LinearAlgebra.Dimension.LinearMap
import Mathlib.LinearAlgebra.Matrix.DotProduct
import Mathlib.Analysis.Complex.Order

/-! # Lemmas: matrices with particle-hole symmetry -/

namespace Qosy
open Matrix
open scoped ComplexOrder
variable {ι : Type} [Fintype ι] {S : ι → ι}

theorem exists_orthogonal {ι : Type} [Fintype ι] (vs : List (ι → ℂ)) (h : vs.length < Fintype.card ι) :
    ∃ u : ι → ℂ, u ≠ 0 ∧ ∀ v ∈ vs, ∑ i, star (v i) * u i = 0 := by
  let f : (ι → ℂ) →ₗ[ℂ] (Fin vs.length → ℂ) :=
    { toFun := fun u k => ∑ i, star (vs[k] i) * u i
      map_add' := fun u v => by funext k; simp [mul_add, Finset.sum_add_distrib]
      map_smul' := fun c u => by
        funext k
        simp only [Pi.smul_apply, smul_eq_mul, RingHom.id_apply, Finset.mul_sum]
        exact Finset.sum_congr rfl fun i _ => by ring }
  have hk : LinearMap.ker f ≠ ⊥ := LinearMap.ker_ne_bot_of_finrank_lt (by simpa using h)
  obtain ⟨u, hu, hu0⟩ := Submodule.exists_mem_ne_zero_of_ne_bot hk
  refine ⟨u, hu0, fun v hv => ?_⟩
  obtain ⟨k, hk, rfl⟩ := List.mem_iff_getElem.mp hv
  exact congrFun (LinearMap.mem_ker.mp hu) ⟨k, hk⟩

/-- the particle-hole transformation of vectors -/
def phConj (S : ι → ι) (u : ι → ℂ) : ι → ℂ := fun i => star (u (S i))

theorem phConj_phConj (hS : Function.Involutive S) (u : ι → ℂ) : phConj S (phConj S u) = u := by
  funext i
  rw [phConj, phConj, star_star, hS i]

theorem phConj_add (u v : ι → ℂ) : phConj S (u + v) = phConj S u + phConj S v := by
  funext i
  exact star_add _ _

theorem phConj_smul (c : ℂ) (u : ι → ℂ) : phConj S (c • u) = star c • phConj S u := by
  funext i
  exact star_mul' _ _

theorem dot_phConj (hS : Function.Involutive S) (u v : ι → ℂ) : star u ⬝ᵥ phConj S v = star (star (phConj S u) ⬝ᵥ v) := by
  simp only [dotProduct, Pi.star_apply, phConj, star_sum, star_mul', star_star]
  rw [← Equiv.sum_comp hS.toPerm]
  refine Finset.sum_congr rfl fun i _ => ?_
  simp only [Function.Involutive.coe_toPerm, hS i]

theorem dot_normalize {u : ι → ℂ} (hu : u ≠ 0) : ∃ c : ℂ, star c = c ∧ star (c • u) ⬝ᵥ (c • u) = 1 := by
  have h0 : 0 < star u ⬝ᵥ u := by
    refine lt_of_le_of_ne (dotProduct_star_self_nonneg u) (Ne.symm ?_)
    exact fun h => hu (dotProduct_star_self_eq_zero.mp h)
  obtain ⟨h1, h2⟩ := Complex.lt_def.mp h0
  simp only [Complex.zero_re, Complex.zero_im] at h1 h2
  set x := (star u ⬝ᵥ u).re with hx
  have hxu : star u ⬝ᵥ u = (x : ℂ) := Complex.ext rfl h2.symm
  refine ⟨((Real.sqrt x)⁻¹ : ℝ), Complex.conj_ofReal _, ?_⟩
  rw [star_smul, show star (((Real.sqrt x)⁻¹ : ℝ) : ℂ) = (((Real.sqrt x)⁻¹ : ℝ) : ℂ) from Complex.conj_ofReal _, smul_dotProduct, dotProduct_smul, smul_smul, hxu, smul_eq_mul,
    ← Complex.ofReal_mul, ← Complex.ofReal_mul, ← mul_inv, Real.mul_self_sqrt h1.le, inv_mul_cancel₀ h1.ne', Complex.ofReal_one]

/-- vectors that are their own particle-hole transforms -/
theorem exists_real (hS : Function.Involutive S) {vs : List (ι → ℂ)} (hc : ∀ v ∈ vs, phConj S v ∈ vs) (hl : vs.length < Fintype.card ι) :
    ∃ γ : ι → ℂ, star γ ⬝ᵥ γ = 1 ∧ phConj S γ = γ ∧ ∀ v ∈ vs, star v ⬝ᵥ γ = 0 := by
  obtain ⟨u, hu, ho⟩ : ∃ u : ι → ℂ, u ≠ 0 ∧ ∀ v ∈ vs, star v ⬝ᵥ u = 0 := by
    obtain ⟨u, h1, h2⟩ := exists_orthogonal vs hl
    exact ⟨u, h1, h2⟩
  have key : ∃ γ : ι → ℂ, γ ≠ 0 ∧ phConj S γ = γ ∧ ∀ v ∈ vs, star v ⬝ᵥ γ = 0 := by
    by_cases h : u + phConj S u = 0
    · refine ⟨Complex.I • u, ?_, ?_, fun v hv => ?_⟩
      · exact smul_ne_zero Complex.I_ne_zero hu
      · rw [phConj_smul, eq_neg_of_add_eq_zero_right h]
        simp
      · rw [dotProduct_smul, ho v hv, smul_zero]
    · refine ⟨_, h, ?_, fun v hv => ?_⟩
      · rw [phConj_add, phConj_phConj hS, add_comm]
      · rw [dotProduct_add, ho v hv, dot_phConj hS, ho _ (hc v hv), star_zero, add_zero]
  obtain ⟨γ, g1, g2, g3⟩ := key
  obtain ⟨c, c1, c2⟩ := dot_normalize g1
  exact ⟨c • γ, c2, by rw [phConj_smul, g2, c1], fun v hv => by rw [dotProduct_smul, g3 v hv, smul_zero]⟩

/-- one more mode -/
theorem exists_mode (hS : Function.Involutive S) {vs : List (ι → ℂ)} (hc : ∀ v ∈ vs, phConj S v ∈ vs) (hl : vs.length + 1 < Fintype.card ι) :
    ∃ w : ι → ℂ, star w ⬝ᵥ w = 1 ∧ star (phConj S w) ⬝ᵥ w = 0 ∧ ∀ v ∈ vs, star v ⬝ᵥ w = 0 := by
  obtain ⟨a, a1, a2, a3⟩ := exists_real hS hc (by omega)
  obtain ⟨b, b1, b2, b3⟩ := exists_real hS (vs := a :: vs) (by
    intro v hv
    rcases List.mem_cons.mp hv with rfl | hv
    · rw [a2]; exact List.mem_cons_self
    · exact List.mem_cons_of_mem _ (hc v hv)) (by simpa using hl)
  have hab : star a ⬝ᵥ b = 0 := b3 a List.mem_cons_self
  have hba : star b ⬝ᵥ a = 0 := by
    have := congrArg star hab
    rw [star_zero] at this
    rw [← this]
    simp [dotProduct, mul_comm]
  obtain ⟨c, c1, c2⟩ : ∃ c : ℂ, star c = c ∧ c * c = 1 / 2 :=
    ⟨(Real.sqrt (1 / 2) : ℝ), Complex.conj_ofReal _, by rw [← Complex.ofReal_mul, Real.mul_self_sqrt (by norm_num)]; norm_num⟩
  have hI : star Complex.I = -Complex.I := Complex.conj_I
  refine ⟨c • (a + Complex.I • b), ?_, ?_, fun v hv => ?_⟩
  · rw [star_smul, star_add, star_smul, c1, hI]
    simp only [smul_dotProduct, dotProduct_smul, add_dotProduct, dotProduct_add, a1, b1, hab, hba, smul_eq_mul]
    linear_combination 2 * c2 - c * c * Complex.I_sq
  · rw [phConj_smul, phConj_add, phConj_smul, a2, b2, star_smul, star_add, star_smul, star_star, star_star]
    simp only [smul_dotProduct, dotProduct_smul, add_dotProduct, dotProduct_add, a1, b1, hab, hba, smul_eq_mul]
    linear_combination c * c * Complex.I_sq
  · rw [dotProduct_smul, dotProduct_add, dotProduct_smul, a3 v hv, b3 v (List.mem_cons_of_mem _ hv)]
    simp

/-- a family of modes can be made complete -/
theorem complete_modes (hS : Function.Involutive S) {m : ℕ} (hm : 2 * m ≤ Fintype.card ι) (w : Fin m → ι → ℂ) (P : Fin m → Prop)
    (h1 : ∀ k l, P k → P l → star (w k) ⬝ᵥ w l = if k = l then 1 else 0) (h2 : ∀ k l, P k → P l → star (phConj S (w k)) ⬝ᵥ w l = 0) :
    ∃ w' : Fin m → ι → ℂ, (∀ k, P k → w' k = w k) ∧ (∀ k l, star (w' k) ⬝ᵥ w' l = if k = l then 1 else 0) ∧ ∀ k l, star (phConj S (w' k)) ⬝ᵥ w' l = 0 := by
  classical
  have step : ∀ B : Finset (Fin m), ∃ w' : Fin m → ι → ℂ, (∀ k, P k → w' k = w k) ∧
      (∀ k l, (P k ∨ k ∈ B) → (P l ∨ l ∈ B) → star (w' k) ⬝ᵥ w' l = if k = l then 1 else 0) ∧
      ∀ k l, (P k ∨ k ∈ B) → (P l ∨ l ∈ B) → star (phConj S (w' k)) ⬝ᵥ w' l = 0 := by
    intro B
    induction B using Finset.induction_on with
    | empty => exact ⟨w, fun _ _ => rfl, fun k l hk hl => h1 k l (by simpa using hk) (by simpa using hl), fun k l hk hl => h2 k l (by simpa using hk) (by simpa using hl)⟩
    | insert a B ha ih =>
      obtain ⟨w', i1, i2, i3⟩ := ih
      by_cases hPa : P a
      · have hiff : ∀ k, (P k ∨ k ∈ insert a B) → (P k ∨ k ∈ B) := by
          intro k hk
          rcases hk with hk | hk
          · exact Or.inl hk
          · rcases Finset.mem_insert.mp hk with rfl | hk
            · exact Or.inl hPa
            · exact Or.inr hk
        exact ⟨w', i1, fun k l hk hl => i2 k l (hiff k hk) (hiff l hl), fun k l hk hl => i3 k l (hiff k hk) (hiff l hl)⟩
      · let G : List (Fin m) := (Finset.univ.filter fun k => P k ∨ k ∈ B).toList
        have hG : ∀ k, k ∈ G ↔ (P k ∨ k ∈ B) := fun k => by simp [G]
        have hlen : G.length < m := by
          rw [Finset.length_toList]
          refine lt_of_lt_of_eq (Finset.card_lt_univ_of_notMem (x := a) ?_) (Fintype.card_fin m)
          simp [hPa, ha]
        obtain ⟨x, x1, x2, x3⟩ := exists_mode hS (vs := G.map w' ++ G.map fun k => phConj S (w' k)) (by
          intro v hv
          rcases List.mem_append.mp hv with hv | hv
          · obtain ⟨k, hk, rfl⟩ := List.mem_map.mp hv
            exact List.mem_append_right _ (List.mem_map.mpr ⟨k, hk, rfl⟩)
          · obtain ⟨k, hk, rfl⟩ := List.mem_map.mp hv
            rw [phConj_phConj hS]
            exact List.mem_append_left _ (List.mem_map.mpr ⟨k, hk, rfl⟩)) (by simp; omega)
        have y1 : ∀ k, (P k ∨ k ∈ B) → star (w' k) ⬝ᵥ x = 0 := fun k hk => x3 _ (List.mem_append_left _ (List.mem_map_of_mem ((hG k).mpr hk)))
        have y2 : ∀ k, (P k ∨ k ∈ B) → star (phConj S (w' k)) ⬝ᵥ x = 0 := fun k hk =>
          x3 _ (List.mem_append_right _ (List.mem_map.mpr ⟨k, (hG k).mpr hk, rfl⟩))
        have y3 : ∀ k, (P k ∨ k ∈ B) → star x ⬝ᵥ w' k = 0 := fun k hk => by
          have := congrArg star (y1 k hk)
          rw [star_zero] at this
          rw [← this]
          simp [dotProduct, mul_comm]
        have y4 : ∀ k, (P k ∨ k ∈ B) → star (phConj S x) ⬝ᵥ w' k = 0 := fun k hk => by
          have := dot_phConj hS x (w' k)
          rw [← star_star (star (phConj S x) ⬝ᵥ w' k), ← this]
          have h := congrArg star (y2 k hk)
          rw [star_zero] at h
          rw [show star x ⬝ᵥ phConj S (w' k) = star (star (phConj S (w' k)) ⬝ᵥ x) by simp [dotProduct, mul_comm], h, star_zero]
        have hor : ∀ k, (P k ∨ k ∈ insert a B) → k = a ∨ (k ≠ a ∧ (P k ∨ k ∈ B)) := by
          intro k hk
          by_cases hka : k = a
          · exact Or.inl hka
          · refine Or.inr ⟨hka, ?_⟩
            rcases hk with hk | hk
            · exact Or.inl hk
            · exact Or.inr ((Finset.mem_insert.mp hk).resolve_left hka)
        refine ⟨Function.update w' a x, fun k hk => ?_, fun k l hk hl => ?_, fun k l hk hl => ?_⟩
        · rw [Function.update_of_ne (fun h : k = a => hPa (h ▸ hk)), i1 k hk]
        · rcases hor k hk with rfl | ⟨k1, k2⟩ <;> rcases hor l hl with rfl | ⟨l1, l2⟩
          · rw [Function.update_self, x1, if_pos rfl]
          · rw [Function.update_self, Function.update_of_ne l1, y3 l l2, if_neg (Ne.symm l1)]
          · rw [Function.update_self, Function.update_of_ne k1, y1 k k2, if_neg k1]
          · rw [Function.update_of_ne k1, Function.update_of_ne l1, i2 k l k2 l2]
        · rcases hor k hk with rfl | ⟨k1, k2⟩ <;> rcases hor l hl with rfl | ⟨l1, l2⟩
          · rw [Function.update_self, x2]
          · rw [Function.update_self, Function.update_of_ne l1, y4 l l2]
          · rw [Function.update_self, Function.update_of_ne k1, y2 k k2]
          · rw [Function.update_of_ne k1, Function.update_of_ne l1, i3 k l k2 l2]
  obtain ⟨w', s1, s2, s3⟩ := step Finset.univ
  exact ⟨w', s1, fun k l => s2 k l (Or.inr (Finset.mem_univ _)) (Or.inr (Finset.mem_univ _)), fun k l => s3 k l (Or.inr (Finset.mem_univ _)) (Or.inr (Finset.mem_univ _))⟩

/-- a Hermitian matrix with particle-hole symmetry is given by its eigenvectors with negative eigenvalues -/
theorem negative_part {D : Matrix ι ι ℂ} (hD : D.IsHermitian) (hS : Function.Involutive S) (hP : ∀ i j, D (S i) (S j) = -star (D i j))
    {κ : Type} [Fintype κ] [DecidableEq κ] [DecidableEq ι] (e : ι ≃ κ) {v : κ → ι → ℂ} {x : κ → ℝ} (ho : ∀ k l, star (v k) ⬝ᵥ v l = if k = l then 1 else 0)
    (he : ∀ k, D *ᵥ v k = (x k : ℂ) • v k) (i j : ι) :
    D i j = ∑ k, ((min (x k) 0 : ℝ) : ℂ) * (v k i * star (v k j) - star (v k (S i)) * v k (S j)) := by
  have hsum : ∀ f : ι → ℂ, ∑ i, f (S i) = ∑ i, f i := fun f => Equiv.sum_comp hS.toPerm f
  have hconj : ∀ k, D *ᵥ phConj S (v k) = (-(x k : ℂ)) • phConj S (v k) := by
    intro k
    funext i
    have h := congrArg star (congrFun (he k) (S i))
    simp only [Matrix.mulVec, dotProduct, Pi.smul_apply, smul_eq_mul, star_sum, star_mul'] at h
    rw [← hsum, show star (x k : ℂ) = x k from Complex.conj_ofReal _] at h
    simp only [Matrix.mulVec, dotProduct, Pi.smul_apply, smul_eq_mul, phConj]
    rw [neg_mul, ← h, ← Finset.sum_neg_distrib]
    refine Finset.sum_congr rfl fun j _ => ?_
    rw [hP, star_neg, star_star, neg_mul, neg_neg]
  have hself : ∀ u w : ι → ℂ, star (D *ᵥ u) ⬝ᵥ w = star u ⬝ᵥ (D *ᵥ w) := fun u w => by
    rw [Matrix.star_mulVec, hD, ← Matrix.dotProduct_mulVec]
  have hcross : ∀ k l, star (phConj S (v k)) ⬝ᵥ v l = 0 ∨ x l = -x k := by
    intro k l
    have h := hself (phConj S (v k)) (v l)
    rw [hconj, he, star_smul, star_neg, show star (x k : ℂ) = x k from Complex.conj_ofReal _, smul_dotProduct, dotProduct_smul, smul_eq_mul, smul_eq_mul] at h
    have : ((x l + x k : ℝ) : ℂ) * (star (phConj S (v k)) ⬝ᵥ v l) = 0 := by
      push_cast
      linear_combination -h
    rcases mul_eq_zero.mp this with h | h
    · exact Or.inr (by have := Complex.ofReal_eq_zero.mp h; linarith)
    · exact Or.inl h
  -- the matrix of eigenvectors
  let U : Matrix ι κ ℂ := Matrix.of fun i k => v k i
  have h1 : Uᴴ * U = 1 := by
    ext k l
    rw [Matrix.mul_apply, Matrix.one_apply]
    exact ho k l
  have h2 : U * Uᴴ = 1 := (Matrix.mul_eq_one_comm_of_equiv e.symm).mp h1
  let D' : Matrix ι ι ℂ := Matrix.of fun i j => ∑ k, ((min (x k) 0 : ℝ) : ℂ) * (v k i * star (v k j) - star (v k (S i)) * v k (S j))
  have hD' : ∀ l i, (D' *ᵥ v l) i = ∑ k, ((min (x k) 0 : ℝ) : ℂ) * (v k i * (star (v k) ⬝ᵥ v l) - phConj S (v k) i * (star (phConj S (v k)) ⬝ᵥ v l)) := by
    intro l i
    simp only [Matrix.mulVec, dotProduct, D', Matrix.of_apply, Finset.sum_mul]
    rw [Finset.sum_comm]
    refine Finset.sum_congr rfl fun k _ => ?_
    rw [Finset.mul_sum, Finset.mul_sum, ← Finset.sum_sub_distrib, Finset.mul_sum]
    refine Finset.sum_congr rfl fun j _ => ?_
    simp only [phConj, Pi.star_apply, star_star]
    ring
  have hcomplete : ∀ l i, ∑ k, phConj S (v k) i * (star (phConj S (v k)) ⬝ᵥ v l) = v l i := by
    intro l i
    have h3 : ∀ a b, ∑ k, v k a * star (v k b) = if a = b then 1 else 0 := fun a b => by
      have := congrFun (congrFun h2 a) b
      rw [Matrix.mul_apply, Matrix.one_apply] at this
      exact this
    have : ∀ k, phConj S (v k) i * (star (phConj S (v k)) ⬝ᵥ v l) = ∑ j, star (v k (S i) * star (v k (S j))) * v l j := by
      intro k
      simp only [dotProduct, Finset.mul_sum, phConj, Pi.star_apply, star_mul', star_star, mul_assoc]
    rw [Finset.sum_congr rfl fun k _ => this k, Finset.sum_comm]
    rw [Finset.sum_congr rfl fun j _ => (Finset.sum_mul _ _ _).symm]
    rw [Finset.sum_congr rfl fun j _ => by rw [← star_sum, h3]]
    rw [Finset.sum_eq_single i]
    · simp
    · intro j _ hj
      rw [if_neg (fun h => hj (hS.injective h).symm), star_zero, zero_mul]
    · simp
  have hEq : D * U = D' * U := by
    ext i l
    have hl : (D * U) i l = (D *ᵥ v l) i := rfl
    have hr : (D' * U) i l = (D' *ᵥ v l) i := rfl
    rw [hl, hr, he, hD', Pi.smul_apply, smul_eq_mul]
    have e1 : ∀ k, ((min (x k) 0 : ℝ) : ℂ) * (v k i * (star (v k) ⬝ᵥ v l) - phConj S (v k) i * (star (phConj S (v k)) ⬝ᵥ v l)) =
        (if k = l then ((min (x l) 0 : ℝ) : ℂ) * v l i else 0) + ((max (x l) 0 : ℝ) : ℂ) * (phConj S (v k) i * (star (phConj S (v k)) ⬝ᵥ v l)) := by
      intro k
      rw [ho]
      have e2 : ((min (x k) 0 : ℝ) : ℂ) * (star (phConj S (v k)) ⬝ᵥ v l) = -((max (x l) 0 : ℝ) : ℂ) * (star (phConj S (v k)) ⬝ᵥ v l) := by
        rcases hcross k l with h | h
        · rw [h, mul_zero, mul_zero]
        · rw [h, ← Complex.ofReal_neg]
          congr 2
          rcases le_total (x k) 0 with h0 | h0
          · rw [min_eq_left h0, max_eq_left (by linarith)]; ring
          · rw [min_eq_right h0, max_eq_right (by linarith)]; ring
      split
      · rename_i hkl
        subst hkl
        linear_combination (-phConj S (v k) i) * e2
      · linear_combination (-phConj S (v k) i) * e2
    rw [Finset.sum_congr rfl fun k _ => e1 k, Finset.sum_add_distrib, ← Finset.mul_sum, hcomplete, Finset.sum_ite_eq' Finset.univ l, if_pos (Finset.mem_univ _), ← add_mul,
      ← Complex.ofReal_add, min_add_max, add_zero]
  have : D = D' := by
    rw [← Matrix.mul_one D, ← h2, ← Matrix.mul_assoc, hEq, Matrix.mul_assoc, h2, Matrix.mul_one]
  exact congrFun (congrFun this i) j

end Qosy
