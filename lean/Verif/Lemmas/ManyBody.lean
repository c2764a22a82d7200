import Verif.Lemmas.QuadraticSpectrum
import Verif.Spec.ManyBody
import Mathlib.LinearAlgebra.Matrix.Charpoly.Basic
import Mathlib.LinearAlgebra.Matrix.DotProduct

/-! # Lemmas: states of free fermions -/

namespace Qosy
open Matrix Polynomial
open scoped ComplexOrder
variable {ι : Type} [Fintype ι] [DecidableEq ι] {m : ℕ}

theorem CanonicalModes.sq {f : Fin m → Matrix ι ι ℂ} (h : CanonicalModes f) (k : Fin m) : f k * f k = 0 := by
  have h1 := (h k k).1
  have h2 : (2 : ℂ) • (f k * f k) = 0 := by rw [two_smul]; exact h1
  exact (smul_eq_zero.mp h2).resolve_left two_ne_zero

/-- there is a state without particles -/
theorem CanonicalModes.vacuum [Nonempty ι] {f : Fin m → Matrix ι ι ℂ} (h : CanonicalModes f) (S : Finset (Fin m)) :
    ∃ ψ : ι → ℂ, ψ ≠ 0 ∧ ∀ k ∈ S, f k *ᵥ ψ = 0 := by
  classical
  induction S using Finset.induction_on with
  | empty => exact ⟨fun _ => 1, fun h => one_ne_zero (congrFun h (Classical.arbitrary ι)), by simp⟩
  | insert a S ha ih =>
    obtain ⟨ψ, h1, h2⟩ := ih
    by_cases h0 : f a *ᵥ ψ = 0
    · refine ⟨ψ, h1, fun k hk => ?_⟩
      rcases Finset.mem_insert.mp hk with rfl | hk
      · exact h0
      · exact h2 k hk
    · refine ⟨f a *ᵥ ψ, h0, fun k hk => ?_⟩
      rcases Finset.mem_insert.mp hk with rfl | hk
      · rw [Matrix.mulVec_mulVec, h.sq, Matrix.zero_mulVec]
      · rw [Matrix.mulVec_mulVec, eq_neg_of_add_eq_zero_left (h k a).1, Matrix.neg_mulVec, ← Matrix.mulVec_mulVec, h2 k hk, Matrix.mulVec_zero, neg_zero]

/-- there is a state with any choice of occupied modes -/
theorem CanonicalModes.occupied [Nonempty ι] {f : Fin m → Matrix ι ι ℂ} (h : CanonicalModes f) (S : Finset (Fin m)) :
    ∃ ψ : ι → ℂ, ψ ≠ 0 ∧ ∀ k, (star (f k) * f k) *ᵥ ψ = if k ∈ S then ψ else 0 := by
  classical
  induction S using Finset.induction_on with
  | empty =>
    obtain ⟨ψ, h1, h2⟩ := h.vacuum Finset.univ
    exact ⟨ψ, h1, fun k => by rw [← Matrix.mulVec_mulVec, h2 k (Finset.mem_univ k), Matrix.mulVec_zero]; simp⟩
  | insert a S ha ih =>
    obtain ⟨ψ, h1, h2⟩ := ih
    have hsq : star (f a) * star (f a) = 0 := by rw [← star_mul, h.sq, star_zero]
    have e : ∀ k, star (f k) * f k * star (f a) = (if k = a then star (f a) else 0) + star (f a) * (star (f k) * f k) := by
      intro k
      have c1 : f k * star (f a) = (if k = a then 1 else 0) - star (f a) * f k := eq_sub_of_add_eq (h k a).2
      have c2 : star (f k) * star (f a) = - (star (f a) * star (f k)) := by
        have := congrArg star (h k a).1
        rw [star_add, star_mul, star_mul, star_zero] at this
        exact eq_neg_of_add_eq_zero_right this
      rw [mul_assoc, c1, mul_sub, ← mul_assoc, c2, neg_mul, sub_neg_eq_add, mul_assoc]
      congr 1
      split
      · rename_i hk
        rw [mul_one, hk]
      · rw [mul_zero]
    refine ⟨star (f a) *ᵥ ψ, ?_, ?_⟩
    · intro h0
      have c := congrArg (fun M => M *ᵥ ψ) (h a a).2
      simp only [Matrix.add_mulVec, if_true, Matrix.one_mulVec, h2 a, if_neg ha, add_zero] at c
      rw [← Matrix.mulVec_mulVec, h0, Matrix.mulVec_zero] at c
      exact h1 c.symm
    · intro k
      rw [Matrix.mulVec_mulVec, e, Matrix.add_mulVec, ← Matrix.mulVec_mulVec, h2 k]
      by_cases hk : k = a
      · subst hk
        rw [if_pos rfl, if_neg ha, Matrix.mulVec_zero, add_zero, if_pos (Finset.mem_insert_self ..)]
      · rw [if_neg hk, Matrix.zero_mulVec, zero_add]
        by_cases hS : k ∈ S
        · rw [if_pos hS, if_pos (Finset.mem_insert_of_mem hS)]
        · rw [if_neg hS, if_neg (by simp [hk, hS]), Matrix.mulVec_zero]

theorem vec_form_hermitian {N : Matrix ι ι ℂ} (hN : Nᴴ = N) (v w : ι → ℂ) : star (N *ᵥ v) ⬝ᵥ w = star v ⬝ᵥ (N *ᵥ w) := by
  rw [Matrix.star_mulVec, hN, ← Matrix.dotProduct_mulVec]

/-- the characteristic polynomial of a matrix with an orthogonal family of eigenvectors -/
theorem charpoly_of_eigenvectors {H : Matrix ι ι ℂ} {v : ι → ι → ℂ} {d : ι → ℂ} (hv : ∀ i, v i ≠ 0) (ho : ∀ i j, i ≠ j → star (v i) ⬝ᵥ v j = 0)
    (he : ∀ i, H *ᵥ v i = d i • v i) : H.charpoly = ∏ i, (X - C (d i)) := by
  let P : Matrix ι ι ℂ := Matrix.of fun i j => v j i
  have hG : Pᴴ * P = Matrix.diagonal fun i => star (v i) ⬝ᵥ v i := by
    ext i j
    by_cases hij : i = j
    · subst hij
      rw [Matrix.diagonal_apply_eq]; rfl
    · rw [Matrix.diagonal_apply_ne _ hij]
      exact ho i j hij
  have hdet : IsUnit P.det := by
    have h1 := congrArg Matrix.det hG
    rw [Matrix.det_mul, Matrix.det_diagonal] at h1
    rw [isUnit_iff_ne_zero]
    intro h0
    rw [h0, mul_zero] at h1
    refine Finset.prod_ne_zero_iff.mpr (fun i _ => ?_) h1.symm
    intro h2
    exact hv i (dotProduct_star_self_eq_zero.mp h2)
  obtain ⟨U, hU⟩ := (Matrix.isUnit_iff_isUnit_det P).mpr hdet
  have h1 : H * P = P * Matrix.diagonal d := by
    ext i j
    rw [Matrix.mul_diagonal]
    have := congrFun (he j) i
    rw [Pi.smul_apply, smul_eq_mul, mul_comm] at this
    exact this
  have h2 : H = U.1 * Matrix.diagonal d * (U⁻¹ : (Matrix ι ι ℂ)ˣ).1 := by
    rw [hU, ← h1, mul_assoc, ← hU, Units.mul_inv, mul_one]
  have h3 := Matrix.charpoly_units_conj U (Matrix.diagonal d)
  rw [Matrix.coe_units_inv] at h2
  rw [h2, h3, Matrix.charpoly_diagonal]

/-- two orthogonal families of eigenvectors have the same eigenvalues, up to their order -/
theorem eigenvalues_equiv {α β : Type} [Fintype α] [Fintype β] {H : Matrix ι ι ℂ} {v : α → ι → ℂ} {d : α → ℂ} {w : β → ι → ℂ} {e : β → ℂ}
    (ha : Fintype.card α = Fintype.card ι) (hb : Fintype.card β = Fintype.card ι)
    (hv : ∀ i, v i ≠ 0) (hvo : ∀ i j, i ≠ j → star (v i) ⬝ᵥ v j = 0) (hve : ∀ i, H *ᵥ v i = d i • v i)
    (hw : ∀ i, w i ≠ 0) (hwo : ∀ i j, i ≠ j → star (w i) ⬝ᵥ w j = 0) (hwe : ∀ i, H *ᵥ w i = e i • w i) :
    ∃ σ : α ≃ β, ∀ i, d i = e (σ i) := by
  classical
  let a : ι ≃ α := Fintype.equivOfCardEq ha.symm
  let b : ι ≃ β := Fintype.equivOfCardEq hb.symm
  have c1 := charpoly_of_eigenvectors (v := fun i => v (a i)) (d := fun i => d (a i)) (fun i => hv _) (fun i j h => hvo _ _ (fun h' => h (a.injective h'))) (fun i => hve _)
  have c2 := charpoly_of_eigenvectors (v := fun i => w (b i)) (d := fun i => e (b i)) (fun i => hw _) (fun i j h => hwo _ _ (fun h' => h (b.injective h'))) (fun i => hwe _)
  have c3 : (Finset.univ.val.map fun i => d (a i)) = Finset.univ.val.map fun i => e (b i) := by
    have r : ∀ g : ι → ℂ, (∏ i, (X - C (g i))).roots = Finset.univ.val.map g := by
      intro g
      rw [← roots_multiset_prod_X_sub_C (Finset.univ.val.map g), Multiset.map_map]
      rfl
    rw [← r, ← r, ← c1, ← c2]
  have key : ∃ τ : ι ≃ ι, ∀ i, e (b (τ i)) = d (a i) := by
    have : ∀ c : ℂ, Nonempty ({i // d (a i) = c} ≃ {i // e (b i) = c}) := by
      intro c
      refine ⟨Fintype.equivOfCardEq ?_⟩
      have := congrArg (Multiset.count c) c3
      rw [Multiset.count_map, Multiset.count_map] at this
      rw [Fintype.card_subtype, Fintype.card_subtype]
      simp only [eq_comm (a := c)] at this
      exact this
    exact ⟨Equiv.ofFiberEquiv (f := fun i => d (a i)) (g := fun i => e (b i)) (fun c => (this c).some),
      fun i => Equiv.ofFiberEquiv_map (f := fun i => d (a i)) (g := fun i => e (b i)) (fun c => (this c).some) i⟩
  obtain ⟨τ, hτ⟩ := key
  exact ⟨(a.symm.trans τ).trans b, fun i => by
    have := hτ (a.symm i)
    rw [Equiv.apply_symm_apply] at this
    exact this.symm⟩

theorem CanonicalModes.trace_number {f : Fin m → Matrix ι ι ℂ} (h : CanonicalModes f) (k : Fin m) : (star (f k) * f k).trace = 1 / 2 * Fintype.card ι := by
  have h1 := congrArg Matrix.trace (h k k).2
  rw [if_pos rfl, Matrix.trace_add, Matrix.trace_mul_comm, Matrix.trace_one] at h1
  linear_combination (1 / 2 : ℂ) * h1

theorem CanonicalModes.trace {f : Fin m → Matrix ι ι ℂ} (h : CanonicalModes f) (E : Fin m → ℂ) (κ : ℂ) :
    (∑ k, E k • (star (f k) * f k) + κ • (1 : Matrix ι ι ℂ)).trace = (κ + 1 / 2 * ∑ k, E k) * Fintype.card ι := by
  rw [Matrix.trace_add, Matrix.trace_sum, Matrix.trace_smul, Matrix.trace_one]
  simp only [Matrix.trace_smul, h.trace_number, smul_eq_mul]
  rw [← Finset.sum_mul]
  ring

/-- the spectrum of free fermions -/
theorem CanonicalModes.spectrum [Nonempty ι] {E : List ℝ} {f : Fin E.length → Matrix ι ι ℂ} (hf : CanonicalModes f) (hm : 2 ^ E.length = Fintype.card ι) {H : Matrix ι ι ℂ} {κ : ℂ}
    (hH : H = ∑ k : Fin E.length, (E[k] : ℂ) • (star (f k) * f k) + κ • 1) {pairs : List (ℝ × (ι → ℂ))} (hl : pairs.length = Fintype.card ι) (ho : LowestEigenpairs H pairs)
    {c : ℝ} (hc : (c : ℂ) = κ + 1 / 2 * ∑ k : Fin E.length, (E[k] : ℂ)) : FreeSpectrum E (pairs.map fun p => ((p.1 - c : ℝ) : ℂ)) := by
  classical
  choose ψ h0 h1 using fun s : Fin E.length → Bool => hf.occupied (Finset.univ.filter fun k => s k = true)
  simp only [Finset.mem_filter, Finset.mem_univ, true_and] at h1
  have hN : ∀ k, (star (f k) * f k)ᴴ = star (f k) * f k := fun k => by
    rw [← Matrix.star_eq_conjTranspose, star_mul, star_star]
  have hψo : ∀ s t, s ≠ t → star (ψ s) ⬝ᵥ ψ t = 0 := by
    intro s t hst
    obtain ⟨k, hk⟩ := Function.ne_iff.mp hst
    have e := vec_form_hermitian (hN k) (ψ s) (ψ t)
    rw [h1, h1] at e
    cases hs : s k <;> cases ht : t k <;> simp only [hs, ht, if_true, if_false, Bool.false_eq_true, star_zero, zero_dotProduct, dotProduct_zero] at e
    · exact absurd (hs.trans ht.symm) hk
    · exact e.symm
    · exact e
    · exact absurd (hs.trans ht.symm) hk
  have hψe : ∀ s, H *ᵥ ψ s = ((∑ k : Fin E.length, if s k then (E[k] : ℂ) else 0) + κ) • ψ s := by
    intro s
    rw [hH, Matrix.add_mulVec, Matrix.smul_mulVec, Matrix.one_mulVec, add_smul, Finset.sum_smul, Matrix.sum_mulVec]
    congr 1
    refine Finset.sum_congr rfl fun k _ => ?_
    rw [Matrix.smul_mulVec, h1]
    split <;> simp
  obtain ⟨σ, hσ⟩ := eigenvalues_equiv (H := H) (v := fun i : Fin pairs.length => pairs[i].2) (d := fun i => (pairs[i].1 : ℂ)) (by rw [Fintype.card_fin, hl])
    (by rw [Fintype.card_fun, Fintype.card_bool, Fintype.card_fin, hm])
    (fun i h => by
      have := ho.orthonormal.family i i
      rw [h] at this
      simp at this)
    (fun i j hij => by
      have := ho.orthonormal.family i j
      rw [if_neg hij] at this
      exact this)
    (fun i => ho.eigen _ (List.getElem_mem i.2)) h0 hψo hψe
  refine ⟨(finCongr (List.length_map _)).trans σ, fun i => ?_⟩
  have e := hσ (finCongr (List.length_map _) i)
  simp only [Fin.getElem_fin, finCongr_apply, Fin.val_cast] at e
  simp only [Fin.getElem_fin, List.getElem_map, Equiv.trans_apply, finCongr_apply]
  push_cast
  rw [e, hc, add_comm κ, add_sub_add_right_eq_sub, Finset.mul_sum, ← Finset.sum_sub_distrib]
  refine Finset.sum_congr rfl fun k _ => ?_
  simp only [Fin.getElem_fin]
  split <;> push_cast <;> ring

end Qosy
