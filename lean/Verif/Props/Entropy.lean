import Verif.Lemmas.Entropy
import Verif.Props.Diagonalization

/-! # C80: `renyi_entropy` -/

namespace Qosy
open Matrix
variable {n : ℕ}

open scoped ComplexOrder in
/-- **C80** (value): for the reduced density matrix of a vector that is not zero, `renyi_entropy(rho, α)` is the Rényi entropy of its eigenvalues, which
are not negative and whose sum is the squared norm of the vector. -/
theorem C80_value {m : ℕ} (f : Fin m ↪ Fin n) {v : List ℂ} {ψ : Cfg n → ℂ} (hv : IsState n v ψ) (hψ : ψ ≠ 0) :
    ∃ ρ, reducedDensityMatrix v (siteList f) n = .ok ρ ∧ ∃ hH : (partialTrace f ψ ψ).IsHermitian,
      (∀ i, 0 ≤ hH.eigenvalues i) ∧ ∑ i, hH.eigenvalues i = ∑ σ, ‖ψ σ‖ ^ 2 ∧
      ∀ α : ℕ, α ≠ 1 → renyiEntropy ρ α = .ok (renyi α hH.eigenvalues : ℝ) := by
  obtain ⟨ρ, h1, h2⟩ := C46_partial_trace f hv
  obtain ⟨t, h, ht, hc⟩ := tracedLabels_siteList f
  have hps : (partialTrace f ψ ψ).PosSemidef := by
    rw [partialTrace_amplitudes hc]; exact Matrix.posSemidef_self_mul_conjTranspose _
  have hsum : ∑ i, hps.1.eigenvalues i = ∑ σ, ‖ψ σ‖ ^ 2 := by
    have e1 := hps.1.trace_eq_sum_eigenvalues
    have e2 : (partialTrace f ψ ψ).trace = ((∑ σ, ‖ψ σ‖ ^ 2 : ℝ) : ℂ) := by
      rw [Matrix.trace, ← (splitEquiv hc).symm.sum_comp, Fintype.sum_prod_type]
      push_cast
      refine Finset.sum_congr rfl fun α _ => ?_
      rw [Matrix.diag_apply, partialTrace_eq hc]
      refine Finset.sum_congr rfl fun γ _ => ?_
      exact Complex.mul_conj' _
    rw [e2] at e1
    have e3 : ((∑ σ, ‖ψ σ‖ ^ 2 : ℝ) : ℂ) = ((∑ i, hps.1.eigenvalues i : ℝ) : ℂ) := by rw [e1]; push_cast; rfl
    exact (Complex.ofReal_inj.mp e3).symm
  refine ⟨ρ, h1, hps.1, hps.eigenvalues_nonneg, hsum, fun α hα => ?_⟩
  have hpos : 0 < ∑ i, hps.1.eigenvalues i := by
    rw [hsum]
    obtain ⟨σ, hσ⟩ := Function.ne_iff.mp hψ
    exact Finset.sum_pos' (fun _ _ => by positivity) ⟨σ, Finset.mem_univ _, by have : ψ σ ≠ 0 := hσ; positivity⟩
  have hp := sum_pow_pos hps.eigenvalues_nonneg hpos α
  rw [renyiEntropy_dense h2 hα, trace_pow_eigenvalues hps.1, logAbs, if_neg (by exact_mod_cast hp.ne'), Complex.norm_real, Real.norm_of_nonneg hp.le, renyi,
    EReal.coe_mul]

/-- **C80** (bounds): for a normalised vector and an order of at least two the entropy lies between `0` and `m log 2`, `m` being the number of sites. -/
theorem C80_bounds {m : ℕ} (f : Fin m ↪ Fin n) {v : List ℂ} {ψ : Cfg n → ℂ} (hv : IsState n v ψ) (hψ : ∑ σ, ‖ψ σ‖ ^ 2 = 1) {α : ℕ} (hα : 2 ≤ α) :
    ∃ ρ, ∃ S : ℝ, reducedDensityMatrix v (siteList f) n = .ok ρ ∧ renyiEntropy ρ α = .ok (S : EReal) ∧ 0 ≤ S ∧ S ≤ m * Real.log 2 := by
  obtain ⟨ρ, h1, hH, h2, h3, h4⟩ := C80_value f hv (by rintro rfl; simp at hψ)
  rw [hψ] at h3
  obtain ⟨b1, b2⟩ := renyi_bounds h2 h3 hα
  refine ⟨ρ, _, h1, h4 α (by omega), b1, b2.trans_eq ?_⟩
  rw [show Fintype.card (Cfg m) = 2 ^ m by simp [Cfg], Nat.cast_pow, Real.log_pow]
  rfl

open scoped ComplexOrder in
/-- **C80** (entanglement): the entropy of a normalised vector is zero if and only if the vector is a product state. -/
theorem C80_product {m : ℕ} (f : Fin m ↪ Fin n) {v : List ℂ} {ψ : Cfg n → ℂ} (hv : IsState n v ψ) (hψ : ∑ σ, ‖ψ σ‖ ^ 2 = 1) {α : ℕ} (hα : 2 ≤ α) :
    ∃ ρ, reducedDensityMatrix v (siteList f) n = .ok ρ ∧ (renyiEntropy ρ α = .ok 0 ↔ IsProductState f ψ) := by
  obtain ⟨ρ, h1, hH, h2, h3, h4⟩ := C80_value f hv (by rintro rfl; simp at hψ)
  rw [hψ] at h3
  refine ⟨ρ, h1, ?_⟩
  rw [h4 α (by omega)]
  obtain ⟨t, h, ht, hc⟩ := tracedLabels_siteList f
  have hsplit : ∀ σ, (splitEquiv hc).symm (σ ∘ f, σ ∘ h) = σ := fun σ => by rw [← splitEquiv_apply hc, Equiv.symm_apply_apply]
  rw [show ((Except.ok ((renyi α hH.eigenvalues : ℝ) : EReal) : Py EReal) = .ok 0) ↔ renyi α hH.eigenvalues = 0 by simp, renyi_eq_zero h2 h3 hα]
  constructor
  · intro h01
    obtain ⟨a, b, hab⟩ := rank_one_of_eigenvalues (amplitudes hc ψ) (by rw [← partialTrace_amplitudes]; exact hH)
      (by simpa only [partialTrace_amplitudes hc] using h3) (by simpa only [partialTrace_amplitudes hc] using h01)
    refine ⟨fun σ => a (σ ∘ f), fun σ => b (σ ∘ h), fun σ τ hστ => ?_, fun σ τ hστ => ?_, fun σ => ?_⟩
    · exact congrArg a (funext fun i => hστ _ ⟨i, rfl⟩)
    · exact congrArg b (funext fun i => hστ _ ((hc _).mp ⟨i, rfl⟩))
    · rw [← hab, amplitudes, hsplit]
  · rintro ⟨a, b, ha, hb, hab⟩
    -- the matrix of amplitudes is a product, so the reduced density matrix is a projector
    let a' : Cfg m → ℂ := fun x => a ((splitEquiv hc).symm (x, fun _ => false))
    let b' : Cfg t → ℂ := fun y => b ((splitEquiv hc).symm (fun _ => false, y))
    have hs : ∀ x y, ((splitEquiv hc).symm (x, y) ∘ f, (splitEquiv hc).symm (x, y) ∘ h) = (x, y) := fun x y => by
      rw [← splitEquiv_apply hc, Equiv.apply_symm_apply]
    have hA : ∀ x y, ψ ((splitEquiv hc).symm (x, y)) = a' x * b' y := fun x y => by
      rw [hab]
      congr 1
      · refine ha _ _ ?_
        rintro _ ⟨i, rfl⟩
        exact (congrFun (Prod.ext_iff.mp (hs x y)).1 i).trans (congrFun (Prod.ext_iff.mp (hs x fun _ => false)).1 i).symm
      · refine hb _ _ fun i hi => ?_
        obtain ⟨j, rfl⟩ := (hc i).mpr hi
        exact (congrFun (Prod.ext_iff.mp (hs x y)).2 j).trans (congrFun (Prod.ext_iff.mp (hs (fun _ => false) y)).2 j).symm
    set B : ℂ := ∑ y, b' y * star (b' y) with hB
    set A : ℂ := ∑ x, a' x * star (a' x) with hA'
    have hρ : ∀ x z, partialTrace f ψ ψ x z = B * (a' x * star (a' z)) := fun x z => by
      rw [partialTrace_eq hc, hB, Finset.sum_mul]
      refine Finset.sum_congr rfl fun y _ => ?_
      rw [hA, hA, star_mul']
      ring
    have htr : B * A = 1 := by
      have e1 := hH.trace_eq_sum_eigenvalues
      rw [Matrix.trace] at e1
      simp only [Matrix.diag_apply, hρ] at e1
      rw [← Finset.mul_sum] at e1
      rw [e1]
      have : ((∑ i, hH.eigenvalues i : ℝ) : ℂ) = 1 := by rw [h3]; simp
      rw [← this]; push_cast; rfl
    have hsq : partialTrace f ψ ψ ^ 2 = partialTrace f ψ ψ := by
      ext x z
      rw [pow_two, Matrix.mul_apply, hρ x z]
      simp only [hρ]
      calc ∑ j, B * (a' x * star (a' j)) * (B * (a' j * star (a' z))) = (B * A) * (B * (a' x * star (a' z))) := by
            rw [hA', Finset.mul_sum, Finset.sum_mul]
            exact Finset.sum_congr rfl fun j _ => by ring
        _ = _ := by rw [htr, one_mul]
    have e2 := trace_pow_eigenvalues hH 2
    have e1 := trace_pow_eigenvalues hH 1
    rw [hsq] at e2
    rw [pow_one, e2, Complex.ofReal_inj] at e1
    simp only [pow_one] at e1
    rw [h3] at e1
    refine (renyi_eq_zero h2 h3 (le_refl 2)).mp ?_
    rw [renyi, e1, Real.log_one, mul_zero]

/-- **C80** (complements): a set of sites and the set of all other sites have the same entropy. -/
theorem C80_complement {m t : ℕ} (f : Fin m ↪ Fin n) (h : Fin t ↪ Fin n) (hc : ∀ i, i ∈ Set.range h ↔ i ∉ Set.range f) {v : List ℂ}
    (hv : v.length = 2 ^ n) : ∃ ρ ρ', reducedDensityMatrix v (siteList f) n = .ok ρ ∧ reducedDensityMatrix v (siteList h) n = .ok ρ' ∧
      ∀ α : ℕ, α ≠ 0 → renyiEntropy ρ α = renyiEntropy ρ' α := by
  obtain ⟨ψ, hψ⟩ := C45_states hv
  obtain ⟨ρ, h1, h2⟩ := C46_partial_trace f hψ
  obtain ⟨ρ', h1', h2'⟩ := C46_partial_trace h hψ
  refine ⟨ρ, ρ', h1, h1', fun α hα => ?_⟩
  by_cases hα1 : α = 1
  · subst hα1
    obtain ⟨Q, q1, -⟩ := h2.productLoop 1 (IsDenseOf.eye (m := m))
    obtain ⟨Q', q1', -⟩ := h2'.productLoop 1 (IsDenseOf.eye (m := t))
    simp [renyiEntropy, h2.nrows, h2'.nrows, q1, q1', bind, Except.bind]
  · rw [renyiEntropy_dense h2 hα1, renyiEntropy_dense h2' hα1, partialTrace_amplitudes hc, partialTrace_amplitudes_other hc, ← Matrix.transpose_pow,
      Matrix.trace_transpose, trace_pow_swap _ _ hα]

/-- **C80** (errors): the order one raises ZeroDivisionError for a square matrix; a matrix that is not square raises ValueError for orders above one. -/
theorem C80_errors (ρ : Dense ℂ) : (ρ.nrows = ρ.ncols → renyiEntropy ρ 1 = .error .zeroDivision) ∧
    (ρ.nrows ≠ ρ.ncols → ∀ α : ℕ, 2 ≤ α → renyiEntropy ρ α = .error .valueError) := by
  constructor
  · intro h
    simp [renyiEntropy, Dense.productLoop, Dense.dot, Dense.eye, bind, Except.bind]
  · intro h α hα
    obtain ⟨k, rfl⟩ : ∃ k, α = k + 2 := ⟨α - 2, by omega⟩
    rw [renyiEntropy, Int.toNat_natCast]
    simp [Dense.productLoop, Dense.dot, Dense.eye, bind, Except.bind, Ne.symm h]

/-- **C80** (normalisation): the vector is not normalised; for `c * v` the entropy is shifted by `2 α / (1 - α) log |c|`. -/
theorem C80_scaling {m : ℕ} (f : Fin m ↪ Fin n) {v : List ℂ} {ψ : Cfg n → ℂ} (hv : IsState n v ψ) (hψ : ψ ≠ 0) {c : ℂ} (hc : c ≠ 0) {α : ℕ} (hα : α ≠ 1) :
    ∃ ρ ρ', ∃ S : ℝ, reducedDensityMatrix v (siteList f) n = .ok ρ ∧ reducedDensityMatrix (v.map (c * ·)) (siteList f) n = .ok ρ' ∧
      renyiEntropy ρ α = .ok (S : EReal) ∧ renyiEntropy ρ' α = .ok ((S + 2 * α / (1 - α) * Real.log ‖c‖ : ℝ) : EReal) := by
  have hv' : IsState n (v.map (c * ·)) (c • ψ) := ⟨by simp [hv.length], fun k hk => by rw [List.getElem?_map, hv.entries k hk]; rfl⟩
  obtain ⟨ρ, h1, hH, h2, h3, h4⟩ := C80_value f hv hψ
  obtain ⟨ρ', h1', hd⟩ := C46_partial_trace f hv'
  refine ⟨ρ, ρ', _, h1, h1', h4 α hα, ?_⟩
  have hpos : 0 < ∑ i, hH.eigenvalues i := by
    rw [h3]
    obtain ⟨σ, hσ⟩ := Function.ne_iff.mp hψ
    exact Finset.sum_pos' (fun _ _ => by positivity) ⟨σ, Finset.mem_univ _, by have : ψ σ ≠ 0 := hσ; positivity⟩
  have hp := sum_pow_pos h2 hpos α
  obtain ⟨t, h, ht, hcc⟩ := tracedLabels_siteList f
  have e : partialTrace f (c • ψ) (c • ψ) = (c * star c) • partialTrace f ψ ψ := by
    ext x y
    rw [Matrix.smul_apply, partialTrace_eq hcc, partialTrace_eq hcc, smul_eq_mul, Finset.mul_sum]
    refine Finset.sum_congr rfl fun z _ => ?_
    simp only [Pi.smul_apply, smul_eq_mul, star_mul']
    ring
  have hcs : c * star c ≠ 0 := mul_ne_zero hc (star_ne_zero.mpr hc)
  have hn : ‖c * star c‖ = ‖c‖ ^ 2 := by rw [norm_mul, norm_star, sq]
  have hα' : (1 : ℝ) - α ≠ 0 := sub_ne_zero.mpr (by exact_mod_cast Ne.symm hα)
  have hc0 : ‖c‖ ≠ 0 := norm_ne_zero_iff.mpr hc
  rw [renyiEntropy_dense hd hα, e, smul_pow, Matrix.trace_smul, trace_pow_eigenvalues hH, smul_eq_mul, logAbs,
    if_neg (mul_ne_zero (pow_ne_zero _ hcs) (by exact_mod_cast hp.ne')), norm_mul, norm_pow, hn, Complex.norm_real, Real.norm_of_nonneg hp.le,
    Real.log_mul (pow_ne_zero _ (pow_ne_zero _ hc0)) hp.ne', Real.log_pow, Real.log_pow, renyi, ← EReal.coe_mul]
  congr 2
  push_cast
  field_simp
  ring

/-- the entropy does not grow with its order -/
theorem C80_order {m : ℕ} (f : Fin m ↪ Fin n) {v : List ℂ} {ψ : Cfg n → ℂ} (hv : IsState n v ψ) (hψ : ∑ σ, ‖ψ σ‖ ^ 2 = 1) {α β : ℕ} (hα : 2 ≤ α)
    (hβ : α ≤ β) : ∃ ρ, ∃ S T : ℝ, reducedDensityMatrix v (siteList f) n = .ok ρ ∧ renyiEntropy ρ α = .ok (S : EReal) ∧
      renyiEntropy ρ β = .ok (T : EReal) ∧ T ≤ S := by
  obtain ⟨ρ, h1, hH, h2, h3, h4⟩ := C80_value f hv (by rintro rfl; simp at hψ)
  rw [hψ] at h3
  exact ⟨ρ, _, _, h1, h4 α (by omega), h4 β (by omega), renyi_antitone h2 h3 hα hβ⟩

/-- the entropy is at most `log 2` times the number of sites on the smaller side of the cut -/
theorem C80_smaller_side {m : ℕ} (f : Fin m ↪ Fin n) {v : List ℂ} {ψ : Cfg n → ℂ} (hv : IsState n v ψ) (hψ : ∑ σ, ‖ψ σ‖ ^ 2 = 1) {α : ℕ} (hα : 2 ≤ α) :
    ∃ ρ, ∃ S : ℝ, reducedDensityMatrix v (siteList f) n = .ok ρ ∧ renyiEntropy ρ α = .ok (S : EReal) ∧ S ≤ (min m (n - m) : ℕ) * Real.log 2 := by
  obtain ⟨ρ, S, h1, h2, -, h3⟩ := C80_bounds f hv hψ hα
  obtain ⟨t, h, -, hc⟩ := tracedLabels_siteList f
  obtain ⟨ρ₁, ρ₂, k1, k2, k3⟩ := C80_complement f h hc hv.length
  obtain ⟨ρ₃, S', l1, l2, -, l3⟩ := C80_bounds h hv hψ hα
  obtain rfl : ρ₁ = ρ := by rw [h1] at k1; exact (Except.ok.inj k1).symm
  obtain rfl : ρ₃ = ρ₂ := by rw [k2] at l1; exact (Except.ok.inj l1).symm
  obtain rfl : S' = S := by
    have := k3 α (by omega)
    rw [h2, l2] at this
    exact (EReal.coe_eq_coe_iff.mp (Except.ok.inj this)).symm
  have hmt : t = n - m := by
    have := Fintype.card_congr (splitEquiv hc)
    simp only [Cfg, Fintype.card_prod, Fintype.card_fun, Fintype.card_bool, Fintype.card_fin, ← pow_add] at this
    have := Nat.pow_right_injective (le_refl 2) this
    omega
  refine ⟨ρ₁, S', h1, h2, ?_⟩
  rcases le_total m (n - m) with hle | hle
  · rwa [min_eq_left hle]
  · rwa [min_eq_right hle, ← hmt]

/-- the state `3/5 |00⟩ + 4/5 |11⟩` of two spins -/
noncomputable def entangledPair : List ℂ := [3 / 5, 0, 0, 4 / 5]

/-- the state is normalised -/
theorem entangledPair_state : ∃ ψ, IsState 2 entangledPair ψ ∧ ∑ σ, ‖ψ σ‖ ^ 2 = 1 := by
  obtain ⟨ψ, h⟩ := C45_states (n := 2) (v := entangledPair) rfl
  refine ⟨ψ, h, ?_⟩
  have : ∑ σ, ((‖ψ σ‖ ^ 2 : ℝ) : ℂ) = 1 := by
    rw [← sum_range_cfg' (n := 2) (fun σ => ((‖ψ σ‖ ^ 2 : ℝ) : ℂ))]
    have e : ∀ k < 4, ψ (cfgOf 2 k) = entangledPair.getD k 0 := fun k hk => (h.getD hk).symm
    simp only [show (2 : ℕ) ^ 2 = 4 from rfl, Finset.sum_range_succ, Finset.sum_range_zero, e 0 (by norm_num), e 1 (by norm_num), e 2 (by norm_num), e 3 (by norm_num)]
    simp [entangledPair]
    norm_num
  exact_mod_cast this

/-- the entropy of one of its spins is `log (625 / 337)`, the eigenvalues being `9/25` and `16/25` -/
example : ∃ ρ, reducedDensityMatrix entangledPair [0] 2 = .ok ρ ∧ renyiEntropy ρ = .ok (Real.log (625 / 337) : ℝ) := by
  obtain ⟨ρ, h1, h2, h3, e00, e01, e10, e11⟩ : ∃ ρ, reducedDensityMatrix entangledPair [0] 2 = .ok ρ ∧ ρ.nrows = 2 ∧ ρ.ncols = 2 ∧ ρ.get 0 0 = 9 / 25 ∧
      ρ.get 0 1 = 0 ∧ ρ.get 1 0 = 0 ∧ ρ.get 1 1 = 16 / 25 := by
    refine ⟨_, rfl, rfl, rfl, ?_, ?_, ?_, ?_⟩ <;>
      simp [show (tracedLabels [0] 2).length = 1 from rfl, List.range_succ, Complex.conj_ofNat] <;> norm_num
  refine ⟨ρ, h1, ?_⟩
  have : (2 : ℤ).toNat = 2 := rfl
  rw [renyiEntropy, this]
  simp [Dense.productLoop, Dense.dot, Dense.eye, bind, Except.bind, h2, h3, Dense.trace, List.range_succ, e00, e01, e10, e11, logAbs]
  norm_num
  rw [← EReal.coe_neg, ← Real.log_inv]
  norm_num

/-- the bounds apply to it -/
example : ∃ ρ, ∃ S : ℝ, reducedDensityMatrix entangledPair (siteList (Fin.castLEEmb (by norm_num : 1 ≤ 2))) 2 = .ok ρ ∧ renyiEntropy ρ 2 = .ok (S : EReal) ∧
    0 ≤ S ∧ S ≤ (1 : ℕ) * Real.log 2 := by
  obtain ⟨ψ, h1, h2⟩ := entangledPair_state
  exact C80_bounds (Fin.castLEEmb (by norm_num : 1 ≤ 2)) h1 h2 (le_refl 2)

end Qosy
