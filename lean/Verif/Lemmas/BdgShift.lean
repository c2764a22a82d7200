import Verif.Lemmas.QuadraticSpectrum
import Verif.Lemmas.SpectrumExact

/-! # Eigenpairs found by shift and inversion -/

namespace Qosy
open Matrix
variable {n : ℕ} {num : Eigensolvers}

theorem shifted_ok (hnum : num.Exact) {M : Mat ℂ} {N : ℕ} (hc : M.ncols = N) (hH : ∀ i j, M.get i j = star (M.get j i)) {k : ℕ} (hk : 0 < k ∧ k + 1 < N) {σ : ℝ} :
    (IsEigenvalue (Matrix.of fun i j : Fin N => M.get i j) σ → ∃ e, num.shifted M.ncols M.toarray k σ = .error e) ∧
    (¬ IsEigenvalue (Matrix.of fun i j : Fin N => M.get i j) σ →
      ∃ r : List (ℝ × (Fin N → ℂ)), num.shifted M.ncols M.toarray k σ = .ok (r.map fun p => (p.1, p.2 ∘ finCongr hc)) ∧ r.length = k ∧
        (∀ p ∈ r, (Matrix.of fun i j : Fin N => M.get i j).mulVec p.2 = (p.1 : ℂ) • p.2) ∧
        LowestEigenpairs ((Matrix.of fun i j : Fin N => M.get i j) - (σ : ℂ) • 1)⁻¹ (r.map fun p => (1 / (p.1 - σ), p.2))) := by
  subst hc
  have hT : M.toarray.IsHermitian := by
    ext i j
    exact (hH i j).symm
  have hid : ∀ r : List (ℝ × (Fin M.ncols → ℂ)), (r.map fun p => (p.1, p.2 ∘ finCongr (rfl : M.ncols = M.ncols))) = r := fun r => by
    conv_rhs => rw [← List.map_id r]
    exact List.map_congr_left fun p _ => rfl
  refine ⟨hnum.singular _ M.toarray k σ hT, fun hs => ?_⟩
  obtain ⟨r, r1, r2, r3, r4⟩ := hnum.shifted _ M.toarray k σ hT hk.1 hk.2 hs
  exact ⟨r, by rw [hid]; exact r1, r2, r3, r4⟩

/-- the inverse of a particle-hole symmetric matrix is particle-hole symmetric -/
theorem inverse_symmetric {ι : Type} [Fintype ι] [DecidableEq ι] {D : Matrix ι ι ℂ} (hD : D.IsHermitian) (hu : IsUnit D.det) {s : ι → ι} (hs : Function.Involutive s)
    (hP : ∀ i j, D (s i) (s j) = -star (D i j)) (i j : ι) : D⁻¹ (s i) (s j) = -star (D⁻¹ i j) := by
  have h1 : D.submatrix hs.toPerm hs.toPerm = -Dᵀ := by
    ext i j
    exact (hP i j).trans (congrArg Neg.neg (hD.apply j i))
  have h2 : (-Dᵀ)⁻¹ = -(D⁻¹)ᵀ := by
    refine Matrix.inv_eq_right_inv ?_
    rw [neg_mul_neg, ← Matrix.transpose_mul, Matrix.nonsing_inv_mul _ hu, Matrix.transpose_one]
  have h3 := congrFun (congrFun (Matrix.inv_submatrix_equiv D hs.toPerm hs.toPerm) i) j
  rw [h1, h2] at h3
  rw [show D⁻¹ (s i) (s j) = (-(D⁻¹)ᵀ) i j from h3.symm, Matrix.neg_apply, Matrix.transpose_apply, hD.inv.apply j i]

/-- of the eigenpairs with the smallest `1 / λ` at least `n` or all have a negative eigenvalue -/
theorem lower_half_inverse {ι : Type} [Fintype ι] [DecidableEq ι] {D : Matrix ι ι ℂ} (hD : D.IsHermitian) (hu : IsUnit D.det) (s : ι → ι) (hs : Function.Involutive s)
    (hP : ∀ i j, D (s i) (s j) = -star (D i j)) {r : List (ℝ × (ι → ℂ))} (h : LowestEigenpairs D⁻¹ (r.map fun p => (1 / p.1, p.2)))
    {q : List (ℝ × (ι → ℂ))} (hp : r.Perm q) (hq : q.Pairwise fun a b => a.1 ≤ b.1) {k : ℕ} (hk : k < q.length) (hn : 2 * k < Fintype.card ι) : q[k].1 ≤ 0 := by
  by_contra hpos
  push Not at hpos
  obtain ⟨l, hl, hls⟩ : ∃ l : List (ℝ × (ι → ℂ)), l.Perm (q.map fun p => (1 / p.1, p.2)) ∧ l.Pairwise fun a b => a.1 ≤ b.1 := by
    refine ⟨(q.map fun p => (1 / p.1, p.2)).mergeSort (fun a b => decide (a.1 ≤ b.1)), List.mergeSort_perm _ _, ?_⟩
    have := List.pairwise_mergeSort (le := fun a b : ℝ × (ι → ℂ) => decide (a.1 ≤ b.1)) (fun a b c h1 h2 => by
      simp only [decide_eq_true_eq] at h1 h2 ⊢; exact h1.trans h2) (fun a b => by simp only [Bool.or_eq_true, decide_eq_true_eq]; exact le_total _ _)
      (q.map fun p => (1 / p.1, p.2))
    simpa using this
  have hlow : LowestEigenpairs D⁻¹ l := h.perm ((hp.map _).trans hl.symm)
  have hlk : k < l.length := by rw [hl.length_eq, List.length_map]; exact hk
  have hneg : ∀ a ∈ l.take (k + 1), a.1 ≤ 0 := by
    intro a ha
    obtain ⟨j, hj, rfl⟩ := List.mem_iff_getElem.mp ha
    rw [List.length_take] at hj
    rw [List.getElem_take]
    exact lower_half hD.inv s hs (inverse_symmetric hD hu hs hP) hlow hls (by omega) (by omega)
  have c1 : k + 1 ≤ l.countP fun a => decide (a.1 ≤ 0) := by
    have h1 : (l.take (k + 1)).countP (fun a => decide (a.1 ≤ 0)) = (l.take (k + 1)).length := List.countP_eq_length.mpr fun a ha => decide_eq_true (hneg a ha)
    rw [List.length_take, min_eq_left (by omega)] at h1
    rw [← h1]
    exact (List.take_sublist _ _).countP_le
  have c2 : l.countP (fun a => decide (a.1 ≤ 0)) = q.countP fun a => decide (a.1 ≤ 0) := by
    rw [hl.countP_eq, List.countP_map]
    refine List.countP_congr fun a _ => ?_
    simp
  have c3 : (q.countP fun a => decide (a.1 ≤ 0)) ≤ k := by
    rw [← List.take_append_drop k q, List.countP_append]
    have h1 : (q.drop k).countP (fun a => decide (a.1 ≤ 0)) = 0 := by
      refine List.countP_eq_zero.mpr fun a ha => ?_
      obtain ⟨j, hj, rfl⟩ := List.mem_iff_getElem.mp ha
      rw [List.length_drop] at hj
      rw [List.getElem_drop, decide_eq_true_eq, not_le]
      rcases Nat.eq_zero_or_pos j with rfl | hj0
      · exact hpos
      · exact hpos.trans_le (List.pairwise_iff_getElem.mp hq k (k + j) hk (by omega) (by omega))
    rw [h1]
    exact (List.countP_le_length).trans (by rw [List.length_take]; omega)
  omega

section
variable {𝔸 : Type} [Ring 𝔸] [Algebra ℂ 𝔸] [StarRing 𝔸] [StarModule ℂ 𝔸] (R : MajoranaRep ℂ 𝔸 (siteLabels n))

/-- the commutator with a quadratic form acts on the coefficients as the matrix -/
theorem bdg_bracket {M : Mat ℂ} (h4 : ∀ i j, M.get i j = star (M.get j i)) (h5 : ∀ i j, i < 2 * n → j < 2 * n → M.get (halfSwap n i) (halfSwap n j) = -star (M.get i j))
    (c : ℂ) (w : Fin (2 * n) → ℂ) :
    ⁅(1 / 2 : ℂ) • ∑ i ∈ Finset.range (2 * n), ∑ j ∈ Finset.range (2 * n), M.get i j • (R.nambuDag n i * R.nambu n j) + c • (1 : 𝔸), ∑ i, w i • R.nambuDag n i⁆ =
      ∑ i, ((Matrix.of fun i j : Fin (2 * n) => M.get i j).mulVec w) i • R.nambuDag n i := by
  have hc : ∀ x y : 𝔸, ⁅x + c • (1 : 𝔸), y⁆ = ⁅x, y⁆ := fun x y => by
    rw [Ring.lie_def, Ring.lie_def, add_mul, mul_add, smul_one_mul, mul_smul_one, add_sub_add_right_eq_sub]
  have hsum : ∀ (x : 𝔸) (f : Fin (2 * n) → 𝔸), ⁅x, ∑ i, f i⁆ = ∑ i, ⁅x, f i⁆ := fun x f => by
    simp only [Ring.lie_def, Finset.mul_sum, Finset.sum_mul, Finset.sum_sub_distrib]
  have hre : ∀ f : Fin (2 * n) → 𝔸, ∑ i, f (nambuSwap n i) = ∑ i, f i := fun f => Equiv.sum_comp (nambuSwap_involutive (n := n)).toPerm f
  rw [hc, hsum]
  have e : ∀ i : Fin (2 * n), ⁅(1 / 2 : ℂ) • ∑ i ∈ Finset.range (2 * n), ∑ j ∈ Finset.range (2 * n), M.get i j • (R.nambuDag n i * R.nambu n j), w i • R.nambuDag n i⁆ =
      ∑ j : Fin (2 * n), (M.get j i * w i) • R.nambuDag n j := by
    intro i
    rw [lie_smul', nambuDag_fin R i, bdg_comm R h4 h5 (nambuSwap n i).2, Finset.sum_range, ← hre, smul_neg, Finset.smul_sum,
      ← Finset.sum_neg_distrib]
    refine Finset.sum_congr rfl fun j _ => ?_
    rw [← nambuDag_fin R j, show M.get (nambuSwap n i) (nambuSwap n j) = -star (M.get i j) from h5 i j i.2 j.2, ← h4 j i, smul_smul, ← neg_smul]
    congr 1
    ring
  rw [Finset.sum_congr rfl fun i _ => e i, Finset.sum_comm]
  refine Finset.sum_congr rfl fun j _ => ?_
  rw [← Finset.sum_smul]
  rfl

/-- the operators `Ψ†_i` are independent -/
theorem nambuDag_independent [Nontrivial 𝔸] {x : Fin (2 * n) → ℂ} (h : ∑ i, x i • R.nambuDag n i = 0) : x = 0 := by
  have h1 := anticomm_sum R x (fun i => star (x i))
  rw [h, zero_mul, mul_zero, add_zero] at h1
  have h2 : ∑ i, x i * star (x i) = 0 := by
    by_contra h0
    have := congrArg ((∑ i, x i * star (x i))⁻¹ • ·) h1
    simp only [smul_zero, smul_smul] at this
    rw [inv_mul_cancel₀ h0, one_smul] at this
    exact one_ne_zero this.symm
  have h3 : ∑ i, ‖x i‖ ^ 2 = 0 := by
    have := sum_norm_sq x
    rw [Finset.sum_congr rfl fun i _ => mul_comm (star (x i)) (x i), h2] at this
    exact_mod_cast this
  funext i
  have := (Finset.sum_eq_zero_iff_of_nonneg fun i _ => by positivity).mp h3 i (Finset.mem_univ i)
  simpa using this

/-- the vector with the halves `u` and `v` -/
def joinHalves (u v : Fin n → ℂ) : Fin (2 * n) → ℂ := fun i => if h : i.1 < n then u ⟨i.1, h⟩ else v ⟨i.1 - n, by omega⟩

theorem bogoliubov_join (u v : Fin n → ℂ) : R.bogoliubov u v = ∑ i, joinHalves u v i • R.nambuDag n i := by
  rw [← bogoliubov_eq]
  congr 1
  · funext i; simp [joinHalves]
  · funext i; simp [joinHalves]

end

/-- the result of `diagonalize_bdg` with `sigma=0` for any particle-hole symmetric matrix without zero modes -/
theorem bdg_shift_result (hnum : num.Exact) {M : Mat ℂ} (h3 : M.ncols = 2 * n) (h4 : ∀ i j, M.get i j = star (M.get j i))
    (h5 : ∀ i j, i < 2 * n → j < 2 * n → M.get (halfSwap n i) (halfSwap n j) = -star (M.get i j)) {k : ℕ} (hk : 0 < k ∧ k + 1 < 2 * n)
    (h0 : ¬ IsEigenvalue (Matrix.of fun i j : Fin (2 * n) => M.get i j) 0) :
    ∃ (ps : List (ℝ × (Fin M.ncols → ℂ))) (pairs : List (ℝ × (Fin n → ℂ) × (Fin n → ℂ))),
      (num.shifted M.ncols M.toarray k 0 >>= sortEigenpairs num.argsort) = .ok ps ∧
      ((ps.take n).map fun p => |p.1|) = pairs.map Prod.fst ∧ ((ps.take n).map fun p => (List.ofFn p.2).take n) = (pairs.map fun p => List.ofFn p.2.1) ∧
      ((ps.take n).map fun p => ((List.ofFn p.2).drop n).take n) = (pairs.map fun p => List.ofFn p.2.2) ∧
      pairs.length = min n k ∧ (∀ p ∈ pairs, 0 < p.1) ∧ (pairs.Pairwise fun p q => q.1 ≤ p.1) ∧
      ∀ {𝔸 : Type} [Ring 𝔸] [Algebra ℂ 𝔸] [StarRing 𝔸] [StarModule ℂ 𝔸] (R : MajoranaRep ℂ 𝔸 (siteLabels n)),
        (∀ i ∈ siteLabels n, star (R.a i) = R.a i ∧ star (R.b i) = R.b i) → ∀ c : ℂ,
        Quasiparticles R ((1 / 2 : ℂ) • ∑ i ∈ Finset.range (2 * n), ∑ j ∈ Finset.range (2 * n), M.get i j • (R.nambuDag n i * R.nambu n j) + c • 1) c pairs ∧
        (Nontrivial 𝔸 → k ≤ n → LowestModes R ((1 / 2 : ℂ) • ∑ i ∈ Finset.range (2 * n), ∑ j ∈ Finset.range (2 * n), M.get i j • (R.nambuDag n i * R.nambu n j) + c • 1) pairs) := by
  set D : Matrix (Fin (2 * n)) (Fin (2 * n)) ℂ := Matrix.of fun i j : Fin (2 * n) => M.get i j with hDdef
  have hDh : D.IsHermitian := by ext i j; exact (h4 i j).symm
  have hz : D - ((0 : ℝ) : ℂ) • 1 = D := by rw [Complex.ofReal_zero, zero_smul, sub_zero]
  have hu : IsUnit D.det := by have := isUnit_sub_of_not_eigenvalue h0; rwa [hz] at this
  obtain ⟨r, r1, r2, r3, r4⟩ := (shifted_ok hnum h3 h4 hk).2 h0
  simp only [← hDdef, hz, sub_zero] at r3 r4
  have hsnd : (r.map fun p => ((1 / p.1, p.2) : ℝ × (Fin (2 * n) → ℂ))).map Prod.snd = r.map Prod.snd := by rw [List.map_map]; rfl
  have horth := r4.orthonormal
  rw [hsnd] at horth
  have hne : ∀ p ∈ r, p.1 ≠ 0 := by
    intro p hp h
    refine h0 ⟨p.2, ?_, ?_⟩
    · intro h'
      have := horth.1 p.2 (List.mem_map_of_mem hp)
      rw [h'] at this
      simp at this
    · rw [r3 p hp, h]
  have hneg : ∀ q : List (ℝ × (Fin (2 * n) → ℂ)), r.Perm q → (q.Pairwise fun a b => a.1 ≤ b.1) → ∀ p ∈ q.take n, p.1 ≤ 0 := by
    intro q hperm hsort p hp
    obtain ⟨j, hj, rfl⟩ := List.mem_iff_getElem.mp hp
    rw [List.length_take] at hj
    rw [List.getElem_take]
    exact lower_half_inverse hDh hu (nambuSwap n) nambuSwap_involutive (fun i j => h5 i j i.2 j.2) r4 hperm hsort (by omega) (by simp; omega)
  obtain ⟨ps, pairs, p1, p2, p3, p4, p5, p6, p7, ⟨q, q1, q2, q3⟩, p8⟩ := bdg_result_of hnum.argsort h3 h4 h5 r1 horth r3 hneg
  refine ⟨ps, pairs, p1, p2, p3, p4, by rw [p5, r2], ?_, p7, fun R hR c => ⟨p8 R hR c, fun hnt hkn => ?_⟩⟩
  · intro p hp
    refine lt_of_le_of_ne (p6 p hp) ?_
    rw [q3] at hp
    obtain ⟨p', hp', rfl⟩ := List.mem_map.mp hp
    exact fun h => hne p' (q1.mem_iff.mpr (List.mem_of_mem_take hp')) (neg_eq_zero.mp h.symm)
  · intro u v E hE huv hf hcomm p hp
    rw [bogoliubov_join R u v, ← Ring.lie_def, bdg_bracket R h4 h5] at hf
    -- the coefficients are an eigenvector of the matrix
    have hw : ∀ i, D.mulVec (joinHalves u v) i = -(E : ℂ) * joinHalves u v i := by
      have h1 : ∑ i, (D.mulVec (joinHalves u v) i + E * joinHalves u v i) • R.nambuDag n i = 0 := by
        simp only [add_smul, mul_smul, Finset.sum_add_distrib, ← Finset.smul_sum]
        rw [hf, neg_add_cancel]
      intro i
      have := congrFun (nambuDag_independent R h1) i
      simp only [Pi.zero_apply] at this
      linear_combination this
    have hw' : D.mulVec (joinHalves u v) = (-(E : ℂ)) • joinHalves u v := funext hw
    have hEc : (E : ℂ) ≠ 0 := by exact_mod_cast hE.ne'
    have hinv : D⁻¹.mulVec (joinHalves u v) = ((-(1 / E) : ℝ) : ℂ) • joinHalves u v := by
      have h1 := congrArg (D⁻¹ *ᵥ ·) hw'
      simp only [Matrix.mulVec_mulVec, Matrix.nonsing_inv_mul _ hu, Matrix.one_mulVec, Matrix.mulVec_smul] at h1
      conv_rhs => rw [h1]
      rw [smul_smul]
      push_cast
      rw [show -(1 / (E : ℂ)) * -(E : ℂ) = 1 by field_simp, one_smul]
    -- it is orthogonal to the eigenvectors found
    have hqn : q.take n = q := List.take_of_length_le (by rw [← q1.length_eq, r2]; exact hkn)
    rw [hqn] at q3
    have hort : ∀ x ∈ r.map Prod.snd, ∑ i, star (x i) * joinHalves u v i = 0 := by
      intro x hx
      obtain ⟨p', hp', rfl⟩ := List.mem_map.mp hx
      have h1 := hcomm (splitPair p') (by rw [q3]; exact List.mem_map_of_mem (q1.mem_iff.mp hp'))
      simp only [splitPair] at h1
      rw [bogoliubov_join R u v, bogoliubov_eq R p'.2, star_sum_nambuDag R hR, anticomm_sum] at h1
      have h2 : ∑ i, joinHalves u v i * star (p'.2 i) = 0 := by
        by_contra h
        have := congrArg ((∑ i, joinHalves u v i * star (p'.2 i))⁻¹ • ·) h1
        simp only [smul_zero, smul_smul] at this
        rw [inv_mul_cancel₀ h, one_smul] at this
        exact one_ne_zero this
      rw [← h2]
      exact Finset.sum_congr rfl fun i _ => mul_comm _ _
    have hpos : 0 < ∑ i, ‖joinHalves u v i‖ ^ 2 := by
      have hne : joinHalves u v ≠ 0 := by
        intro h
        rcases huv with h' | h'
        · exact h' (funext fun i => by have := congrFun h ⟨i, by omega⟩; simpa [joinHalves] using this)
        · exact h' (funext fun i => by have := congrFun h ⟨n + i, by omega⟩; simpa [joinHalves] using this)
      obtain ⟨i, hi⟩ := Function.ne_iff.mp hne
      exact Finset.sum_pos' (fun _ _ => by positivity) ⟨i, Finset.mem_univ _, by have : 0 < ‖joinHalves u v i‖ := norm_pos_iff.mpr hi; positivity⟩
    rw [q3] at hp
    obtain ⟨p', hp', rfl⟩ := List.mem_map.mp hp
    have hp'r := q1.mem_iff.mpr hp'
    have hb := r4.lowest (1 / p'.1, p'.2) (List.mem_map_of_mem hp'r) (joinHalves u v) (by rw [hsnd]; exact hort)
    rw [hinv] at hb
    have hval : (∑ i, star (joinHalves u v i) * ((((-(1 / E) : ℝ) : ℂ)) • joinHalves u v) i).re = -(1 / E) * ∑ i, ‖joinHalves u v i‖ ^ 2 := by
      have : ∑ i, star (joinHalves u v i) * ((((-(1 / E) : ℝ) : ℂ)) • joinHalves u v) i = ((-(1 / E) * ∑ i, ‖joinHalves u v i‖ ^ 2 : ℝ) : ℂ) := by
        rw [Complex.ofReal_mul, sum_norm_sq, Finset.mul_sum]
        exact Finset.sum_congr rfl fun i _ => by rw [Pi.smul_apply, smul_eq_mul]; ring
      rw [this, Complex.ofReal_re]
    rw [hval] at hb
    have hb' : 1 / p'.1 ≤ -(1 / E) := le_of_mul_le_mul_right hb hpos
    have hlt : p'.1 < 0 := lt_of_le_of_ne (hneg q q1 q2 p' (by rw [hqn]; exact hp')) (hne p' hp'r)
    show -p'.1 ≤ E
    have h1 : 1 / E ≤ 1 / -p'.1 := by rw [one_div_neg_eq_neg_one_div]; linarith
    exact (one_div_le_one_div hE (by linarith)).mp h1

end Qosy
