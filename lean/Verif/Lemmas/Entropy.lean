import Verif.Model.Entropy
import Verif.Spec.Entropy
import Verif.Lemmas.Subsystem
import Mathlib.Analysis.Matrix.Spectrum
import Mathlib.Analysis.Matrix.PosDef
import Mathlib.Algebra.Order.Chebyshev
import Mathlib.Analysis.MeanInequalitiesPow

namespace Qosy
open Matrix

/-! ### powers and traces -/

theorem IsDenseOf.eye {m : ℕ} : IsDenseOf m (Dense.eye (K := ℂ) (2 ^ m)) 1 := by
  refine ⟨rfl, rfl, fun a b ha hb => ?_⟩
  rw [Matrix.one_apply]
  by_cases h : a = b
  · subst h; simp [Dense.eye]
  · have : cfgOf m a ≠ cfgOf m b := fun e => h (cfgOf_inj ha hb e)
    simp [Dense.eye, h, this]

theorem IsDenseOf.dot {m : ℕ} {A B : Dense ℂ} {D E : Matrix (Cfg m) (Cfg m) ℂ} (hA : IsDenseOf m A D) (hB : IsDenseOf m B E) :
    ∃ P, A.dot B = .ok P ∧ IsDenseOf m P (D * E) := by
  refine ⟨_, if_neg (by rw [hA.ncols, hB.nrows]; simp), hA.nrows, hB.ncols, fun a b ha hb => ?_⟩
  rw [Matrix.mul_apply, ← sum_range_cfg]
  show (List.map _ (List.range A.ncols)).sum = _
  rw [hA.ncols]
  congr 1
  apply List.map_congr_left
  intro k hk
  rw [hA.entries a k ha (List.mem_range.mp hk), hB.entries k b (List.mem_range.mp hk) hb]

theorem IsDenseOf.productLoop {m : ℕ} {rho : Dense ℂ} {D : Matrix (Cfg m) (Cfg m) ℂ} (h : IsDenseOf m rho D) (k : ℕ) :
    ∀ {P : Dense ℂ} {E : Matrix (Cfg m) (Cfg m) ℂ}, IsDenseOf m P E → ∃ Q, rho.productLoop k P = .ok Q ∧ IsDenseOf m Q (E * D ^ k) := by
  induction k with
  | zero => intro P E hP; exact ⟨P, rfl, by simpa using hP⟩
  | succ k ih =>
    intro P E hP
    obtain ⟨P', p1, p2⟩ := hP.dot h
    obtain ⟨Q, q1, q2⟩ := ih p2
    refine ⟨Q, ?_, by rw [pow_succ', ← mul_assoc]; exact q2⟩
    rw [Dense.productLoop, p1]; exact q1

theorem IsDenseOf.trace {m : ℕ} {A : Dense ℂ} {D : Matrix (Cfg m) (Cfg m) ℂ} (hA : IsDenseOf m A D) : A.trace = D.trace := by
  rw [Dense.trace, hA.nrows, hA.ncols, Nat.min_self, Matrix.trace, ← sum_range_cfg]
  congr 1
  apply List.map_congr_left
  intro k hk
  rw [hA.entries k k (List.mem_range.mp hk) (List.mem_range.mp hk)]
  rfl

theorem renyiEntropy_dense {m : ℕ} {rho : Dense ℂ} {D : Matrix (Cfg m) (Cfg m) ℂ} (h : IsDenseOf m rho D) {α : ℕ} (hα : α ≠ 1) :
    renyiEntropy rho α = .ok (((1 / (1 - (α : ℝ)) : ℝ) : EReal) * logAbs (D ^ α).trace) := by
  obtain ⟨Q, q1, q2⟩ := h.productLoop α (IsDenseOf.eye (m := m))
  rw [renyiEntropy, h.nrows, Int.toNat_natCast, q1]
  simp only [bind, Except.bind]
  rw [if_neg (by exact_mod_cast hα), q2.trace, one_mul]
  simp

theorem trace_pow_eigenvalues {ι : Type} [Fintype ι] [DecidableEq ι] {A : Matrix ι ι ℂ} (hA : A.IsHermitian) (k : ℕ) :
    (A ^ k).trace = ((∑ i, hA.eigenvalues i ^ k : ℝ) : ℂ) := by
  conv_lhs => rw [hA.spectral_theorem, ← map_pow, Unitary.conjStarAlgAut_apply, Matrix.diagonal_pow, Matrix.trace_mul_cycle]
  simp [Matrix.trace_diagonal]

/-! ### the matrix of amplitudes -/

section
variable {n m t : ℕ} {f : Fin m ↪ Fin n} {h : Fin t ↪ Fin n} (hc : ∀ i, i ∈ Set.range h ↔ i ∉ Set.range f)

/-- the amplitudes as a matrix -/
noncomputable def amplitudes (ψ : Cfg n → ℂ) : Matrix (Cfg m) (Cfg t) ℂ := fun α γ => ψ ((splitEquiv hc).symm (α, γ))

theorem partialTrace_amplitudes (ψ : Cfg n → ℂ) : partialTrace f ψ ψ = amplitudes hc ψ * (amplitudes hc ψ)ᴴ := by
  ext α β
  rw [partialTrace_eq hc, Matrix.mul_apply]
  rfl

theorem partialTrace_amplitudes_other (ψ : Cfg n → ℂ) : partialTrace h ψ ψ = ((amplitudes hc ψ)ᴴ * amplitudes hc ψ)ᵀ := by
  have hc' : ∀ i, i ∈ Set.range f ↔ i ∉ Set.range h := fun i => by rw [hc]; simp
  have e : ∀ (γ : Cfg t) (α : Cfg m), (splitEquiv hc').symm (γ, α) = (splitEquiv hc).symm (α, γ) := fun γ α => by
    rw [Equiv.symm_apply_eq]
    have := (splitEquiv hc).apply_symm_apply (α, γ)
    rw [splitEquiv_apply, Prod.mk.injEq] at this
    rw [splitEquiv_apply, this.1, this.2]
  ext β γ
  rw [partialTrace_eq hc', Matrix.transpose_apply, Matrix.mul_apply]
  refine Finset.sum_congr rfl fun α _ => ?_
  rw [e, e, Matrix.conjTranspose_apply, mul_comm]
  rfl

end

theorem trace_pow_swap {ι κ : Type} [Fintype ι] [Fintype κ] [DecidableEq ι] [DecidableEq κ] (C : Matrix ι κ ℂ) (D : Matrix κ ι ℂ) {k : ℕ} (hk : k ≠ 0) :
    ((C * D) ^ k).trace = ((D * C) ^ k).trace := by
  obtain ⟨k, rfl⟩ := Nat.exists_eq_succ_of_ne_zero hk
  have key : ∀ k, (C * D) ^ k * C = C * (D * C) ^ k := fun k => by
    induction k with
    | zero => simp
    | succ k ih => rw [pow_succ', pow_succ']; simp only [Matrix.mul_assoc, ih]
  rw [pow_succ, ← Matrix.mul_assoc, key, Matrix.trace_mul_comm, ← Matrix.mul_assoc, ← pow_succ']

/-! ### probabilities -/

section
variable {ι : Type} [Fintype ι] {p : ι → ℝ} (h0 : ∀ i, 0 ≤ p i)
include h0

theorem sum_pow_pos (h1 : 0 < ∑ i, p i) (α : ℕ) : 0 < ∑ i, p i ^ α := by
  obtain ⟨i, -, hi⟩ := Finset.exists_lt_of_sum_lt (s := Finset.univ) (f := fun _ => (0 : ℝ)) (g := p) (by simpa using h1)
  exact Finset.sum_pos' (fun i _ => pow_nonneg (h0 i) α) ⟨i, Finset.mem_univ _, pow_pos hi α⟩

theorem le_one_of_sum (h1 : ∑ i, p i = 1) (i : ι) : p i ≤ 1 := h1 ▸ Finset.single_le_sum (fun i _ => h0 i) (Finset.mem_univ i)

theorem sum_pow_le (h1 : ∑ i, p i = 1) {α : ℕ} (hα : α ≠ 0) : ∑ i, p i ^ α ≤ 1 := by
  rw [← h1]
  exact Finset.sum_le_sum fun i _ => pow_le_of_le_one (h0 i) (le_one_of_sum h0 h1 i) hα

theorem le_sum_pow (h1 : ∑ i, p i = 1) (α : ℕ) : 1 / (Fintype.card ι : ℝ) ^ α ≤ ∑ i, p i ^ (α + 1) := by
  have := pow_sum_div_card_le_sum_pow (s := Finset.univ) (f := p) (fun i _ => h0 i) α
  rwa [h1, one_pow, Finset.card_univ] at this

/-- the entropy is not negative, at most the logarithm of the number of states -/
theorem renyi_bounds (h1 : ∑ i, p i = 1) {α : ℕ} (hα : 2 ≤ α) : 0 ≤ renyi α p ∧ renyi α p ≤ Real.log (Fintype.card ι) := by
  have hpos := sum_pow_pos h0 (by rw [h1]; exact one_pos) α
  have hc : (0 : ℝ) < α - 1 := by
    have : (2 : ℝ) ≤ α := by exact_mod_cast hα
    linarith
  have e : renyi α p = Real.log (∑ i, p i ^ α)⁻¹ / ((α : ℝ) - 1) := by
    rw [renyi, Real.log_inv, neg_div, ← div_neg, neg_sub]
    ring
  rw [e]
  refine ⟨div_nonneg (Real.log_nonneg (by rw [one_le_inv₀ hpos]; exact sum_pow_le h0 h1 (by omega))) hc.le, ?_⟩
  rw [div_le_iff₀ hc]
  obtain ⟨k, rfl⟩ : ∃ k, α = k + 1 := ⟨α - 1, by omega⟩
  have hcard : (0 : ℝ) < Fintype.card ι := by
    rcases isEmpty_or_nonempty ι with hι | hι
    · simp at h1
    · exact_mod_cast Fintype.card_pos
  have := le_sum_pow h0 h1 k
  rw [one_div, inv_le_comm₀ (pow_pos hcard _) hpos] at this
  calc Real.log (∑ i, p i ^ (k + 1))⁻¹ ≤ Real.log ((Fintype.card ι : ℝ) ^ k) := Real.log_le_log (inv_pos.mpr hpos) this
    _ = _ := by rw [Real.log_pow]; push_cast; ring

/-- the entropy does not grow with its order -/
theorem renyi_antitone (h1 : ∑ i, p i = 1) {α β : ℕ} (hα : 2 ≤ α) (hβ : α ≤ β) : renyi β p ≤ renyi α p := by
  have hpos := sum_pow_pos h0 (by rw [h1]; exact one_pos)
  have ha : (0 : ℝ) < α - 1 := by
    have : (2 : ℝ) ≤ α := by exact_mod_cast hα
    linarith
  have hab : (α : ℝ) - 1 ≤ β - 1 := by
    have : (α : ℝ) ≤ β := by exact_mod_cast hβ
    linarith
  have hb : (0 : ℝ) < β - 1 := ha.trans_le hab
  have e : ∀ γ : ℕ, renyi γ p = -(Real.log (∑ i, p i ^ γ) / ((γ : ℝ) - 1)) := fun γ => by
    rw [renyi, ← div_neg, neg_sub]
    ring
  have key := Real.rpow_arith_mean_le_arith_mean_rpow Finset.univ p (fun i => p i ^ (α - 1)) (fun i _ => h0 i) h1 (fun i _ => pow_nonneg (h0 i) _)
    ((one_le_div ha).mpr hab)
  have e1 : ∀ i, p i * p i ^ (α - 1) = p i ^ α := fun i => by
    rw [← pow_succ', show α - 1 + 1 = α by omega]
  have e2 : ∀ i, p i * (p i ^ (α - 1)) ^ (((β : ℝ) - 1) / (α - 1)) = p i ^ β := fun i => by
    rw [← Real.rpow_natCast (p i) (α - 1), ← Real.rpow_mul (h0 i), Nat.cast_sub (by omega), Nat.cast_one, mul_div_cancel₀ _ ha.ne',
      show (β : ℝ) - 1 = ((β - 1 : ℕ) : ℝ) by rw [Nat.cast_sub (by omega), Nat.cast_one], Real.rpow_natCast, ← pow_succ', show β - 1 + 1 = β by omega]
  simp only [e1, e2] at key
  have := Real.log_le_log (Real.rpow_pos_of_pos (hpos α) _) key
  rw [Real.log_rpow (hpos α)] at this
  rw [e, e, neg_le_neg_iff, le_div_iff₀ hb]
  calc _ = ((β : ℝ) - 1) / (α - 1) * Real.log (∑ i, p i ^ α) := by ring
    _ ≤ _ := this

/-- the entropy is zero if and only if one probability is one -/
theorem renyi_eq_zero (h1 : ∑ i, p i = 1) {α : ℕ} (hα : 2 ≤ α) : renyi α p = 0 ↔ ∀ i, p i = 0 ∨ p i = 1 := by
  have hpos := sum_pow_pos h0 (by rw [h1]; exact one_pos) α
  have hle := sum_pow_le h0 h1 (α := α) (by omega)
  have hc : (1 : ℝ) - α ≠ 0 := by
    have : (2 : ℝ) ≤ α := by exact_mod_cast hα
    linarith
  have e : renyi α p = 0 ↔ ∑ i, p i ^ α = 1 := by
    rw [renyi, mul_eq_zero, or_iff_right (by simpa using hc), Real.log_eq_zero]
    constructor
    · rintro (h | h | h)
      · exact absurd h hpos.ne'
      · exact h
      · linarith
    · exact fun h => Or.inr (Or.inl h)
  rw [e]
  constructor
  · intro h i
    have : ∑ i, (p i - p i ^ α) = 0 := by rw [Finset.sum_sub_distrib, h1, h, sub_self]
    have hi := (Finset.sum_eq_zero_iff_of_nonneg (fun i _ => sub_nonneg.mpr (pow_le_of_le_one (h0 i) (le_one_of_sum h0 h1 i) (by omega)))).mp this i (Finset.mem_univ i)
    by_contra hne
    push Not at hne
    have h2 : p i < 1 := lt_of_le_of_ne (le_one_of_sum h0 h1 i) hne.2
    have h3 : 0 < p i := lt_of_le_of_ne (h0 i) (Ne.symm hne.1)
    have : p i ^ α < p i ^ 1 := pow_lt_pow_right_of_lt_one₀ h3 h2 (by omega)
    rw [pow_one] at this
    linarith
  · intro h
    rw [← h1]
    refine Finset.sum_congr rfl fun i _ => ?_
    rcases h i with h | h <;> rw [h]
    · exact zero_pow (by omega)
    · exact one_pow _

end

open scoped ComplexOrder in
/-- one eigenvalue is one and the others are zero: the matrix has rank one -/
theorem rank_one_of_eigenvalues {ι κ : Type} [Fintype ι] [Fintype κ] [DecidableEq ι] (C : Matrix ι κ ℂ) (hH : (C * Cᴴ).IsHermitian)
    (h1 : ∑ i, hH.eigenvalues i = 1) (h : ∀ i, hH.eigenvalues i = 0 ∨ hH.eigenvalues i = 1) : ∃ (a : ι → ℂ) (b : κ → ℂ), ∀ i j, C i j = a i * b j := by
  have hr : C.rank = 1 := by
    rw [← Matrix.rank_self_mul_conjTranspose, hH.rank_eq_card_non_zero_eigs, Fintype.card_subtype]
    have : ((Finset.univ.filter fun i => hH.eigenvalues i ≠ 0).card : ℝ) = 1 := by
      rw [← h1, Finset.card_eq_sum_ones, Finset.sum_filter]
      push_cast
      refine Finset.sum_congr rfl fun i _ => ?_
      rcases h i with h | h <;> simp [h]
    exact_mod_cast this
  classical
  rw [Matrix.rank] at hr
  obtain ⟨⟨a, ha⟩, hv⟩ := finrank_le_one_iff.mp hr.le
  have hcol : ∀ j, ∃ c : ℂ, ∀ i, C i j = a i * c := fun j => by
    obtain ⟨c, hc⟩ := hv ⟨C.mulVecLin (Pi.single j 1), LinearMap.mem_range_self _ _⟩
    refine ⟨c, fun i => ?_⟩
    have := congrFun (congrArg Subtype.val hc) i
    simp at this
    rw [mul_comm, this]
  choose b hb using hcol
  exact ⟨a, b, fun i j => hb j i⟩

end Qosy
