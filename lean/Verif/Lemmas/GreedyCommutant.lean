import Verif.Spec.GreedyCommutant
import Verif.Lemmas.GreedyLoop
import Verif.Lemmas.LadderHermitian
import Verif.RealCoef
import Mathlib.Data.List.GetD

/-! # Lemmas: real operators have a commutant with a real basis -/

namespace Qosy
open Coef
variable {K : Type} [Field K] [StarRing K] [Coef K]
variable {𝔸 : Type} [Ring 𝔸] [Algebra K 𝔸]

/-- the structure constants of the commutator are imaginary -/
theorem StrAlg.scEntry_imag [Nontrivial 𝔸] (R : StrAlg K 𝔸) {a o b : OpString} (ha : R.Str a) (ho : R.Str o) :
    star (scEntry K .commutator a o b) = -scEntry K .commutator a o b := by
  by_cases h : scEntry K .commutator a o b = 0
  · rw [h]; simp
  obtain ⟨c, c', C, hc⟩ := R.core a o ha ho
  have hop : (operationOpString .commutator a o : Py (K × Option OpString)) = commutatorS a o := rfl
  rcases hc.brackets with ⟨-, h3, -⟩ | ⟨hcc, h3, -⟩
  · exact absurd (by simp [scEntry, hop, h3]) h
  have hCb : C = b := by
    by_contra e
    exact h (by simp [scEntry, hop, h3, e])
  subst hCb
  have he : scEntry K .commutator a o C = c * 2 := by simp [scEntry, hop, h3]
  have hab := hc.ab
  have hba := hc.ba
  rw [hcc] at hba
  have hC := R.sq C hc.str
  have hcs : c * c = -1 := by
    have e1 : (c • R.den C) * (c • R.den C) = (c * c) • (1 : 𝔸) := by rw [smul_mul_smul_comm, hC]
    have e2 : (R.den a * R.den o) * (R.den a * R.den o) = -1 := by
      have : R.den o * R.den a = -(R.den a * R.den o) := by rw [hba, hab, neg_smul]
      calc (R.den a * R.den o) * (R.den a * R.den o) = R.den a * (R.den o * R.den a) * R.den o := by simp only [mul_assoc]
        _ = -(R.den a * R.den a * (R.den o * R.den o)) := by rw [this]; simp only [mul_neg, neg_mul, mul_assoc]
        _ = -1 := by rw [R.sq _ ha, R.sq _ ho, mul_one]
    rw [← hab, e2] at e1
    have e3 : (c * c + 1) • (1 : 𝔸) = 0 := by rw [add_smul, ← e1, one_smul]; simp
    rcases smul_eq_zero.mp e3 with e | e
    · linear_combination e
    · exact absurd e one_ne_zero
  have : (c - I) * (c + I) = 0 := by
    have := I_mul_I (K := K)
    linear_combination hcs - this
  rw [he]
  rcases mul_eq_zero.mp this with e | e
  · rw [sub_eq_zero] at e; rw [e]; simp
  · rw [add_eq_zero_iff_eq_neg] at e; rw [e]; simp

theorem linComb_getD (den : OpString → 𝔸) (A : Basis) (u : ℕ → K) :
    ∑ j : Fin A.len, u j • ((A.strs[(j : ℕ)]?).map den).getD 0 = linComb den A.strs u :=
  Finset.sum_congr rfl fun j _ => by
    rw [List.getElem?_eq_getElem (show (j : ℕ) < A.strs.length from j.2)]; rfl

/-- if a combination of strings commutes with an operator with real coefficients, so does the combination with the conjugated coefficients -/
theorem StrAlg.conj_commutes [Nontrivial 𝔸] (R : StrAlg K 𝔸) {A : Basis} {H : Operator K} (hA : ∀ s ∈ A.strs, R.Str s) (hH : ∀ s ∈ H.basis.strs, R.Str s)
    (hr : ∀ x ∈ H.coeffs, star x = x) {u : ℕ → K} (h : bracketOf .commutator (linComb R.den A.strs u) (H.den R.den) = 0) :
    bracketOf .commutator (linComb R.den A.strs (fun j => star (u j))) (H.den R.den) = 0 := by
  obtain ⟨L, ext, h1, h2⟩ := R.liouvillianStrings_ok .commutator hA hH
  have hent := R.liouvillianStrings_entry .commutator hA hH h1
  have e1 := h2.mulVec u
  have e2 := h2.mulVec (fun j => star (u j))
  rw [linComb_getD] at e1
  rw [linComb_getD R.den A (fun j => star (u j))] at e2
  rw [h] at e1
  rw [← e2]
  have hz := R.independent h2.ext_inv.2 h2.ext_str e1
  refine Finset.sum_eq_zero fun c _ => ?_
  have hs : star (L.mulVec u c) = -L.mulVec (fun j => star (u j)) c := by
    unfold Mat.mulVec
    rw [star_sum, ← Finset.sum_neg_distrib]
    refine Finset.sum_congr rfl fun j _ => ?_
    have hj : (j : ℕ) < A.strs.length := j.2.trans_eq h2.ncols
    have : star (L.get c j) = -L.get c j := by
      rw [hent c j c.2 hj, star_list_sum]
      have key : ∀ t ∈ H.terms, star (t.1 * scEntry K .commutator A.strs[(j : ℕ)] t.2 ext.strs[(c : ℕ)]) =
          -(t.1 * scEntry K .commutator A.strs[(j : ℕ)] t.2 ext.strs[(c : ℕ)]) := by
        intro t ht
        rw [star_mul', hr _ (List.of_mem_zip ht).1, R.scEntry_imag (hA _ (List.getElem_mem hj)) (hH _ (mem_terms ht))]
        ring
      rw [List.map_congr_left key]
      induction H.terms with
      | nil => simp
      | cons t l ih => simp only [List.map_cons, List.sum_cons, ih, neg_add]
    rw [star_mul', this]
    ring
  rw [hz c c.2, star_zero] at hs
  rw [neg_eq_zero.mp hs.symm, zero_smul]

section complex
variable {𝔹 : Type} [Ring 𝔹] [Algebra ℂ 𝔹]

theorem linComb_add (den : OpString → 𝔹) (strs : List OpString) (u v : ℕ → ℂ) :
    linComb den strs (fun j => u j + v j) = linComb den strs u + linComb den strs v := by
  unfold linComb; rw [← Finset.sum_add_distrib]; exact Finset.sum_congr rfl fun _ _ => add_smul _ _ _

theorem linComb_smul (den : OpString → 𝔹) (strs : List OpString) (c : ℂ) (u : ℕ → ℂ) :
    linComb den strs (fun j => c * u j) = c • linComb den strs u := by
  unfold linComb; rw [Finset.smul_sum]; exact Finset.sum_congr rfl fun _ _ => mul_smul _ _ _

theorem commute_iff_bracket {x y : 𝔹} : x * y = y * x ↔ bracketOf .commutator x y = 0 := sub_eq_zero.symm

/-- a real combination of length one that commutes with a real operator, if any combination does -/
theorem StrAlg.real_commuting [Nontrivial 𝔹] (R : StrAlg ℂ 𝔹) {A : Basis} {H : Operator ℂ} (hA : ∀ s ∈ A.strs, R.Str s) (hH : ∀ s ∈ H.basis.strs, R.Str s)
    (hr : ∀ x ∈ H.coeffs, IsReal x) (h : HasCommuting R.den A.strs (H.den R.den)) :
    ∃ v : ℕ → ℂ, (∀ j, IsReal (v j)) ∧ ∑ j : Fin A.strs.length, star (v j) * v j = 1 ∧
      bracketOf .commutator (linComb R.den A.strs v) (H.den R.den) = 0 := by
  obtain ⟨u, ⟨j, hj, hu⟩, hc⟩ := h
  have hc1 := commute_iff_bracket.mp hc
  have hc2 := R.conj_commutes hA hH hr hc1
  -- the real or the imaginary part is not zero
  obtain ⟨w, hw, hw0, hwc⟩ : ∃ w : ℕ → ℂ, (∀ j, IsReal (w j)) ∧ w j ≠ 0 ∧ bracketOf .commutator (linComb R.den A.strs w) (H.den R.den) = 0 := by
    by_cases hre : u j + star (u j) = 0
    · refine ⟨fun j => Complex.I * u j + (-Complex.I) * star (u j), fun k => ?_, ?_, ?_⟩
      · unfold IsReal
        simp only [star_add, star_mul', star_star, star_neg]
        rw [show star Complex.I = -Complex.I from Complex.conj_I]
        ring
      · show Complex.I * u j + -Complex.I * star (u j) ≠ 0
        rw [add_comm, add_eq_zero_iff_eq_neg] at hre
        rw [hre]
        intro e
        apply hu
        have : (2 * Complex.I) * u j = 0 := by linear_combination e
        rcases mul_eq_zero.mp this with e | e
        · simp at e
        · exact e
      · rw [linComb_add R.den A.strs (fun j => Complex.I * u j) (fun j => -Complex.I * star (u j)), linComb_smul, linComb_smul R.den A.strs _ (fun j => star (u j)),
          bracketOf_add_left, bracketOf_smul_left, bracketOf_smul_left, hc1, hc2]
        simp
    · refine ⟨fun j => u j + star (u j), fun k => ?_, hre, ?_⟩
      · unfold IsReal; simp only [star_add, star_star]; ring
      · rw [linComb_add R.den A.strs u (fun j => star (u j)), bracketOf_add_left, hc1, hc2, add_zero]
  let r : ℝ := ∑ j : Fin A.strs.length, ‖w j‖ ^ 2
  have hr0 : 0 < r := Finset.sum_pos' (fun _ _ => by positivity) ⟨⟨j, hj⟩, Finset.mem_univ _, by have := norm_pos_iff.mpr hw0; positivity⟩
  have hsum : ∑ j : Fin A.strs.length, star (w j) * w j = (r : ℂ) := by
    rw [Complex.ofReal_sum]
    exact Finset.sum_congr rfl fun k _ => by
      rw [RCLike.star_def, Complex.conj_mul', Complex.ofReal_pow]
  refine ⟨fun j => ((Real.sqrt r)⁻¹ : ℝ) * w j, fun k => ?_, ?_, ?_⟩
  · unfold IsReal
    rw [star_mul', hw k]
    congr 1
    exact Complex.conj_ofReal _
  · have : ∀ k : Fin A.strs.length, star ((((Real.sqrt r)⁻¹ : ℝ) : ℂ) * w k) * ((((Real.sqrt r)⁻¹ : ℝ) : ℂ) * w k) = ((r⁻¹ : ℝ) : ℂ) * (star (w k) * w k) := by
      intro k
      rw [star_mul', show star (((Real.sqrt r)⁻¹ : ℝ) : ℂ) = (((Real.sqrt r)⁻¹ : ℝ) : ℂ) from Complex.conj_ofReal _]
      have : ((r⁻¹ : ℝ) : ℂ) = (((Real.sqrt r)⁻¹ : ℝ) : ℂ) * (((Real.sqrt r)⁻¹ : ℝ) : ℂ) := by
        rw [← Complex.ofReal_mul, ← mul_inv, Real.mul_self_sqrt hr0.le]
      rw [this]; ring
    rw [Finset.sum_congr rfl fun k _ => this k, ← Finset.mul_sum, hsum, ← Complex.ofReal_mul, inv_mul_cancel₀ hr0.ne', Complex.ofReal_one]
  · rw [linComb_smul, bracketOf_smul_left, hwc, smul_zero]

theorem isComNorm_zero {P : OpString → Prop} {den : OpString → 𝔹} {O H : 𝔹} (h : bracketOf .commutator O H = 0) : IsComNorm P den O H (0 : ℂ) :=
  ⟨[], fun _ => 0, List.nodup_nil, by simp, by simpa [linComb] using h, by simp⟩

theorem GreedyRec.zero_iff [Nontrivial 𝔹] {R : StrAlg ℂ 𝔹} {H : Operator ℂ} {least : Prop} {O : Operator ℂ} {c : ℂ} (h : GreedyRec R H least O c) :
    c = 0 ↔ bracketOf .commutator (O.den R.den) (H.den R.den) = 0 := by
  constructor
  · rintro rfl
    obtain ⟨strs, w, _, _, h3, h4⟩ := h.norm
    have hz : ∀ i : Fin strs.length, w i = 0 := by
      have h5 := congrArg toR h4
      rw [toR_zero, toR_sum] at h5
      have h6 := (Finset.sum_eq_zero_iff_of_nonneg (fun i _ => by rw [toR_mul_self_star]; positivity)).mp h5.symm
      intro i
      have := h6 i (Finset.mem_univ _)
      rw [toR_mul_self_star] at this
      exact norm_eq_zero.mp (pow_eq_zero_iff two_ne_zero |>.mp this)
    rw [h3]
    exact Finset.sum_eq_zero fun i _ => by rw [hz i, zero_smul]
  · intro e
    exact IsComNorm.unique R h.norm (isComNorm_zero e)

theorem GreedyRec.zero_iff_basis [Nontrivial 𝔹] {R : StrAlg ℂ 𝔹} {H : Operator ℂ} {least : Prop} {O : Operator ℂ} {c : ℂ} (h : GreedyRec R H least O c)
    (hl : least) (hH : ∀ s ∈ H.basis.strs, R.Str s) (hr : ∀ x ∈ H.coeffs, IsReal x) : c = 0 ↔ HasCommuting R.den O.basis.strs (H.den R.den) := by
  constructor
  · intro e
    have h1 := h.zero_iff.mp e
    rw [den_linComb h.len] at h1
    refine ⟨_, ?_, commute_iff_bracket.mpr h1⟩
    by_contra hn
    push Not at hn
    have hu := h.unit
    unfold Operator.IsUnit at hu
    have : (O.coeffs.map (fun x => star x * x)).sum = 0 := by
      apply List.sum_eq_zero
      intro y hy
      obtain ⟨x, hx, rfl⟩ := List.mem_map.mp hy
      obtain ⟨i, hi, rfl⟩ := List.mem_iff_getElem.mp hx
      have := hn i (by rw [h.len] at hi; exact hi)
      rw [List.getD_eq_getElem _ _ hi] at this
      rw [this]; simp
    rw [this] at hu
    exact zero_ne_one hu
  · intro e
    obtain ⟨v, hv, hv1, hv2⟩ := R.real_commuting h.basis.2 hH hr e
    have h1 := h.least hl inferInstance v 0 hv hv1 (isComNorm_zero hv2)
    have h2 := h.norm.nonneg
    exact toR_inj h2.1 IsReal.zero (le_antisymm h1 (by rw [toR_zero]; exact h2.2))

end complex

end Qosy
