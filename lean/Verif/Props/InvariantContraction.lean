import Verif.Props.Core
import Verif.Props.SymmetryMatrix

/-!
# Property C50 for transformations that do not increase norms

`Props/Core.lean` treats the transformations the library builds, which send strings to plus or minus strings.  Here `T` is any rule a user may
write, whose images may be sums of several strings.
-/

namespace Qosy
open Matrix Coef
variable {T : Transformation ℂ} {t : OpType}

/-- the Operator with the coefficients `v` on the strings of a basis -/
noncomputable def withCoefs (b : Basis) (t : OpType) (v : Fin b.strs.length → ℂ) : Operator ℂ := ⟨List.ofFn v, b, t⟩

/-- `T` maps operators on the basis to operators with at most the same norm (of the coefficients) -/
def NormNonIncreasing (T : Transformation ℂ) (b : Basis) (t : OpType) : Prop :=
  ∀ (v : Fin b.strs.length → ℂ) (B : Operator ℂ), T.apply (withCoefs b t v) = .ok B →
    ∑ i : Fin b.strs.length, ‖B.coef b.strs[i]‖ ^ 2 ≤ ∑ i, ‖v i‖ ^ 2

private theorem withCoefs_coef {b : Basis} (hb : b.Inv) (v : Fin b.strs.length → ℂ) (j : Fin b.strs.length) :
    (withCoefs b t v).coef b.strs[j] = v j := by
  show coefT ((List.ofFn v).zip b.strs) _ = _
  have := coefT_zip_mem (cs := List.ofFn v) (by simp) hb.2 j j.2
  rw [Fin.getElem_fin, this]; simp

/-- the result of `invariant_operators` in terms of the symmetry matrix -/
private theorem invariant_eq {b : Basis} {S : Mat ℂ} (h1 : symmetryMatrix b T = .ok S) {m : ℕ} (h3 : S.ncols = m) (eigh : Eigh)
    (pinv : Mat ℂ → Py (Mat ℂ)) {mode : String} {sign : ℤ} (hm : symmetrySign mode = .ok sign) (tol : ℝ) :
    invariantOperators eigh pinv (.strings b) T mode tol = .ok ⟨m, selectColumns (eigh m (hermitianPart (fun i j => S.get i j))) sign tol,
        1 - (sign : ℂ) • hermitianPart (fun i j => S.get i j), fun k => 1 - sign * (eigh m (hermitianPart (fun i j => S.get i j))).evals k,
        (eigh m (hermitianPart (fun i j => S.get i j))).evecs⟩ := by
  subst h3
  unfold invariantOperators
  have e : symmetryMatrixOf pinv (.strings b) T = .ok S := h1
  simp only [e, hm, bind, Except.bind]
  rfl

/-- **C50** (any transformation that does not increase norms): let `T` map the strings of a Basis to Operators on it.  `invariant_operators`
returns orthonormal vectors whose span contains all operators with `T(A) = ± A`; for `A` in the span, the squared norm of `T(A) ∓ A` is at most
`2 tol` times that of `A`; and for all small enough tolerances the span consists exactly of the operators with `T(A) = ± A`. -/
theorem C50_contraction {b : Basis} (hb : b.Inv) (hT : T.Maps t (· ∈ b.strs)) (hs : Significant T b.strs tolTransformation)
    (hc : NormNonIncreasing T b t) (pinv : Mat ℂ → Py (Mat ℂ)) {eigh : Eigh} (he : ExactEigh eigh) {mode : String} {sign : ℤ}
    (hm : symmetrySign mode = .ok sign) : ∃ δ > 0, ∀ tol : ℝ, 0 < tol →
    ∃ (vecs : List (Fin b.strs.length → ℂ)) (M : _) (evals : _) (evecs : _),
      invariantOperators eigh pinv (.strings b) T mode tol = .ok ⟨b.strs.length, vecs, M, evals, evecs⟩ ∧ OrthonormalColumns vecs ∧
      ∀ v : Fin b.strs.length → ℂ, ∃ B, T.apply (withCoefs b t v) = .ok B ∧
        ((∀ s, B.coef s = sign * (withCoefs b t v).coef s) → v ∈ colSpan vecs) ∧
        (v ∈ colSpan vecs → ∑ i : Fin b.strs.length, ‖B.coef b.strs[i] - sign * v i‖ ^ 2 ≤ 2 * (tol * ∑ i, ‖v i‖ ^ 2)) ∧
        (tol ≤ δ → v ∈ colSpan vecs → ∀ s, B.coef s = sign * (withCoefs b t v).coef s) := by
  obtain ⟨S, h1, h2, h3, -, h4⟩ := symmetryMatrix_ok (T := T) (tol := tolTransformation) hb.2 (fun s hs => by
    obtain ⟨O, o1, o2, -⟩ := hT.ok s hs; exact ⟨O, o1, o2⟩)
  rw [← hb.1] at h1
  have hon : ∀ v, (withCoefs b t v).On t (· ∈ b.strs) := fun v => ⟨⟨hb, by simp [withCoefs], hT.type⟩, rfl, fun s hs => hs⟩
  set D : Matrix (Fin b.strs.length) (Fin b.strs.length) ℂ := fun i j => S.get i j with hD
  have act : ∀ v, ∃ B, T.apply (withCoefs b t v) = .ok B ∧ (∀ s ∉ b.strs, B.coef s = 0) ∧ ∀ i : Fin b.strs.length, B.coef b.strs[i] = (D *ᵥ v) i := by
    intro v
    obtain ⟨M, B, k1, k2, k3, k4⟩ := C41_coordinates hb hT hs (hon v)
    rw [h1] at k1
    obtain rfl : S = M := by simpa using k1
    refine ⟨B, k2, fun s hs' => coef_zero_of_not_mem fun h => hs' (k3 s h), fun i => ?_⟩
    rw [Fin.getElem_fin, k4 i i.2]
    refine Finset.sum_congr rfl fun j _ => ?_
    have := withCoefs_coef (t := t) hb v j
    rw [Fin.getElem_fin] at this
    rw [Fin.getElem_fin, this]
  have hcon : ∀ v, vnorm (D *ᵥ v) ≤ vnorm v := by
    intro v
    obtain ⟨B, k1, -, k2⟩ := act v
    refine Real.sqrt_le_sqrt ?_
    simpa only [k2] using hc v B k1
  have hσ : sign ^ 2 = 1 := by
    unfold symmetrySign at hm
    split at hm
    · simp only [Except.ok.injEq] at hm; subst hm; norm_num
    · split at hm
      · simp only [Except.ok.injEq] at hm; subst hm; norm_num
      · simp at hm
  have hσr : ((sign : ℝ)) ^ 2 = 1 := by exact_mod_cast hσ
  have hE := he _ _ (hermitianPart_isHermitian D)
  obtain ⟨δ, hδ, hgap⟩ := hE.exists_gap sign
  refine ⟨δ, hδ, fun tol ht => ?_⟩
  refine ⟨_, _, _, _, invariant_eq h1 h3 eigh pinv hm tol, select_orthonormal hE, fun v => ?_⟩
  obtain ⟨B, k1, k2, k3⟩ := act v
  have key : (∀ s, B.coef s = sign * (withCoefs b t v).coef s) ↔ D *ᵥ v = ((sign : ℝ) : ℂ) • v := by
    constructor
    · intro h
      funext i
      rw [← k3 i, h, withCoefs_coef hb, Pi.smul_apply, smul_eq_mul]; simp
    · intro h s
      by_cases hs' : s ∈ b.strs
      · obtain ⟨i, hi, rfl⟩ := List.getElem_of_mem hs'
        have e1 := k3 ⟨i, hi⟩
        have e2 := withCoefs_coef (t := t) hb v ⟨i, hi⟩
        simp only [Fin.getElem_fin] at e1 e2
        rw [e1, e2, h, Pi.smul_apply, smul_eq_mul]; simp
      · rw [k2 s hs', coef_zero_of_not_mem (A := withCoefs b t v) hs', mul_zero]
  refine ⟨B, k1, fun h => ?_, fun h => ?_, fun htδ h => ?_⟩
  · exact select_of_eigen hE ht ((contraction_eigen hcon hσr v).mpr (key.mp h))
  · have := contraction_near hcon hσr (select_form hE ht h)
    have e : ∀ x : Fin b.strs.length → ℂ, vnorm x ^ 2 = ∑ i, ‖x i‖ ^ 2 := fun x => by
      rw [vnorm, Real.sq_sqrt (Finset.sum_nonneg (fun i _ => by positivity))]
    rw [e, e] at this
    refine le_trans (le_of_eq (Finset.sum_congr rfl fun i _ => ?_)) this
    rw [k3]; simp
  · rw [key, ← contraction_eigen hcon hσr v, ← mem_select_iff hE ht (hgap tol htδ)]
    exact h

/-! ### a rule with sums, and a rule that increases norms -/

private def sX : OpString := ⟨[.X], [1], .pauli, .float1⟩
private def sZ : OpString := ⟨[.Z], [1], .pauli, .float1⟩

/-- the rule `X_1 ↦ a X_1 + c Z_1`, `Z_1 ↦ b X_1 + d Z_1` -/
def mixRule (a b c d : ℂ) : Transformation ℂ := fun s =>
  .ok ⟨if s = ⟨[.X], [1], .pauli, .float1⟩ then [a, c] else [b, d],
    Basis.ofList [⟨[.X], [1], .pauli, .float1⟩, ⟨[.Z], [1], .pauli, .float1⟩], .pauli⟩

/-- the basis `[X_1, Z_1]` -/
def basisXZ : Basis := Basis.ofList [⟨[.X], [1], .pauli, .float1⟩, ⟨[.Z], [1], .pauli, .float1⟩]

private theorem basisXZ_inv : basisXZ.Inv := Basis.Inv.ofList (by decide)

private theorem mixRule_maps (a b c d : ℂ) : (mixRule a b c d).Maps .pauli (· ∈ basisXZ.strs) := by
  refine ⟨?_, ?_⟩
  · intro s hs
    simp only [basisXZ, Basis.ofList, List.mem_cons, List.not_mem_nil, or_false] at hs
    rcases hs with rfl | rfl <;> rfl
  · intro s _
    refine ⟨_, rfl, ⟨basisXZ_inv, ?_, ?_⟩, rfl, fun s' h => h⟩
    · split <;> rfl
    · intro s hs
      simp only [Basis.ofList, List.mem_cons, List.not_mem_nil, or_false] at hs
      rcases hs with rfl | rfl <;> rfl

private theorem mixRule_entry (a b c d : ℂ) : (mixRule a b c d).entry sX sX = a ∧ (mixRule a b c d).entry sZ sX = c ∧
    (mixRule a b c d).entry sX sZ = b ∧ (mixRule a b c d).entry sZ sZ = d := by
  simp [Transformation.entry, mixRule, sX, sZ, Operator.coef, Operator.terms, Basis.ofList, coefT]

private theorem mixRule_apply (a b c d : ℂ) (v : Fin 2 → ℂ) : ∃ B, (mixRule a b c d).apply (withCoefs basisXZ .pauli v) = .ok B ∧
    (∀ s, s ≠ sX → s ≠ sZ → B.coef s = 0) ∧ B.coef sX = a * v 0 + b * v 1 ∧ B.coef sZ = c * v 0 + d * v 1 := by
  obtain ⟨B, h1, h0, h2⟩ := apply_ok (mixRule_maps a b c d) (A := withCoefs basisXZ .pauli v)
    ⟨⟨basisXZ_inv, List.length_ofFn, (mixRule_maps a b c d).type⟩, rfl, fun s hs => hs⟩
  have ht : (withCoefs basisXZ .pauli v).terms = [(v 0, sX), (v 1, sZ)] := rfl
  obtain ⟨e1, e2, e3, e4⟩ := mixRule_entry a b c d
  refine ⟨B, h1, ?_, ?_, ?_⟩
  · intro s n1 n2
    refine coef_zero_of_not_mem fun h => ?_
    have := h0.mem s h
    simp only [basisXZ, Basis.ofList, List.mem_cons, List.not_mem_nil, or_false] at this
    exact this.elim n1 n2
  · rw [h2, ht]; simp only [List.map_cons, List.map_nil, List.sum_cons, List.sum_nil, e1, e3]; ring
  · rw [h2, ht]; simp only [List.map_cons, List.map_nil, List.sum_cons, List.sum_nil, e2, e4]; ring

private theorem sum_two (f : OpString → ℝ) : ∑ i : Fin basisXZ.strs.length, f basisXZ.strs[i] = f sX + f sZ := Fin.sum_univ_two _

/-- non-vacuity of C50_contraction: the average `X_1, Z_1 ↦ (X_1 + Z_1) / 2` is not a signed permutation, and meets the hypotheses -/
example : basisXZ.Inv ∧ (mixRule (1 / 2) (1 / 2) (1 / 2) (1 / 2)).Maps .pauli (· ∈ basisXZ.strs) ∧
    Significant (mixRule (1 / 2) (1 / 2) (1 / 2) (1 / 2)) basisXZ.strs tolTransformation ∧
    NormNonIncreasing (mixRule (1 / 2) (1 / 2) (1 / 2) (1 / 2)) basisXZ .pauli := by
  refine ⟨basisXZ_inv, mixRule_maps _ _ _ _, ?_, ?_⟩
  · obtain ⟨e1, e2, e3, e4⟩ := mixRule_entry (1 / 2) (1 / 2) (1 / 2) (1 / 2)
    have big : absGt (1 / 2 : ℂ) tolTransformation = true := by
      rw [absGt_iff]
      have : ‖(toC (1 / 2 : ℂ) : ℂ)‖ = 1 / 2 := by
        rw [show (toC (1 / 2 : ℂ) : ℂ) = 1 / 2 from rfl]; norm_num
      rw [this, tolTransformation]; norm_num
    intro s hs s' hs'
    right
    rcases (show s = sX ∨ s = sZ by simpa [basisXZ, Basis.ofList, sX, sZ] using hs) with rfl | rfl <;>
      rcases (show s' = sX ∨ s' = sZ by simpa [basisXZ, Basis.ofList, sX, sZ] using hs') with rfl | rfl
    · rw [e1]; exact big
    · rw [e2]; exact big
    · rw [e3]; exact big
    · rw [e4]; exact big
  · intro (v : Fin 2 → ℂ) B h
    obtain ⟨B', h1, -, h2, h3⟩ := mixRule_apply (1 / 2) (1 / 2) (1 / 2) (1 / 2) v
    rw [h] at h1
    obtain rfl := Except.ok.inj h1
    have e := sum_two fun s => ‖B.coef s‖ ^ 2
    have e2 : ∑ i, ‖v i‖ ^ 2 = ‖v 0‖ ^ 2 + ‖v 1‖ ^ 2 := Fin.sum_univ_two _
    refine le_trans (le_of_eq e) (le_trans ?_ (le_of_eq e2.symm))
    rw [h2, h3]
    have e3 : (1 / 2 : ℂ) * v 0 + 1 / 2 * v 1 = (1 / 2 : ℂ) * (v 0 + v 1) := by ring
    rw [e3, norm_mul]
    have h4 : ‖(1 / 2 : ℂ)‖ = 1 / 2 := by norm_num
    rw [h4]
    have h5 := norm_add_le (v 0) (v 1)
    nlinarith [norm_nonneg (v 0), norm_nonneg (v 1), norm_nonneg (v 0 + v 1), sq_nonneg (‖v 0‖ - ‖v 1‖)]

/-- **C50**, the boundary: for a transformation that increases norms invariant operators are missed.  The rule `X_1 ↦ X_1`, `Z_1 ↦ Z_1 + 2 X_1`
leaves `X_1` invariant, but for every tolerance up to 1 the vectors returned for the basis `[X_1, Z_1]` do not span it. -/
theorem C50_norm_increasing_refuted {eigh : Eigh} (he : ExactEigh eigh) (pinv : Mat ℂ → Py (Mat ℂ)) {tol : ℝ} (ht : 0 < tol) (ht1 : tol ≤ 1) :
    ∃ (vecs : List (Fin 2 → ℂ)) (M : _) (evals : _) (evecs : _),
      invariantOperators eigh pinv (.strings basisXZ) (mixRule 1 2 0 1) "commutator" tol = .ok ⟨2, vecs, M, evals, evecs⟩ ∧
      (∃ B, (mixRule 1 2 0 1).apply (withCoefs basisXZ .pauli (![1, 0] : Fin 2 → ℂ)) = .ok B ∧
        ∀ s, B.coef s = (withCoefs basisXZ .pauli (![1, 0] : Fin 2 → ℂ)).coef s) ∧
      (![1, 0] : Fin 2 → ℂ) ∉ colSpan vecs := by
  obtain ⟨S, h1, -, h3, -, h4⟩ := symmetryMatrix_ok (T := mixRule 1 2 0 1) (tol := tolTransformation) (b := [sX, sZ]) (by decide) (fun s hs => by
    obtain ⟨O, o1, o2, -⟩ := (mixRule_maps 1 2 0 1).ok s hs; exact ⟨O, o1, o2⟩)
  obtain ⟨e1, e2, e3, e4⟩ := mixRule_entry 1 2 0 1
  have g1 : absGt (1 : ℂ) tolTransformation = true := by
    rw [absGt_iff, map_one, norm_one, tolTransformation]; norm_num
  have g2 : absGt (2 : ℂ) tolTransformation = true := by
    rw [absGt_iff, map_ofNat, Complex.norm_ofNat, tolTransformation]; norm_num
  have hH : hermitianPart (fun i j => S.get i j : Matrix (Fin 2) (Fin 2) ℂ) = !![1, 1; 1, 1] := by
    have hD : (fun i j => S.get i j : Matrix (Fin 2) (Fin 2) ℂ) = !![1, 2; 0, 1] := by
      have k00 := h4 0 0 (by decide) (by decide)
      have k01 := h4 0 1 (by decide) (by decide)
      have k10 := h4 1 0 (by decide) (by decide)
      have k11 := h4 1 1 (by decide) (by decide)
      simp only [List.getElem_cons_zero, List.getElem_cons_succ, e1, e2, e3, e4] at k00 k01 k10 k11
      rw [dropSmall_eq (Or.inr g1)] at k00 k11
      rw [dropSmall_eq (Or.inr g2)] at k01
      rw [dropSmall_eq (Or.inl rfl)] at k10
      ext i j
      fin_cases i <;> fin_cases j
      · exact k00
      · exact k01
      · exact k10
      · exact k11
    rw [hD, hermitianPart]
    ext i j
    fin_cases i <;> fin_cases j <;> simp <;> norm_num
  have hE := he _ _ (hermitianPart_isHermitian (fun i j => S.get i j : Matrix (Fin 2) (Fin 2) ℂ))
  refine ⟨_, _, _, _, invariant_eq (b := basisXZ) h1 (m := 2) h3 eigh pinv (mode := "commutator") (sign := 1) (by decide) tol, ?_, ?_⟩
  · obtain ⟨B, k1, k0, k2, k3⟩ := mixRule_apply 1 2 0 1 ![1, 0]
    refine ⟨B, k1, fun s => ?_⟩
    have c0 := withCoefs_coef (b := basisXZ) (t := .pauli) basisXZ_inv (![1, 0] : Fin 2 → ℂ) (0 : Fin 2)
    have c1 := withCoefs_coef (b := basisXZ) (t := .pauli) basisXZ_inv (![1, 0] : Fin 2 → ℂ) (1 : Fin 2)
    by_cases n1 : s = sX
    · subst n1
      rw [k2]
      refine Eq.trans ?_ c0.symm
      simp
    · by_cases n2 : s = sZ
      · subst n2
        rw [k3]
        refine Eq.trans ?_ c1.symm
        simp
      · rw [k0 s n1 n2]
        refine (coef_zero_of_not_mem fun h => ?_).symm
        have h : s ∈ [sX, sZ] := h
        simp only [List.mem_cons, List.not_mem_nil, or_false] at h
        exact h.elim n1 n2
  · intro hv
    rw [mem_select_iff hE ht] at hv
    · rw [hH] at hv
      have := congrFun hv 1
      simp [mulVec, dotProduct, Fin.sum_univ_two] at this
    · intro μ z hz hz' hμ
      rw [hH] at hz'
      have a0 := congrFun hz' 0
      have a1 := congrFun hz' 1
      simp [mulVec, dotProduct, Fin.sum_univ_two] at a0 a1
      exfalso
      rw [abs_lt] at hμ
      push_cast at hμ
      have hμ0 : (μ : ℂ) ≠ 0 := by
        intro h0
        have : μ = 0 := by exact_mod_cast h0
        linarith [hμ.1]
      have h01 : z 0 = z 1 := mul_left_cancel₀ hμ0 (a0.symm.trans a1)
      have hz0 : z 0 ≠ 0 := by
        intro h0
        apply hz
        funext i
        fin_cases i
        · exact h0
        · exact h01.symm.trans h0
      have h2 : (μ : ℂ) = 2 := by
        rw [← h01] at a0
        exact mul_right_cancel₀ hz0 (by rw [← a0]; ring)
      have : μ = 2 := by exact_mod_cast h2
      linarith [hμ.2]

end Qosy
