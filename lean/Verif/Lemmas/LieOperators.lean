import Verif.Lemmas.LieInitial
import Verif.Lemmas.LieAlgebra
import Verif.Props.Operator

/-! # The loops of `generate_lie_algebra` for Operators -/

namespace Qosy
open Coef
variable {𝔸 : Type} [Ring 𝔸] [Algebra ℂ 𝔸]

theorem WithinSq.mono {ε : ℝ} {f : OpString → ℂ} {V W : Submodule ℂ (OpString → ℂ)} (h : WithinSq ε f V) (hV : V ≤ W) : WithinSq ε f W := by
  obtain ⟨g, hg, h⟩ := h
  exact ⟨g, hV hg, h⟩

theorem CommutatorWithin.mono {tol : ℝ} {V W : Submodule ℂ (OpString → ℂ)} {A B : Operator ℂ} (h : CommutatorWithin tol V A B) (hV : V ≤ W) :
    CommutatorWithin tol W A B := by
  obtain ⟨C, h1, h2⟩ := h
  exact ⟨C, h1, h2.imp id fun h => h.mono hV⟩

theorem coefSpan_append (a b : List (Operator ℂ)) : coefSpan (a ++ b) = coefSpan a ⊔ coefSpan b := by
  rw [coefSpan, coefSpan, coefSpan, ← Submodule.span_union]
  congr 1
  ext f
  simp only [List.mem_append, Set.mem_setOf_eq, Set.mem_union]
  constructor
  · rintro ⟨A, h | h, rfl⟩
    · left; exact ⟨A, h, rfl⟩
    · right; exact ⟨A, h, rfl⟩
  · rintro (⟨A, h, rfl⟩ | ⟨A, h, rfl⟩)
    · exact ⟨A, Or.inl h, rfl⟩
    · exact ⟨A, Or.inr h, rfl⟩

theorem coefSpan_singleton (A : Operator ℂ) : coefSpan [A] = Submodule.span ℂ {A.coef} := by
  rw [coefSpan]; congr 1; ext f; simp

theorem trimmedSpan_append {tol : ℝ} {n : ℕ} {ops : List (Operator ℂ)} (h : n ≤ ops.length) (b : List (Operator ℂ)) :
    trimmedSpan tol n (ops ++ b) = trimmedSpan tol n ops ⊔ coefSpan b := by
  rw [trimmedSpan, trimmedSpan, List.take_append_of_le_length h, List.drop_append_of_le_length h, coefSpan_append, sup_assoc]

/-- without small coefficients of the generators nothing is trimmed -/
theorem trimmedSpan_eq {tol : ℝ} {gens ops : List (Operator ℂ)} (h : gens <+: ops) (hg : ∀ A ∈ gens, ∀ s, A.coef s = 0 ∨ tol < ‖A.coef s‖) :
    trimmedSpan tol gens.length ops = coefSpan ops := by
  obtain ⟨t, rfl⟩ := h
  rw [trimmedSpan, List.take_left', List.drop_left', coefSpan_append]
  · congr 1
    rw [coefSpan]; congr 1; ext f
    constructor <;> rintro ⟨A, hA, rfl⟩ <;> exact ⟨A, hA, by rw [trimCoef_of (hg A hA)]⟩
  · rfl
  · rfl

/-- the new direction spans the same as the new operator -/
theorem span_snoc {T : Finset OpString} {m : ℕ} {q : Fin m → OpString → ℂ} {f : OpString → ℂ} {c : ℂ} (hc : c ≠ 0) :
    Submodule.span ℂ (Set.range (Fin.snoc q (c • (f - projOn T q f)) : Fin (m + 1) → OpString → ℂ)) =
      Submodule.span ℂ (Set.range q) ⊔ Submodule.span ℂ {f} := by
  have hp : projOn T q f ∈ Submodule.span ℂ (Set.range q) := by
    rw [projOn]
    exact Submodule.sum_mem _ fun k _ => Submodule.smul_mem _ _ (Submodule.subset_span ⟨k, rfl⟩)
  apply le_antisymm
  · apply Submodule.span_le.mpr
    rintro x ⟨k, rfl⟩
    refine Fin.lastCases ?_ (fun k => ?_) k
    · simp only [Fin.snoc_last]
      exact Submodule.smul_mem _ _ (Submodule.sub_mem _ (Submodule.mem_sup_right (Submodule.subset_span rfl)) (Submodule.mem_sup_left hp))
    · simp only [Fin.snoc_castSucc]
      exact Submodule.mem_sup_left (Submodule.subset_span ⟨k, rfl⟩)
  · have h1 : Submodule.span ℂ (Set.range q) ≤ Submodule.span ℂ (Set.range (Fin.snoc q (c • (f - projOn T q f)) : Fin (m + 1) → OpString → ℂ)) := by
      apply Submodule.span_mono
      rintro x ⟨k, rfl⟩
      exact ⟨Fin.castSucc k, by simp⟩
    refine sup_le h1 (Submodule.span_le.mpr ?_)
    rintro x rfl
    have h2 : c • (x - projOn T q x) ∈ Submodule.span ℂ (Set.range (Fin.snoc q (c • (x - projOn T q x)) : Fin (m + 1) → OpString → ℂ)) :=
      Submodule.subset_span ⟨Fin.last m, by simp⟩
    have h3 := Submodule.add_mem _ (Submodule.smul_mem _ c⁻¹ h2) (h1 hp)
    rw [smul_smul, inv_mul_cancel₀ hc, one_smul, sub_add_cancel] at h3
    exact h3

theorem norm_coefVec_sq (T : Finset OpString) (f : OpString → ℂ) : ‖coefVec T f‖ ^ 2 = ∑ s ∈ T, ‖f s‖ ^ 2 := by
  rw [EuclideanSpace.norm_sq_eq]
  exact Finset.sum_coe_sort T (fun s => ‖f s‖ ^ 2)

theorem sum_le_coefVec {T : Finset OpString} {f : OpString → ℂ} (hf : ∀ s, s ∉ T → f s = 0) (F : Finset OpString) :
    ∑ s ∈ F, ‖f s‖ ^ 2 ≤ ‖coefVec T f‖ ^ 2 := by
  classical
  rw [norm_coefVec_sq]
  calc ∑ s ∈ F, ‖f s‖ ^ 2 ≤ ∑ s ∈ F ∪ T, ‖f s‖ ^ 2 := Finset.sum_le_sum_of_subset_of_nonneg Finset.subset_union_left fun _ _ _ => by positivity
    _ = ∑ s ∈ T, ‖f s‖ ^ 2 := by
      symm
      apply Finset.sum_subset Finset.subset_union_right
      intro s _ hs
      rw [hf s hs]; simp

theorem projOn_mem {T : Finset OpString} {m : ℕ} {q : Fin m → OpString → ℂ} (f : OpString → ℂ) : projOn T q f ∈ Submodule.span ℂ (Set.range q) := by
  rw [projOn]
  exact Submodule.sum_mem _ fun k _ => Submodule.smul_mem _ _ (Submodule.subset_span ⟨k, rfl⟩)

/-- the projection is the closest point -/
theorem projOn_closest {T : Finset OpString} {m : ℕ} {q : Fin m → OpString → ℂ} (h : Orthonormal ℂ fun k => coefVec T (q k)) (f : OpString → ℂ)
    {g : OpString → ℂ} (hg : g ∈ Submodule.span ℂ (Set.range q)) : ‖coefVec T (f - projOn T q f)‖ ^ 2 ≤ ‖coefVec T (f - g)‖ ^ 2 := by
  have hd : projOn T q f - g ∈ Submodule.span ℂ (Set.range q) := Submodule.sub_mem _ (projOn_mem f) hg
  have h0 : ∀ x ∈ Submodule.span ℂ (Set.range q), inner ℂ (coefVec T x) (coefVec T (f - projOn T q f)) = 0 := by
    intro x hx
    induction hx using Submodule.span_induction with
    | mem x hx =>
      obtain ⟨k, rfl⟩ := hx
      exact projOn_inner h f k
    | zero => simp
    | add x y _ _ hx hy => rw [coefVec_add, inner_add_left, hx, hy, add_zero]
    | smul c x _ hx => rw [coefVec_smul, inner_smul_left, hx, mul_zero]
  have e : coefVec T (f - g) = coefVec T (projOn T q f - g) + coefVec T (f - projOn T q f) := by
    rw [← coefVec_add]; congr 1; abel
  have := norm_add_sq_eq_norm_sq_add_norm_sq_of_inner_eq_zero (𝕜 := ℂ) _ _ (h0 _ hd)
  rw [e, sq, sq, this]
  nlinarith [mul_self_nonneg ‖coefVec T (projOn T q f - g)‖]

theorem orthonormal_card {T : Finset OpString} {m : ℕ} {q : Fin m → OpString → ℂ} (h : Orthonormal ℂ fun k => coefVec T (q k)) : m ≤ T.card := by
  have := h.linearIndependent.fintype_card_le_finrank
  simpa using this

theorem getElem?_append_some {α : Type} {a : List α} (b : List α) {i : ℕ} {x : α} (h : a[i]? = some x) : (a ++ b)[i]? = some x := by
  rw [List.getElem?_append_left (List.getElem?_eq_some_iff.mp h).1, h]

/-- the commutator of two members, and its multiple by `-i` -/
theorem StrAlg.lieBracket (R : StrAlg ℂ 𝔸) {A B : Operator ℂ} (hA : A.WF) (hB : B.WF) (hsA : ∀ s ∈ A.basis.strs, R.Str s)
    (hsB : ∀ s ∈ B.basis.strs, R.Str s) (ht : A.opType = R.type) (ht' : B.opType = R.type) :
    ∃ C D, commutatorO A B = .ok C ∧ C.smul (-Complex.I) = .ok D ∧ C.WF ∧ D.WF ∧ D.opType = R.type ∧ D.basis.strs = C.basis.strs ∧
      (∀ s ∈ C.basis.strs, R.Res (A.labelSet ∪ B.labelSet) s) ∧ (∀ s, D.coef s = -Complex.I * C.coef s) ∧ D.norm .l2 = C.norm .l2 := by
  obtain ⟨C, h1, h2, h3, h4, -⟩ := R.operator .commutator (tol := 1 / 10 ^ 16) (by norm_num) hA hB hsA hsB ht ht'
  obtain ⟨D, d1, d2, d3, d4, d5⟩ := Operator.smul_ok h2 (-Complex.I)
  refine ⟨C, D, h1, d1, h2, d2, by rw [d3, h3], d4, h4, d5, ?_⟩
  classical
  rw [Operator.norm_eq d2 (T := C.basis.strs.toFinset) (by rw [d4]; simp), Operator.norm_eq h2 (T := C.basis.strs.toFinset) (by simp)]
  have : D.coef = (-Complex.I) • C.coef := by funext s; exact d5 s
  rw [this, coefVec_smul, norm_smul]
  simp

/-- the invariant of the loops -/
structure LieOpInv (t : OpType) (T : Finset OpString) (tol : ℝ) (gens : List (Operator ℂ)) (st : LieOpState) : Prop where
  proj : ∃ (l : List OpString) (m : ℕ) (q : Fin m → OpString → ℂ), st.combined = Basis.ofList l ∧ RepProj T l st.projector q ∧
    Submodule.span ℂ (Set.range q) = trimmedSpan tol gens.length st.lie ∧ st.lie.length ≤ gens.length + m
  all : ∀ A ∈ st.lie, A.WF ∧ A.opType = t ∧ ∀ s ∈ A.basis.strs, s ∈ T
  start : gens <+: st.lie
  derived : ∀ (k : ℕ) (D : Operator ℂ), gens.length ≤ k → st.lie[k]? = some D → ∃ i j A B C, i < k ∧ j < k ∧ st.lie[i]? = some A ∧ st.lie[j]? = some B ∧ commutatorO A B = .ok C ∧
    D.norm .l2 = 1 ∧ ∃ c : ℝ, 0 < c ∧ ∀ s, D.coef s = c * (-Complex.I * C.coef s)
  fresh : ∀ (k : ℕ) (D : Operator ℂ), gens.length ≤ k → st.lie[k]? = some D → ¬ WithinSq tol D.coef (trimmedSpan tol gens.length (st.lie.take k))
  comp : ∀ i j, (i, j) ∈ st.computed → ∃ A B, st.lie[i]? = some A ∧ st.lie[j]? = some B ∧ CommutatorWithin tol (trimmedSpan tol gens.length st.lie) A B
  outer : ∀ i, i < st.indA → ∀ j, j < i → (i, j) ∈ st.computed ∨ (j, i) ∈ st.computed
  inner : ∀ j, j < st.indB → j ≠ st.indA → (st.indA, j) ∈ st.computed ∨ (j, st.indA) ∈ st.computed
  indA : st.indA ≤ st.lie.length
  indB : st.indB ≤ st.lie.length

theorem LieOpInv.length_le {t : OpType} {T : Finset OpString} {tol : ℝ} {gens : List (Operator ℂ)} {st : LieOpState} (h : LieOpInv t T tol gens st) :
    st.lie.length ≤ gens.length + T.card := by
  obtain ⟨l, m, q, _, h2, _, h4⟩ := h.proj
  exact h4.trans (Nat.add_le_add_left (orthonormal_card h2.ortho) _)

/-- the decreasing measure when the list never exceeds `N` operators -/
def lieOpMeasure (N : ℕ) (st : LieOpState) : ℕ := (N + 1 - st.indA) * (N + 2) + (N + 1 - st.indB)

theorem StrAlg.lieOpStep_ok (R : StrAlg ℂ 𝔸) {tol : ℝ} (h0 : 0 ≤ tol) {gens : List (Operator ℂ)} {T : Finset OpString}
    (hT : ∀ s ∈ T, R.Str s) (hclosed : ∀ A B : Operator ℂ, (∀ s ∈ A.basis.strs, s ∈ T) → (∀ s ∈ B.basis.strs, s ∈ T) →
      ∀ s, R.Res (A.labelSet ∪ B.labelSet) s → s ∈ T) {st : LieOpState} (hst : LieOpInv R.type T tol gens st) :
    (lieOpStep tol st = .ok none ∧ LieClosure (trimmedSpan tol gens.length) tol gens st.lie) ∨
    ∃ st', lieOpStep tol st = .ok (some st') ∧ LieOpInv R.type T tol gens st' ∧
      lieOpMeasure (gens.length + T.card) st' < lieOpMeasure (gens.length + T.card) st := by
  have hlen := hst.length_le
  obtain ⟨lie, combined, P, comp, iA, iB⟩ := st
  set N := gens.length + T.card with hN
  simp only at hlen
  have hmB : iB < lie.length → ∀ l' b' P' c', lieOpMeasure N ⟨l', b', P', c', iA, iB + 1⟩ < lieOpMeasure N ⟨lie, combined, P, comp, iA, iB⟩ := by
    intro h l' b' P' c'
    simp only [lieOpMeasure]
    omega
  by_cases hA : iA < lie.length
  · right
    by_cases hB : iB < lie.length
    · by_cases hc : iA = iB ∨ (iA, iB) ∈ comp ∨ (iB, iA) ∈ comp
      · refine ⟨⟨lie, combined, P, comp, iA, iB + 1⟩, ?_, ⟨hst.proj, hst.all, hst.start, hst.derived, hst.fresh, hst.comp, hst.outer, ?_, hst.indA, hB⟩, hmB hB _ _ _ _⟩
        · simp only [lieOpStep, hA, hB, hc, if_true]
        · intro j hj hne
          rcases Nat.lt_succ_iff_lt_or_eq.mp hj with h | rfl
          · exact hst.inner j h hne
          · rcases hc with h | h
            · exact absurd h.symm hne
            · exact h
      · have gA : pyGet lie iA = .ok lie[iA] := by simp [pyGet, hA]
        have gB : pyGet lie iB = .ok lie[iB] := by simp [pyGet, hB]
        obtain ⟨wA, tA, sA⟩ := hst.all _ (List.getElem_mem hA)
        obtain ⟨wB, tB, sB⟩ := hst.all _ (List.getElem_mem hB)
        have hinner : ∀ j, j < iB + 1 → j ≠ iA → (iA, j) ∈ comp ++ [(iA, iB)] ∨ (j, iA) ∈ comp ++ [(iA, iB)] := by
          intro j hj hne
          rcases Nat.lt_succ_iff_lt_or_eq.mp hj with h | rfl
          · rcases hst.inner j h hne with h | h
            · left; exact List.mem_append_left _ h
            · right; exact List.mem_append_left _ h
          · left; simp
        have houter : ∀ i, i < iA → ∀ j, j < i → (i, j) ∈ comp ++ [(iA, iB)] ∨ (j, i) ∈ comp ++ [(iA, iB)] := by
          intro i hi j hj
          rcases hst.outer i hi j hj with h | h
          · left; exact List.mem_append_left _ h
          · right; exact List.mem_append_left _ h
        obtain ⟨C, D, k1, k2, wC, wD, tD, sD, rC, cD, nD⟩ := R.lieBracket wA wB (fun s h => hT s (sA s h)) (fun s h => hT s (sB s h)) tA tB
        have hsC : ∀ s ∈ C.basis.strs, s ∈ T := fun s h => hclosed _ _ sA sB s (rC s h)
        have hcomp : ∀ V, trimmedSpan tol gens.length lie ≤ V → ∀ lie', lie <+: lie' → CommutatorWithin tol V lie[iA] lie[iB] →
            ∀ i j, (i, j) ∈ comp ++ [(iA, iB)] → ∃ A B, lie'[i]? = some A ∧ lie'[j]? = some B ∧ CommutatorWithin tol V A B := by
          rintro V hV lie' ⟨t, rfl⟩ hw i j hij
          rcases List.mem_append.mp hij with h | h
          · obtain ⟨A, B, h1, h2, h3⟩ := hst.comp i j h
            refine ⟨A, B, ?_, ?_, h3.mono hV⟩
            · exact getElem?_append_some t h1
            · exact getElem?_append_some t h2
          · simp only [List.mem_singleton, Prod.mk.injEq] at h
            obtain ⟨rfl, rfl⟩ := h
            exact ⟨_, _, by rw [List.getElem?_append_left hA, List.getElem?_eq_getElem hA], by rw [List.getElem?_append_left hB, List.getElem?_eq_getElem hB], hw⟩
        by_cases hn : tol < D.norm .l2
        · have hCn : 0 < C.norm .l2 := by rw [← nD]; linarith
          have hnz : ¬ (D.norm .l2 = 0 ∧ D.coeffs ≠ []) := fun h => by rw [h.1] at hn; linarith
          set E : Operator ℂ := { D with coeffs := D.coeffs.map (· / (D.norm .l2 : ℂ)) } with hE
          have hEn : D.normalize .l2 = some E := by rw [Operator.normalize, if_neg hnz]
          have e1 : D.coeffs.map (· / (D.norm .l2 : ℂ)) = D.coeffs.map (· * (((D.norm .l2)⁻¹ : ℝ) : ℂ)) := by
            apply List.map_congr_left; intro x _; simp [div_eq_mul_inv]
          have wE : E.WF := ⟨wD.basis, by simp [hE, wD.len], wD.type⟩
          have nE : E.norm .l2 = 1 := by
            rw [hE, e1, C13_norm_smul _ _ (by rw [nD]; positivity), mul_inv_cancel₀ (by linarith)]
          have cE : ∀ s, E.coef s = ((C.norm .l2)⁻¹ : ℝ) * (-Complex.I * C.coef s) := by
            intro s
            rw [wE.coef_eq, ← cD, wD.coef_eq]
            by_cases hs : s ∈ D.basis.strs
            · rw [if_pos hs, if_pos (show s ∈ E.basis.strs from hs), hE, e1]
              simp only [List.getD_eq_getElem?_getD, List.getElem?_map]
              rw [nD]
              cases D.coeffs[D.basis.strs.idxOf s]? <;> simp [mul_comm]
            · rw [if_neg hs, if_neg (show s ∉ E.basis.strs from hs), mul_zero]
          have sE : ∀ s ∈ E.basis.strs, s ∈ T := fun s h => hsC s (by rw [← sD]; exact h)
          obtain ⟨l, m, q, p1, p2, p3, p4⟩ := hst.proj
          simp only at p1 p2 p3 p4
          have hstep : ∀ st', lieOpAdd tol ⟨lie, combined, P, comp, iA, iB⟩ E = .ok st' → lieOpStep tol ⟨lie, combined, P, comp, iA, iB⟩ = .ok (some st') := by
            intro st' h
            simp only [lieOpStep, hA, hB, hc, if_true, if_false, gA, gB, bind, Except.bind, k1, k2, hn, hEn, h]
          have hscale : ∀ g : OpString → ℂ, ∀ F : Finset OpString, ∑ s ∈ F, ‖C.coef s - (((C.norm .l2 : ℂ) * Complex.I) • g) s‖ ^ 2 =
              (C.norm .l2) ^ 2 * ∑ s ∈ F, ‖E.coef s - g s‖ ^ 2 := by
            intro g F
            rw [Finset.mul_sum]
            refine Finset.sum_congr rfl fun s _ => ?_
            have hc0 : (C.norm .l2 : ℂ) ≠ 0 := by exact_mod_cast hCn.ne'
            have : C.coef s - (((C.norm .l2 : ℂ) * Complex.I) • g) s = ((C.norm .l2 : ℂ) * Complex.I) * (E.coef s - g s) := by
              rw [cE, Pi.smul_apply, smul_eq_mul]
              push_cast
              linear_combination (C.coef s * Complex.I * Complex.I) * mul_inv_cancel₀ hc0 + C.coef s * Complex.I_mul_I
            rw [this, norm_mul, norm_mul, mul_pow]
            simp
          have hwithin : ∀ V, WithinSq tol E.coef V → CommutatorWithin tol V lie[iA] lie[iB] := by
            rintro V ⟨g, hg, h⟩
            refine ⟨C, k1, Or.inr ⟨_, Submodule.smul_mem _ ((C.norm .l2 : ℂ) * Complex.I) hg, fun F => ?_⟩⟩
            rw [hscale, mul_comm]
            exact mul_le_mul_of_nonneg_right (h F) (by positivity)
          have hsupp : ∀ s, s ∉ T → (E.coef - projOn T q E.coef) s = 0 := by
            intro s hs
            rw [Pi.sub_apply, wE.coef_supp s (fun h => hs (sE s h)), projOn_supp p2.supp _ s (fun h => hs (p2.sub s h)), sub_zero]
          rcases lieOpAdd_ok (st := ⟨lie, combined, P, comp, iA, iB⟩) p1 p2 wE sE nE tol with ⟨a1, P', a2, a3⟩ | ⟨a1, P', a2, a3⟩
          · have hw : CommutatorWithin tol (trimmedSpan tol gens.length lie) lie[iA] lie[iB] := hwithin _
              ⟨_, p3 ▸ projOn_mem E.coef, fun F => (sum_le_coefVec hsupp F).trans a1⟩
            exact ⟨_, hstep _ a3, ⟨⟨_, m, q, rfl, a2, p3, p4⟩, hst.all, hst.start, hst.derived, hst.fresh, hcomp _ le_rfl _ (List.prefix_refl _) hw,
              houter, hinner, hst.indA, hB⟩, hmB hB _ _ _ _⟩
          · have a2' := a2 h0
            have hpos : 0 < ‖coefVec T (E.coef - projOn T q E.coef)‖ := by
              by_contra hneg
              have : ‖coefVec T (E.coef - projOn T q E.coef)‖ = 0 := le_antisymm (not_lt.mp hneg) (norm_nonneg _)
              rw [this] at a1; norm_num at a1; linarith
            have hV : trimmedSpan tol gens.length (lie ++ [E]) = trimmedSpan tol gens.length lie ⊔ Submodule.span ℂ {E.coef} := by
              rw [trimmedSpan_append hst.start.length_le, coefSpan_singleton]
            have hnew : ¬ WithinSq tol E.coef (trimmedSpan tol gens.length lie) := by
              rintro ⟨g, hg, h⟩
              rw [← p3] at hg
              have h1 := projOn_closest p2.ortho E.coef hg
              have h2 := h T
              rw [norm_coefVec_sq T (E.coef - g)] at h1
              simp only [Pi.sub_apply] at h1
              linarith
            refine ⟨_, hstep _ a3, ⟨⟨_, m + 1, _, rfl, a2', ?_, ?_⟩, ?_, ?_, ?_, ?_, hcomp _ ?_ _ (List.prefix_append _ _) (hwithin _ ?_),
              houter, hinner, ?_, ?_⟩, hmB hB _ _ _ _⟩
            · rw [span_snoc (by exact_mod_cast (inv_pos.mpr hpos).ne'), p3, hV]
            · simp only [List.length_append, List.length_singleton]; omega
            · intro A hA
              rcases List.mem_append.mp hA with h | h
              · exact hst.all A h
              · rw [List.mem_singleton.mp h]; exact ⟨wE, tD, sE⟩
            · exact hst.start.trans (List.prefix_append _ _)
            · intro k D' hk hD'
              simp only at hD' ⊢
              rcases Nat.lt_or_ge k lie.length with hkl | hkl
              · rw [List.getElem?_append_left hkl] at hD'
                obtain ⟨i, j, A, B, C', h1, h2, h3, h4, h5⟩ := hst.derived k D' hk hD'
                exact ⟨i, j, A, B, C', h1, h2, getElem?_append_some _ h3, getElem?_append_some _ h4, h5⟩
              · have hk' : k = lie.length := by
                  have := (List.getElem?_eq_some_iff.mp hD').1
                  simp only [List.length_append, List.length_singleton] at this; omega
                subst hk'
                have hE' : E = D' := by simpa using hD'
                subst hE'
                exact ⟨iA, iB, lie[iA], lie[iB], C, hA, hB, by rw [List.getElem?_append_left hA, List.getElem?_eq_getElem hA],
                  by rw [List.getElem?_append_left hB, List.getElem?_eq_getElem hB], k1, nE, _, inv_pos.mpr hCn, cE⟩
            · intro k D' hk hD'
              simp only at hD' ⊢
              rcases Nat.lt_or_ge k lie.length with hkl | hkl
              · rw [List.getElem?_append_left hkl] at hD'
                rw [List.take_append_of_le_length hkl.le]
                exact hst.fresh k D' hk hD'
              · have hk' : k = lie.length := by
                  have := (List.getElem?_eq_some_iff.mp hD').1
                  simp only [List.length_append, List.length_singleton] at this; omega
                subst hk'
                have hE' : E = D' := by simpa using hD'
                subst hE'
                rw [List.take_left' rfl]
                exact hnew
            · rw [hV]; exact le_sup_left
            · refine ⟨E.coef, ?_, fun F => by simpa using h0⟩
              rw [hV]; exact Submodule.mem_sup_right (Submodule.subset_span rfl)
            · have := hst.indA
              simp only [List.length_append, List.length_singleton] at this ⊢; omega
            · simp only [List.length_append, List.length_singleton]; omega
        · have hw : ∀ V, CommutatorWithin tol V lie[iA] lie[iB] := fun V => ⟨C, k1, Or.inl (by rw [← nD]; exact not_lt.mp hn)⟩
          refine ⟨⟨lie, combined, P, comp ++ [(iA, iB)], iA, iB + 1⟩, ?_, ⟨hst.proj, hst.all, hst.start, hst.derived, hst.fresh,
            hcomp _ le_rfl _ (List.prefix_refl _) (hw _), houter, hinner, hst.indA, hB⟩, hmB hB _ _ _ _⟩
          simp only [lieOpStep, hA, hB, hc, if_true, if_false, gA, gB, bind, Except.bind, k1, k2, hn]
    · refine ⟨⟨lie, combined, P, comp, iA + 1, 0⟩, ?_, ⟨hst.proj, hst.all, hst.start, hst.derived, hst.fresh, hst.comp, ?_, ?_, hA, Nat.zero_le _⟩, ?_⟩
      · simp only [lieOpStep, hA, hB, if_true, if_false]
      · intro i hi j hj
        rcases Nat.lt_succ_iff_lt_or_eq.mp hi with h | rfl
        · exact hst.outer i h j hj
        · exact hst.inner j (by simp only; omega) (by simp only; omega)
      · intro j hj; simp at hj
      · simp only [lieOpMeasure]
        have e : N + 1 - iA = (N + 1 - (iA + 1)) + 1 := by omega
        rw [e, Nat.add_mul]
        have := hst.indB
        simp only at this
        omega
  · left
    refine ⟨by simp only [lieOpStep, hA, if_false], hst.start, hst.derived, hst.fresh, ?_⟩
    intro i j A B hij hAi hBj
    simp only at hAi hBj ⊢
    have hi := (List.getElem?_eq_some_iff.mp hAi).1
    have hj := (List.getElem?_eq_some_iff.mp hBj).1
    have key : ∀ (i j : ℕ) (A B : Operator ℂ), lie[i]? = some A → lie[j]? = some B → ((i, j) ∈ comp ∨ (j, i) ∈ comp) →
        CommutatorWithin tol (trimmedSpan tol gens.length lie) A B ∨ CommutatorWithin tol (trimmedSpan tol gens.length lie) B A := by
      intro i j A B hA hB h
      rcases h with h | h
      · obtain ⟨a, b, h1, h2, h3⟩ := hst.comp _ _ h
        simp only [hA, hB, Option.some.injEq] at h1 h2
        left; rw [h1, h2]; exact h3
      · obtain ⟨a, b, h1, h2, h3⟩ := hst.comp _ _ h
        simp only [hA, hB, Option.some.injEq] at h1 h2
        right; rw [h1, h2]; exact h3
    rcases Nat.lt_or_gt_of_ne hij with h | h
    · exact (key j i B A hBj hAi (hst.outer j (by simp only; omega) i h)).symm
    · exact key i j A B hAi hBj (hst.outer i (by simp only; omega) j h)

theorem StrAlg.lieOpRun_ok (R : StrAlg ℂ 𝔸) {tol : ℝ} (h0 : 0 ≤ tol) {gens : List (Operator ℂ)} {T : Finset OpString}
    (hT : ∀ s ∈ T, R.Str s) (hclosed : ∀ A B : Operator ℂ, (∀ s ∈ A.basis.strs, s ∈ T) → (∀ s ∈ B.basis.strs, s ∈ T) →
      ∀ s, R.Res (A.labelSet ∪ B.labelSet) s → s ∈ T) :
    ∀ (m : ℕ) (st : LieOpState), LieOpInv R.type T tol gens st → lieOpMeasure (gens.length + T.card) st < m →
      ∃ r, (∀ n, m ≤ n → lieOpRun tol n st = .ok (some r)) ∧ (∀ A ∈ r, A.WF ∧ A.opType = R.type ∧ ∀ s ∈ A.basis.strs, s ∈ T) ∧
        LieClosure (trimmedSpan tol gens.length) tol gens r := by
  intro m
  induction m with
  | zero => intro st _ h; omega
  | succ m ih =>
    intro st hst hm
    rcases R.lieOpStep_ok h0 hT hclosed hst with ⟨k1, k2⟩ | ⟨st', k1, k2, k3⟩
    · refine ⟨st.lie, ?_, hst.all, k2⟩
      intro n hn
      obtain ⟨n, rfl⟩ := Nat.exists_eq_add_of_le' (by omega : 1 ≤ n)
      simp only [lieOpRun, k1, bind, Except.bind]
    · obtain ⟨r, r1, r2⟩ := ih st' k2 (by omega)
      refine ⟨r, ?_, r2⟩
      intro n hn
      obtain ⟨n, rfl⟩ := Nat.exists_eq_add_of_le' (by omega : 1 ≤ n)
      simp only [lieOpRun, k1, bind, Except.bind]
      exact r1 n (by omega)

theorem StrAlg.generateLieAlgebraOps_ok (R : StrAlg ℂ 𝔸) {tol : ℝ} (h0 : 0 ≤ tol) {gens : List (Operator ℂ)} (hne : gens ≠ [])
    (hg : ∀ A ∈ gens, A.WF ∧ A.opType = R.type ∧ ∀ s ∈ A.basis.strs, R.Str s)
    (hfin : ∀ F : Finset ℤ, {s : OpString | R.Str s ∧ s.Canonical ∧ ∀ l ∈ s.labels, l ∈ F}.Finite) :
    ∃ (m : ℕ) (r : List (Operator ℂ)), (∀ n, m ≤ n → generateLieAlgebraOps gens n tol = .ok (some r)) ∧
      (∀ A ∈ r, A.WF ∧ A.opType = R.type ∧ ∀ s ∈ A.basis.strs, R.Str s ∧ ((∃ A ∈ gens, s ∈ A.basis.strs) ∨ s.Canonical) ∧
        ∀ l ∈ s.labels, ∃ A ∈ gens, l ∈ A.labelSet) ∧
      LieClosure (trimmedSpan tol gens.length) tol gens r := by
  classical
  set G : List OpString := gens.flatMap fun A => A.basis.strs with hG
  set F : Finset ℤ := G.toFinset.biUnion (fun s => s.labels.toFinset) with hF
  have hmG : ∀ s, s ∈ G ↔ ∃ A ∈ gens, s ∈ A.basis.strs := fun s => by simp [hG]
  have hmF : ∀ l, l ∈ F ↔ ∃ s ∈ G, l ∈ s.labels := fun l => by simp [hF]
  set T : Finset OpString := G.toFinset ∪ (hfin F).toFinset with hTdef
  have hmT : ∀ s, s ∈ T ↔ s ∈ G ∨ (R.Str s ∧ s.Canonical ∧ ∀ l ∈ s.labels, l ∈ F) := fun s => by simp [hTdef]
  have hT : ∀ s ∈ T, R.Str s := by
    intro s hs
    rcases (hmT s).mp hs with h | h
    · obtain ⟨A, hA, h⟩ := (hmG s).mp h
      exact (hg A hA).2.2 s h
    · exact h.1
  have hTF : ∀ s ∈ T, ∀ l ∈ s.labels, l ∈ F := by
    intro s hs l hl
    rcases (hmT s).mp hs with h | h
    · exact (hmF l).mpr ⟨s, h, hl⟩
    · exact h.2.2 l hl
  have hclosed : ∀ A B : Operator ℂ, (∀ s ∈ A.basis.strs, s ∈ T) → (∀ s ∈ B.basis.strs, s ∈ T) →
      ∀ s, R.Res (A.labelSet ∪ B.labelSet) s → s ∈ T := by
    rintro A B hA hB s ⟨h1, h2, h3, h4⟩
    refine (hmT s).mpr (Or.inr ⟨h1, ⟨h2, h4⟩, fun l hl => ?_⟩)
    rcases h3 l hl with ⟨s', hs', hl'⟩ | ⟨s', hs', hl'⟩
    · exact hTF s' (hA s' hs') l hl'
    · exact hTF s' (hB s' hs') l hl'
  obtain ⟨l, l1, l2, l3⟩ := combinedBasis_ok gens
  have hlT : ∀ s ∈ l, s ∈ T := fun s hs => (hmT s).mpr (Or.inl ((hmG s).mpr ((l3 s).mp hs)))
  obtain ⟨P, m, q, p1, p2, p3⟩ := initialProjector_ok (tol := tol) (T := T) (fun A hA => (hg A hA).1) l2
    (fun A hA s hs => (l3 s).mpr ⟨A, hA, hs⟩) hlT
  have hinv : LieOpInv R.type T tol gens ⟨gens, Basis.ofList l, P, [], 0, 0⟩ := by
    refine ⟨⟨l, m, q, rfl, p2, ?_, by simp only; omega⟩, ?_, List.prefix_refl _, ?_, ?_, by simp, by simp, by simp, by simp, by simp⟩
    · rw [p3, trimmedSpan]
      simp only [List.take_length, List.drop_length]
      have : coefSpan [] = ⊥ := by rw [coefSpan]; simp
      rw [this, sup_bot_eq]
    · intro A hA
      exact ⟨(hg A hA).1, (hg A hA).2.1, fun s hs => (hmT s).mpr (Or.inl ((hmG s).mpr ⟨A, hA, hs⟩))⟩
    · intro k D hk hD
      have := (List.getElem?_eq_some_iff.mp hD).1
      simp only at this; omega
    · intro k D hk hD
      have := (List.getElem?_eq_some_iff.mp hD).1
      simp only at this; omega
  obtain ⟨r, r1, r2, r3⟩ := R.lieOpRun_ok h0 hT hclosed _ _ hinv (Nat.lt_succ_self _)
  refine ⟨lieOpMeasure (gens.length + T.card) ⟨gens, Basis.ofList l, P, [], 0, 0⟩ + 1, r, fun n hn => ?_, ?_, r3⟩
  · rw [generateLieAlgebraOps, if_neg hne]
    simp only [l1, p1, bind, Except.bind]
    exact r1 n hn
  · intro A hA
    refine ⟨(r2 A hA).1, (r2 A hA).2.1, fun s hs => ?_⟩
    have hsT := (r2 A hA).2.2 s hs
    refine ⟨hT s hsT, ?_, fun x hx => ?_⟩
    · rcases (hmT s).mp hsT with h | h
      · left; exact (hmG s).mp h
      · right; exact h.2.1
    · obtain ⟨s', h1, h2⟩ := (hmF x).mp (hTF s hsT x hx)
      obtain ⟨A', h3, h4⟩ := (hmG s').mp h1
      exact ⟨A', h3, s', h4, h2⟩

end Qosy
