import Verif.Lemmas.SymGroup
import Verif.Lemmas.PermGroup
import Verif.Lemmas.Vector
import Verif.Props.Operator

/-! # Symmetrized operators -/

namespace Qosy
open Coef

section general
variable {K : Type} [Field K] [StarRing K] [Coef K]
variable {t : OpType} {n : ℕ}

/-- valid canonical strings on the orbitals `0, …, n-1` -/
def CanonicalOn (t : OpType) (n : ℕ) (s : OpString) : Prop := TypedString t (siteLabels n) s ∧ s.Canonical

/-- the coefficient of `u` in `∑_{σ ∈ G} σ(s)` -/
def symCoef (G : List (Equiv.Perm (Fin n))) (s u : OpString) : ℤ :=
  (G.map (fun σ => if relabelString (permMap σ) s = u then relabelSign (permMap σ) s else 0)).sum

theorem permMap_mul (σ τ : Equiv.Perm (Fin n)) {l : ℤ} (hl : l ∈ siteLabels n) : permMap (σ * τ) l = permMap σ (permMap τ l) := by
  have := (compose_isPermArray (permArray_isPermArray σ) (permArray_isPermArray τ) (by simp [permArray_length]) (C26_compose σ τ)).2.2 l
    (by rw [permArray_length]; exact hl)
  exact this

theorem permMap_one {l : ℤ} (hl : l ∈ siteLabels n) : permMap (1 : Equiv.Perm (Fin n)) l = l := by
  have h : l ∈ siteLabels (permArray (1 : Equiv.Perm (Fin n))).length := by rw [permArray_length]; exact hl
  obtain ⟨k, e⟩ := relabelMap_labelsOf h
  rw [permMap, e]
  simp only [← range_eq_permArray, List.getElem_range]
  have := hl.1; omega

theorem permMap_mapsTo (σ : Equiv.Perm (Fin n)) : Set.MapsTo (permMap σ) (siteLabels n) (siteLabels n) := by
  have := relabelMap_mapsTo (permArray_isPermArray σ)
  rwa [permArray_length] at this

theorem permMap_inj (σ : Equiv.Perm (Fin n)) : Set.InjOn (permMap σ) (siteLabels n) := by
  have := relabelMap_inj (permArray_isPermArray σ)
  rwa [permArray_length] at this

theorem CanonicalOn.act {s : OpString} (h : CanonicalOn t n s) (σ : Equiv.Perm (Fin n)) : CanonicalOn t n (relabelString (permMap σ) s) :=
  ⟨h.1.relabel (permMap_inj σ) (permMap_mapsTo σ), h.1.relabel_canonical (permMap_inj σ)⟩

theorem act_mul {s : OpString} (h : CanonicalOn t n s) (σ τ : Equiv.Perm (Fin n)) :
    relabelString (permMap (σ * τ)) s = relabelString (permMap σ) (relabelString (permMap τ) s) ∧
    relabelSign (permMap (σ * τ)) s = relabelSign (permMap τ) s * relabelSign (permMap σ) (relabelString (permMap τ) s) := by
  obtain ⟨h1, h2⟩ := relabel_comp h.1 (permMap_inj τ) (permMap_mapsTo τ) (permMap_inj σ)
  obtain ⟨h3, h4⟩ := relabel_congr (e := permMap (σ * τ)) (e' := permMap σ ∘ permMap τ) (s := s) (fun l hl => permMap_mul σ τ (h.1.mem l hl))
  exact ⟨h3.trans h1.symm, h4.trans h2.symm⟩

theorem act_one {s : OpString} (h : CanonicalOn t n s) :
    relabelString (permMap (1 : Equiv.Perm (Fin n))) s = s ∧ relabelSign (permMap (1 : Equiv.Perm (Fin n))) s = 1 :=
  relabel_id h.1 h.2 (fun _ hl => permMap_one hl)

theorem act_inv {s : OpString} (h : CanonicalOn t n s) (σ : Equiv.Perm (Fin n)) :
    relabelString (permMap σ⁻¹) (relabelString (permMap σ) s) = s ∧ relabelString (permMap σ) (relabelString (permMap σ⁻¹) s) = s := by
  constructor
  · rw [← (act_mul h σ⁻¹ σ).1, inv_mul_cancel, (act_one h).1]
  · rw [← (act_mul h σ σ⁻¹).1, mul_inv_cancel, (act_one h).1]

theorem act_signRule (σ : Equiv.Perm (Fin n)) : SignRule (labelPermutation (labelsOf (permArray σ)) : Transformation K) t (CanonicalOn t n)
    (fun s => ((relabelSign (permMap σ) s : ℤ) : K)) (relabelString (permMap σ)) := by
  have h := labelPermutation_signRule (K := K) (permArray_isPermArray σ) t
  rw [permArray_length] at h
  exact ⟨fun s hs => hs.1.type, fun s hs => h.sends s hs.1, fun s hs => h.sign s hs.1, fun s hs => hs.act σ⟩

theorem relabelSign_sq (e : ℤ → ℤ) (s : OpString) : relabelSign e s * relabelSign e s = 1 := by
  rcases relabelSign_cases e s with h | h <;> simp [h]

/-- summing over the terms of an Operator a function supported on one string -/
theorem sum_terms_single {A : Operator K} {f : OpString → K} {s : OpString} (h : ∀ u ∈ A.basis.strs, u ≠ s → f u = 0) :
    (A.terms.map (fun x => x.1 * f x.2)).sum = A.coef s * f s := by
  have h' : ∀ x ∈ A.terms, x.2 ≠ s → f x.2 = 0 := fun x hx => h _ (mem_terms hx)
  rw [Operator.coef]
  revert h'
  induction A.terms with
  | nil => simp
  | cons x ts ih =>
    intro h'
    rw [List.map_cons, List.sum_cons, ih (fun y hy => h' y (List.mem_cons_of_mem _ hy)), coefT_cons]
    by_cases e : x.2 = s
    · rw [if_pos e, e]; ring
    · rw [if_neg e, h' x (List.mem_cons_self ..) e]; ring

/-- invariance in terms of coefficients -/
def InvCoef (t : OpType) (σ : Equiv.Perm (Fin n)) (f : OpString → K) : Prop :=
  ∀ s, CanonicalOn t n s → f (relabelString (permMap σ) s) = ((relabelSign (permMap σ) s : ℤ) : K) * f s

theorem apply_perm (σ : Equiv.Perm (Fin n)) {A : Operator K} (hA : A.On t (CanonicalOn t n)) :
    ∃ B, (labelPermutation (labelsOf (permArray σ)) : Transformation K).apply A = .ok B ∧ B.On t (CanonicalOn t n) ∧
      ∀ s, CanonicalOn t n s → B.coef (relabelString (permMap σ) s) = ((relabelSign (permMap σ) s : ℤ) : K) * A.coef s := by
  have hr := act_signRule (K := K) (t := t) σ
  obtain ⟨B, h1, h2, h3⟩ := apply_ok hr.maps hA
  refine ⟨B, h1, h2, fun s hs => ?_⟩
  rw [h3]
  rw [sum_terms_single (s := s)]
  · rw [Sends.entry (hr.sends s hs), if_pos rfl, mul_comm]
  · intro u hu hus
    rw [Sends.entry (hr.sends u (hA.mem u hu)), if_neg]
    intro h
    apply hus
    rw [← (act_inv (hA.mem u hu) σ).1, h, (act_inv hs σ).1]

theorem coef_off {A : Operator K} (hA : A.On t (CanonicalOn t n)) {u : OpString} (hu : ¬ CanonicalOn t n u) : A.coef u = 0 := by
  apply coefT_of_not_mem
  rw [hA.wf.terms_snd]
  exact fun h => hu (hA.mem u h)

theorem invariant_iff (σ : Equiv.Perm (Fin n)) {A : Operator K} (hA : A.On t (CanonicalOn t n)) : Invariant σ A ↔ InvCoef t σ A.coef := by
  obtain ⟨B, h1, h2, h3⟩ := apply_perm σ hA
  constructor
  · rintro ⟨B', h4, h5⟩ s hs
    rw [h1] at h4
    obtain rfl := Except.ok.inj h4
    rw [← h5, h3 s hs]
  · intro h
    refine ⟨B, h1, fun u => ?_⟩
    by_cases hu : CanonicalOn t n u
    · rw [← (act_inv hu σ).2, h3 _ (hu.act σ⁻¹), h _ (hu.act σ⁻¹)]
    · rw [coef_off hA hu, coef_off h2 hu]

theorem InvCoef.mul {σ τ : Equiv.Perm (Fin n)} {f : OpString → K} (h : InvCoef t σ f) (k : InvCoef t τ f) : InvCoef t (σ * τ) f := by
  intro s hs
  rw [(act_mul hs σ τ).1, (act_mul hs σ τ).2, h _ (hs.act τ), k s hs]; push_cast; ring

theorem InvCoef.one (f : OpString → K) : InvCoef t (1 : Equiv.Perm (Fin n)) f := by
  intro s hs
  rw [(act_one hs).1, (act_one hs).2]; simp

theorem InvCoef.inv {σ : Equiv.Perm (Fin n)} {f : OpString → K} (h : InvCoef t σ f) : InvCoef t σ⁻¹ f := by
  intro s hs
  have h1 := h _ (hs.act σ⁻¹)
  rw [(act_inv hs σ).2] at h1
  have h2 := (act_mul hs σ σ⁻¹).2
  rw [mul_inv_cancel, (act_one hs).2] at h2
  rw [h1, ← mul_assoc, ← Int.cast_mul, ← h2]; simp

theorem InvCoef.generated {σs : List (Equiv.Perm (Fin n))} {f : OpString → K} (h : ∀ σ ∈ σs, InvCoef t σ f) :
    ∀ σ ∈ generated σs, InvCoef t σ f := by
  intro σ hσ
  refine Subgroup.closure_induction (p := fun x _ => InvCoef t x f) (fun x hx => h x hx) (InvCoef.one f) (fun _ _ _ _ hx hy => hx.mul hy)
    (fun _ _ hx => hx.inv) hσ

theorem sum_map_perm {ι : Type} {l l' : List ι} (h : l.Perm l') (f : ι → ℤ) : (l.map f).sum = (l'.map f).sum := (h.map f).sum_eq

theorem symCoef_left {G : List (Equiv.Perm (Fin n))} {σ : Equiv.Perm (Fin n)} (hG : (G.map (σ * ·)).Perm G) {r s : OpString}
    (hr : CanonicalOn t n r) (hs : CanonicalOn t n s) :
    symCoef G r (relabelString (permMap σ) s) = relabelSign (permMap σ) s * symCoef G r s := by
  unfold symCoef
  rw [← sum_map_perm hG, List.map_map, ← List.sum_map_mul_left]
  congr 1
  apply List.map_congr_left
  intro τ _
  simp only [Function.comp]
  rw [(act_mul hr σ τ).1, (act_mul hr σ τ).2]
  by_cases h : relabelString (permMap τ) r = s
  · rw [h, if_pos rfl, if_pos rfl]; ring
  · rw [if_neg, if_neg h, mul_zero]
    intro h'
    apply h
    rw [← (act_inv (hr.act τ) σ).1, h', (act_inv hs σ).1]

theorem symCoef_right {G : List (Equiv.Perm (Fin n))} {σ : Equiv.Perm (Fin n)} (hG : (G.map (· * σ)).Perm G) {r : OpString}
    (hr : CanonicalOn t n r) (u : OpString) :
    symCoef G (relabelString (permMap σ) r) u = relabelSign (permMap σ) r * symCoef G r u := by
  unfold symCoef
  rw [← sum_map_perm hG (fun τ => if relabelString (permMap τ) r = u then relabelSign (permMap τ) r else 0), List.map_map, ← List.sum_map_mul_left]
  congr 1
  apply List.map_congr_left
  intro τ _
  simp only [Function.comp]
  rw [(act_mul hr τ σ).1, (act_mul hr τ σ).2]
  split
  · rw [← mul_assoc, relabelSign_sq, one_mul]
  · rw [mul_zero]

theorem symCoef_support {G : List (Equiv.Perm (Fin n))} {r u : OpString} (h : symCoef G r u ≠ 0) : ∃ σ ∈ G, relabelString (permMap σ) r = u := by
  by_contra hc
  push Not at hc
  apply h
  unfold symCoef
  rw [List.map_congr_left (g := fun _ => 0) (fun σ hσ => if_neg (hc σ hσ))]
  simp

/-- averaging an invariant operator over the group gives it back -/
theorem average {G : List (Equiv.Perm (Fin n))} {A : Operator K} (hA : A.On t (CanonicalOn t n)) (h : ∀ σ ∈ G, InvCoef t σ A.coef) (u : OpString) :
    (G.length : K) * A.coef u = (A.terms.map (fun x => x.1 * ((symCoef G x.2 u : ℤ) : K))).sum := by
  induction G with
  | nil => simp [symCoef]
  | cons σ G ih =>
    have ih := ih (fun τ hτ => h τ (List.mem_cons_of_mem _ hτ))
    have hsplit : ∀ x : OpString, symCoef (σ :: G) x u = (if relabelString (permMap σ) x = u then relabelSign (permMap σ) x else 0) + symCoef G x u := by
      intro x; simp [symCoef]
    simp only [hsplit, Int.cast_add, mul_add, List.sum_map_add]
    rw [← ih, List.length_cons, Nat.cast_succ, add_mul, one_mul, add_comm]
    congr 1
    by_cases hu : CanonicalOn t n u
    · rw [sum_terms_single (f := fun v => (((if relabelString (permMap σ) v = u then relabelSign (permMap σ) v else 0 : ℤ)) : K)) (s := relabelString (permMap σ⁻¹) u)]
      · rw [(act_inv hu σ).2, if_pos rfl]
        have := h σ (List.mem_cons_self ..) _ (hu.act σ⁻¹)
        rw [(act_inv hu σ).2] at this
        rw [this, mul_comm]
      · intro v hv hne
        rw [if_neg, Int.cast_zero]
        intro h'
        apply hne
        rw [← h', (act_inv (hA.mem v hv) σ).1]
    · rw [coef_off hA hu]
      symm
      have : ∀ x ∈ A.terms, x.1 * ((if relabelString (permMap σ) x.2 = u then relabelSign (permMap σ) x.2 else 0 : ℤ) : K) = 0 := by
        intro x hx
        rw [if_neg, Int.cast_zero, mul_zero]
        intro h'
        exact hu (h' ▸ (hA.mem _ (mem_terms hx)).act σ)
      rw [List.map_congr_left this]
      simp

/-- the loop of `_symmetrize_opstring` -/
theorem symmetrizeString_ok {s : OpString} (hs : CanonicalOn t n s) : ∀ (G : List (Equiv.Perm (Fin n))) (A : Operator K), A.On t (CanonicalOn t n) →
    ∃ C, symmetrizeString s (G.map permArray) A = .ok C ∧ C.On t (CanonicalOn t n) ∧ (∀ u, C.coef u = A.coef u + ((symCoef G s u : ℤ) : K)) ∧
      ∀ u, u ∈ C.basis.strs ↔ u ∈ A.basis.strs ∨ ∃ σ ∈ G, u = relabelString (permMap σ) s
  | [], A, hA => ⟨A, rfl, hA, by simp [symCoef], by simp⟩
  | σ :: G, A, hA => by
    have hr := act_signRule (K := K) (t := t) σ
    have hsend : labelPermutation (labelsOf (permArray σ)) s = .ok ⟨[_], Basis.ofList [_], s.opType⟩ := hr.sends s hs
    have hst : s.opType = t := hs.1.type
    have hwf : (⟨[((relabelSign (permMap σ) s : ℤ) : K)], Basis.ofList [relabelString (permMap σ) s], s.opType⟩ : Operator K).WF :=
      single_wf _ (by rw [(hs.act σ).1.type, hst])
    obtain ⟨B, b1, b2, b3, b4, b5⟩ := Operator.iadd_ok hA.wf hwf (by rw [hA.type, hst])
    have hB : B.On t (CanonicalOn t n) := ⟨b2, b3.trans hA.type, by
      intro u hu
      rw [b4, mem_unionList] at hu
      rcases hu with hu | hu
      · exact hA.mem u hu
      · simp only [Basis.ofList, List.mem_singleton] at hu
        rw [hu]; exact hs.act σ⟩
    obtain ⟨C, c1, c2, c3, c4⟩ := symmetrizeString_ok hs G B hB
    refine ⟨C, ?_, c2, ?_, ?_⟩
    · rw [List.map_cons, symmetrizeString]
      rw [show (permArray σ).map Int.ofNat = labelsOf (permArray σ) from rfl, hsend]
      simp only [bind, Except.bind]
      rw [b1]
      exact c1
    · intro u
      rw [c3, b5, single_coef]
      have : symCoef (σ :: G) s u = (if relabelString (permMap σ) s = u then relabelSign (permMap σ) s else 0) + symCoef G s u := by
        simp [symCoef]
      rw [this]; push_cast; ring
    · intro u
      rw [c4, b4, mem_unionList]
      simp only [Basis.ofList, List.mem_singleton, List.mem_cons, List.not_mem_nil, or_false]
      constructor
      · rintro ((h | h) | ⟨τ, h1, h2⟩)
        · exact Or.inl h
        · exact Or.inr ⟨σ, Or.inl rfl, h⟩
        · exact Or.inr ⟨τ, Or.inr h1, h2⟩
      · rintro (h | ⟨τ, rfl | h1, h2⟩)
        · exact Or.inl (Or.inl h)
        · exact Or.inl (Or.inr h2)
        · exact Or.inr ⟨τ, h1, h2⟩

theorem symmetrizeOpstring_ok {s : OpString} (hs : CanonicalOn t n s) (G : List (Equiv.Perm (Fin n))) :
    ∃ C : Operator K, symmetrizeOpstring s (G.map permArray) = .ok C ∧ C.On t (CanonicalOn t n) ∧ (∀ u, C.coef u = ((symCoef G s u : ℤ) : K)) ∧
      ∀ u, u ∈ C.basis.strs ↔ ∃ σ ∈ G, u = relabelString (permMap σ) s := by
  obtain ⟨C, h1, h2, h3, h4⟩ := symmetrizeString_ok (K := K) hs G _ (On.zero (t := t) (CanonicalOn t n))
  refine ⟨C, ?_, h2, fun u => by rw [h3, zero_coef, zero_add], fun u => by rw [h4]; simp [Basis.ofList]⟩
  rw [symmetrizeOpstring, mkOperator_ok (t := s.opType) (by simp) (by simp)]
  simp only [bind, Except.bind]
  rw [hs.1.type]
  exact h1

end general

section complex
variable {t : OpType} {n : ℕ}

/-- `remove_zeros` on integer coefficients keeps all coefficients -/
theorem removeZeros_int {A : Operator ℂ} (hA : A.On t (CanonicalOn t n)) {f : OpString → ℤ} (hf : ∀ u, A.coef u = (f u : ℂ)) :
    ∃ C, A.removeZeros = .ok C ∧ C.On t (CanonicalOn t n) ∧ (∀ u, C.coef u = (f u : ℂ)) ∧ (∀ u, u ∈ C.basis.strs ↔ f u ≠ 0) := by
  obtain ⟨C, h1, h2, h3, h4⟩ := Operator.removeZeros_ok hA.wf tolOperator
  have hterm : ∀ x ∈ A.terms, x.1 = (f x.2 : ℂ) := by
    intro x hx
    rw [← hf]
    obtain ⟨i, hi, rfl⟩ := List.getElem_of_mem hx
    have hl := hA.wf.len
    have hi' : i < A.basis.strs.length := by
      rw [Operator.terms, List.length_zip] at hi; omega
    have := coefT_zip_mem hl hA.wf.basis.2 i hi'
    simp only [Operator.terms, List.getElem_zip]
    exact this.symm
  have hgt : ∀ x ∈ A.terms, (absGt x.1 tolOperator = true ↔ f x.2 ≠ 0) := by
    intro x hx
    rw [hterm x hx, absGt_iff]
    change _ < ‖((f x.2 : ℂ))‖ ↔ _
    rw [Complex.norm_intCast]
    constructor
    · intro h h0
      rw [h0] at h
      simp [tolOperator] at h
      norm_num at h
    · intro h0
      have : (1 : ℝ) ≤ |(f x.2 : ℝ)| := by
        rw [← Int.cast_abs]; exact_mod_cast Int.one_le_abs h0
      have h2 : ((tolOperator : ℚ) : ℝ) < 1 := by simp [tolOperator]; norm_num
      linarith
  have hsub : ∀ u, u ∈ C.basis.strs ↔ f u ≠ 0 := by
    intro u
    rw [← h2.terms_snd, h4, List.mem_map]
    constructor
    · rintro ⟨x, hx, rfl⟩
      rw [List.mem_filter] at hx
      exact (hgt x hx.1).mp hx.2
    · intro h0
      have hu : u ∈ A.terms.map Prod.snd := by
        by_contra hc
        have := hf u
        rw [Operator.coef, coefT_of_not_mem hc] at this
        exact h0 (by exact_mod_cast this.symm)
      obtain ⟨x, hx, rfl⟩ := List.mem_map.mp hu
      exact ⟨x, List.mem_filter.mpr ⟨hx, (hgt x hx).mpr h0⟩, rfl⟩
  refine ⟨C, h1, ⟨h2, h3.trans hA.type, ?_⟩, ?_, hsub⟩
  · intro u hu
    apply hA.mem
    rw [← h2.terms_snd, h4] at hu
    rw [← hA.wf.terms_snd]
    exact (List.filter_sublist.map _).subset hu
  · intro u
    rw [← hf, Operator.coef, h4, Operator.coef]
    revert hterm hgt
    generalize A.terms = ts
    induction ts with
    | nil => intros; rfl
    | cons x ts ih =>
      intro hterm hgt
      have ih := ih (fun y hy => hterm y (List.mem_cons_of_mem _ hy)) (fun y hy => hgt y (List.mem_cons_of_mem _ hy))
      by_cases h0 : f x.2 = 0
      · have hx : ¬ absGt x.1 tolOperator = true := fun h => (hgt x (List.mem_cons_self ..)).mp h h0
        rw [List.filter_cons, if_neg hx, ih, coefT_cons, hterm x (List.mem_cons_self ..), h0]
        simp
      · have hx : absGt x.1 tolOperator = true := (hgt x (List.mem_cons_self ..)).mpr h0
        rw [List.filter_cons, if_pos hx, coefT_cons, coefT_cons, ih]

/-- a returned operator: a positive multiple of the symmetrized string, with norm 1 -/
structure Symmetrized (t : OpType) (G : List (Equiv.Perm (Fin n))) (r : OpString) (O : Operator ℂ) : Prop where
  on : O.On t (CanonicalOn t n)
  norm : O.norm .l2 = 1
  coef : ∃ c : ℝ, 0 < c ∧ ∀ u, O.coef u = (c : ℂ) * ((symCoef G r u : ℤ) : ℂ)
  mem : ∀ u, u ∈ O.basis.strs ↔ symCoef G r u ≠ 0

theorem normalizeAbove_ok {tol : ℚ} (h0 : 0 ≤ tol) (h1 : tol < 1) {A : Operator ℂ} (hA : A.On t (CanonicalOn t n)) {G : List (Equiv.Perm (Fin n))} {r : OpString}
    (hf : ∀ u, A.coef u = ((symCoef G r u : ℤ) : ℂ)) (hm : ∀ u, u ∈ A.basis.strs ↔ symCoef G r u ≠ 0) :
    ((∀ u, symCoef G r u = 0) ∧ normalizeAbove tol A = none) ∨ ∃ O, normalizeAbove tol A = some O ∧ Symmetrized t G r O := by
  by_cases hz : ∀ u, symCoef G r u = 0
  · left
    refine ⟨hz, ?_⟩
    have hs : A.basis.strs = [] := List.eq_nil_iff_forall_not_mem.mpr (fun u hu => (hm u).mp hu (hz u))
    have hc : A.coeffs = [] := by
      have := hA.wf.len
      rw [hs] at this
      exact List.length_eq_zero_iff.mp this
    rw [normalizeAbove, if_neg]
    simp only [Operator.norm, hc, List.map_nil, List.sum_nil, Real.sqrt_zero, not_lt]
    exact_mod_cast h0
  · right
    push Not at hz
    obtain ⟨u, hu⟩ := hz
    have hmem : A.coef u ∈ A.coeffs := by
      have hu' := (hm u).mpr hu
      rw [hA.wf.coef_eq, if_pos hu']
      have hlt : A.basis.strs.idxOf u < A.coeffs.length := by rw [hA.wf.len]; exact List.idxOf_lt_length_iff.mpr hu'
      rw [List.getD_eq_getElem _ _ hlt]
      exact List.getElem_mem hlt
    have hne : A.coef u ≠ 0 := by rw [hf]; exact_mod_cast hu
    have hnorm : (1 : ℝ) ≤ A.norm .l2 := by
      apply Real.one_le_sqrt.mpr
      have h1 : (1 : ℝ) ≤ ‖A.coef u‖ ^ 2 := by
        rw [hf, Complex.norm_intCast]
        have : (1 : ℝ) ≤ |(symCoef G r u : ℝ)| := by
          rw [← Int.cast_abs]; exact_mod_cast Int.one_le_abs hu
        nlinarith
      refine h1.trans ?_
      apply List.single_le_sum
      · intro x hx
        obtain ⟨y, _, rfl⟩ := List.mem_map.mp hx
        positivity
      · exact List.mem_map_of_mem (f := fun c : ℂ => ‖c‖ ^ 2) hmem
    obtain ⟨O, c, o1, o2, o3, o4, o5, o6, -⟩ := C13_normalize A .l2 ⟨_, hmem, hne⟩
    have htol : ((tol : ℚ) : ℝ) < A.norm .l2 := lt_of_lt_of_le (by exact_mod_cast h1) hnorm
    refine ⟨O, by rw [normalizeAbove, if_pos htol, o1], ⟨⟨⟨?_, ?_, ?_⟩, ?_, ?_⟩, o6, ?_, ?_⟩⟩
    · rw [o4]; exact hA.wf.basis
    · rw [o3, o4, List.length_map, hA.wf.len]
    · intro s hs; rw [o5]; rw [o4] at hs; exact hA.wf.type s hs
    · rw [o5, hA.type]
    · intro s hs; rw [o4] at hs; exact hA.mem s hs
    · refine ⟨c, o2, fun v => ?_⟩
      rw [← hf, Operator.coef, Operator.coef, Operator.terms, Operator.terms, o3, o4]
      generalize A.basis.strs = strs
      generalize A.coeffs = cs
      induction cs generalizing strs with
      | nil => simp
      | cons a cs ih =>
        cases strs with
        | nil => simp
        | cons s strs =>
          simp only [List.map_cons, List.zip_cons_cons, coefT_cons, ih, mul_add]
          split <;> ring
    · intro v; rw [o4]; exact hm v

/-- what the loop over the basis returns -/
theorem symmetrizeLoop_ok {tol : ℚ} (h0 : 0 ≤ tol) (h1 : tol < 1) (G : List (Equiv.Perm (Fin n))) :
    ∀ (l visited : List OpString) (acc : List (Operator ℂ)), (∀ s ∈ l, CanonicalOn t n s) →
    ∃ new : List (OpString × Operator ℂ), symmetrizeLoop (normalizeAbove tol) (G.map permArray) l visited acc = .ok (acc ++ new.map Prod.snd) ∧
      (∀ p ∈ new, p.1 ∈ l ∧ p.1 ∉ visited ∧ Symmetrized t G p.1 p.2) ∧
      new.Pairwise (fun p q => ∀ σ ∈ G, q.1 ≠ relabelString (permMap σ) p.1) ∧
      ∀ s ∈ l, s ∈ visited ∨ (∃ r ∈ l, (r = s ∨ ∃ σ ∈ G, s = relabelString (permMap σ) r) ∧
        ((∃ p ∈ new, p.1 = r) ∨ ∀ u, symCoef G r u = 0))
  | [], visited, acc, _ => ⟨[], by simp [symmetrizeLoop], by simp, List.Pairwise.nil, by simp⟩
  | s :: l, visited, acc, hl => by
    have hs := hl s (List.mem_cons_self ..)
    have hl' := fun x hx => hl x (List.mem_cons_of_mem _ hx)
    by_cases hv : s ∈ visited
    · obtain ⟨new, a1, a2, a3, a4⟩ := symmetrizeLoop_ok h0 h1 G l visited acc hl'
      refine ⟨new, by rw [symmetrizeLoop, if_pos hv]; exact a1, fun p hp => ⟨List.mem_cons_of_mem _ (a2 p hp).1, (a2 p hp).2⟩, a3, ?_⟩
      intro x hx
      rcases List.mem_cons.mp hx with rfl | hx
      · exact Or.inl hv
      · rcases a4 x hx with h | ⟨r, hr, h⟩
        · exact Or.inl h
        · exact Or.inr ⟨r, List.mem_cons_of_mem _ hr, h⟩
    · obtain ⟨A, b1, b2, b3, b4⟩ := symmetrizeOpstring_ok (K := ℂ) hs G
      obtain ⟨B, c1, c2, c3, c4⟩ := removeZeros_int b2 b3
      have hvis : A.terms.map Prod.snd = A.basis.strs := b2.wf.terms_snd
      rcases normalizeAbove_ok h0 h1 c2 c3 c4 with ⟨d1, d2⟩ | ⟨O, d1, d2⟩
      · obtain ⟨new, a1, a2, a3, a4⟩ := symmetrizeLoop_ok h0 h1 G l (visited ++ A.basis.strs) acc hl'
        refine ⟨new, ?_, ?_, a3, ?_⟩
        · rw [symmetrizeLoop, if_neg hv, b1]
          simp only [bind, Except.bind, c1, d2, hvis]
          exact a1
        · intro p hp
          obtain ⟨e1, e2, e3⟩ := a2 p hp
          exact ⟨List.mem_cons_of_mem _ e1, fun h => e2 (List.mem_append_left _ h), e3⟩
        · intro x hx
          rcases List.mem_cons.mp hx with rfl | hx
          · exact Or.inr ⟨x, List.mem_cons_self .., Or.inl rfl, Or.inr d1⟩
          · rcases a4 x hx with h | ⟨r, hr, h⟩
            · rcases List.mem_append.mp h with h | h
              · exact Or.inl h
              · exact Or.inr ⟨s, List.mem_cons_self .., Or.inr ((b4 x).mp h), Or.inr d1⟩
            · exact Or.inr ⟨r, List.mem_cons_of_mem _ hr, h⟩
      · obtain ⟨new, a1, a2, a3, a4⟩ := symmetrizeLoop_ok h0 h1 G l (visited ++ A.basis.strs) (acc ++ [O]) hl'
        refine ⟨(s, O) :: new, ?_, ?_, ?_, ?_⟩
        · rw [symmetrizeLoop, if_neg hv, b1]
          simp only [bind, Except.bind, c1, d1, hvis]
          rw [a1]; simp
        · intro p hp
          rcases List.mem_cons.mp hp with rfl | hp
          · exact ⟨List.mem_cons_self .., hv, d2⟩
          · obtain ⟨e1, e2, e3⟩ := a2 p hp
            exact ⟨List.mem_cons_of_mem _ e1, fun h => e2 (List.mem_append_left _ h), e3⟩
        · refine List.pairwise_cons.mpr ⟨?_, a3⟩
          intro q hq σ hσ h
          exact (a2 q hq).2.1 (List.mem_append_right _ ((b4 _).mpr ⟨σ, hσ, h⟩))
        · intro x hx
          rcases List.mem_cons.mp hx with rfl | hx
          · exact Or.inr ⟨x, List.mem_cons_self .., Or.inl rfl, Or.inl ⟨(x, O), List.mem_cons_self .., rfl⟩⟩
          · rcases a4 x hx with h | ⟨r, hr, h, h'⟩
            · rcases List.mem_append.mp h with h | h
              · exact Or.inl h
              · exact Or.inr ⟨s, List.mem_cons_self .., Or.inr ((b4 x).mp h), Or.inl ⟨(s, O), List.mem_cons_self .., rfl⟩⟩
            · refine Or.inr ⟨r, List.mem_cons_of_mem _ hr, h, ?_⟩
              rcases h' with ⟨p, hp, h'⟩ | h'
              · exact Or.inl ⟨p, List.mem_cons_of_mem _ hp, h'⟩
              · exact Or.inr h'

end complex

end Qosy
