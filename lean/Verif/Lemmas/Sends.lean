import Verif.Lemmas.Reversal

/-! # Transformations that send strings to multiples of strings -/

namespace Qosy
open Coef
variable {K : Type} [Field K] [StarRing K] [Coef K]
variable {𝔸 : Type} [Ring 𝔸] [Algebra K 𝔸] {S : Set ℤ} {t : OpType} {V : OpString → Prop}

theorem Operator.WF.single {C : Operator K} (h : C.WF) {s : OpString} (hs : C.basis.strs = [s]) {x : K} (hx : C.coef s = x) :
    C = ⟨[x], Basis.ofList [s], C.opType⟩ := by
  have h1 := h.eq
  have h2 := h.len
  rw [hs] at h1 h2
  obtain ⟨y, hy⟩ := List.length_eq_one_iff.mp h2
  rw [hy] at h1
  rw [h1] at hx
  simp [Operator.coef, Operator.terms, Basis.ofList] at hx
  rw [hx] at h1
  exact h1

theorem single_coef (x : K) (s s' : OpString) : (⟨[x], Basis.ofList [s], t⟩ : Operator K).coef s' = if s = s' then x else 0 := by
  simp [Operator.coef, Operator.terms, Basis.ofList]

theorem Sends.entry {T : Transformation K} {s s' : OpString} {ε : K} (h : T.Sends s ε s') (u : OpString) :
    T.entry u s = if s' = u then ε else 0 := by
  rw [entry_eq h, single_coef]

theorem Sends.image {T : Transformation K} {s s' : OpString} {ε : K} (h : T.Sends s ε s') : T.image s = [(ε, s')] := by
  rw [image_eq h]; simp [Operator.terms, Basis.ofList]

theorem single_wf (x : K) {s : OpString} (h : s.opType = t) : (⟨[x], Basis.ofList [s], t⟩ : Operator K).WF :=
  Operator.WF.mk' (by simp) rfl (by simpa using h)

/-- applying a transformation to a multiple of one string -/
theorem Sends.apply_single {T : Transformation K} {s s' : OpString} {ε : K} (h : T.Sends s ε s') (ht : s'.opType = s.opType) (c : K) :
    T.apply ⟨[c], Basis.ofList [s], s.opType⟩ = .ok ⟨[c * ε], Basis.ofList [s'], s.opType⟩ := by
  obtain ⟨D, d1, d2, d3, d4, d5⟩ := Operator.smul_ok (single_wf (t := s.opType) ε ht) c
  obtain ⟨E, e1, e2, e3, e4, e5⟩ := Operator.iadd_ok (A := (⟨[], Basis.ofList [], s.opType⟩ : Operator K)) (Operator.WF.mk' (by simp) rfl (by simp)) d2 d3.symm
  rw [Transformation.apply, mkOperator_ok (t := s.opType) (by simp) (by simp)]
  simp only [Operator.terms, Basis.ofList, List.zip_cons_cons, List.zip_nil_left, bind, Except.bind, applyLoop]
  rw [show T s = _ from h]
  simp only [Basis.ofList] at d1 e1
  simp only [Basis.ofList, d1]
  simp only [e1]
  rw [e2.single (s := s') (x := c * ε) (by rw [e4, d4]; simp [Basis.ofList, unionList]) (by rw [e5, d5, zero_coef, zero_add, single_coef, if_pos rfl]), e3]
  rfl

/-- the product of two transformations that send strings to multiples of strings -/
theorem Sends.mul {T U : Transformation K} {s s₁ s₂ : OpString} {ε ε₁ : K} (hU : U.Sends s ε s₁) (hT : T.Sends s₁ ε₁ s₂)
    (ht₁ : s₁.opType = s.opType) (ht₂ : s₂.opType = s.opType) (hg : absGt (ε * ε₁) tolTransformation = true) :
    (T.mul U).Sends s (ε * ε₁) s₂ := by
  obtain ⟨E, e1, e2, e3, e4, e5⟩ := Operator.iadd_ok (A := (⟨[], Basis.ofList [], s.opType⟩ : Operator K)) (Operator.WF.mk' (by simp) rfl (by simp))
    (single_wf (t := s.opType) (ε * ε₁) ht₂) rfl
  unfold Transformation.Sends Transformation.mul productRule
  rw [mkOperator_ok (t := s.opType) (by simp) (by simp), show U s = _ from hU]
  simp only [Operator.terms, Basis.ofList, List.zip_cons_cons, List.zip_nil_left, bind, Except.bind, productOuter]
  rw [show T s₁ = _ from hT]
  simp only [Operator.terms, Basis.ofList, List.zip_cons_cons, List.zip_nil_left, productInner]
  rw [if_pos hg, mkOperator_none_ok (t := s.opType) (by simp) (by simp) (by simpa using ht₂)]
  simp only [bind, Except.bind, Basis.ofList] at e1 ⊢
  simp only [e1]
  rw [e2.single (s := s₂) (x := ε * ε₁) (by rw [e4]; simp [Basis.ofList, unionList]) (by rw [e5, zero_coef, zero_add, single_coef, if_pos rfl]), e3]
  rfl

/-- signs are never dropped -/
theorem sign_kept {x : K} (h : x = 1 ∨ x = -1) : absGt x tolTransformation = true := by
  rw [absGt_iff]
  rcases h with rfl | rfl <;> simp [tolTransformation] <;> norm_num

theorem sign_mul {x y : K} (hx : x = 1 ∨ x = -1) (hy : y = 1 ∨ y = -1) : x * y = 1 ∨ x * y = -1 := by
  rcases hx with rfl | rfl <;> rcases hy with rfl | rfl <;> simp

theorem sign_mul_self {x : K} (h : x = 1 ∨ x = -1) : x * x = 1 := by rcases h with rfl | rfl <;> simp

/-- a transformation that sends every string in `V` to plus or minus a string in `V` -/
structure SignRule (T : Transformation K) (t : OpType) (V : OpString → Prop) (ε : OpString → K) (f : OpString → OpString) : Prop where
  type : ∀ s, V s → s.opType = t
  sends : ∀ s, V s → T.Sends s (ε s) (f s)
  sign : ∀ s, V s → ε s = 1 ∨ ε s = -1
  mem : ∀ s, V s → V (f s)

theorem SignRule.maps {T : Transformation K} {ε : OpString → K} {f : OpString → OpString} (h : SignRule T t V ε f) : T.Maps t V := by
  refine ⟨h.type, fun s hs => ⟨_, h.sends s hs, single_wf _ ?_, h.type s hs, ?_⟩⟩
  · rw [h.type s hs, h.type _ (h.mem s hs)]
  · intro s' hs'
    simp only [Basis.ofList, List.mem_singleton] at hs'
    rw [hs']; exact h.mem s hs

theorem SignRule.noDrop {T U : Transformation K} {ε ε' : OpString → K} {f f' : OpString → OpString} (hT : SignRule T t V ε f)
    (hU : SignRule U t V ε' f') : NoDrop T U V := by
  intro s hs O hO x hx O' hO' y hy
  have h1 := hU.sends s hs
  rw [Transformation.Sends, hO] at h1
  obtain rfl := Except.ok.inj h1
  simp only [Operator.terms, Basis.ofList, List.zip_cons_cons, List.zip_nil_left, List.mem_singleton] at hx
  subst hx
  have h2 := hT.sends _ (hU.mem s hs)
  rw [Transformation.Sends] at h2
  simp only at hO'
  rw [hO'] at h2
  obtain rfl := Except.ok.inj h2
  simp only [Operator.terms, Basis.ofList, List.zip_cons_cons, List.zip_nil_left, List.mem_singleton] at hy
  subst hy
  exact Or.inr (sign_kept (sign_mul (hU.sign s hs) (hT.sign _ (hU.mem s hs))))

theorem SignRule.mul {T U : Transformation K} {ε ε' : OpString → K} {f f' : OpString → OpString} (hT : SignRule T t V ε f)
    (hU : SignRule U t V ε' f') : SignRule (T.mul U) t V (fun s => ε' s * ε (f' s)) (fun s => f (f' s)) := by
  refine ⟨hU.type, fun s hs => ?_, fun s hs => sign_mul (hU.sign s hs) (hT.sign _ (hU.mem s hs)), fun s hs => hT.mem _ (hU.mem s hs)⟩
  apply Sends.mul (hU.sends s hs) (hT.sends _ (hU.mem s hs))
  · rw [hU.type _ hs, hU.type _ (hU.mem s hs)]
  · rw [hU.type _ hs, hU.type _ (hT.mem _ (hU.mem s hs))]
  · exact sign_kept (sign_mul (hU.sign s hs) (hT.sign _ (hU.mem s hs)))

/-- the operator denoted by the image of an Operator -/
theorem apply_denT {M : Type} [AddCommGroup M] [Module K M] {T : Transformation K} (hT : T.Maps t V) {A A' : Operator K} (hA : A.On t V)
    (hA' : T.apply A = .ok A') (d : OpString → M) : A'.den d = (A.terms.map (fun y => y.1 • denT d (T.image y.2))).sum := by
  obtain ⟨C, h1, -, h3⟩ := apply_ok hT hA
  rw [hA'] at h1
  obtain rfl : A' = C := by simpa using h1
  have key : ∀ (ts : List (K × OpString)), (∀ x ∈ ts, V x.2) → ∀ s, coefT (ts.flatMap (fun y =>
      (T.image y.2).map (fun x => (y.1 * x.1, x.2)))) s = (ts.map (fun x => x.1 * T.entry s x.2)).sum := by
    intro ts hts s
    induction ts with
    | nil => simp
    | cons y ts ih =>
      rw [List.flatMap_cons, coefT_append, ih (fun x hx => hts x (List.mem_cons_of_mem _ hx)), List.map_cons, List.sum_cons]
      congr 1
      obtain ⟨O, a1, -⟩ := hT.ok y.2 (hts y (List.mem_cons_self ..))
      rw [entry_eq a1, image_eq a1, Operator.coef]
      induction O.terms with
      | nil => simp
      | cons x xs ihx =>
        rw [List.map_cons, coefT_cons, coefT_cons, ihx, mul_add]
        congr 1
        split <;> simp
  have h4 : ∀ s, coefT A'.terms s = coefT (A.terms.flatMap (fun y => (T.image y.2).map (fun x => (y.1 * x.1, x.2)))) s := by
    intro s
    rw [key _ (fun x hx => hA.mem _ (mem_terms hx))]
    exact h3 s
  have := denT_congr (K := K) (M := M) d h4
  rw [Operator.den, this]
  induction A.terms with
  | nil => simp
  | cons y ts ih =>
    rw [List.flatMap_cons, denT_append, ih, List.map_cons, List.sum_cons]
    congr 1
    induction (T.image y.2) with
    | nil => simp
    | cons x xs ihx => rw [List.map_cons, denT_cons, ihx, denT_cons, smul_add, smul_smul]

/-- a transformation that implements a linear map on strings implements it on Operators -/
theorem apply_den {M : Type} [AddCommGroup M] [Module K M] {T : Transformation K} (hT : T.Maps t V) {A : Operator K} (hA : A.On t V)
    (d e : OpString → M) (h : ∀ s, V s → denT d (T.image s) = e s) : ∃ B, T.apply A = .ok B ∧ B.On t V ∧ B.den d = A.den e := by
  obtain ⟨B, h1, h2, -⟩ := apply_ok hT hA
  refine ⟨B, h1, h2, ?_⟩
  rw [apply_denT hT hA h1, Operator.den, denT]
  congr 1
  apply List.map_congr_left
  intro y hy
  rw [h y.2 (hA.mem _ (mem_terms hy))]

/-- products of strings are preserved by a relabelling of representations -/
theorem StrAlg.transport [Nontrivial 𝔸] {R' R : StrAlg K 𝔸} {ε : OpString → K} {f : OpString → OpString}
    (hε : ∀ s, R'.Str s → ε s ≠ 0) (hf : ∀ s, R'.Str s → R.Str (f s) ∧ (f s).Canonical) (hden : ∀ s, R'.Str s → R'.den s = ε s • R.den (f s))
    {A B C : OpString} {c : K} (hA : R'.Str A) (hB : R'.Str B) (h : productS A B = .ok (c, some C)) :
    R'.Str C ∧ ∃ c', productS (f A) (f B) = .ok (c', some (f C)) ∧ ε A * ε B * c' = c * ε C := by
  obtain ⟨c₁, c₂, C₁, r⟩ := R'.core A B hA hB
  have e := r.prod
  rw [h] at e
  simp only [Except.ok.injEq, Prod.mk.injEq, Option.some.injEq] at e
  obtain ⟨rfl, rfl⟩ := e
  obtain ⟨d₁, d₂, D, q⟩ := R.core (f A) (f B) (hf A hA).1 (hf B hB).1
  refine ⟨r.str, ?_⟩
  have h1 := r.ab
  rw [hden A hA, hden B hB, hden C r.str, smul_mul_smul_comm, q.ab, smul_smul, smul_smul] at h1
  have hne : ε A * ε B * d₁ ≠ 0 := mul_ne_zero (mul_ne_zero (hε A hA) (hε B hB)) q.phase.ne_zero
  have h2 : R.den D = ((ε A * ε B * d₁)⁻¹ * (c * ε C)) • R.den (f C) := by
    rw [mul_smul, ← h1, smul_smul, inv_mul_cancel₀ hne, one_smul]
  obtain ⟨h3, h4⟩ := R.same_string q.str (hf C r.str).1 ⟨q.sorted, q.pref⟩ (hf C r.str).2 h2
  subst h3
  refine ⟨d₁, q.prod, ?_⟩
  rw [inv_mul_eq_one₀ hne] at h4
  exact h4

end Qosy
