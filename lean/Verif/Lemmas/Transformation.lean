import Verif.Lemmas.Permutation

/-! # Applying and multiplying transformations -/

namespace Qosy
open Coef
variable {K : Type} [Field K] [StarRing K] [Coef K]
variable {t : OpType} {V : OpString → Prop}

theorem entry_eq {T : Transformation K} {s : OpString} {O : Operator K} (h : T s = .ok O) (s' : OpString) : T.entry s' s = O.coef s' := by
  rw [Transformation.entry, h]

theorem applyLoop_ok {T : Transformation K} (hT : T.Maps t V) : ∀ (ts : List (K × OpString)), (∀ x ∈ ts, V x.2) →
    ∀ N : Operator K, N.On t V → ∃ C, applyLoop T ts N = .ok C ∧ C.On t V ∧
      ∀ s', C.coef s' = N.coef s' + (ts.map (fun x => x.1 * T.entry s' x.2)).sum
  | [], _, N, hN => ⟨N, rfl, hN, by simp⟩
  | (c, s) :: ts, h, N, hN => by
    obtain ⟨O, a1, a2, a3, a4⟩ := hT.ok s (h (c, s) (List.mem_cons_self ..))
    obtain ⟨D, d1, d2, d3, d4, d5⟩ := Operator.smul_ok a2 c
    obtain ⟨E, e1, e2, e3, e4, e5⟩ := Operator.iadd_ok hN.wf d2 (by rw [hN.type, d3, a3])
    have hE : E.On t V := ⟨e2, e3.trans hN.type, by
      intro x hx
      rw [e4] at hx
      rcases mem_unionList.mp hx with hx | hx
      · exact hN.mem x hx
      · rw [d4] at hx; exact a4 x hx⟩
    obtain ⟨C, g1, g2, g3⟩ := applyLoop_ok hT ts (fun x hx => h x (List.mem_cons_of_mem _ hx)) E hE
    refine ⟨C, ?_, g2, ?_⟩
    · rw [applyLoop]
      simp only [a1, d1, e1, bind, Except.bind]
      exact g1
    · intro x
      rw [g3, e5, d5, List.map_cons, List.sum_cons, entry_eq a1]; ring

theorem On.zero (V : OpString → Prop) : (⟨[], Basis.ofList [], t⟩ : Operator K).On t V :=
  ⟨Operator.WF.mk' (by simp) rfl (by simp), rfl, by simp [Basis.ofList]⟩

theorem zero_coef (s : OpString) : (⟨[], Basis.ofList [], t⟩ : Operator K).coef s = 0 := by
  simp [Operator.coef, Operator.terms, Basis.ofList]

theorem apply_ok {T : Transformation K} (hT : T.Maps t V) {A : Operator K} (hA : A.On t V) :
    ∃ C, T.apply A = .ok C ∧ C.On t V ∧ ∀ s', C.coef s' = (A.terms.map (fun x => x.1 * T.entry s' x.2)).sum := by
  obtain ⟨C, h1, h2, h3⟩ := applyLoop_ok hT A.terms (fun x hx => hA.mem _ (mem_terms hx)) _ (On.zero (K := K) (t := t) V)
  refine ⟨C, ?_, h2, fun s' => by rw [h3, zero_coef, zero_add]⟩
  rw [Transformation.apply, mkOperator_ok (t := A.opType) (by simp) (by simp)]
  simp only [bind, Except.bind]
  rw [hA.type]; exact h1

theorem productInner_ok (cC : K) : ∀ (ts : List (K × OpString)), (∀ x ∈ ts, V x.2 ∧ x.2.opType = t ∧
      (cC * x.1 = 0 ∨ absGt (cC * x.1) tolTransformation = true)) → ∀ N : Operator K, N.On t V →
    ∃ C, productInner cC ts N = .ok C ∧ C.On t V ∧ ∀ s', C.coef s' = N.coef s' + cC * coefT ts s'
  | [], _, N, hN => ⟨N, rfl, hN, by simp⟩
  | (cD, sD) :: ts, h, N, hN => by
    obtain ⟨h1, h2, h3⟩ := h (cD, sD) (List.mem_cons_self ..)
    by_cases hg : absGt (cC * cD) tolTransformation = true
    · have hone : (⟨[cC * cD], Basis.ofList [sD], t⟩ : Operator K).WF := Operator.WF.mk' (by simp) rfl (by simpa using h2)
      obtain ⟨E, e1, e2, e3, e4, e5⟩ := Operator.iadd_ok hN.wf hone hN.type
      have hE : E.On t V := ⟨e2, e3.trans hN.type, by
        intro x hx
        rw [e4] at hx
        rcases mem_unionList.mp hx with hx | hx
        · exact hN.mem x hx
        · simp only [Basis.ofList, List.mem_singleton] at hx; rw [hx]; exact h1⟩
      obtain ⟨C, g1, g2, g3⟩ := productInner_ok cC ts (fun x hx => h x (List.mem_cons_of_mem _ hx)) E hE
      refine ⟨C, ?_, g2, ?_⟩
      · rw [productInner, if_pos hg, mkOperator_none_ok (t := t) (by simp) (by simp) (by simpa using h2)]
        simp only [bind, Except.bind, e1]
        exact g1
      · intro s'
        rw [g3, e5, coefT_cons]
        simp only [Operator.coef, Operator.terms, Basis.ofList, List.zip_cons_cons, List.zip_nil_left, coefT_cons, coefT_nil]
        split <;> ring
    · have h0 : cC * cD = 0 := by
        rcases h3 with h3 | h3
        · exact h3
        · exact absurd h3 hg
      obtain ⟨C, g1, g2, g3⟩ := productInner_ok cC ts (fun x hx => h x (List.mem_cons_of_mem _ hx)) N hN
      refine ⟨C, ?_, g2, ?_⟩
      · rw [productInner, if_neg hg]; exact g1
      · intro s'
        rw [g3, coefT_cons, mul_add]
        simp only
        split
        · rw [h0, zero_add]
        · rw [mul_zero, zero_add]

theorem productOuter_ok {T : Transformation K} (hT : T.Maps t V) : ∀ (ts : List (K × OpString)),
    (∀ x ∈ ts, V x.2 ∧ ∀ O', T x.2 = .ok O' → ∀ y ∈ O'.terms, x.1 * y.1 = 0 ∨ absGt (x.1 * y.1) tolTransformation = true) →
    ∀ N : Operator K, N.On t V → ∃ C, productOuter T ts N = .ok C ∧ C.On t V ∧
      ∀ s', C.coef s' = N.coef s' + (ts.map (fun x => x.1 * T.entry s' x.2)).sum
  | [], _, N, hN => ⟨N, rfl, hN, by simp⟩
  | (c, s) :: ts, h, N, hN => by
    obtain ⟨h1, h2⟩ := h (c, s) (List.mem_cons_self ..)
    obtain ⟨O, a1, a2, a3, a4⟩ := hT.ok s h1
    obtain ⟨E, e1, e2, e3⟩ := productInner_ok (t := t) (V := V) c O.terms (fun y hy =>
      ⟨a4 _ (mem_terms hy), (a2.type _ (mem_terms hy)).trans a3, h2 O a1 y hy⟩) N hN
    obtain ⟨C, g1, g2, g3⟩ := productOuter_ok hT ts (fun x hx => h x (List.mem_cons_of_mem _ hx)) E e2
    refine ⟨C, ?_, g2, ?_⟩
    · rw [productOuter]
      simp only [a1, e1, bind, Except.bind]
      exact g1
    · intro s'
      rw [g3, e3, List.map_cons, List.sum_cons, entry_eq a1, ← Operator.coef]; ring

theorem mul_ok {T U : Transformation K} (hT : T.Maps t V) (hU : U.Maps t V) (hd : NoDrop T U V) {s : OpString} (hs : V s)
    {O : Operator K} (hO : U s = .ok O) :
    ∃ C, (T.mul U) s = .ok C ∧ C.On t V ∧ ∀ s', C.coef s' = (O.terms.map (fun x => x.1 * T.entry s' x.2)).sum := by
  obtain ⟨O', a1, a2, a3, a4⟩ := hU.ok s hs
  rw [hO] at a1
  obtain rfl : O = O' := by simpa using a1
  obtain ⟨C, h1, h2, h3⟩ := productOuter_ok hT O.terms (fun x hx => ⟨a4 _ (mem_terms hx), fun O' hO' y hy => hd s hs O hO x hx O' hO' y hy⟩)
    _ (On.zero (K := K) (t := t) V)
  refine ⟨C, ?_, h2, fun s' => by rw [h3, zero_coef, zero_add]⟩
  rw [Transformation.mul, productRule, mkOperator_ok (t := s.opType) (by simp) (by simp)]
  simp only [bind, Except.bind, hO]
  rw [hU.type s hs]; exact h1

theorem mul_maps {T U : Transformation K} (hT : T.Maps t V) (hU : U.Maps t V) (hd : NoDrop T U V) : (T.mul U).Maps t V := by
  refine ⟨hU.type, fun s hs => ?_⟩
  obtain ⟨O, a1, -⟩ := hU.ok s hs
  obtain ⟨C, h1, h2, -⟩ := mul_ok hT hU hd hs a1
  exact ⟨C, h1, h2.wf, h2.type, h2.mem⟩

/-- coefficients of linear combinations -/
theorem sum_terms_congr {A B : Operator K} (h : ∀ s, A.coef s = B.coef s) (f : OpString → K) :
    (A.terms.map (fun x => x.1 * f x.2)).sum = (B.terms.map (fun x => x.1 * f x.2)).sum := by
  have := denT_congr (K := K) (M := K) f (a := A.terms) (b := B.terms) h
  simpa [denT, smul_eq_mul] using this

theorem apply_congr {T : Transformation K} (hT : T.Maps t V) {A B : Operator K} (hA : A.On t V) (hB : B.On t V)
    (h : ∀ s, A.coef s = B.coef s) {A' B' : Operator K} (hA' : T.apply A = .ok A') (hB' : T.apply B = .ok B') (s : OpString) :
    A'.coef s = B'.coef s := by
  obtain ⟨C, h1, -, h3⟩ := apply_ok hT hA
  obtain ⟨D, k1, -, k3⟩ := apply_ok hT hB
  rw [hA'] at h1; rw [hB'] at k1
  obtain rfl : A' = C := by simpa using h1
  obtain rfl : B' = D := by simpa using k1
  rw [h3, k3]
  exact sum_terms_congr h _

/-- the coefficient of `s'` in `(T * U)(s)` -/
theorem mul_entry {T U : Transformation K} (hT : T.Maps t V) (hU : U.Maps t V) (hd : NoDrop T U V) {s : OpString} (hs : V s)
    {O : Operator K} (hO : U s = .ok O) (s' : OpString) :
    (T.mul U).entry s' s = (O.terms.map (fun x => x.1 * T.entry s' x.2)).sum := by
  obtain ⟨C, h1, -, h3⟩ := mul_ok hT hU hd hs hO
  rw [entry_eq h1, h3]

/-- the terms of the image of a string -/
def Transformation.image (T : Transformation K) (s : OpString) : List (K × OpString) :=
  match T s with
  | .ok O => O.terms
  | .error _ => []

theorem image_eq {T : Transformation K} {s : OpString} {O : Operator K} (h : T s = .ok O) : T.image s = O.terms := by
  rw [Transformation.image, h]

/-- the coefficients of an Operator, applied to a function -/
theorem sum_coef_apply {T : Transformation K} (hT : T.Maps t V) {A A' : Operator K} (hA : A.On t V) (hA' : T.apply A = .ok A') (f : OpString → K) :
    (A'.terms.map (fun x => x.1 * f x.2)).sum =
      (A.terms.map (fun y => y.1 * ((T.image y.2).map (fun x => x.1 * f x.2)).sum)).sum := by
  obtain ⟨C, h1, -, h3⟩ := apply_ok hT hA
  rw [hA'] at h1
  obtain rfl : A' = C := by simpa using h1
  have key : ∀ (ts : List (K × OpString)), (∀ x ∈ ts, V x.2) → ∀ s, coefT (ts.flatMap (fun y =>
      (T.image y.2).map (fun x => (y.1 * x.1, x.2)))) s = (ts.map (fun x => x.1 * T.entry s x.2)).sum := by
    intro ts hts s
    induction ts with
    | nil => simp
    | cons y ts ih =>
      rw [List.flatMap_cons, coefT_append, ih (fun x hx => hts x (List.mem_cons_of_mem _ hx)), List.map_cons, List.sum_cons]
      congr 1
      obtain ⟨O, a1, -⟩ := hT.ok y.2 (hts y (List.mem_cons_self ..))
      rw [entry_eq a1, image_eq a1, Operator.coef]
      induction O.terms with
      | nil => simp
      | cons x xs ihx =>
        rw [List.map_cons, coefT_cons, coefT_cons, ihx, mul_add]
        congr 1
        split <;> simp
  have h4 : ∀ s, coefT A'.terms s = coefT (A.terms.flatMap (fun y =>
      (T.image y.2).map (fun x => (y.1 * x.1, x.2)))) s := by
    intro s
    rw [key _ (fun x hx => hA.mem _ (mem_terms hx))]
    exact h3 s
  have := denT_congr (K := K) (M := K) f h4
  simp only [denT, smul_eq_mul] at this
  rw [this]
  induction A.terms with
  | nil => simp
  | cons y ts ih =>
    rw [List.flatMap_cons, List.map_append, List.sum_append, ih, List.map_cons, List.sum_cons, List.map_map]
    congr 1
    induction (T.image y.2) with
    | nil => simp
    | cons x xs ihx => rw [List.map_cons, List.sum_cons, ihx, List.map_cons, List.sum_cons]; simp only [Function.comp]; ring

/-- `(T * U).apply(A)` has the coefficients of `T.apply(U.apply(A))` -/
theorem mul_apply {T U : Transformation K} (hT : T.Maps t V) (hU : U.Maps t V) (hd : NoDrop T U V) {A B : Operator K} (hA : A.On t V)
    (hB : U.apply A = .ok B) : ∃ C D, (T.mul U).apply A = .ok C ∧ T.apply B = .ok D ∧ C.On t V ∧ D.On t V ∧ ∀ s, C.coef s = D.coef s := by
  obtain ⟨B', b1, b2, b3⟩ := apply_ok hU hA
  rw [hB] at b1
  obtain rfl : B = B' := by simpa using b1
  obtain ⟨C, c1, c2, c3⟩ := apply_ok (mul_maps hT hU hd) hA
  obtain ⟨D, d1, d2, d3⟩ := apply_ok hT b2
  refine ⟨C, D, c1, d1, c2, d2, fun s => ?_⟩
  rw [c3, d3, sum_coef_apply hU hA hB]
  congr 1
  apply List.map_congr_left
  intro x hx
  obtain ⟨O, a1, -⟩ := hU.ok x.2 (hA.mem _ (mem_terms hx))
  rw [mul_entry hT hU hd (hA.mem _ (mem_terms hx)) a1, image_eq a1]

end Qosy
