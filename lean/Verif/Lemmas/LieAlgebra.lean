import Verif.Lemmas.StrAlg
import Verif.Lemmas.Basis
import Verif.Model.LieAlgebra
import Verif.Spec.LieAlgebra
import Mathlib.Data.Set.Card
import Mathlib.Data.Set.Finite.List

/-! # The Lie algebra generated by strings -/

namespace Qosy
open Coef
variable {K : Type} [Field K] [StarRing K] [Coef K]
variable {𝔸 : Type} [Ring 𝔸] [Algebra K 𝔸]

/-- the commutator of two strings is a multiple of a member -/
def LieClosedPair (K : Type) [Field K] {𝔸 : Type} [Ring 𝔸] [Algebra K 𝔸] (den : OpString → 𝔸) (T : OpString → Prop) (a b : OpString) : Prop :=
  den a * den b - den b * den a = 0 ∨ ∃ C, T C ∧ ∃ c : K, c ≠ 0 ∧ den a * den b - den b * den a = c • den C

theorem LieClosedPair.symm {den : OpString → 𝔸} {T : OpString → Prop} {a b : OpString} (h : LieClosedPair K den T a b) : LieClosedPair K den T b a := by
  rcases h with h | ⟨C, h1, c, h2, h3⟩
  · left; rw [← neg_sub, h, neg_zero]
  · right; exact ⟨C, h1, -c, neg_ne_zero.mpr h2, by rw [← neg_sub, h3, neg_smul]⟩

theorem LieClosedPair.mono {den : OpString → 𝔸} {T T' : OpString → Prop} {a b : OpString} (h : LieClosedPair K den T a b)
    (hT : ∀ s, T s → T' s) : LieClosedPair K den T' a b := by
  rcases h with h | ⟨C, h1, c, h2, h3⟩
  · left; exact h
  · right; exact ⟨C, hT C h1, c, h2, h3⟩

/-- canonical strings over a finite set of labels, from a finite list of operators -/
theorem finite_canonical (L : List Op) (t : OpType) (F : Finset ℤ) :
    {s : OpString | (∀ op ∈ s.ops, op ∈ L) ∧ s.opType = t ∧ s.ops.length = s.labels.length ∧ s.labels.Pairwise (· < ·) ∧
      (s.pref = .imag ∨ s.pref = .float1) ∧ ∀ l ∈ s.labels, l ∈ F}.Finite := by
  have hops : {o : List Op | o.length ≤ F.card ∧ ∀ x ∈ o, x ∈ L}.Finite := by
    have h1 : ({x | x ∈ L} : Set Op).Finite := L.finite_toSet
    have := List.finite_length_le {x // x ∈ L} F.card
    have h2 := this.image (fun l => l.map Subtype.val)
    refine h2.subset ?_
    rintro o ⟨h3, h4⟩
    exact ⟨o.attachWith _ h4, by simpa using h3, by simp⟩
  have hlab : {o : List ℤ | o.length ≤ F.card ∧ ∀ x ∈ o, x ∈ F}.Finite := by
    have := List.finite_length_le {x // x ∈ F} F.card
    have h2 := this.image (fun l => l.map Subtype.val)
    refine h2.subset ?_
    rintro o ⟨h3, h4⟩
    exact ⟨o.attachWith _ h4, by simpa using h3, by simp⟩
  have hpref : ({.imag, .float1} : Set Pref).Finite := by simp
  have := ((hops.prod hlab).prod hpref).image (fun p => (⟨p.1.1, p.1.2, t, p.2⟩ : OpString))
  refine this.subset ?_
  rintro ⟨o, l, ty, p⟩ ⟨h1, h2, h3, h4, h5, h6⟩
  simp only at h1 h2 h3 h4 h5 h6
  subst h2
  have hc : l.length ≤ F.card := by
    have hn : l.Nodup := h4.imp (fun h => ne_of_lt h)
    rw [← List.toFinset_card_of_nodup hn]
    apply Finset.card_le_card
    intro x hx
    exact h6 x (List.mem_toFinset.mp hx)
  refine ⟨((o, l), p), ⟨⟨⟨by rw [h3]; exact hc, h1⟩, hc, h6⟩, ?_⟩, rfl⟩
  simpa using h5

/-- the invariant of the loops -/
structure LieInv (den : OpString → 𝔸) (gens : List OpString) (P : OpString → Prop) (st : LieState) : Prop where
  inv : st.lie.Inv
  gens : ∀ s ∈ gens, s ∈ st.lie.strs
  all : ∀ s ∈ st.lie.strs, P s
  comp : ∀ i j, (i, j) ∈ st.computed → ∃ a b, st.lie.strs[i]? = some a ∧ st.lie.strs[j]? = some b ∧
    LieClosedPair K den (· ∈ st.lie.strs) a b
  outer : ∀ i, i < st.indA → ∀ j, j ≤ i → (i, j) ∈ st.computed ∨ (j, i) ∈ st.computed
  inner : ∀ j, j < st.indB → (st.indA, j) ∈ st.computed ∨ (j, st.indA) ∈ st.computed
  indA : st.indA ≤ st.lie.strs.length
  indB : st.indB ≤ st.lie.strs.length

/-- the decreasing measure when the basis never exceeds `N` strings -/
def lieMeasure (N : ℕ) (st : LieState) : ℕ := (N + 1 - st.indA) * (N + 2) + (N + 1 - st.indB)

theorem StrAlg.lieStep_ok (R : StrAlg K 𝔸) {tol : ℚ} (h0 : 0 < tol) (h2 : tol ≤ 2) {gens : List OpString} {P : OpString → Prop}
    (hP : ∀ s, P s → R.Str s)
    (hclosed : ∀ a b C, P a → P b → ∀ c : K, c ≠ 0 → R.Str C → C.Canonical → (∀ l ∈ C.labels, l ∈ a.labels ∨ l ∈ b.labels) →
      R.den a * R.den b - R.den b * R.den a = c • R.den C → P C)
    {st : LieState} (hst : LieInv (K := K) R.den gens P st) {N : ℕ} (hN : ∀ l : List OpString, l.Nodup → (∀ s ∈ l, P s) → l.length ≤ N) :
    (Qosy.lieStep K tol st = .ok none ∧ ∀ a ∈ st.lie.strs, ∀ b ∈ st.lie.strs, LieClosedPair K R.den (· ∈ st.lie.strs) a b) ∨
    ∃ st', Qosy.lieStep K tol st = .ok (some st') ∧ LieInv (K := K) R.den gens P st' ∧ lieMeasure N st' < lieMeasure N st := by
  have hlen := hN _ hst.inv.2 hst.all
  obtain ⟨lie, comp, iA, iB⟩ := st
  have hmB : iB < lie.strs.length → ∀ l' c', lieMeasure N ⟨l', c', iA, iB + 1⟩ < lieMeasure N ⟨lie, comp, iA, iB⟩ := by
    intro h l' c'
    simp only [lieMeasure]
    simp only at hlen
    omega
  by_cases hA : iA < lie.strs.length
  · right
    by_cases hB : iB < lie.strs.length
    · by_cases hc : (iA, iB) ∈ comp ∨ (iB, iA) ∈ comp
      · refine ⟨⟨lie, comp, iA, iB + 1⟩, ?_, ⟨hst.inv, hst.gens, hst.all, hst.comp, hst.outer, ?_, hst.indA, hB⟩, hmB hB _ _⟩
        · simp only [Qosy.lieStep, Basis.len, hA, hB, hc, if_true]
        · intro j hj
          rcases Nat.lt_succ_iff_lt_or_eq.mp hj with h | rfl
          · exact hst.inner j h
          · exact hc
      · have gA : pyGet lie.strs iA = .ok lie.strs[iA] := by simp [pyGet, hA]
        have gB : pyGet lie.strs iB = .ok lie.strs[iB] := by simp [pyGet, hB]
        have pA := hst.all _ (List.getElem_mem hA)
        have pB := hst.all _ (List.getElem_mem hB)
        have hinner : ∀ comp', comp' = comp ++ [(iA, iB)] → ∀ j, j < iB + 1 → (iA, j) ∈ comp' ∨ (j, iA) ∈ comp' := by
          rintro _ rfl j hj
          rcases Nat.lt_succ_iff_lt_or_eq.mp hj with h | rfl
          · rcases hst.inner j h with h | h
            · left; exact List.mem_append_left _ h
            · right; exact List.mem_append_left _ h
          · left; simp
        have houter : ∀ i, i < iA → ∀ j, j ≤ i → (i, j) ∈ comp ++ [(iA, iB)] ∨ (j, i) ∈ comp ++ [(iA, iB)] := by
          intro i hi j hj
          rcases hst.outer i hi j hj with h | h
          · left; exact List.mem_append_left _ h
          · right; exact List.mem_append_left _ h
        rcases R.op_string .commutator (hP _ pA) (hP _ pB) with ⟨k1, k2⟩ | ⟨c, C, k1, k2, k3, k4, k5, k6, k7⟩
        · refine ⟨⟨lie, comp ++ [(iA, iB)], iA, iB + 1⟩, ?_, ⟨hst.inv, hst.gens, hst.all, ?_, houter, hinner _ rfl, hst.indA, hB⟩, hmB hB _ _⟩
          · simp only [Qosy.lieStep, Basis.len, hA, hB, hc, if_true, if_false, gA, gB, commutatorS, bind, Except.bind, k1, absLt_zero h0]
          · intro i j hij
            rcases List.mem_append.mp hij with h | h
            · exact hst.comp i j h
            · simp only [List.mem_singleton, Prod.mk.injEq] at h
              obtain ⟨rfl, rfl⟩ := h
              exact ⟨_, _, List.getElem?_eq_getElem hA, List.getElem?_eq_getElem hB, Or.inl k2⟩
        · have hc0 : c ≠ 0 := by rintro rfl; simp [bracketFactor] at k4
          have hlt : absLt c tol = false := by
            rw [Bool.eq_false_iff, Ne, absLt_iff, k4, not_lt]
            simp only [bracketFactor]; exact_mod_cast h2
          have hPC : P C := hclosed _ _ C pA pB c hc0 k2 ⟨k5, k7⟩ k6 k3
          have hpair : ∀ T : OpString → Prop, T C → LieClosedPair K R.den T lie.strs[iA] lie.strs[iB] := fun T hT => Or.inr ⟨C, hT, c, hc0, k3⟩
          by_cases hm : C ∈ lie.strs
          · refine ⟨⟨lie, comp ++ [(iA, iB)], iA, iB + 1⟩, ?_, ⟨hst.inv, hst.gens, hst.all, ?_, houter, hinner _ rfl, hst.indA, hB⟩, hmB hB _ _⟩
            · have : lie.contains C = true := by
                have := hst.inv.1
                simp only at this
                rw [this, Basis.contains_ofList]; simpa using hm
              simp only [Qosy.lieStep, Basis.len, hA, hB, hc, if_true, if_false, gA, gB, commutatorS, bind, Except.bind, k1, hlt, this, Bool.false_eq_true]
            · intro i j hij
              rcases List.mem_append.mp hij with h | h
              · exact hst.comp i j h
              · simp only [List.mem_singleton, Prod.mk.injEq] at h
                obtain ⟨rfl, rfl⟩ := h
                exact ⟨_, _, List.getElem?_eq_getElem hA, List.getElem?_eq_getElem hB, hpair _ hm⟩
          · have hl := hst.inv.1
            simp only at hl
            have e1 : lie.contains C = false := by rw [hl, Basis.contains_ofList]; simpa using hm
            have e2 : lie.iaddString C = Basis.ofList (lie.strs ++ [C]) := by
              conv_lhs => rw [hl, Basis.iaddString_ofList]
              simp [unionList, hm]
            have hnd : (lie.strs ++ [C]).Nodup := by
              rw [List.nodup_append]
              refine ⟨hst.inv.2, by simp, ?_⟩
              intro a ha b hb e
              simp at hb
              subst hb; subst e; exact hm ha
            refine ⟨⟨Basis.ofList (lie.strs ++ [C]), comp ++ [(iA, iB)], iA, iB + 1⟩, ?_,
              ⟨Basis.Inv.ofList hnd, ?_, ?_, ?_, houter, hinner _ rfl, ?_, ?_⟩, hmB hB _ _⟩
            · simp only [Qosy.lieStep, Basis.len, hA, hB, hc, if_true, if_false, gA, gB, commutatorS, bind, Except.bind, k1, hlt, e1, e2, Bool.false_eq_true]
            · intro s hs; exact List.mem_append_left _ (hst.gens s hs)
            · intro s hs
              rcases List.mem_append.mp hs with h | h
              · exact hst.all s h
              · rw [List.mem_singleton.mp h]; exact hPC
            · intro i j hij
              have hgrow : ∀ s, s ∈ lie.strs → s ∈ (Basis.ofList (lie.strs ++ [C])).strs := fun s hs => List.mem_append_left _ hs
              rcases List.mem_append.mp hij with h | h
              · obtain ⟨a, b, h1, h2, h3⟩ := hst.comp i j h
                refine ⟨a, b, ?_, ?_, h3.mono hgrow⟩
                · simp only at h1; simp only [Basis.ofList_strs]; rw [List.getElem?_append_left, h1]
                  by_contra hge; rw [List.getElem?_eq_none (by omega)] at h1; simp at h1
                · simp only at h2; simp only [Basis.ofList_strs]; rw [List.getElem?_append_left, h2]
                  by_contra hge; rw [List.getElem?_eq_none (by omega)] at h2; simp at h2
              · simp only [List.mem_singleton, Prod.mk.injEq] at h
                obtain ⟨rfl, rfl⟩ := h
                refine ⟨_, _, ?_, ?_, hpair _ (List.mem_append_right _ (List.mem_singleton.mpr rfl))⟩
                · simp only [Basis.ofList_strs]; rw [List.getElem?_append_left hA, List.getElem?_eq_getElem hA]
                · simp only [Basis.ofList_strs]; rw [List.getElem?_append_left hB, List.getElem?_eq_getElem hB]
            · have := hst.indA; simp at this ⊢; omega
            · simp; omega
    · refine ⟨⟨lie, comp, iA + 1, 0⟩, ?_, ⟨hst.inv, hst.gens, hst.all, hst.comp, ?_, ?_, hA, Nat.zero_le _⟩, ?_⟩
      · simp only [Qosy.lieStep, Basis.len, hA, hB, if_true, if_false]
      · intro i hi j hj
        rcases Nat.lt_succ_iff_lt_or_eq.mp hi with h | rfl
        · exact hst.outer i h j hj
        · exact hst.inner j (by simp only; omega)
      · intro j hj; simp at hj
      · simp only [lieMeasure]
        simp only at hlen
        have e : N + 1 - iA = (N + 1 - (iA + 1)) + 1 := by omega
        rw [e, Nat.add_mul]
        have := hst.indB
        simp only at this
        omega
  · left
    refine ⟨by simp only [Qosy.lieStep, Basis.len, hA, if_false], ?_⟩
    intro a ha b hb
    obtain ⟨i, hi, rfl⟩ := List.getElem_of_mem ha
    obtain ⟨j, hj, rfl⟩ := List.getElem_of_mem hb
    simp only at hi hj
    have key : ∀ i j (hi : i < lie.strs.length) (hj : j < lie.strs.length), j ≤ i → LieClosedPair K R.den (· ∈ lie.strs) lie.strs[i] lie.strs[j] := by
      intro i j hi hj hji
      rcases hst.outer i (by simp only; omega) j hji with h | h
      · obtain ⟨a, b, h1, h2, h3⟩ := hst.comp _ _ h
        simp only [List.getElem?_eq_getElem hi, List.getElem?_eq_getElem hj, Option.some.injEq] at h1 h2
        rw [h1, h2]; exact h3
      · obtain ⟨a, b, h1, h2, h3⟩ := hst.comp _ _ h
        simp only [List.getElem?_eq_getElem hi, List.getElem?_eq_getElem hj, Option.some.injEq] at h1 h2
        rw [h1, h2]; exact h3.symm
    rcases Nat.le_total j i with h | h
    · exact key i j hi hj h
    · exact (key j i hj hi h).symm

theorem StrAlg.lieRun_ok (R : StrAlg K 𝔸) {tol : ℚ} (h0 : 0 < tol) (h2 : tol ≤ 2) {gens : List OpString} {P : OpString → Prop}
    (hP : ∀ s, P s → R.Str s)
    (hclosed : ∀ a b C, P a → P b → ∀ c : K, c ≠ 0 → R.Str C → C.Canonical → (∀ l ∈ C.labels, l ∈ a.labels ∨ l ∈ b.labels) →
      R.den a * R.den b - R.den b * R.den a = c • R.den C → P C)
    {N : ℕ} (hN : ∀ l : List OpString, l.Nodup → (∀ s ∈ l, P s) → l.length ≤ N) :
    ∀ (m : ℕ) (st : LieState), LieInv (K := K) R.den gens P st → lieMeasure N st < m →
      ∃ r : Basis, (∀ n, m ≤ n → lieRun K tol n st = .ok (some r)) ∧ r.Inv ∧ (∀ s ∈ gens, s ∈ r.strs) ∧ (∀ s ∈ r.strs, P s) ∧
        ∀ a ∈ r.strs, ∀ b ∈ r.strs, LieClosedPair K R.den (· ∈ r.strs) a b := by
  intro m
  induction m with
  | zero => intro st _ h; omega
  | succ m ih =>
    intro st hst hm
    rcases R.lieStep_ok h0 h2 hP hclosed hst hN with ⟨k1, k2⟩ | ⟨st', k1, k2, k3⟩
    · refine ⟨st.lie, ?_, hst.inv, hst.gens, hst.all, k2⟩
      intro n hn
      obtain ⟨n, rfl⟩ := Nat.exists_eq_add_of_le' (by omega : 1 ≤ n)
      simp only [lieRun, k1, bind, Except.bind]
    · obtain ⟨r, r1, r2⟩ := ih st' k2 (by omega)
      refine ⟨r, ?_, r2⟩
      intro n hn
      obtain ⟨n, rfl⟩ := Nat.exists_eq_add_of_le' (by omega : 1 ≤ n)
      simp only [lieRun, k1, bind, Except.bind]
      exact r1 n (by omega)

theorem StrAlg.generateLieAlgebra_ok (R : StrAlg K 𝔸) {tol : ℚ} (h0 : 0 < tol) (h2 : tol ≤ 2) {B : Basis} (hB : B.Inv)
    (hs : ∀ s ∈ B.strs, R.Str s)
    (hfin : ∀ F : Finset ℤ, {s : OpString | R.Str s ∧ s.Canonical ∧ ∀ l ∈ s.labels, l ∈ F}.Finite) :
    ∃ (m : ℕ) (r : Basis), (∀ n, m ≤ n → generateLieAlgebra K B n tol = .ok (some r)) ∧ r.Inv ∧
      IsLieAlgebra K R.den R.Str B.strs r.strs := by
  classical
  set F : Finset ℤ := B.strs.toFinset.biUnion (fun s => s.labels.toFinset) with hF
  let P : OpString → Prop := fun s => R.Str s ∧ (∀ l ∈ s.labels, l ∈ F) ∧ (s ∈ B.strs ∨ s.Canonical) ∧
    ∀ T : Set OpString, (∀ s ∈ B.strs, s ∈ T) →
    (∀ a ∈ T, ∀ b ∈ T, ∀ (C : OpString) (c : K), R.Str C → C.Canonical → c ≠ 0 →
      R.den a * R.den b - R.den b * R.den a = c • R.den C → C ∈ T) → s ∈ T
  have hUfin : {s : OpString | P s}.Finite := by
    refine ((hfin F).union (B.strs.finite_toSet)).subset ?_
    rintro s ⟨h1, h2, h3, _⟩
    rcases h3 with h3 | h3
    · right; exact h3
    · left; exact ⟨h1, h3, h2⟩
  have hN : ∀ l : List OpString, l.Nodup → (∀ s ∈ l, P s) → l.length ≤ hUfin.toFinset.card := by
    intro l hn hl
    rw [← List.toFinset_card_of_nodup hn]
    apply Finset.card_le_card
    intro s hs
    rw [Set.Finite.mem_toFinset]
    exact hl s (List.mem_toFinset.mp hs)
  have e0 : emptyBasis.iadd B = B := by
    have : (emptyBasis : Basis) = Basis.ofList [] := rfl
    rw [this, Basis.iadd_ofList (by simp), unionList_eq_filter _ hB.2]
    simp only [List.not_mem_nil, not_false_eq_true, decide_true, List.filter_true, List.nil_append]
    exact hB.1.symm
  have hst : LieInv (K := K) R.den B.strs P ⟨emptyBasis.iadd B, [], 0, 0⟩ := by
    rw [e0]
    refine ⟨hB, fun s hs => hs, ?_, by simp, by simp, by simp, by simp, by simp⟩
    intro s hs'
    refine ⟨hs s hs', ?_, Or.inl hs', fun T h _ => h s hs'⟩
    intro l hl
    rw [hF, Finset.mem_biUnion]
    exact ⟨s, List.mem_toFinset.mpr hs', List.mem_toFinset.mpr hl⟩
  obtain ⟨r, r1, r2, r3, r4, r5⟩ := R.lieRun_ok h0 h2 (fun s h => h.1)
    (by
      intro a b C hA hB' c hc hC hcan hl he
      refine ⟨hC, ?_, Or.inr hcan, ?_⟩
      · intro l hl'
        rcases hl l hl' with h | h
        · exact hA.2.1 l h
        · exact hB'.2.1 l h
      · intro T hT hcl
        exact hcl a (hA.2.2.2 T hT hcl) b (hB'.2.2.2 T hT hcl) C c hC hcan hc he)
    hN _ _ hst (Nat.lt_succ_self _)
  exact ⟨_, r, r1, r2, r3, fun s hs => (r4 s hs).1, r5, fun T hT hcl s hs => (r4 s hs).2.2.2 T hT hcl⟩

end Qosy
