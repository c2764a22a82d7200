import Verif.Lemmas.LadderOpen

/-! # The operators `_ladder_operators` returns, and its exceptions -/

namespace Qosy
open Coef RealOps
variable {K : Type} [Field K] [StarRing K] [Coef K] [RealCoef K]
variable {𝔸 : Type} [Ring 𝔸] [Algebra K 𝔸]

/-- the operators are the vectors -/
theorem ladderOperators_inv {num : LadderNumerics K} {A : Basis} {O : Operator K} {sp : Bool} {tol : ℚ} {ops : List (Operator K)} {evals : List K}
    (h : ladderOperators num A O sp tol = .ok (ops, evals)) : ∃ l, ladderVectors num A O sp tol = .ok l ∧ evals = l.map (·.1) ∧
      List.Forall₂ (fun (e : K × List K) (o : Operator K) => o.coeffs = e.2 ∧ o.basis.strs = A.strs) l ops := by
  unfold ladderOperators at h
  obtain ⟨l, h1, h2⟩ := py_bind_ok h
  obtain ⟨os, h3, h4⟩ := py_bind_ok h2
  simp only [Except.ok.injEq, Prod.mk.injEq] at h4
  obtain ⟨rfl, rfl⟩ := h4
  exact ⟨l, h1, rfl, (mapM_ok_inv h3).imp fun e o h => let ⟨a, b, _⟩ := mkOperator_none_inv h; ⟨a, b⟩⟩

theorem den_vecOp {A : Basis} {o : Operator K} {v : List K} (h1 : o.coeffs = v) (h2 : o.basis.strs = A.strs) (hv : v.length = A.len) (den : OpString → 𝔸) :
    o.den den = vecOp den A v := by
  rw [den_linComb (by rw [h1, hv]; show A.strs.length = o.basis.strs.length; rw [h2]), h1, h2]; rfl

/-- results about the pairs as results about the operators -/
theorem forall₂_evals {A : Basis} {Q : Operator K → K → Prop} {l : List (K × List K)} {ops : List (Operator K)}
    (h : List.Forall₂ (fun (e : K × List K) (o : Operator K) => o.coeffs = e.2 ∧ o.basis.strs = A.strs) l ops)
    (hq : ∀ e ∈ l, ∀ o : Operator K, o.coeffs = e.2 → o.basis.strs = A.strs → Q o e.1) : List.Forall₂ Q ops (l.map (·.1)) := by
  induction h with
  | nil => exact .nil
  | cons h _ ih =>
    rename_i e o l ops _
    exact .cons (hq e (by simp) o h.1 h.2) (ih fun e he => hq e (by simp [he]))

theorem forall₂_coeffs {A : Basis} {l : List (K × List K)} {ops : List (Operator K)}
    (h : List.Forall₂ (fun (e : K × List K) (o : Operator K) => o.coeffs = e.2 ∧ o.basis.strs = A.strs) l ops) : ops.map (·.coeffs) = l.map (·.2) := by
  induction h with
  | nil => rfl
  | cons h _ ih => simp only [List.map_cons, h.1, ih]

theorem pairSpan_le_ladderSpan {A : Basis} {den : OpString → 𝔸} {l : List (K × List K)} {ops : List (Operator K)} (hd : ∀ e ∈ l, e.2.length = A.len)
    (h : List.Forall₂ (fun (e : K × List K) (o : Operator K) => o.coeffs = e.2 ∧ o.basis.strs = A.strs) l ops) (δ : K) :
    pairSpan den A l δ ≤ ladderSpan den ops (l.map (·.1)) δ := by
  refine Submodule.span_mono ?_
  rintro x ⟨e, he, rfl, rfl⟩
  show ∃ o, (o, e.1) ∈ ops.zip (l.map (·.1)) ∧ _
  induction h with
  | nil => simp at he
  | cons h _ ih =>
    rename_i e' o l ops _
    rcases List.mem_cons.mp he with rfl | he
    · exact ⟨o, by simp, (den_vecOp h.1 h.2 (hd _ (by simp)) den).symm⟩
    · obtain ⟨o', h1, h2⟩ := ih (fun e he => hd e (by simp [he])) he
      exact ⟨o', by simp [h1], h2⟩

/-! ### exceptions -/

/-- one of the numerical routines raised the exception -/
def NumericsFails (num : LadderNumerics K) (e : PyErr) : Prop := (∃ M, num.svd M = .error e) ∨ (∃ M, num.eigh M = .error e) ∨ ∃ l, num.sparsify l = .error e

theorem mapM_pyGet_ok' {α : Type} {l : List α} {inds : List ℕ} (h : ∀ i ∈ inds, i < l.length) : ∃ r, inds.mapM (pyGet l) = .ok r := by
  obtain ⟨r, h1, -⟩ := mapM_forall₂ (f := pyGet l) (Q := fun _ _ => True) (l := inds) fun i hi => ⟨_, pyGet_lt (h i hi), trivial⟩
  exact ⟨r, h1⟩

theorem ladderSort_total {num : LadderNumerics K} (ha : IsArgsort num.argsort) (l : List (K × List K)) : ∃ r, ladderSort num l = .ok r :=
  mapM_pyGet_ok' fun i hi => by
    have := (ha (l.map (·.1))).1.subset hi
    simpa using this

theorem ladderSparsify_err {num : LadderNumerics K} : ∀ (n : ℕ) (l : List (K × List K)) (e : PyErr), ladderSparsify num n l = .error e → ∃ vs, num.sparsify vs = .error e := by
  intro n
  induction n with
  | zero => intro l e h; simp [ladderSparsify] at h
  | succ n ih =>
    intro l e h
    cases l with
    | nil => simp [ladderSparsify] at h
    | cons x l =>
      rw [ladderSparsify] at h
      split at h
      · cases h1 : num.sparsify (((x :: l).take (((x :: l).findIdx? (fun y => absGt (y.1 - x.1) (1 / 10 ^ 10))).getD 0)).map (·.2)) with
        | error e' =>
          rw [h1] at h
          simp only [bind, Except.bind, Except.error.injEq] at h
          exact ⟨_, by rw [h1, h]⟩
        | ok vs =>
          rw [h1] at h
          simp only [bind, Except.bind] at h
          split at h
          · rename_i e' h2
            simp only [Except.error.injEq] at h
            rw [h] at h2
            exact ih _ _ h2
          · cases h
      · simp only [bind, Except.bind] at h
        split at h
        · rename_i e' h2
          simp only [Except.error.injEq] at h
          rw [h] at h2
          exact ih _ _ h2
        · cases h

/-- every exception comes from a numerical routine -/
theorem ladderOperators_err [Nontrivial 𝔸] (R : StrAlg K 𝔸) {num : LadderNumerics K} (hnum : IsLadderNumerics num) {A : Basis} (hA : A.Inv) (hs : ∀ s ∈ A.strs, R.Str s ∧ s.Canonical)
    {O : Operator K} (hO : O.WF) (hOs : ∀ s ∈ O.basis.strs, R.Str s) (hr : ∀ x ∈ O.coeffs, IsReal x) {sp : Bool} {tol : ℚ} {e : PyErr}
    (h : ladderOperators num A O sp tol = .error e) : NumericsFails num e := by
  have hne : ladderVectors num A O sp tol = .error e := by
    unfold ladderOperators at h
    cases hv : ladderVectors num A O sp tol with
    | error e' => rw [hv] at h; simpa [bind, Except.bind] using h
    | ok l =>
      exfalso
      rw [hv] at h
      by_cases hA0 : A.strs = []
      · -- no strings, no pairs
        obtain ⟨L, B, S, inA, inB, notB, h1, hn, h2, h3⟩ := ladderVectors_inv R hA hs hO hOs hr hv
        rcases h3 with ⟨rfl, rfl⟩ | ⟨valid, P, r, sorted, k1, k2, k3, k4⟩
        · simp [bind, Except.bind, pure, Except.pure] at h
        · have hB : B.strs = [] := by
            rw [List.eq_nil_iff_forall_not_mem]
            intro t ht
            obtain ⟨-, s, hs', -⟩ := h1.reached t ht
            rw [hA0] at hs'; simp at hs'
          unfold ladderVectors at hv
          obtain ⟨m, L', B', inA', g1, g2, g3, g4⟩ := ladderSetup_ok R hA hs hO hOs hr
          have hB' : B'.strs = [] := by
            rw [List.eq_nil_iff_forall_not_mem]
            intro t ht
            obtain ⟨-, s, hs', -⟩ := g4.reached t ht
            rw [hA0] at hs'; simp at hs'
          simp only [g1, g2, g3, bind, Except.bind] at hv
          have : inA' = [] := by
            rw [hB'] at g3
            simp [pure, Except.pure] at g3
            exact g3
          rw [this] at hv
          simp only [List.isEmpty_nil, if_true, Except.ok.injEq] at hv
          rw [← hv] at h
          simp [bind, Except.bind, pure, Except.pure] at h
      · obtain ⟨ops, h1, -⟩ := mapM_forall₂ (f := fun e : K × List K => mkOperator e.2 A.strs none) (Q := fun _ _ => True) (l := l) fun e _ =>
          ⟨_, mkOperator_none_ok hA0 hA.2 (fun s hs' => R.str_type s (hs s hs').1), trivial⟩
        simp only [bind, Except.bind, h1] at h
        cases h
  obtain ⟨m, L, B, inA, g1, g2, g3, g4⟩ := ladderSetup_ok R hA hs hO hOs hr
  unfold ladderVectors at hne
  simp only [g1, g2, g3, bind, Except.bind] at hne
  split at hne
  · cases hne
  split at hne
  · rename_i e' hp
    cases hne
    unfold ladderProject at hp
    split at hp
    · cases hp
    · simp only [bind, Except.bind] at hp
      split at hp
      · rename_i e'' hsv
        cases hp
        exact Or.inl ⟨_, hsv⟩
      · rename_i sv hsv
        have hsvd := hnum.svd _ _ hsv
        have hvo := (nullVectors_ortho (tol := tol) hsvd.ortho).dim
        rw [show (L.pick _ inA).ncols = _ from g4.common.lenA] at hvo
        obtain ⟨P'', p1, p2, p3⟩ := project_ok g4.pick_hermitian hvo
        rw [p1] at hp
        cases hp
  · split at hne
    · rename_i e' he
      cases hne
      exact Or.inr (Or.inl ⟨_, he⟩)
    · rename_i p hp _ r hr'
      obtain ⟨sorted, hso⟩ := ladderSort_total hnum.argsort ((embedPairs inA.length p.1 (partneredPairs tol r)).map (fun e => (e.1, scatterInto A.len inA e.2)))
      simp only [hso] at hne
      cases sp with
      | false => simp at hne
      | true =>
        obtain ⟨again, hag⟩ := ladderSort_total hnum.argsort sorted
        simp only [if_true, hag] at hne
        exact Or.inr (Or.inr (ladderSparsify_err _ _ _ hne))

/-! ### examples -/

/-- a computable form of `ClosedUnder` -/
def checkClosed (strs terms : List OpString) : Bool :=
  strs.all fun s => terms.all fun t => match (operationOpString .commutator s t : Py (QI × Option OpString)) with
    | .ok (_, some C) => decide (C ∈ strs)
    | _ => true

theorem closed_of_check [Algebra QI 𝔸] [Nontrivial 𝔸] (R : StrAlg QI 𝔸) {strs : List OpString} {O : Operator QI} (hs : ∀ s ∈ strs, R.Str s) (hO : ∀ s ∈ O.termStrs, R.Str s)
    (h : checkClosed strs O.termStrs = true) : ClosedUnder R.Str R.den strs O := by
  rintro t ⟨⟨h1, h2⟩, s, hs', o, ho, -, c, hc, e⟩
  have h' := List.all_eq_true.mp (List.all_eq_true.mp h s hs') o ho
  rcases R.op_string .commutator (hs s hs') (hO o ho) with ⟨-, h0⟩ | ⟨c', C, k1, k2, k3, -, k5, -, k7⟩
  · rw [h0] at e
    exfalso
    have e1 : c • (1 : 𝔸) = 0 := by rw [← R.sq t h1, ← smul_mul_assoc, ← e, zero_mul]
    rcases smul_eq_zero.mp e1 with e2 | e2
    · exact hc e2
    · exact one_ne_zero e2
  · rw [k1] at h'
    have hC : C ∈ strs := by simpa using h'
    have e2 : R.den t = (c⁻¹ * c') • R.den C := by rw [mul_smul, ← k3, e, smul_smul, inv_mul_cancel₀ hc, one_smul]
    rw [(R.same_string h1 k2 h2 ⟨k5, k7⟩ e2).1]; exact hC

/-- one eigenvalue has no partner -/
theorem partnered_single {tol : ℚ} {r : List K × List (List K)} (hr : ∀ x ∈ r.1, IsReal x) (hl : r.1.length ≤ 1) : partneredPairs tol r = [] := by
  rw [List.eq_nil_iff_forall_not_mem]
  intro e he
  obtain ⟨h1, h2, h3, x, hx, h4⟩ := (mem_partnered hr).mp he
  have he1 := (List.of_mem_zip h1).1
  have ht : (0 : ℝ) < tol := by exact_mod_cast h2
  match hr1 : r.1, hl with
  | [], _ => rw [hr1] at hx; simp at hx
  | [y], _ =>
    rw [hr1] at hx he1
    simp only [List.mem_singleton] at hx he1
    have hy : IsReal e.1 := hr _ (List.of_mem_zip h1).1
    rw [hx, ← he1, map_add, hy.toC_eq, ← Complex.ofReal_add, Complex.norm_real, Real.norm_of_nonneg (by linarith)] at h4
    linarith

end Qosy
