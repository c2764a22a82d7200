import Verif.Lemmas.GreedyLoop
import Verif.Lemmas.GreedyStop
import Verif.Spec.ManyOps
import Verif.Props.Algorithms

/-! # The loops of `selected_ci_greedy_many_ops` and `selected_ci_greedy_many_ops2` -/

namespace Qosy
open Coef RealOps
variable {K : Type} [Field K] [StarRing K] [Coef K] [RealCoef K]
variable {𝔸 : Type} [Ring 𝔸] [Algebra K 𝔸]

theorem selectedCiGreedy_cached (num : Numerics K) (args : GreedyArgs K) (fuel : ℕ) :
    selectedCiGreedy num args fuel = (do
      let r ← greedyCached num args fuel
      .ok (r.map (fun s => (s.bestOperator, s.bestComNorm, s.operators, s.comNorms)))) := by
  unfold selectedCiGreedy greedyCached
  cases args.comOps with
  | nil => rfl
  | cons H l =>
    simp only
    split <;> rfl

/-- a non-empty, well-formed operator of valid strings -/
structure GoodOp (R : StrAlg K 𝔸) (A : Operator K) : Prop where
  wf : A.WF
  str : ∀ s ∈ A.basis.strs, R.Str s
  nonempty : A.basis.strs ≠ []

theorem GreedyRec.good {R : StrAlg K 𝔸} {H : Operator K} {least : Prop} {O : Operator K} {c : K} (h : GreedyRec R H least O c) : GoodOp R O := by
  refine ⟨⟨h.basis.1, h.len, fun s hs => (R.str_type s (h.basis.2 s hs)).trans h.type.symm⟩, h.basis.2, fun h0 => ?_⟩
  have h1 := h.unit
  have h2 : O.coeffs = [] := List.length_eq_zero_iff.mp (by rw [h.len, Basis.len, h0]; rfl)
  rw [Operator.IsUnit, h2] at h1
  simp at h1

/-- one call of `selected_ci_greedy` with one step -/
theorem greedy_one (R : StrAlg K 𝔸) {num : Numerics K} (hnum : IsNumerics num) {H : Operator K} (hH : ∀ s ∈ H.basis.strs, R.Str s) (hHn : H.basis.strs.Nodup)
    (hlab : ∃ s ∈ H.basis.strs, s.labels ≠ []) {args : GreedyArgs K} (ha : GreedyOK R.Str H args) (ht : args.targetOperator = none) (hc : args.targetComNorm = none)
    (hm : args.minRelativeChange = none) (h1 : args.numSteps = 1) {numH size : ℕ} (h2 : args.numHTerms = [numH]) (h3 : args.maxSizes = [size])
    (hx : args.explored.Coherent R (· ∈ H.termStrs)) :
    (greedyCached num args 1 = .error .valueError ∧ (size = 0 ∨ (0 < args.threshold ∧
      1 ≤ ((args.initialOperator.basis.len + numH + 2 * args.numOTerms : ℕ) : ℚ) * args.threshold ^ 2))) ∨
    ∃ s O c, greedyCached num args 1 = .ok (some s) ∧ s.explored.Coherent R (· ∈ H.termStrs) ∧ s.operators = [O] ∧ s.comNorms = [c] ∧
      GreedyRec R H args.least O c ∧ (∀ t ∈ args.initialOperator.basis.strs, t ∈ O.basis.strs) ∧
      O.basis.len ≤ args.initialOperator.basis.len + numH + 2 * args.numOTerms := by
  have hl : (H.basis.strs.all fun s => s.labels.isEmpty) = false := by
    obtain ⟨s, hs, hn⟩ := hlab
    rw [List.all_eq_false]
    exact ⟨s, hs, by simpa using hn⟩
  have hi := greedyInit_inv ha hx
  obtain ⟨b, st, M, r, g1, g2, g3, g4, g5, g6, g7, g8, g9⟩ := greedyStep_ok R hnum ha hi (numH := numH) (by rw [h2]; rfl) 1
  have hcond : (greedyInit args).step < args.numSteps ∧ (greedyInit args).endEarly = false := ⟨by rw [h1]; exact Nat.zero_lt_one, rfl⟩
  have e : greedyCached num args 1 = greedyLoop num args 1 1 (greedyInit args) := by
    unfold greedyCached
    rw [ha.com]
    simp only [hl, Bool.false_eq_true, if_false]
  rw [e]
  unfold greedyLoop
  rw [if_pos hcond]
  rcases greedyAccept_total hnum ha ht hi g1 g2 g3 g4 g5 g6 (size := size) (by rw [h3]; rfl) with ⟨q1, q2⟩ | ⟨s', stop, q1, q2, q3⟩
  · left
    simp only [g7, q1, bind, Except.bind]
    refine ⟨trivial, q2.imp id fun ⟨q2, q3⟩ => ⟨q2, q3.trans ?_⟩⟩
    rw [hi.first rfl] at g9
    exact mul_le_mul_of_nonneg_right (by exact_mod_cast g9) (sq_nonneg _)
  · right
    obtain ⟨p1, _, _⟩ := greedyAccept_inv hnum ha hi hcond.1 g1 g2 g3 g4 g5 g6 q1
    obtain ⟨c, p2, p3⟩ := greedyAccept_stop ht hi rfl q1 p1
    have hstop : stop = false := by
      rw [Bool.eq_false_iff]
      intro h
      rcases p3.mpr (Or.inl h) with ⟨t, _, h, _⟩ | ⟨m, _, _, _, h, _⟩
      · rw [hc] at h; simp at h
      · rw [hm] at h; simp at h
    subst hstop
    obtain ⟨q4, q5⟩ := q3 rfl
    have hc1 : s'.comNorms = [c] := p2
    have hrec := p1.records
    rw [hc1] at hrec
    obtain ⟨O, l, hO, hl', hops⟩ := List.forall₂_cons_right_iff.mp hrec
    rw [List.forall₂_nil_right_iff] at hl'
    subst hl'
    obtain ⟨O', _, t1, _, _, numH', t2, t3, t4⟩ := greedyStep_truncation R hnum ha ht hi (fuel := 1) (s' := s') (stop := false)
      (by simp only [g7, q1, bind, Except.bind])
    rw [hops] at t1
    cases t1
    rw [h2] at t2
    cases t2
    rw [hi.first rfl] at t3 t4
    refine ⟨s', O, c, ?_, q4.cache, hops, hc1, hO, t3, t4⟩
    simp only [g7, q1, bind, Except.bind, Bool.false_eq_true, if_false]
    unfold greedyLoop
    rw [if_neg]
    rw [q5, h1]
    simp

/-- the arguments -/
structure ManyOK (R : StrAlg K 𝔸) (args : ManyOpsArgs K) : Prop where
  str : ∀ s ∈ args.H.basis.strs, R.Str s
  nodup : args.H.basis.strs.Nodup
  good : ∀ A ∈ args.initialOperators, GoodOp R A
  cache : ∀ x ∈ args.explored, x.Coherent R (· ∈ args.H.termStrs)

theorem truncate_good (R : StrAlg K 𝔸) {num : Numerics K} (hnum : IsNumerics num) {A : Operator K} (hA : GoodOp R A) (θ : ℚ) (n : ℕ) :
    (∃ B, truncateOperator num.argsort A θ n none = .ok B ∧ GoodOp R B ∧ B.basis.len ≤ n) ∨
      (truncateOperator num.argsort A θ n none = .error .valueError ∧ (n = 0 ∨ ∀ s ∈ A.basis.strs, ‖toC (coefAt A.basis A.coeffs s)‖ ≤ (θ : ℝ))) := by
  obtain ⟨b, h1, h2, h3, h4⟩ := C52_operator hnum.argsort hA.wf θ n
  by_cases hb : b.strs = []
  · refine Or.inr ⟨h3 hb, ?_⟩
    by_contra hcon
    push Not at hcon
    obtain ⟨hn, s, hs, hlt⟩ := hcon
    rcases h2.full s hs hlt with h | h
    · rw [hb] at h; simp at h
    · rw [Basis.len, hb] at h; exact hn h.symm
  · obtain ⟨B, e1, e2, e3, e4, _⟩ := h4 hb
    refine Or.inl ⟨B, e1, ⟨e2, fun s hs => ?_, by rw [e3]; exact hb⟩, by rw [e3]; exact h2.size⟩
    rw [e3] at hs
    exact hA.str s (h2.above s hs).1

/-- in the middle of a step: the first operators have been replaced by the new ones -/
structure ManyInv (R : StrAlg K 𝔸) (args : ManyOpsArgs K) (old : List (Operator K)) (st : ManyState K) : Prop where
  current : st.current = st.ops ++ old.drop st.ops.length
  records : List.Forall₂ (GreedyRec R args.H False) st.ops st.norms
  cache : ∀ x ∈ st.explored, x.Coherent R (· ∈ args.H.termStrs)
  bound : ∀ O ∈ st.ops, ∀ size terms, args.Bounds size terms → O.basis.len ≤ size + terms + 2 * args.numOTerms

theorem GreedyRec.weaken {R : StrAlg K 𝔸} {H : Operator K} {least : Prop} {O : Operator K} {c : K} (h : GreedyRec R H least O c) : GreedyRec R H False O c :=
  ⟨h.basis, h.len, h.type, h.real, h.unit, h.norm, False.elim⟩

theorem sum_getD_map (f : K → K) (v : List K) : ∑ j : Fin v.length, f (v.getD j 0) = (v.map f).sum := by
  rw [← List.sum_ofFn]
  congr 1
  apply List.ext_getElem
  · simp
  · intro i h1 h2
    simp at h1 ⊢

/-- a normalised operator without a coefficient above `θ` has many strings -/
theorem unit_len {R : StrAlg K 𝔸} {A : Operator K} (hA : GoodOp R A) (hu : A.IsUnit) {θ : ℚ} (h : ∀ s ∈ A.basis.strs, ‖toC (coefAt A.basis A.coeffs s)‖ ≤ (θ : ℝ)) :
    0 < θ ∧ 1 ≤ (A.basis.len : ℚ) * θ ^ 2 := by
  have := unit_bound (v := A.coeffs) rfl (by rw [sum_getD_map (fun x => star x * x)]; exact hu) (θ := θ) (fun x hx => by
    obtain ⟨i, hi, rfl⟩ := List.getElem_of_mem hx
    have hi' : i < A.basis.strs.length := by rw [← hA.wf.len]; exact hi
    have := h _ (List.getElem_mem hi')
    rwa [coefAt, hA.wf.basis.2.idxOf_getElem, List.getD_eq_getElem _ _ hi] at this)
  rwa [hA.wf.len] at this

theorem ManySafe.not_large {args : ManyOpsArgs K} (h : ManySafe args) {n : ℕ} (hn : ∀ size terms, args.Bounds size terms → n ≤ size + terms + 2 * args.numOTerms)
    (h0 : 0 < args.threshold) (h1 : 1 ≤ (n : ℚ) * args.threshold ^ 2) : False := by
  rcases h.threshold with h2 | ⟨size, terms, h2, h3⟩
  · exact absurd h2 (not_le.mpr h0)
  · have h4 : (n : ℚ) ≤ ((size + terms + 2 * args.numOTerms : ℕ) : ℚ) := by exact_mod_cast hn size terms h2
    exact absurd (h1.trans (mul_le_mul_of_nonneg_right h4 (sq_nonneg _))) (not_le.mpr h3)

theorem manyOps_truncate (R : StrAlg K 𝔸) {num : Numerics K} (hnum : IsNumerics num) (args : ManyOpsArgs K) (step : ℕ) {A : Operator K} (hA : GoodOp R A)
    (hu : step ≠ 0 → A.IsUnit) (hb : ∀ size terms, args.Bounds size terms → A.basis.len ≤ if step = 0 then size else size + terms + 2 * args.numOTerms) :
    (∃ B, args.truncate num step A = .ok B ∧ GoodOp R B ∧ ∀ size terms, args.Bounds size terms → B.basis.len ≤ size) ∨
      ((∃ e, args.truncate num step A = .error e) ∧ ¬ ManySafe args) := by
  unfold ManyOpsArgs.truncate
  by_cases h0 : step = 0
  · exact Or.inl ⟨A, by rw [if_pos h0], hA, fun size terms h => by have := hb size terms h; rwa [if_pos h0] at this⟩
  · rw [if_neg h0]
    cases hz : args.maxSize with
    | list l =>
      refine Or.inr ⟨⟨.typeError, rfl⟩, fun h => ?_⟩
      obtain ⟨z, h1, _⟩ := h.size
      rw [hz] at h1; simp at h1
    | int n =>
      simp only [SizeArg.scalar, bind, Except.bind]
      rcases truncate_good R hnum hA args.threshold n with ⟨B, h1, h2, h3⟩ | ⟨h, h'⟩
      · exact Or.inl ⟨B, h1, h2, fun size terms h => h3.trans (h.size n hz)⟩
      · refine Or.inr ⟨⟨_, h⟩, fun hs => ?_⟩
        obtain ⟨z, h1, h2⟩ := hs.size
        rw [hz] at h1
        cases h1
        rcases h' with h' | h'
        · omega
        · obtain ⟨h3, h4⟩ := unit_len hA (hu h0) h'
          exact hs.not_large (fun size terms h => by have := hb size terms h; rwa [if_neg h0] at this) h3 h4

theorem manyOpsOne_ok (R : StrAlg K 𝔸) {num : Numerics K} (hnum : IsNumerics num) {args : ManyOpsArgs K} (ha : ManyOK R args) {step : ℕ} (hstep : step < args.numSteps)
    {old : List (Operator K)} (hold : ∀ A ∈ old, GoodOp R A ∧ (step ≠ 0 → A.IsUnit) ∧
      ∀ size terms, args.Bounds size terms → A.basis.len ≤ if step = 0 then size else size + terms + 2 * args.numOTerms) {st : ManyState K} (hs : ManyInv R args old st) (hi : st.ops.length < old.length) :
    (∃ st', manyOpsOne num args step st st.ops.length = .ok st' ∧ ManyInv R args old st' ∧ st'.ops.length = st.ops.length + 1) ∨
      ((∃ e, manyOpsOne num args step st st.ops.length = .error e) ∧ ¬ ManySafe args) := by
  have hget : st.current[st.ops.length]? = some old[st.ops.length] := by
    rw [hs.current, List.getElem?_append_right le_rfl, Nat.sub_self, List.getElem?_drop, Nat.add_zero, List.getElem?_eq_getElem hi]
  obtain ⟨hg, hu, hb⟩ := hold _ (List.getElem_mem hi)
  unfold manyOpsOne
  simp only [pyGet, hget, bind, Except.bind]
  rcases manyOps_truncate R hnum args step hg hu hb with ⟨B, e1, hB, hBb⟩ | ⟨⟨e, h⟩, hn⟩
  swap
  · exact Or.inr ⟨⟨e, by rw [h]⟩, hn⟩
  simp only [e1]
  cases hH : args.numHTerms.at step with
  | error e =>
    refine Or.inr ⟨⟨e, rfl⟩, fun hsafe => ?_⟩
    cases hl : args.numHTerms with
    | int n => rw [hl] at hH; simp [SizeArg.at] at hH
    | list l =>
      have := hsafe.terms l hl
      rw [hl, SizeArg.at, pyGet_lt (by omega)] at hH
      simp at hH
  | ok numH =>
    cases hZ : args.maxSize.at step with
    | error e =>
      refine Or.inr ⟨⟨e, rfl⟩, fun hsafe => ?_⟩
      obtain ⟨z, h1, _⟩ := hsafe.size
      rw [h1, SizeArg.at] at hZ
      simp at hZ
    | ok size =>
      simp only
      by_cases hlab : ∃ s ∈ args.H.basis.strs, s.labels ≠ []
      swap
      · refine Or.inr ⟨⟨.valueError, ?_⟩, fun hsafe => hlab hsafe.label⟩
        have hall : (args.H.basis.strs.all fun s => s.labels.isEmpty) = true := by
          rw [List.all_eq_true]
          intro s hs'
          push Not at hlab
          rw [hlab s hs']; rfl
        unfold greedyCached ManyOpsArgs.call
        simp only [hall, if_true]
      have hx : (st.explored.getD .empty).Coherent R (· ∈ args.H.termStrs) := by
        cases hxx : st.explored with
        | none => exact Explored.empty_coherent _ _
        | some x => exact hs.cache x hxx
      have hok : GreedyOK R.Str args.H (args.call B (st.current.eraseIdx st.ops.length) numH size st.explored) :=
        ⟨rfl, ha.str, ha.nodup, rfl, hB.wf, hB.str, hB.nonempty, le_rfl, by intro T hT; simp [ManyOpsArgs.call] at hT⟩
      have hbound : ∀ sz terms, args.Bounds sz terms → B.basis.len + numH + 2 * args.numOTerms ≤ sz + terms + 2 * args.numOTerms := by
        intro sz terms h
        have := hBb sz terms h
        have := h.terms step numH hH
        omega
      rcases greedy_one R hnum ha.str ha.nodup hlab hok rfl rfl rfl rfl rfl rfl hx with ⟨h1, h2⟩ | ⟨s, O, c, h1, h2, h3, h4, h5, h6, h7⟩
      · refine Or.inr ⟨⟨.valueError, by rw [h1]⟩, fun hsafe => ?_⟩
        obtain ⟨z, h3, h4⟩ := hsafe.size
        rw [h3, SizeArg.at] at hZ
        cases hZ
        rcases h2 with h2 | ⟨h2, h2'⟩
        · omega
        · exact hsafe.not_large hbound h2 h2'
      · refine Or.inl ⟨⟨st.current.set st.ops.length O, st.explored.map (fun _ => s.explored), st.ops ++ [O], st.norms ++ [c]⟩, ?_, ⟨?_, ?_, ?_, ?_⟩, by simp⟩
        · simp only [h1, h3, h4, pyLast, List.getLast?_singleton]
        · show st.current.set st.ops.length O = (st.ops ++ [O]) ++ old.drop (st.ops ++ [O]).length
          rw [hs.current, List.set_append_right _ _ le_rfl, Nat.sub_self, List.drop_eq_getElem_cons hi, List.set_cons_zero, List.append_assoc, List.length_append]
          rfl
        · exact List.rel_append hs.records (.cons h5.weaken .nil)
        · intro x hxm
          simp only [Option.mem_def, Option.map_eq_some_iff] at hxm
          obtain ⟨_, _, rfl⟩ := hxm
          exact h2
        · intro P hP
          rcases List.mem_append.mp hP with hP | hP
          · exact hs.bound P hP
          · rw [List.mem_singleton.mp hP]
            exact fun sz terms h => h7.trans (hbound sz terms h)

theorem manyOpsInner_ok (R : StrAlg K 𝔸) {num : Numerics K} (hnum : IsNumerics num) {args : ManyOpsArgs K} (ha : ManyOK R args) {step : ℕ} (hstep : step < args.numSteps)
    {old : List (Operator K)} (hold : ∀ A ∈ old, GoodOp R A ∧ (step ≠ 0 → A.IsUnit) ∧
      ∀ size terms, args.Bounds size terms → A.basis.len ≤ if step = 0 then size else size + terms + 2 * args.numOTerms) : ∀ (m : ℕ) {st : ManyState K}, ManyInv R args old st → st.ops.length + m = old.length →
    (∃ st', (List.range' st.ops.length m).foldlM (manyOpsOne num args step) st = .ok st' ∧ ManyInv R args old st' ∧ st'.ops.length = old.length) ∨
      ((∃ e, (List.range' st.ops.length m).foldlM (manyOpsOne num args step) st = .error e) ∧ ¬ ManySafe args) := by
  intro m
  induction m with
  | zero => exact fun {st} hs hm => Or.inl ⟨st, rfl, hs, hm⟩
  | succ m ih =>
    intro st hs hm
    rw [List.range'_succ, List.foldlM_cons]
    rcases manyOpsOne_ok R hnum ha hstep hold hs (by omega) with ⟨st', h1, h2, h3⟩ | ⟨⟨e, h⟩, hn⟩
    · simp only [h1, bind, Except.bind]
      have := ih h2 (by omega)
      rwa [h3] at this
    · exact Or.inr ⟨⟨e, by simp only [h, bind, Except.bind]⟩, hn⟩

/-- the records of all steps -/
def ManyRecords (R : StrAlg K 𝔸) (H : Operator K) (n : ℕ) (ops : List (List (Operator K))) (norms : List (List K)) : Prop :=
  List.Forall₂ (fun o c => o.length = n ∧ List.Forall₂ (GreedyRec R H False) o c) ops norms

theorem manyOpsLoop_ok (R : StrAlg K 𝔸) {num : Numerics K} (hnum : IsNumerics num) {args : ManyOpsArgs K} (ha : ManyOK R args) : ∀ (m i : ℕ)
    {st : ManyState K} {ops : List (List (Operator K))} {norms : List (List K)}, i + m = args.numSteps → st.current.length = args.initialOperators.length →
    (∀ A ∈ st.current, GoodOp R A ∧ (i ≠ 0 → A.IsUnit) ∧
      ∀ size terms, args.Bounds size terms → A.basis.len ≤ if i = 0 then size else size + terms + 2 * args.numOTerms) → (∀ x ∈ st.explored, x.Coherent R (· ∈ args.H.termStrs)) →
    ManyRecords R args.H args.initialOperators.length ops norms → ops.length = i →
    (∃ r, (List.range' i m).foldlM (manyOpsStep num args) (st, ops, norms) = .ok r ∧ ManyRecords R args.H args.initialOperators.length r.2.1 r.2.2 ∧
        r.2.1.length = args.numSteps) ∨
      ((∃ e, (List.range' i m).foldlM (manyOpsStep num args) (st, ops, norms) = .error e) ∧ ¬ ManySafe args) := by
  intro m
  induction m with
  | zero => exact fun i {st ops norms} hi _ _ _ hr hl => Or.inl ⟨(st, ops, norms), rfl, hr, by show ops.length = _; omega⟩
  | succ m ih =>
    intro i st ops norms hi hlen hcur hx hr hl
    rw [List.range'_succ, List.foldlM_cons]
    have hinv : ManyInv R args st.current { st with ops := [], norms := [] } := ⟨by simp, .nil, hx, by simp⟩
    rcases manyOpsInner_ok R hnum ha (step := i) (by omega) hcur args.initialOperators.length hinv (by simp [hlen]) with ⟨st', h1, h2, h3⟩ | ⟨⟨e, h⟩, hn⟩
    · have e1 : manyOpsStep num args (st, ops, norms) i = .ok (st', ops ++ [st'.ops], norms ++ [st'.norms]) := by
        unfold manyOpsStep
        rw [List.range_eq_range']
        simp only [List.length_nil] at h1
        simp only [h1, bind, Except.bind]
      simp only [e1, bind, Except.bind]
      have hc : st'.current = st'.ops := by rw [h2.current, h3]; simp
      refine ih (i + 1) (by omega) (by rw [hc, h3, hlen]) ?_ h2.cache (List.rel_append hr (.cons ⟨by rw [h3, hlen], h2.records⟩ .nil)) (by simp [hl])
      intro A hA
      rw [hc] at hA
      obtain ⟨c, _, hrec⟩ := forall₂_mem_right h2.records.flip hA
      exact ⟨hrec.good, fun _ => hrec.unit, fun size terms h => by rw [if_neg (Nat.succ_ne_zero i)]; exact h2.bound A hA size terms h⟩
    · refine Or.inr ⟨⟨e, ?_⟩, hn⟩
      have e1 : manyOpsStep num args (st, ops, norms) i = .error e := by
        unfold manyOpsStep
        rw [List.range_eq_range']
        simp only [List.length_nil] at h
        simp only [h, bind, Except.bind]
      simp only [e1, bind, Except.bind]

theorem manyOps_ok (R : StrAlg K 𝔸) {num : Numerics K} (hnum : IsNumerics num) {args : ManyOpsArgs K} (ha : ManyOK R args) :
    (∃ ops norms, manyOps num args = .ok (ops, norms) ∧ ManyRecords R args.H args.initialOperators.length ops norms ∧ ops.length = args.numSteps) ∨
      ((∃ e, manyOps num args = .error e) ∧ ¬ ManySafe args) := by
  rcases manyOpsLoop_ok R hnum ha args.numSteps 0 (st := ⟨args.initialOperators, args.explored, [], []⟩) (by omega) rfl
    (fun A hA => ⟨ha.good A hA, fun h => absurd rfl h, fun size terms h => by rw [if_pos rfl]; exact h.initial A hA⟩) ha.cache .nil rfl with ⟨r, h1, h2, h3⟩ | ⟨⟨e, h⟩, hn⟩
  · refine Or.inl ⟨r.2.1, r.2.2, ?_, h2, h3⟩
    unfold manyOps
    rw [List.range_eq_range']
    simp only [h1, bind, Except.bind]
  · refine Or.inr ⟨⟨e, ?_⟩, hn⟩
    unfold manyOps
    rw [List.range_eq_range']
    simp only [h, bind, Except.bind]

end Qosy
