import Verif.Lemmas.ManyOps2

/-! # The calls `selected_ci_greedy_many_ops` makes -/

namespace Qosy
variable {K : Type} [Field K] [StarRing K] [Coef K] [RealCoef K]

/-- in the middle of a step -/
structure CallInv (num : Numerics K) (args : ManyOpsArgs K) (step : ℕ) (old : List (Operator K)) (st : ManyState K) : Prop where
  current : st.current = st.ops ++ old.drop st.ops.length
  len : st.norms.length = st.ops.length
  calls : ∀ i < st.ops.length, IsManyCall num args step old st.ops st.norms i
  cache : args.explored = none → st.explored = none

theorem pyLast_inv {α : Type} {l : List α} {x : α} (h : pyLast l = .ok x) : l.getLast? = some x := by
  unfold pyLast at h
  split at h
  · rename_i y hy
    rw [hy, Except.ok.inj h]
  · simp at h

theorem IsManyCall.append {num : Numerics K} {args : ManyOpsArgs K} {step : ℕ} {old ops : List (Operator K)} {norms : List K} {i : ℕ} (h : IsManyCall num args step old ops norms i)
    (ops' : List (Operator K)) (norms' : List K) : IsManyCall num args step old (ops ++ ops') (norms ++ norms') i := by
  obtain ⟨A, B, O, c, numH, size, x, best, bn, os, cs, h1, h2, h3, h4, h5, h6, h7, h8, h9, h10⟩ := h
  have hi : i < ops.length := (List.getElem?_eq_some_iff.mp h2).1
  have hi' : i < norms.length := (List.getElem?_eq_some_iff.mp h3).1
  exact ⟨A, B, O, c, numH, size, x, best, bn, os, cs, h1, by rw [List.getElem?_append_left hi, h2], by rw [List.getElem?_append_left hi', h3], h4, h5, h6, h7, h8,
    by rw [List.take_append_of_le_length hi.le]; exact h9, h10⟩

theorem manyOpsOne_calls {num : Numerics K} {args : ManyOpsArgs K} {step : ℕ} {old : List (Operator K)} {st st' : ManyState K} (hs : CallInv num args step old st)
    (hi : st.ops.length < old.length) (h : manyOpsOne num args step st st.ops.length = .ok st') : CallInv num args step old st' ∧ st'.ops.length = st.ops.length + 1 := by
  have hget : st.current[st.ops.length]? = some old[st.ops.length] := by
    rw [hs.current, List.getElem?_append_right le_rfl, Nat.sub_self, List.getElem?_drop, Nat.add_zero, List.getElem?_eq_getElem hi]
  unfold manyOpsOne at h
  simp only [pyGet, hget] at h
  replace h : (args.truncate num step old[st.ops.length] >>= _) = _ := h
  obtain ⟨B, h1, h⟩ := py_bind_ok h
  obtain ⟨numH, h2, h⟩ := py_bind_ok h
  obtain ⟨size, h3, h⟩ := py_bind_ok h
  obtain ⟨r, h4, h⟩ := py_bind_ok h
  cases r with
  | none => simp at h
  | some s =>
    simp only at h
    obtain ⟨O, h5, h⟩ := py_bind_ok h
    obtain ⟨c, h6, h⟩ := py_bind_ok h
    rw [← Except.ok.inj h]
    have he : st.current.eraseIdx st.ops.length = st.ops ++ old.drop (st.ops.length + 1) := by
      rw [hs.current, List.eraseIdx_append_of_length_le le_rfl, Nat.sub_self, List.drop_eq_getElem_cons hi]
      rfl
    refine ⟨⟨?_, by simp [hs.len], ?_, fun hn => by simp [hs.cache hn]⟩, by simp⟩
    · show st.current.set st.ops.length O = (st.ops ++ [O]) ++ old.drop (st.ops ++ [O]).length
      rw [hs.current, List.set_append_right _ _ le_rfl, Nat.sub_self, List.drop_eq_getElem_cons hi, List.set_cons_zero, List.append_assoc, List.length_append]
      rfl
    · intro i hlt
      rcases Nat.lt_or_ge i st.ops.length with h' | h'
      · exact (hs.calls i h').append [O] [c]
      · have hie : i = st.ops.length := by
          have : i < (st.ops ++ [O]).length := hlt
          simp at this
          omega
        subst hie
        refine ⟨old[st.ops.length], B, O, c, numH, size, st.explored.getD .empty, s.bestOperator, s.bestComNorm, s.operators, s.comNorms, List.getElem?_eq_getElem hi,
          by simp, by rw [← hs.len]; simp, ?_, ?_, h2, h3, fun hn => by rw [hs.cache hn]; rfl, ?_, pyLast_inv h5, pyLast_inv h6⟩
        · intro h0
          unfold ManyOpsArgs.truncate at h1
          rw [if_pos h0] at h1
          exact (Except.ok.inj h1).symm
        · intro h0
          unfold ManyOpsArgs.truncate at h1
          rw [if_neg h0] at h1
          obtain ⟨n, g1, g2⟩ := py_bind_ok h1
          cases hz : args.maxSize with
          | list l => rw [hz] at g1; simp [SizeArg.scalar] at g1
          | int m =>
            rw [hz] at g1
            rw [Except.ok.inj g1]
            exact ⟨n, rfl, g2⟩
        · rw [selectedCiGreedy_cached]
          rw [he] at h4
          have e : (st.ops ++ [O]).take st.ops.length = st.ops := by simp
          show (greedyCached num
            { initialOperator := B, comOps := [args.H], numSteps := 1, numHTerms := [numH], numOTerms := args.numOTerms, threshold := args.threshold,
              maxSizes := [size], explored := st.explored.getD .empty, orthOps := some ((st.ops ++ [O]).take st.ops.length ++ old.drop (st.ops.length + 1)) } 1 >>= _) = _
          rw [e]
          unfold ManyOpsArgs.call at h4
          rw [h4]
          rfl

theorem manyOpsInner_calls {num : Numerics K} {args : ManyOpsArgs K} {step : ℕ} {old : List (Operator K)} : ∀ (m : ℕ) {st st' : ManyState K},
    CallInv num args step old st → st.ops.length + m = old.length → (List.range' st.ops.length m).foldlM (manyOpsOne num args step) st = .ok st' →
      CallInv num args step old st' ∧ st'.ops.length = old.length := by
  intro m
  induction m with
  | zero =>
    intro st st' hs hm h
    cases h
    exact ⟨hs, hm⟩
  | succ m ih =>
    intro st st' hs hm h
    rw [List.range'_succ, List.foldlM_cons] at h
    obtain ⟨s1, h1, h⟩ := py_bind_ok h
    obtain ⟨h2, h3⟩ := manyOpsOne_calls hs (by omega) h1
    exact ih h2 (by omega) (by rw [h3]; exact h)

theorem manyOpsLoop_calls {num : Numerics K} {args : ManyOpsArgs K} : ∀ (m i : ℕ) {st : ManyState K} {ops : List (List (Operator K))} {norms : List (List K)}
    {r : ManyState K × List (List (Operator K)) × List (List K)},
    (args.explored = none → st.explored = none) → ops.length = i → norms.length = i → (args.initialOperators :: ops)[i]? = some st.current →
    st.current.length = args.initialOperators.length →
    (∀ k < i, ∀ j < args.initialOperators.length, IsManyCall num args k ((args.initialOperators :: ops).getD k []) (ops.getD k []) (norms.getD k []) j) →
    (List.range' i m).foldlM (manyOpsStep num args) (st, ops, norms) = .ok r →
    r.2.1.length = i + m ∧ ∀ k < i + m, ∀ j < args.initialOperators.length,
      IsManyCall num args k ((args.initialOperators :: r.2.1).getD k []) (r.2.1.getD k []) (r.2.2.getD k []) j := by
  intro m
  induction m with
  | zero =>
    intro i st ops norms r _ hl _ _ _ hc h
    cases h
    exact ⟨hl, hc⟩
  | succ m ih =>
    intro i st ops norms r hx hl hl' hcur hlen hc h
    rw [List.range'_succ, List.foldlM_cons] at h
    obtain ⟨s1, h1, h⟩ := py_bind_ok h
    unfold manyOpsStep at h1
    obtain ⟨st', h2, h1⟩ := py_bind_ok h1
    cases h1
    rw [List.range_eq_range'] at h2
    have hinv : CallInv num args i st.current { st with ops := [], norms := [] } := ⟨by simp, rfl, by simp, hx⟩
    obtain ⟨h3, h4⟩ := manyOpsInner_calls args.initialOperators.length hinv (by simp [hlen]) h2
    have hcs : st'.current = st'.ops := by rw [h3.current, h4]; simp
    have e1 : ∀ k ≤ i, (args.initialOperators :: (ops ++ [st'.ops])).getD k [] = (args.initialOperators :: ops).getD k [] := by
      intro k hk
      rw [← List.cons_append, List.getD_append _ _ _ _ (by simp; omega)]
    have := ih (i + 1) (st := st') h3.cache (by simp [hl]) (by simp [hl']) (by simp [hl, hcs]) (by rw [hcs, h4, hlen]) ?_ h
    · rw [show i + 1 + m = i + (m + 1) by omega] at this
      exact this
    · intro k hk j hj
      rw [e1 k (by omega)]
      show IsManyCall num args k _ ((ops ++ [st'.ops]).getD k []) ((norms ++ [st'.norms]).getD k []) j
      rcases Nat.lt_or_ge k i with hk' | hk'
      · rw [List.getD_append _ _ _ _ (by omega), List.getD_append _ _ _ _ (by omega)]
        exact hc k hk' j hj
      · have hki : k = i := by omega
        subst hki
        rw [List.getD_eq_getElem?_getD, hcur, List.getD_append_right _ _ _ _ (by omega), List.getD_append_right _ _ _ _ (by omega), hl, hl']
        simp only [Nat.sub_self, Option.getD_some, List.getD_cons_zero]
        exact h3.calls j (by rw [h4, hlen]; exact hj)

theorem manyOps_calls {num : Numerics K} {args : ManyOpsArgs K} {ops : List (List (Operator K))} {norms : List (List K)} (h : manyOps num args = .ok (ops, norms)) :
    ops.length = args.numSteps ∧ ∀ k < args.numSteps, ∀ j < args.initialOperators.length,
      IsManyCall num args k ((args.initialOperators :: ops).getD k []) (ops.getD k []) (norms.getD k []) j := by
  unfold manyOps at h
  obtain ⟨r, h1, h⟩ := py_bind_ok h
  have e := Except.ok.inj h
  rw [List.range_eq_range'] at h1
  have := manyOpsLoop_calls args.numSteps 0 (fun h => h) rfl rfl rfl rfl (by simp) h1
  rw [e] at this
  simpa using this

end Qosy
