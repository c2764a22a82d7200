import Verif.Lemmas.ManyOps2
import Verif.Lemmas.ExpansionLoop
import Verif.Lemmas.GreedyGeneral

/-! # When `selected_ci_greedy_many_ops2` stops -/

namespace Qosy
open Coef RealOps
variable {K : Type} [Field K] [StarRing K] [Coef K] [RealCoef K]

private theorem sameStrings_inv_iff {b c : Basis} (hb : b.Inv) (hc : c.Inv) : sameStrings b c = true ↔ ∀ t, t ∈ b.strs ↔ t ∈ c.strs := by
  simp only [sameStrings, Bool.and_eq_true, List.all_eq_true, hb.contains_iff, hc.contains_iff]
  exact ⟨fun h t => ⟨h.1 t, h.2 t⟩, fun h => ⟨fun t => (h t).1, fun t => (h t).2⟩⟩

/-- the bases before are those of the operators of the last two steps, and no step before had the strings of one of the two steps before it -/
structure StepsInv (step : ℕ) (s : Many2State K) : Prop where
  steps : step = s.operators.length
  basis : s.basis.Inv
  previous : s.previous.Inv
  previous2 : ∀ b ∈ s.previous2, b.Inv
  last : ∀ o, s.operators[step - 1]? = some o → ∀ A ∈ o, A.basis.strs = s.previous.strs
  before : ∀ o, 2 ≤ step → s.operators[step - 2]? = some o → ∀ A ∈ o, ∃ b, s.previous2 = some b ∧ A.basis.strs = b.strs
  progress : Progress s.operators

private theorem truncate_inv {num : Numerics K} {args : ManyOps2Args K} {step : ℕ} {b small : Basis} {vecs : List (List K)}
    (h : many2Truncate num args step b vecs = .ok small) : small.Inv := by
  unfold many2Truncate at h
  obtain ⟨size, -, h⟩ := py_bind_ok h
  split at h
  · exact (mkBasis_inv h).1
  · unfold truncateBasis at h
    simp only [] at h
    obtain ⟨strs, -, h2⟩ := py_bind_ok h
    exact (mkBasis_inv h2).1

theorem many2Finish_steps {num : Numerics K} {args : ManyOps2Args K} {step : ℕ} {s s' : Many2State K} {b : Basis} {st : Explored K} {evals : List K} {evecs : List (List K)}
    (hs : StepsInv step s) (hb : b.Inv) (hstop : many2Stop step b s = false) (h : many2Finish num args step s b st evals evecs = .ok s') : StepsInv (step + 1) s' := by
  unfold many2Finish at h
  obtain ⟨_, _, h⟩ := py_bind_ok h
  obtain ⟨_, _, h⟩ := py_bind_ok h
  obtain ⟨_, _, h⟩ := py_bind_ok h
  obtain ⟨best, hbest, h⟩ := py_bind_ok h
  obtain ⟨small, hsmall, h⟩ := py_bind_ok h
  obtain ⟨_, _, h⟩ := py_bind_ok h
  cases h
  have hB : ∀ A ∈ best, A.basis.strs = b.strs := fun A hA => by
    obtain ⟨v, -, h⟩ := forall₂_mem_right (mapM_ok_inv hbest) hA
    exact (mkOperator_none_inv h).2.1
  have hstep := hs.steps
  have new : 0 < step → (¬ ∀ t, t ∈ b.strs ↔ t ∈ s.previous.strs) ∧ ∀ c ∈ s.previous2, ¬ ∀ t, t ∈ b.strs ↔ t ∈ c.strs := fun h0 => by
    simp only [many2Stop, h0, decide_true, Bool.true_and, Bool.or_eq_false_iff] at hstop
    refine ⟨fun h => ?_, fun c hc h => ?_⟩
    · rw [← sameStrings_inv_iff hb hs.previous, hstop.1] at h
      cases h
    · have := hstop.2
      rw [hc] at this
      rw [← sameStrings_inv_iff hb (hs.previous2 c hc)] at h
      rw [show inCycle b (some c) = sameStrings b c from rfl, h] at this
      cases this
  refine ⟨by simp [hstep], truncate_inv hsmall, hb, by simpa using hs.previous, ?_, ?_, ?_⟩
  · intro o ho
    rw [Nat.add_sub_cancel, hstep, List.getElem?_concat_length] at ho
    cases ho
    exact hB
  · intro o h2 ho A hA
    rw [show step + 1 - 2 = step - 1 by omega, List.getElem?_append_left (by omega)] at ho
    exact ⟨_, rfl, hs.last o ho A hA⟩
  · intro k o o' hk hk' A hA B hB'
    have hk0 : k < s.operators.length := by
      rcases hk' with h | h
      · have := (List.getElem?_eq_some_iff.mp h).1
        simp at this
        omega
      · have := (List.getElem?_eq_some_iff.mp h).1
        simp at this
        omega
    rw [List.getElem?_append_left hk0] at hk
    rcases hk' with h | h
    · by_cases h1 : k + 1 < s.operators.length
      · rw [List.getElem?_append_left h1] at h
        exact hs.progress k o o' hk (Or.inl h) A hA B hB'
      · have e : k + 1 = s.operators.length := by omega
        rw [e, List.getElem?_concat_length] at h
        cases h
        have := (new (by omega)).1
        rw [hB B hB', hs.last o (by rw [show step - 1 = k by omega]; exact hk) A hA]
        exact this
    · by_cases h1 : k + 2 < s.operators.length
      · rw [List.getElem?_append_left h1] at h
        exact hs.progress k o o' hk (Or.inr h) A hA B hB'
      · have e : k + 2 = s.operators.length := by
          have := (List.getElem?_eq_some_iff.mp h).1
          simp at this
          omega
        rw [e, List.getElem?_concat_length] at h
        cases h
        obtain ⟨c, c1, c2⟩ := hs.before o (by omega) (by rw [show step - 2 = k by omega]; exact hk) A hA
        have := (new (by omega)).2 c c1
        rw [hB B hB', c2]
        exact this

private theorem many2Loop_norms {num : Numerics K} {args : ManyOps2Args K} : ∀ (m step : ℕ) {s s' : Many2State K}, many2Loop num args m step s = .ok s' → s.comNorms <+: s'.comNorms := by
  intro m
  induction m with
  | zero => intro step s s' h; cases h; exact List.prefix_rfl
  | succ m ih =>
    intro step s s' h
    unfold many2Loop at h
    obtain ⟨⟨new, st⟩, _, h⟩ := py_bind_ok h
    simp only [] at h
    split at h
    · cases h; exact List.prefix_rfl
    · obtain ⟨⟨r, st2⟩, _, h⟩ := py_bind_ok h
      obtain ⟨s1, h3, h5⟩ := py_bind_ok h
      refine List.IsPrefix.trans ?_ (ih _ h5)
      unfold many2Finish at h3
      obtain ⟨_, _, h3⟩ := py_bind_ok h3
      obtain ⟨_, _, h3⟩ := py_bind_ok h3
      obtain ⟨_, _, h3⟩ := py_bind_ok h3
      obtain ⟨_, _, h3⟩ := py_bind_ok h3
      obtain ⟨_, _, h3⟩ := py_bind_ok h3
      obtain ⟨_, _, h3⟩ := py_bind_ok h3
      cases h3
      exact List.prefix_append _ _

private theorem many2Loop_numSteps (num : Numerics K) (args : ManyOps2Args K) (n : ℕ) : ∀ (m step : ℕ) (s : Many2State K),
    many2Loop num { args with numSteps := n } m step s = many2Loop num args m step s := by
  intro m
  induction m with
  | zero => intro step s; rfl
  | succ m ih =>
    intro step s
    unfold many2Loop
    simp only [ih]
    rfl

/-- the loop -/
theorem many2Loop_steps {num : Numerics K} {args : ManyOps2Args K} : ∀ (m step : ℕ) {s s' : Many2State K}, StepsInv step s → many2Loop num args m step s = .ok s' →
    Progress s'.operators ∧ (step = 0 → 0 < m → s'.operators ≠ []) ∧
      (∀ m' s'', m ≤ m' → many2Loop num args m' step s = .ok s'' → s'.operators <+: s''.operators ∧ s'.comNorms <+: s''.comNorms) ∧
      (s'.operators.length < step + m → ∀ m', m ≤ m' → many2Loop num args m' step s = .ok s') := by
  intro m
  induction m with
  | zero =>
    intro step s s' hs h
    cases h
    refine ⟨hs.progress, by simp, fun m' s'' _ h => ⟨many2Loop_appends _ _ h, many2Loop_norms _ _ h⟩, fun h => ?_⟩
    have := hs.steps
    omega
  | succ m ih =>
    intro step s s' hs h
    unfold many2Loop at h
    obtain ⟨⟨new, st⟩, h1, h⟩ := py_bind_ok h
    have hb : (s.basis.iadd new).Inv := hs.basis.iadd _
    simp only [] at h
    split at h
    · rename_i hstop
      cases h
      have again : ∀ m', m + 1 ≤ m' → many2Loop num args m' step s = .ok { s with explored := st, basis := s.basis.iadd new } := fun m' hm => by
        obtain ⟨k, rfl⟩ : ∃ k, m' = k + 1 := ⟨m' - 1, by omega⟩
        unfold many2Loop
        rw [h1]
        show (if many2Stop step (s.basis.iadd new) s = true then _ else _) = _
        rw [if_pos hstop]
      refine ⟨hs.progress, fun h0 => ?_, fun m' s'' hm h => ?_, fun _ => again⟩
      · simp [many2Stop, h0] at hstop
      · rw [again m' hm] at h
        cases h
        exact ⟨List.prefix_rfl, List.prefix_rfl⟩
    · rename_i hstop
      obtain ⟨⟨r, st2⟩, h2, h⟩ := py_bind_ok h
      obtain ⟨s1, h3, h5⟩ := py_bind_ok h
      have hs1 := many2Finish_steps hs hb (by simpa using hstop) h3
      obtain ⟨i1, -, i3, i4⟩ := ih (step + 1) hs1 h5
      have next : ∀ k, many2Loop num args (k + 1) step s = many2Loop num args k (step + 1) s1 := fun k => by
        conv => lhs; unfold many2Loop
        rw [h1]
        show (if many2Stop step (s.basis.iadd new) s = true then _ else _) = _
        rw [if_neg hstop, h2]
        show (many2Finish num args step s _ _ _ _ >>= _) = _
        rw [h3]
        rfl
      refine ⟨i1, fun _ _ h0 => ?_, fun m' s'' hm h => ?_, fun hl m' hm => ?_⟩
      · have := many2Loop_appends _ _ h5
        rw [h0, List.prefix_nil] at this
        have := hs1.steps
        simp_all
      · obtain ⟨k, rfl⟩ : ∃ k, m' = k + 1 := ⟨m' - 1, by omega⟩
        rw [next] at h
        exact i3 k s'' (by omega) h
      · obtain ⟨k, rfl⟩ : ∃ k, m' = k + 1 := ⟨m' - 1, by omega⟩
        rw [next]
        exact i4 (by omega) k (by omega)

private theorem foldl_iadd_inv : ∀ (l : List (Operator K)) {b : Basis}, b.Inv → (l.foldl (fun (b : Basis) op => b.iadd op.basis) b).Inv
  | [], _, h => h
  | _ :: l, _, h => foldl_iadd_inv l (h.iadd _)

theorem manyOps2_steps {num : Numerics K} {args : ManyOps2Args K} {ops : List (List (Operator K))} {norms : List (List K)} (h : manyOps2 num args = .ok (ops, norms)) :
    Progress ops ∧ (0 < args.numSteps → ops ≠ []) ∧
      (∀ m ops' norms', args.numSteps ≤ m → manyOps2 num { args with numSteps := m } = .ok (ops', norms') → ops <+: ops' ∧ norms <+: norms') ∧
      (ops.length < args.numSteps → ∀ m, args.numSteps ≤ m → manyOps2 num { args with numSteps := m } = .ok (ops, norms)) := by
  unfold manyOps2 at h
  split at h
  · simp at h
  · rename_i hlab
    simp only [] at h
    obtain ⟨current, h1, h⟩ := py_bind_ok h
    obtain ⟨s, h2, h⟩ := py_bind_ok h
    cases h
    have he : Basis.Inv emptyBasis := Basis.Inv.ofList List.nodup_nil
    have hb := foldl_iadd_inv args.initialOperators he
    obtain ⟨i1, i2, i3, i4⟩ := many2Loop_steps (num := num) (args := args) args.numSteps 0 (s := ⟨args.explored, _, current, [], [], _, none⟩)
      ⟨rfl, hb, hb, by simp, by simp, by simp, by intro k; simp⟩ h2
    have e : ∀ m, manyOps2 num { args with numSteps := m } = (many2Loop num args m 0 ⟨args.explored, _, current, [], [], args.initialOperators.foldl (fun (b : Basis) op => b.iadd op.basis) emptyBasis, none⟩ >>=
        fun s => .ok (s.operators, s.comNorms)) := fun m => by
      unfold manyOps2
      rw [if_neg hlab]
      simp only [h1, many2Loop_numSteps]
      rfl
    refine ⟨i1, i2 rfl, fun m ops' norms' hm h => ?_, fun hl m hm => ?_⟩
    · rw [e] at h
      obtain ⟨s'', k1, k2⟩ := py_bind_ok h
      cases k2
      exact i3 m s'' hm k1
    · rw [e, i4 (by simpa using hl) m hm]
      rfl

end Qosy
