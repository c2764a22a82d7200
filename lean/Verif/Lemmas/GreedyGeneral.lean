import Verif.Lemmas.ExpansionLoop
import Verif.Lemmas.GreedyStop

/-! # Properties of `selected_ci_greedy` that hold for all arguments and numerical routines -/

namespace Qosy
open Coef RealOps
variable {K : Type} [Field K] [StarRing K] [Coef K] [RealCoef K]

/-! ### The number of strings added -/

/-- `b'` is `b` with at most `n` more strings -/
def Grown (n : ℕ) (b b' : Basis) : Prop := b.strs <+: b'.strs ∧ b'.strs.length ≤ b.strs.length + n

theorem Grown.refl (n : ℕ) (b : Basis) : Grown n b b := ⟨List.prefix_rfl, Nat.le_add_right _ _⟩

theorem Grown.trans {n m : ℕ} {a b c : Basis} (h : Grown n a b) (h' : Grown m b c) : Grown (n + m) a c :=
  ⟨h.1.trans h'.1, by have := h.2; have := h'.2; omega⟩

theorem Grown.mono {n m : ℕ} {a b : Basis} (h : Grown n a b) (hm : n ≤ m) : Grown m a b := ⟨h.1, h.2.trans (by omega)⟩

theorem grown_iaddString (b : Basis) (s : OpString) : Grown 1 b (b.iaddString s) := by
  unfold Basis.iaddString
  split
  · exact .refl _ _
  · exact ⟨List.prefix_append _ _, by simp⟩

theorem grown_insertTerms (num : ℕ) : ∀ (l : List OpString) (b : Basis) (c : ℕ), Grown (max 1 (num - c)) b (insertTerms num l b c) := by
  intro l
  induction l with
  | nil => intro b c; exact .refl _ _
  | cons s l ih =>
    intro b c
    unfold insertTerms
    split
    · split
      · exact .refl _ _
      · exact ih b c
    · split
      · exact (grown_iaddString b s).mono (le_max_left _ _)
      · rename_i h
        refine ((grown_iaddString b s).trans (ih _ (c + 1))).mono ?_
        omega

theorem grown_insertAnticommutators {n : ℕ} : ∀ (l : List (OpString × OpString)) {b b' : Basis} {a a' : List OpString} {c : ℕ},
    insertAnticommutators (K := K) n l b a c = .ok (b', a') → Grown (max 1 (n - c)) b b' := by
  intro l
  induction l with
  | nil => intro b b' a a' c h; cases h; exact .refl _ _
  | cons p l ih =>
    intro b b' a a' c h
    unfold insertAnticommutators at h
    obtain ⟨⟨x, s⟩, _, h⟩ := py_bind_ok h
    cases s with
    | none =>
      simp only [] at h
      split at h
      · cases h; exact .refl _ _
      · exact ih h
    | some s =>
      simp only [] at h
      split at h
      · split at h
        · cases h; exact (grown_iaddString b s).mono (le_max_left _ _)
        · refine ((grown_iaddString b s).trans (ih h)).mono ?_
          omega
      · split at h
        · cases h; exact .refl _ _
        · exact ih h

theorem grown_expandO {num : Numerics K} {numO : ℕ} {O : Operator K} {b b' : Basis} (h : greedyExpandO num numO O b = .ok b') : Grown (2 * numO) b b' := by
  unfold greedyExpandO at h
  simp only [] at h
  split at h
  · cases h; exact .refl _ _
  · rename_i h0
    obtain ⟨strs, _, h⟩ := py_bind_ok h
    obtain ⟨⟨b1, added⟩, h1, h⟩ := py_bind_ok h
    obtain ⟨⟨b2, added2⟩, h2, h⟩ := py_bind_ok h
    cases h
    refine ((grown_insertAnticommutators _ h1).trans (grown_insertAnticommutators _ h2)).mono ?_
    omega

theorem mapM_pyGet_nil {α : Type} {inds : List ℕ} {r : List α} (h : inds.mapM (pyGet ([] : List α)) = .ok r) : r = [] := by
  have := mapM_ok_inv h
  cases this with
  | nil => rfl
  | cons h' _ => simp [pyGet] at h'

theorem grown_insert {num : Numerics K} {numH : ℕ} {A : Basis} (hA : numH = 0 → A.strs = []) {v : List K} {acc r : Basis × Explored K} {com : Operator K}
    (h : greedyInsert num numH A v acc com = .ok r) : Grown numH acc.1 r.1 := by
  unfold greedyInsert at h
  obtain ⟨⟨⟨L, ext⟩, st⟩, h1, h⟩ := py_bind_ok h
  obtain ⟨w, _, h⟩ := py_bind_ok h
  obtain ⟨strs, h2, h⟩ := py_bind_ok h
  cases h
  rcases Nat.eq_zero_or_pos numH with h0 | h0
  · rw [explore_empty (hA h0) h1] at h2
    rw [mapM_pyGet_nil h2]
    exact .refl _ _
  · refine (grown_insertTerms _ strs acc.1 0).mono ?_
    omega

theorem grown_expandH {num : Numerics K} {coms : List (Operator K)} {numH : ℕ} {b : Basis} {O : Operator K} {st : Explored K} {r : Basis × Explored K}
    (h : greedyExpandH num coms numH b O st = .ok r) : Grown (coms.length * numH) b r.1 := by
  unfold greedyExpandH at h
  cases coms with
  | nil => simp at h
  | cons H rest =>
    simp only [] at h
    obtain ⟨⟨⟨L, ext⟩, st1⟩, _, h⟩ := py_bind_ok h
    obtain ⟨w, _, h⟩ := py_bind_ok h
    obtain ⟨strs, h2, h⟩ := py_bind_ok h
    obtain ⟨A, h3, h⟩ := py_bind_ok h
    obtain ⟨v, _, h⟩ := py_bind_ok h
    have hA : numH = 0 → A.strs = [] := by
      intro h0
      subst h0
      simp only [Nat.min_zero, List.take_zero] at h2
      cases h2
      rw [(mkBasis_inv h3).2]
      rfl
    have key : ∀ (l : List (Operator K)) (acc r : Basis × Explored K), l.foldlM (greedyInsert num numH A v) acc = .ok r → Grown (l.length * numH) acc.1 r.1 := by
      intro l
      induction l with
      | nil => intro acc r h; cases h; exact .refl _ _
      | cons C l ih =>
        intro acc r h
        rw [List.foldlM_cons] at h
        obtain ⟨a, h1, h⟩ := py_bind_ok h
        refine ((grown_insert hA h1).trans (ih _ _ h)).mono ?_
        rw [List.length_cons, Nat.succ_mul, Nat.add_comm]
    exact key _ _ _ h

theorem truncateBasis_size {argsort : List K → List ℕ} {b b' : Basis} {v : List K} {θ : ℚ} {size : ℕ} {f : Option (List K → Basis → List K)}
    (h : truncateBasis argsort b v θ size f = .ok b') : b'.strs.length ≤ size := by
  unfold truncateBasis at h
  simp only [] at h
  obtain ⟨strs, h1, h2⟩ := py_bind_ok h
  have := (mapM_ok_inv h1).length_eq
  rw [(mkBasis_inv h2).2]
  show strs.length ≤ size
  rw [← this]
  split
  · exact (List.length_take_le _ _)
  · omega

/-- what the end of a step does -/
theorem greedyFinish_general {num : Numerics K} {args : GreedyArgs K} {s s' : GreedyState K} {b : Basis} {st : Explored K} {e stop : Bool} {first v : List K} {c : K}
    (h : greedyFinish num args s b st e first v c = .ok (s', stop)) : ∃ O size, s'.operators = s.operators ++ [O] ∧ O.basis.strs = b.strs ∧ O.coeffs = v ∧
      s'.comNorms = s.comNorms ++ [c] ∧ args.maxSizes[s.step]? = some size ∧ s'.basis.strs.length ≤ size ∧
      s'.bestOperator = (if improves c s.bestComNorm then O else s.bestOperator) ∧ s'.bestComNorm = (if improves c s.bestComNorm then some c else s.bestComNorm) ∧
      (s'.previousBasis = s.previousBasis ∨ s'.previousBasis = s'.basis) ∧ (stop = false → s'.step = s.step + 1) := by
  unfold greedyFinish at h
  obtain ⟨O, h1, h⟩ := py_bind_ok h
  obtain ⟨size, h2, h⟩ := py_bind_ok h
  obtain ⟨small, h3, h⟩ := py_bind_ok h
  obtain ⟨_, _, h⟩ := py_bind_ok h
  obtain ⟨_, _, h⟩ := py_bind_ok h
  cases h
  refine ⟨O, size, rfl, (mkOperator_none_inv h1).2.1, (mkOperator_none_inv h1).1, rfl, pyGet_inv h2, truncateBasis_size h3, rfl, rfl, ?_, ?_⟩
  · exact ite_eq_or_eq _ _ _
  · intro h
    show (if _ then _ else _) = _
    rw [h]
    rfl

/-- what a step does: the basis grows, and the operator is rejected or recorded -/
theorem greedyStep_general {num : Numerics K} {args : GreedyArgs K} (ht : args.transformations = none) {s s' : GreedyState K} {fuel : ℕ} {stop : Bool}
    (h : greedyStep num args fuel s = .ok (some (s', stop))) :
    (s.step ≠ 0 ∧ args.targetOperator ≠ none ∧ args.targetFidelity ≠ none ∧ s'.operators = s.operators ∧ s'.comNorms = s.comNorms ∧ s'.basis = s.previousBasis ∧
        s'.previousBasis = s.previousBasis) ∨
      ∃ O numH size, s'.operators = s.operators ++ [O] ∧ args.numHTerms[s.step]? = some numH ∧ args.maxSizes[s.step]? = some size ∧ s.basis.strs <+: O.basis.strs ∧
        O.basis.strs.length ≤ s.basis.strs.length + args.comOps.length * numH + 2 * args.numOTerms ∧ s'.basis.strs.length ≤ size ∧
        (s'.previousBasis = s.previousBasis ∨ s'.previousBasis = s'.basis) := by
  unfold greedyStep at h
  obtain ⟨numH, h1, h⟩ := py_bind_ok h
  obtain ⟨⟨b1, st1⟩, h2, h⟩ := py_bind_ok h
  obtain ⟨b2, h3, h⟩ := py_bind_ok h
  simp only [ht] at h
  replace h : (greedySolve num args b2 s.numVecs st1 >>= _) = _ := h
  obtain ⟨⟨⟨evals, evecs⟩, st2⟩, _, h⟩ := py_bind_ok h
  obtain ⟨r, h4, h⟩ := py_bind_ok h
  cases h
  unfold greedyAccept at h4
  obtain ⟨⟨v, c, f⟩, h5, h4⟩ := py_bind_ok h4
  simp only [] at h4
  split at h4
  · rename_i hlow
    cases h4
    rw [Bool.and_eq_true, decide_eq_true_iff] at hlow
    refine Or.inl ⟨hlow.2, ?_, ?_, rfl, rfl, rfl, rfl⟩
    · intro e
      unfold greedyChoose at h5
      rw [e] at h5
      obtain ⟨_, _, h5⟩ := py_bind_ok h5
      obtain ⟨_, _, h5⟩ := py_bind_ok h5
      cases h5
      simp [lowFidelity] at hlow
    · intro e
      unfold lowFidelity at hlow
      rw [e] at hlow
      cases f <;> simp at hlow
  · obtain ⟨first, _, h4⟩ := py_bind_ok h4
    obtain ⟨O, size, g1, g2, _, _, g3, g4, _, _, g5, _⟩ := greedyFinish_general h4
    have hg := (grown_expandH h2).trans (grown_expandO h3)
    refine Or.inr ⟨O, numH, size, g1, pyGet_inv h1, g3, ?_, ?_, g4, g5⟩
    · rw [g2]; exact hg.1
    · rw [g2]
      have : b2.strs.length ≤ _ := hg.2
      omega

theorem iadd_length (b c : Basis) : (b.iadd c).strs.length ≤ b.strs.length + c.strs.length := by
  unfold Basis.iadd
  have key : ∀ (l : List OpString) (acc : Basis × ℕ), (l.foldl iaddStep acc).1.strs.length ≤ acc.1.strs.length + l.length := by
    intro l
    induction l with
    | nil => intro acc; simp
    | cons s l ih =>
      intro acc
      rw [List.foldl_cons, List.length_cons]
      have h1 := ih (iaddStep acc s)
      have h2 : (iaddStep acc s).1.strs.length ≤ acc.1.strs.length + 1 := by
        unfold iaddStep
        split <;> simp
      omega
  exact key _ _

/-- a bound on all operators recorded -/
theorem greedyLoop_size {num : Numerics K} {args : GreedyArgs K} (ht : args.transformations = none) {size terms : ℕ} (h2 : ∀ z ∈ args.maxSizes, z ≤ size)
    (h3 : ∀ t ∈ args.numHTerms, t ≤ terms) {fuel : ℕ} : ∀ (n : ℕ) {s s' : GreedyState K}, s.basis.strs.length ≤ size → s.previousBasis.strs.length ≤ size →
    (∀ O ∈ s.operators, O.basis.strs.length ≤ size + args.comOps.length * terms + 2 * args.numOTerms) → greedyLoop num args fuel n s = .ok (some s') →
    ∀ O ∈ s'.operators, O.basis.strs.length ≤ size + args.comOps.length * terms + 2 * args.numOTerms := by
  intro n
  induction n with
  | zero =>
    intro s s' _ _ h4 h
    unfold greedyLoop at h
    split at h
    · simp at h
    · cases h; exact h4
  | succ n ih =>
    intro s s' hb hp h4 h
    unfold greedyLoop at h
    split at h
    · simp only [] at h
      obtain ⟨r, h1, h⟩ := py_bind_ok h
      cases r with
      | none => simp at h
      | some r =>
        obtain ⟨s1, stop⟩ := r
        simp only [] at h
        have key : s1.basis.strs.length ≤ size ∧ s1.previousBasis.strs.length ≤ size ∧
            ∀ O ∈ s1.operators, O.basis.strs.length ≤ size + args.comOps.length * terms + 2 * args.numOTerms := by
          rcases greedyStep_general ht h1 with ⟨_, _, _, g1, _, g2, g3⟩ | ⟨O, numH, z, g1, g2, g3, _, g4, g5, g6⟩
          · rw [g2, g3, g1]; exact ⟨hp, hp, h4⟩
          · have hz := h2 z (List.mem_of_getElem? g3)
            have ht := Nat.mul_le_mul_left args.comOps.length (h3 numH (List.mem_of_getElem? g2))
            refine ⟨g5.trans hz, ?_, fun P hP => ?_⟩
            · rcases g6 with g6 | g6
              · rw [g6]; exact hp
              · rw [g6]; exact g5.trans hz
            · rw [g1] at hP
              rcases List.mem_append.mp hP with hP | hP
              · exact h4 P hP
              · simp at hP
                subst hP
                omega
        split at h
        · cases h; exact key.2.2
        · exact ih key.1 key.2.1 key.2.2 h
    · cases h; exact h4

theorem selectedCiGreedy_size {num : Numerics K} {args : GreedyArgs K} (ht : args.transformations = none) {size terms : ℕ} (h1 : args.initialOperator.basis.strs.length ≤ size)
    (h2 : ∀ z ∈ args.maxSizes, z ≤ size) (h3 : ∀ t ∈ args.numHTerms, t ≤ terms) {fuel : ℕ} {best : Operator K} {c : Option K} {ops : List (Operator K)} {norms : List K}
    (h : selectedCiGreedy num args fuel = .ok (some (best, c, ops, norms))) :
    ∀ O ∈ ops, O.basis.strs.length ≤ size + args.comOps.length * terms + 2 * args.numOTerms := by
  unfold selectedCiGreedy at h
  split at h
  · simp at h
  · split at h
    · simp at h
    · obtain ⟨r, h4, h⟩ := py_bind_ok h
      cases r with
      | none => simp at h
      | some s =>
        simp only [Option.map_some, Except.ok.injEq, Option.some.injEq, Prod.mk.injEq] at h
        have hi : (greedyInit args).basis.strs.length ≤ size := by
          refine le_trans (iadd_length _ _) ?_
          simpa [emptyBasis] using h1
        rw [← h.2.2.1]
        exact greedyLoop_size ht h2 h3 fuel hi hi (by simp [greedyInit]) h4

/-! ### When the search ends -/

/-- the state as far as `StopsAfter` is concerned -/
structure StopInv (args : GreedyArgs K) (s : GreedyState K) : Prop where
  best : IsBest args.initialOperator s.operators s.comNorms s.bestOperator s.bestComNorm
  same : s.operators.length = s.comNorms.length
  count : s.comNorms.length = s.step
  le : s.step ≤ args.numSteps
  earlier : ∀ l, l <+: s.comNorms → l ≠ s.comNorms → ¬ StopsAfter args.targetComNorm args.minRelativeChange l
  now : StopsAfter args.targetComNorm args.minRelativeChange s.comNorms ↔ s.endEarly = true

theorem greedyStep_accepts {num : Numerics K} {args : GreedyArgs K} (ht : args.targetOperator = none ∨ args.targetFidelity = none) {s s' : GreedyState K} {fuel : ℕ} {stop : Bool}
    (h : greedyStep num args fuel s = .ok (some (s', stop))) : ∃ b st first v c, greedyFinish num args s b st s.endEarly first v c = .ok (s', stop) := by
  unfold greedyStep at h
  obtain ⟨numH, _, h⟩ := py_bind_ok h
  obtain ⟨_, _, h⟩ := py_bind_ok h
  obtain ⟨_, _, h⟩ := py_bind_ok h
  have : ∃ b st, (greedySolve num args b s.numVecs st >>= fun x => (do
      let r ← greedyAccept num args s (if s.step = 0 then args.initialOperator else s.operator) b x.2 x.1.1 x.1.2
      .ok (some r) : Py (Option (GreedyState K × Bool)))) = .ok (some (s', stop)) := by
    simp only [] at h
    split at h
    · obtain ⟨closed, _, h⟩ := py_bind_ok h
      cases closed with
      | none => simp at h
      | some b => exact ⟨b, _, h⟩
    · exact ⟨_, _, h⟩
  obtain ⟨b, st, h⟩ := this
  obtain ⟨⟨⟨evals, evecs⟩, st2⟩, _, h⟩ := py_bind_ok h
  obtain ⟨r, h4, h⟩ := py_bind_ok h
  cases h
  unfold greedyAccept at h4
  obtain ⟨⟨v, c, f⟩, h5, h4⟩ := py_bind_ok h4
  have hlow : lowFidelity args f = false := by
    rcases ht with ht | ht
    · unfold greedyChoose at h5
      rw [ht] at h5
      obtain ⟨_, _, h5⟩ := py_bind_ok h5
      obtain ⟨_, _, h5⟩ := py_bind_ok h5
      cases h5
      rfl
    · unfold lowFidelity
      rw [ht]
      cases f <;> rfl
  simp only [hlow, Bool.false_and, Bool.or_false, Bool.false_eq_true, if_false] at h4
  obtain ⟨first, _, h4⟩ := py_bind_ok h4
  exact ⟨_, _, _, _, _, h4⟩

theorem greedyStep_stops {num : Numerics K} {args : GreedyArgs K} (ht : args.targetOperator = none ∨ args.targetFidelity = none) {s s' : GreedyState K} (hs : StopInv args s)
    (hend : s.endEarly = false) {fuel : ℕ} {stop : Bool} (h : greedyStep num args fuel s = .ok (some (s', stop))) (hpos : ∀ c ∈ s'.comNorms, IsReal c ∧ 0 ≤ toR c) :
    IsBest args.initialOperator s'.operators s'.comNorms s'.bestOperator s'.bestComNorm ∧ s'.operators.length = s'.comNorms.length ∧ s'.comNorms.length = s.step + 1 ∧
      (∀ l, l <+: s'.comNorms → l ≠ s'.comNorms → ¬ StopsAfter args.targetComNorm args.minRelativeChange l) ∧
      (StopsAfter args.targetComNorm args.minRelativeChange s'.comNorms ↔ stop = true ∨ s'.endEarly = true) ∧ (stop = false → s'.step = s.step + 1) := by
  obtain ⟨b, st, first, v, c, h1⟩ := greedyStep_accepts ht h
  obtain ⟨O, size, g1, _, _, g2, _, _, g3, g4, _, g5⟩ := greedyFinish_general h1
  obtain ⟨_, f2, f3⟩ := greedyFinish_fields h1
  have hbest : IsBest args.initialOperator s'.operators s'.comNorms s'.bestOperator s'.bestComNorm := by
    rw [g1, g2, g3, g4]
    exact isBest_add hs.same hs.best (hpos c (by rw [g2]; simp)).2
  refine ⟨hbest, by rw [g1, g2]; simp [hs.same], by rw [g2]; simp [hs.count], ?_, ?_, g5⟩
  · intro l hl hne
    rw [g2] at hl hne
    rcases List.prefix_concat_iff.mp hl with h | h
    · exact absurd h hne
    · by_cases e : l = s.comNorms
      · rw [e, hs.now, hend]; simp
      · exact hs.earlier l h e
  · unfold StopsAfter
    rw [f2, reached_iff hbest]
    refine or_congr Iff.rfl ?_
    rw [f3, hend, Bool.false_or, g2]
    cases hm : args.minRelativeChange with
    | none => simp
    | some m =>
      show _ ↔ (decide (1 ≤ s.step) && _) = true
      rw [← hs.count, small_iff hs.best (fun c hc => (hpos c (by rw [g2]; simp [hc])).1)]
      constructor
      · rintro ⟨m', l, b, c', e, e', h⟩
        cases e
        obtain ⟨e1, e2⟩ := List.append_inj' e' rfl
        cases e2
        subst e1
        exact ⟨b, h⟩
      · rintro ⟨b, h⟩
        exact ⟨m, s.comNorms, b, c, rfl, rfl, h⟩

theorem greedyLoop_norms {num : Numerics K} {args : GreedyArgs K} (ht : args.targetOperator = none ∨ args.targetFidelity = none) {fuel : ℕ} :
    ∀ (n : ℕ) {s s' : GreedyState K}, greedyLoop num args fuel n s = .ok (some s') → s.comNorms <+: s'.comNorms := by
  intro n
  induction n with
  | zero =>
    intro s s' h
    unfold greedyLoop at h
    split at h
    · simp at h
    · cases h; exact List.prefix_rfl
  | succ n ih =>
    intro s s' h
    unfold greedyLoop at h
    split at h
    · simp only [] at h
      obtain ⟨r, h1, h⟩ := py_bind_ok h
      cases r with
      | none => simp at h
      | some r =>
        obtain ⟨s1, stop⟩ := r
        simp only [] at h
        obtain ⟨_, _, _, _, _, h2⟩ := greedyStep_accepts ht h1
        have : s.comNorms <+: s1.comNorms := by
          rw [(greedyFinish_fields h2).1]; exact List.prefix_append _ _
        split at h
        · cases h; exact this
        · exact this.trans (ih h)
    · cases h; exact List.prefix_rfl

theorem greedyLoop_stops {num : Numerics K} {args : GreedyArgs K} (ht : args.targetOperator = none ∨ args.targetFidelity = none) {fuel : ℕ} :
    ∀ (n : ℕ) {s s' : GreedyState K}, StopInv args s → greedyLoop num args fuel n s = .ok (some s') → (∀ c ∈ s'.comNorms, IsReal c ∧ 0 ≤ toR c) →
    IsBest args.initialOperator s'.operators s'.comNorms s'.bestOperator s'.bestComNorm ∧ s'.operators.length = s'.comNorms.length ∧ s'.comNorms.length ≤ args.numSteps ∧
      (∀ l, l <+: s'.comNorms → l ≠ s'.comNorms → ¬ StopsAfter args.targetComNorm args.minRelativeChange l) ∧
      (s'.comNorms.length = args.numSteps ∨ StopsAfter args.targetComNorm args.minRelativeChange s'.comNorms) := by
  intro n
  have hfin : ∀ {s : GreedyState K}, StopInv args s → ¬ (s.step < args.numSteps ∧ s.endEarly = false) →
      IsBest args.initialOperator s.operators s.comNorms s.bestOperator s.bestComNorm ∧ s.operators.length = s.comNorms.length ∧ s.comNorms.length ≤ args.numSteps ∧
      (∀ l, l <+: s.comNorms → l ≠ s.comNorms → ¬ StopsAfter args.targetComNorm args.minRelativeChange l) ∧
      (s.comNorms.length = args.numSteps ∨ StopsAfter args.targetComNorm args.minRelativeChange s.comNorms) := by
    intro s hs hn
    refine ⟨hs.best, hs.same, by rw [hs.count]; exact hs.le, hs.earlier, ?_⟩
    rw [hs.now, hs.count]
    by_cases h : s.endEarly = true
    · exact Or.inr h
    · left
      have : ¬ s.step < args.numSteps := fun h' => hn ⟨h', by simpa using h⟩
      have := hs.le
      omega
  induction n with
  | zero =>
    intro s s' hs h _
    unfold greedyLoop at h
    split at h
    · simp at h
    · rename_i hn
      cases h
      exact hfin hs hn
  | succ n ih =>
    intro s s' hs h hpos
    unfold greedyLoop at h
    split at h
    · rename_i hc
      simp only [] at h
      obtain ⟨r, h1, h⟩ := py_bind_ok h
      cases r with
      | none => simp at h
      | some r =>
        obtain ⟨s1, stop⟩ := r
        simp only [] at h
        have hsub : s1.comNorms <+: s'.comNorms := by
          split at h
          · cases h; exact List.prefix_rfl
          · exact greedyLoop_norms ht _ h
        obtain ⟨q1, q2, q3, q4, q5, q6⟩ := greedyStep_stops ht hs hc.2 h1 (fun c h => hpos c (hsub.subset h))
        cases stop with
        | true =>
          simp only [if_true, Except.ok.injEq, Option.some.injEq] at h
          subst h
          exact ⟨q1, q2, by omega, q4, Or.inr (q5.mpr (Or.inl rfl))⟩
        | false =>
          simp only [Bool.false_eq_true, if_false] at h
          refine ih ⟨q1, q2, by rw [q3, q6 rfl], by rw [q6 rfl]; omega, q4, by simpa using q5⟩ h hpos
    · rename_i hn
      cases h
      exact hfin hs hn

theorem selectedCiGreedy_stops {num : Numerics K} {args : GreedyArgs K} (ht : args.targetOperator = none ∨ args.targetFidelity = none) {fuel : ℕ}
    {best : Operator K} {c : Option K} {ops : List (Operator K)} {norms : List K} (h : selectedCiGreedy num args fuel = .ok (some (best, c, ops, norms)))
    (hpos : ∀ c ∈ norms, IsReal c ∧ 0 ≤ toR c) :
    IsBest args.initialOperator ops norms best c ∧ ops.length = norms.length ∧ norms.length ≤ args.numSteps ∧
      (∀ l, l <+: norms → l ≠ norms → ¬ StopsAfter args.targetComNorm args.minRelativeChange l) ∧
      (norms.length = args.numSteps ∨ StopsAfter args.targetComNorm args.minRelativeChange norms) := by
  unfold selectedCiGreedy at h
  split at h
  · simp at h
  · split at h
    · simp at h
    · obtain ⟨r, h4, h⟩ := py_bind_ok h
      cases r with
      | none => simp at h
      | some s =>
        simp only [Option.map_some, Except.ok.injEq, Option.some.injEq, Prod.mk.injEq] at h
        obtain ⟨rfl, rfl, rfl, rfl⟩ := h
        refine greedyLoop_stops ht fuel ⟨Or.inl ⟨rfl, rfl, rfl⟩, rfl, rfl, Nat.zero_le _, ?_, ?_⟩ h4 hpos
        · intro l hl hne
          exact absurd (List.prefix_nil.mp hl) hne
        · exact ⟨fun h => absurd h (stopsAfter_nil _ _), fun h => by cases h⟩

end Qosy
