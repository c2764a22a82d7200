import Verif.Lemmas.GreedyLoop

namespace Qosy

open Coef RealOps

variable {K : Type} [Field K] [StarRing K] [Coef K] [RealCoef K]
variable {𝔸 : Type} [Ring 𝔸] [Algebra K 𝔸]

/-! ### When the main loop of `selected_ci_greedy` ends -/

theorem toR_sub (x y : K) : toR (x - y) = toR x - toR y := by simp [toR]

theorem toR_neg (x : K) : toR (-x) = -toR x := by simp [toR]

theorem toR_reAbs (x : K) : toR (reAbs x) = |toR x| := by
  unfold reAbs
  split
  · rename_i h
    rw [reLt_iff', toR_zero] at h
    rw [toR_neg, abs_of_neg h]
  · rename_i h
    rw [reLt_iff', toR_zero, not_lt] at h
    rw [abs_of_nonneg h]

theorem toR_div {x y : K} (hy : IsReal y) : toR (x / y) = toR x / toR y := by
  rw [toR, map_div₀, hy.toC_eq, Complex.div_ofReal_re]; rfl

theorem reached_iff {initial : Operator K} {ops : List (Operator K)} {norms : List K} {best : Operator K} {bestNorm : Option K}
    (h : IsBest initial ops norms best bestNorm) (target : Option K) :
    reached bestNorm target = true ↔ ∃ t c, target = some t ∧ c ∈ norms ∧ toR c < toR t := by
  rcases h with ⟨rfl, _, rfl⟩ | ⟨i, c, _, h2, rfl, h3, _⟩
  · simp [reached]
  · cases target with
    | none => simp [reached]
    | some t =>
      show reLt c t = true ↔ _
      rw [reLt_iff']
      constructor
      · intro h; exact ⟨t, c, rfl, List.mem_of_getElem? h2, h⟩
      · rintro ⟨t', c', e, hc, h⟩
        cases e
        exact (h3 c' hc).trans_lt h

theorem small_iff {initial : Operator K} {ops : List (Operator K)} {norms : List K} {best : Operator K} {bestNorm : Option K}
    (h : IsBest initial ops norms best bestNorm) (hr : ∀ c ∈ norms, IsReal c) (m c : K) :
    (decide (1 ≤ norms.length) && (gotWorse c bestNorm || smallChange c bestNorm m)) = true ↔
      ∃ b, (b ∈ norms ∧ ∀ c' ∈ norms, toR b ≤ toR c') ∧ (toR b + 1 / 10 ^ 16 < toR c ∨ (toR b ≠ 0 ∧ |toR c - toR b| / toR b < toR m)) := by
  rcases h with ⟨rfl, _, rfl⟩ | ⟨i, d, _, h2, rfl, h3, _⟩
  · simp
  · have hd : d ∈ norms := List.mem_of_getElem? h2
    have hpos : 1 ≤ norms.length := List.length_pos_iff.mpr (List.ne_nil_of_mem hd)
    have e16 : toR (1 / 10 ^ 16 : K) = 1 / 10 ^ 16 := by
      rw [toR, map_div₀, map_one, map_pow, map_ofNat]
      norm_num
    have h1 : gotWorse c (some d) = true ↔ toR d + 1 / 10 ^ 16 < toR c := by
      show reLt (1 / 10 ^ 16) (c - d) = true ↔ _
      rw [reLt_iff', toR_sub, e16, lt_sub_iff_add_lt']
    have h0 : reZero d = true ↔ toR d = 0 := by
      rw [reZero_iff (hr d hd)]
      exact ⟨fun h => by rw [h, toR_zero], fun h => toR_inj (hr d hd) .zero (by rw [h, toR_zero])⟩
    have h2 : smallChange c (some d) m = true ↔ (toR d ≠ 0 ∧ |toR c - toR d| / toR d < toR m) := by
      show (if reZero d then false else reLt (reAbs (c - d) / d) m) = true ↔ _
      by_cases hz : reZero d = true
      · rw [if_pos hz]; simp [h0.mp hz]
      · rw [if_neg hz, reLt_iff', toR_div (hr d hd), toR_reAbs, toR_sub]
        exact ⟨fun h => ⟨fun h' => hz (h0.mpr h'), h⟩, fun h => h.2⟩
    rw [Bool.and_eq_true, decide_eq_true_eq, Bool.or_eq_true, h1, h2]
    constructor
    · intro h; exact ⟨d, ⟨hd, h3⟩, h.2⟩
    · rintro ⟨b, ⟨hb, hb'⟩, h⟩
      have : toR b = toR d := le_antisymm (hb' d hd) (h3 b hb)
      rw [this] at h
      exact ⟨hpos, h⟩

theorem greedyFinish_fields {num : Numerics K} {args : GreedyArgs K} {s : GreedyState K} {b : Basis} {st : Explored K} {e : Bool} {first v : List K} {c : K}
    {s' : GreedyState K} {stop : Bool} (h : greedyFinish num args s b st e first v c = .ok (s', stop)) :
    s'.comNorms = s.comNorms ++ [c] ∧ stop = reached s'.bestComNorm args.targetComNorm ∧
      s'.endEarly = (e || (match args.minRelativeChange with
        | some m => decide (1 ≤ s.step) && (gotWorse c s.bestComNorm || smallChange c s.bestComNorm m)
        | none => false)) := by
  unfold greedyFinish at h
  simp only [bind, Except.bind] at h
  split at h
  · simp at h
  split at h
  · simp at h
  split at h
  · simp at h
  split at h
  · simp at h
  split at h
  · simp at h
  simp only [Except.ok.injEq, Prod.mk.injEq] at h
  obtain ⟨rfl, rfl⟩ := h
  exact ⟨rfl, rfl, rfl⟩

theorem greedyAccept_stop {R : StrAlg K 𝔸} {H : Operator K} {num : Numerics K} {args : GreedyArgs K} {least : Prop} {initial : Operator K} (ht : args.targetOperator = none)
    {s : GreedyState K} (hs : GreedyInv R H least initial s) (hend : s.endEarly = false) {O : Operator K} {b : Basis} {st : Explored K} {evals : List K} {evecs : List (List K)}
    {s' : GreedyState K} {stop : Bool} (h : greedyAccept num args s O b st evals evecs = .ok (s', stop)) (hd : GreedyDone R H least initial s') :
    ∃ c, s'.comNorms = s.comNorms ++ [c] ∧ (StopsAfter args.targetComNorm args.minRelativeChange s'.comNorms ↔ stop = true ∨ s'.endEarly = true) := by
  unfold greedyAccept greedyChoose at h
  rw [ht] at h
  simp only [bind, Except.bind] at h
  cases h1 : pyGet evecs 0 with
  | error e => simp [h1] at h
  | ok v =>
    cases h2 : pyGet evals 0 with
    | error e => simp [h1, h2] at h
    | ok c =>
      simp only [h1, h2, lowFidelity, hend] at h
      obtain ⟨f1, f2, f3⟩ := greedyFinish_fields h
      refine ⟨c, f1, ?_⟩
      have hr : ∀ c ∈ s.comNorms, IsReal c := by
        intro c hc
        obtain ⟨_, _, h⟩ := forall₂_mem_right hs.records hc
        exact h.norm.nonneg.1
      unfold StopsAfter
      rw [f2, reached_iff hd.best]
      refine or_congr Iff.rfl ?_
      rw [f3, Bool.or_false, Bool.false_or, f1]
      cases hm : args.minRelativeChange with
      | none => simp
      | some m =>
        show _ ↔ (decide (1 ≤ s.step) && _) = true
        rw [← hs.count, small_iff hs.best hr]
        constructor
        · rintro ⟨m', l, b, c', e, e', h⟩
          cases e
          obtain ⟨e1, e2⟩ := List.append_inj' e' rfl
          cases e2
          subst e1
          exact ⟨b, h⟩
        · rintro ⟨b, h⟩
          exact ⟨m, s.comNorms, b, c, rfl, rfl, h⟩

theorem greedyLoop_stop (R : StrAlg K 𝔸) {num : Numerics K} (hnum : IsNumerics num) {H : Operator K} {args : GreedyArgs K} (ha : GreedyOK R.Str H args)
    (ht : args.targetOperator = none) (fuel : ℕ) :
    ∀ (n : ℕ) {s s' : GreedyState K}, GreedyInv R H args.least args.initialOperator s → s.step ≤ args.numSteps →
      (∀ l, l <+: s.comNorms → l ≠ s.comNorms → ¬ StopsAfter args.targetComNorm args.minRelativeChange l) →
      (StopsAfter args.targetComNorm args.minRelativeChange s.comNorms ↔ s.endEarly = true) → greedyLoop num args fuel n s = .ok (some s') →
      (∀ l, l <+: s'.comNorms → l ≠ s'.comNorms → ¬ StopsAfter args.targetComNorm args.minRelativeChange l) ∧
        (s'.comNorms.length = args.numSteps ∨ StopsAfter args.targetComNorm args.minRelativeChange s'.comNorms) := by
  intro n
  have hfin : ∀ {s : GreedyState K}, GreedyInv R H args.least args.initialOperator s → s.step ≤ args.numSteps →
      (StopsAfter args.targetComNorm args.minRelativeChange s.comNorms ↔ s.endEarly = true) → ¬ (s.step < args.numSteps ∧ s.endEarly = false) →
      (s.comNorms.length = args.numSteps ∨ StopsAfter args.targetComNorm args.minRelativeChange s.comNorms) := by
    intro s hs hle he hn
    rw [he, hs.count]
    by_cases h : s.endEarly = true
    · exact Or.inr h
    · left
      have : ¬ s.step < args.numSteps := fun h' => hn ⟨h', by simpa using h⟩
      omega
  induction n with
  | zero =>
    intro s s' hs hle hp he h
    unfold greedyLoop at h
    split at h
    · simp at h
    · rename_i hn
      simp only [Except.ok.injEq, Option.some.injEq] at h
      subst h
      exact ⟨hp, hfin hs hle he hn⟩
  | succ n ih =>
    intro s s' hs hle hp he h
    unfold greedyLoop at h
    split at h
    · rename_i hc
      cases hn : args.numHTerms[s.step]? with
      | none =>
        simp [greedyStep, pyGet, hn, bind, Except.bind] at h
      | some numH =>
        obtain ⟨b, st, M, r, g1, g2, g3, g4, g5, g6, g7, g8, g9⟩ := greedyStep_ok R hnum ha hs hn fuel
        rw [g7] at h
        cases hacc : greedyAccept num args s (if s.step = 0 then args.initialOperator else s.operator) b st r.1 r.2 with
        | error e => simp [hacc, bind, Except.bind] at h
        | ok p =>
          obtain ⟨s1, stop⟩ := p
          obtain ⟨q1, q2, q3⟩ := greedyAccept_inv hnum ha hs hc.1 g1 g2 g3 g4 g5 g6 hacc
          obtain ⟨c, p1, p2⟩ := greedyAccept_stop ht hs hc.2 hacc q1
          have hp' : ∀ l, l <+: s1.comNorms → l ≠ s1.comNorms → ¬ StopsAfter args.targetComNorm args.minRelativeChange l := by
            intro l hl hne
            rw [p1] at hl hne
            rcases List.prefix_concat_iff.mp hl with h | h
            · exact absurd h hne
            · by_cases e : l = s.comNorms
              · rw [e, he, hc.2]; simp
              · exact hp l h e
          simp only [hacc, bind, Except.bind] at h
          cases stop with
          | true =>
            simp at h
            subst h
            exact ⟨hp', Or.inr (p2.mpr (Or.inl rfl))⟩
          | false =>
            simp at h
            have q4 := q3 rfl
            exact ih q4 (by rw [← q4.count]; exact q2) hp' (by simpa using p2) h
    · rename_i hn
      simp only [Except.ok.injEq, Option.some.injEq] at h
      subst h
      exact ⟨hp, hfin hs hle he hn⟩

theorem stopsAfter_nil (t m : Option K) : ¬ StopsAfter t m [] := by
  rintro (⟨_, _, _, h, _⟩ | ⟨_, l, _, _, _, h, _⟩)
  · simp at h
  · simp at h

theorem selectedCiGreedy_stop (R : StrAlg K 𝔸) {num : Numerics K} (hnum : IsNumerics num) {H : Operator K} {args : GreedyArgs K} (ha : GreedyOK R.Str H args)
    (he : args.explored = Explored.empty) (ht : args.targetOperator = none) {fuel : ℕ} {best : Operator K} {c : Option K} {ops : List (Operator K)} {norms : List K}
    (h : selectedCiGreedy num args fuel = .ok (some (best, c, ops, norms))) :
    (∀ l, l <+: norms → l ≠ norms → ¬ StopsAfter args.targetComNorm args.minRelativeChange l) ∧
      (norms.length = args.numSteps ∨ StopsAfter args.targetComNorm args.minRelativeChange norms) := by
  unfold selectedCiGreedy at h
  rw [ha.com] at h
  simp only at h
  split at h
  · simp at h
  · cases hr : greedyLoop num args fuel fuel (greedyInit args) with
    | error e => simp [hr, bind, Except.bind] at h
    | ok r =>
      cases r with
      | none => simp [hr, bind, Except.bind] at h
      | some s =>
        simp only [hr, bind, Except.bind, Option.map_some, Except.ok.injEq, Option.some.injEq, Prod.mk.injEq] at h
        obtain ⟨_, _, _, rfl⟩ := h
        refine greedyLoop_stop R hnum ha ht fuel fuel (greedyInit_inv ha (by rw [he]; exact Explored.empty_coherent _ _)) (Nat.zero_le _) ?_ ?_ hr
        · intro l hl hne
          exact absurd (List.prefix_nil.mp hl) hne
        · exact ⟨fun h => absurd h (stopsAfter_nil _ _), fun h => by cases h⟩

end Qosy
