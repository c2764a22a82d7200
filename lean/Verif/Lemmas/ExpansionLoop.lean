import Verif.Lemmas.Expansion
import Verif.Lemmas.GreedyLoop

/-! # The expansion of the basis in the steps of `selected_ci_greedy` and `selected_ci_greedy_many_ops2` -/

namespace Qosy
open Coef RealOps
variable {K : Type} [Field K] [StarRing K] [Coef K] [RealCoef K]
variable {𝔸 : Type} [Ring 𝔸] [Algebra K 𝔸]

theorem pyGet_inv {α : Type} {l : List α} {i : ℕ} {x : α} (h : pyGet l i = .ok x) : l[i]? = some x := by
  unfold pyGet at h
  split at h
  · rename_i y hy
    rw [hy, Except.ok.inj h]
  · simp at h

theorem greedyFinish_record {num : Numerics K} {args : GreedyArgs K} {s s' : GreedyState K} {b : Basis} {st : Explored K} {e stop : Bool} {first v : List K} {c : K}
    (h : greedyFinish num args s b st e first v c = .ok (s', stop)) : ∃ O, s'.operators = s.operators ++ [O] ∧ O.basis.strs = b.strs := by
  unfold greedyFinish at h
  obtain ⟨O, h1, h⟩ := py_bind_ok h
  obtain ⟨_, _, h⟩ := py_bind_ok h
  obtain ⟨_, _, h⟩ := py_bind_ok h
  obtain ⟨_, _, h⟩ := py_bind_ok h
  obtain ⟨_, _, h⟩ := py_bind_ok h
  cases h
  exact ⟨O, rfl, (mkOperator_none_inv h1).2.1⟩

theorem greedyAccept_record {num : Numerics K} {args : GreedyArgs K} {s s' : GreedyState K} {op : Operator K} {b : Basis} {st : Explored K} {stop : Bool} {evals : List K}
    {evecs : List (List K)} (h : greedyAccept num args s op b st evals evecs = .ok (s', stop)) :
    (s'.operators = s.operators ∧ s.step ≠ 0) ∨ ∃ O, s'.operators = s.operators ++ [O] ∧ O.basis.strs = b.strs := by
  unfold greedyAccept at h
  obtain ⟨⟨v, c, f⟩, _, h⟩ := py_bind_ok h
  simp only [] at h
  split at h
  · rename_i hlow
    cases h
    rw [Bool.and_eq_true, decide_eq_true_iff] at hlow
    exact Or.inl ⟨rfl, hlow.2⟩
  · obtain ⟨first, _, h⟩ := py_bind_ok h
    exact Or.inr (greedyFinish_record h)

theorem greedyExpandO_zero {num : Numerics K} {A : Operator K} {b b' : Basis} (h : greedyExpandO num 0 A b = .ok b') : b' = b := by
  unfold greedyExpandO at h
  simp only [Nat.min_zero, if_true] at h
  exact (Except.ok.inj h).symm

/-- what a step does: the strongest strings are added, and the operator found is recorded unless its fidelity is too low -/
theorem greedyStep_expands (R : StrAlg K 𝔸) {num : Numerics K} (hnum : IsNumerics num) {H : Operator K} {args : GreedyArgs K} (ha : GreedyOK R.Str H args)
    {s : GreedyState K} (hs : GreedyInv R H args.least args.initialOperator s) {fuel : ℕ} {s' : GreedyState K} {stop : Bool}
    (h : greedyStep num args fuel s = .ok (some (s', stop))) :
    ∃ numH mid, args.numHTerms[s.step]? = some numH ∧
      IsCommutatorStep (K := K) R.Str R.den (H.den R.den) ((if s.step = 0 then args.initialOperator else s.operator).den R.den) numH s.basis.strs mid ∧
      ((s'.operators = s.operators ∧ s.step ≠ 0) ∨ ∃ O, s'.operators = s.operators ++ [O] ∧ (∀ t ∈ mid, t ∈ O.basis.strs) ∧
        O.basis.strs.length ≤ mid.length + 2 * args.numOTerms ∧ (args.numOTerms = 0 → O.basis.strs = mid)) := by
  unfold greedyStep at h
  obtain ⟨numH, h1, h⟩ := py_bind_ok h
  set O := if s.step = 0 then args.initialOperator else s.operator with hO
  have hO1 : O.coeffs.length = s.basis.len ∧ O.basis.strs = s.basis.strs := by
    rw [hO]
    split
    · rename_i h
      rw [hs.first h, ha.initial.len]
      exact ⟨rfl, rfl⟩
    · rename_i h
      exact hs.later h
  rw [ha.com] at h
  obtain ⟨⟨b1, st1⟩, h2, h⟩ := py_bind_ok h
  obtain ⟨b1', st1', e1, g1, c1, i1, l1⟩ := greedyExpandH_ok R hnum.argsort ha.str ha.nodup numH hs.good hO1.1 hs.cache
  rw [e1] at h2
  cases h2
  obtain ⟨b2, h3, h⟩ := py_bind_ok h
  obtain ⟨b2', e2, g2, i2, l2⟩ := greedyExpandO_ok (R := R) hnum.argsort args.numOTerms (A := O) (by rw [hO1.1, hO1.2]; rfl)
    (fun t ht => hs.good.2 t (hO1.2 ▸ ht)) g1
  rw [e2] at h3
  cases h3
  simp only [ha.transformations] at h
  replace h : (greedySolve num args b2 s.numVecs st1 >>= _) = _ := h
  obtain ⟨⟨⟨evals, evecs⟩, st2⟩, _, h⟩ := py_bind_ok h
  obtain ⟨r, h4, h⟩ := py_bind_ok h
  cases h
  have hstep := greedyExpandH_step R hnum.argsort ha.str ha.nodup hs.good hO1.1 hs.cache e1
  have hden : linComb R.den s.basis.strs (fun j => O.coeffs.getD j 0) = O.den R.den := by
    rw [den_linComb (by rw [hO1.1, Basis.len, ← hO1.2]; rfl), hO1.2]
  rw [hden] at hstep
  refine ⟨numH, b1.strs, pyGet_inv h1, hstep, (greedyAccept_record h4).imp id fun ⟨P, p1, p2⟩ => ⟨P, p1, fun t ht => by rw [p2]; exact i2 t ht, by rw [p2]; exact l2, fun h0 => ?_⟩⟩
  rw [h0] at e2
  rw [p2, greedyExpandO_zero e2]

theorem greedyStep_appends {num : Numerics K} {args : GreedyArgs K} {s : GreedyState K} {fuel : ℕ} {s' : GreedyState K} {stop : Bool}
    (h : greedyStep num args fuel s = .ok (some (s', stop))) : s.operators <+: s'.operators := by
  unfold greedyStep at h
  obtain ⟨numH, _, h⟩ := py_bind_ok h
  obtain ⟨_, _, h⟩ := py_bind_ok h
  obtain ⟨_, _, h⟩ := py_bind_ok h
  have : ∃ b st, (greedySolve num args b s.numVecs st >>= fun x => (do
      let r ← greedyAccept num args s (if s.step = 0 then args.initialOperator else s.operator) b x.2 x.1.1 x.1.2
      .ok (some r) : Py (Option (GreedyState K × Bool)))) = .ok (some (s', stop)) := by
    simp only [] at h
    split at h
    · obtain ⟨closed, _, h⟩ := py_bind_ok h
      cases closed with
      | none => simp at h
      | some b => exact ⟨b, _, h⟩
    · exact ⟨_, _, h⟩
  obtain ⟨b, st, h⟩ := this
  · obtain ⟨⟨⟨evals, evecs⟩, st2⟩, _, h⟩ := py_bind_ok h
    obtain ⟨r, h4, h⟩ := py_bind_ok h
    cases h
    rcases greedyAccept_record h4 with ⟨h, _⟩ | ⟨O, h, _⟩
    · rw [h]
    · rw [h]; exact List.prefix_append _ _

theorem greedyLoop_appends {num : Numerics K} {args : GreedyArgs K} {fuel : ℕ} : ∀ (n : ℕ) {s s' : GreedyState K}, greedyLoop num args fuel n s = .ok (some s') →
    s.operators <+: s'.operators := by
  intro n
  induction n with
  | zero =>
    intro s s' h
    unfold greedyLoop at h
    split at h
    · simp at h
    · cases h; exact List.prefix_rfl
  | succ n ih =>
    intro s s' h
    unfold greedyLoop at h
    split at h
    · simp only [] at h
      obtain ⟨r, h1, h⟩ := py_bind_ok h
      cases r with
      | none => simp at h
      | some r =>
        obtain ⟨s1, stop⟩ := r
        simp only [] at h
        have := greedyStep_appends h1
        split at h
        · cases h; exact this
        · exact this.trans (ih h)
    · cases h; exact List.prefix_rfl

/-- the first operator of the result -/
theorem selectedCiGreedy_first (R : StrAlg K 𝔸) {num : Numerics K} (hnum : IsNumerics num) {H : Operator K} {args : GreedyArgs K} (ha : GreedyOK R.Str H args)
    (he : args.explored.Coherent R (· ∈ H.termStrs)) {fuel : ℕ} {best : Operator K} {c : Option K} {O : Operator K} {ops : List (Operator K)} {norms : List K}
    (h : selectedCiGreedy num args fuel = .ok (some (best, c, O :: ops, norms))) :
    ∃ numH mid, args.numHTerms[0]? = some numH ∧
      IsCommutatorStep (K := K) R.Str R.den (H.den R.den) (args.initialOperator.den R.den) numH args.initialOperator.basis.strs mid ∧
      (∀ t ∈ mid, t ∈ O.basis.strs) ∧ O.basis.strs.length ≤ mid.length + 2 * args.numOTerms ∧ (args.numOTerms = 0 → O.basis.strs = mid) := by
  unfold selectedCiGreedy at h
  rw [ha.com] at h
  simp only [] at h
  split at h
  · simp at h
  · obtain ⟨r, h1, h⟩ := py_bind_ok h
    cases r with
    | none => simp at h
    | some s =>
      simp only [Option.map_some, Except.ok.injEq, Option.some.injEq, Prod.mk.injEq] at h
      obtain ⟨_, _, hops, _⟩ := h
      have hi := greedyInit_inv ha he
      cases fuel with
      | zero =>
        unfold greedyLoop at h1
        split at h1
        · simp at h1
        · cases h1
          simp [greedyInit] at hops
      | succ n =>
        unfold greedyLoop at h1
        split at h1
        · simp only [] at h1
          obtain ⟨r, h2, h1⟩ := py_bind_ok h1
          cases r with
          | none => simp at h1
          | some r =>
            obtain ⟨s1, stop⟩ := r
            simp only [] at h1
            have hpre : s1.operators <+: s.operators := by
              split at h1
              · cases h1; exact List.prefix_rfl
              · exact greedyLoop_appends _ h1
            obtain ⟨numH, mid, g1, g2, g3⟩ := greedyStep_expands R hnum ha hi h2
            rcases g3 with ⟨_, h0⟩ | ⟨P, p1, p2⟩
            · exact absurd rfl h0
            · rw [hops, p1] at hpre
              obtain ⟨t, ht⟩ := hpre
              have hP : P = O := by
                have := congrArg List.head? ht
                simpa [greedyInit] using this
              subst hP
              refine ⟨numH, mid, g1, ?_, p2⟩
              rw [hi.first rfl] at g2
              exact g2
        · cases h1
          simp [greedyInit] at hops

/-! ### `selected_ci_greedy_many_ops2` -/

theorem many2Fold_steps (R : StrAlg K 𝔸) {num : Numerics K} (ha : IsArgsort num.argsort) {args : ManyOps2Args K} (hH : ∀ s ∈ args.H.basis.strs, R.Str s)
    (hHn : args.H.basis.strs.Nodup) {step numH : ℕ} (hn : args.numHTerms.at step = .ok numH) {b : Basis} (hb : GoodBasis R b) :
    ∀ {ops : List (Operator K)}, (∀ O ∈ ops, O.coeffs.length = b.len) →
    ∀ {acc r : Basis × Explored K}, GoodBasis R acc.1 → (∀ s ∈ acc.1.strs, s ∉ b.strs) → acc.2.Coherent R (· ∈ args.H.termStrs) →
    ops.foldlM (fun acc op => (do
      let numH ← args.numHTerms.at step
      many2Expand num args.H numH b acc op : Py (Basis × Explored K))) acc = .ok r →
    IsCommutatorSteps K R.Str R.den (args.H.den R.den) numH (ops.map fun O => linComb R.den b.strs (fun j => O.coeffs.getD j 0)) (b.strs ++ acc.1.strs) (b.strs ++ r.1.strs) ∧
      r.1.Inv ∧ ∀ s ∈ r.1.strs, s ∉ b.strs := by
  intro ops
  induction ops with
  | nil => intro _ acc r h1 h2 h3 h; cases h; exact ⟨.nil _, h1.1, h2⟩
  | cons O ops ih =>
    intro hO acc r h1 h2 h3 h
    rw [List.foldlM_cons] at h
    obtain ⟨⟨new', st'⟩, h4, h⟩ := py_bind_ok h
    rw [hn] at h4
    replace h4 : many2Expand num args.H numH b acc O = _ := h4
    obtain ⟨e1, e2, e3⟩ := many2Expand_step R ha hH hHn hb h1.1 (hO O (List.mem_cons_self ..)) h3 h4
    obtain ⟨new2, st2, f1, f2, f3⟩ := many2Expand_ok R ha hH hHn numH hb h1 (hO O (List.mem_cons_self ..)) h3
    rw [f1] at h4
    cases h4
    obtain ⟨i1, i2, i3⟩ := ih (fun O h => hO O (List.mem_cons_of_mem _ h)) (acc := (new', st')) f2 (e3 h2) f3 h
    exact ⟨.cons e1 i1, i2, i3⟩

theorem linComb_set (den : OpString → 𝔸) {strs : List OpString} {v : List K} {i : ℕ} (hi : i < strs.length) (hv : v.length = strs.length) (h0 : v.getD i 0 = 0) (c : K) :
    linComb den strs (fun j => (v.set i c).getD j 0) = linComb den strs (fun j => v.getD j 0) + c • den strs[i] := by
  have : ∀ j : Fin strs.length, (v.set i c).getD j 0 • den strs[j] = v.getD j 0 • den strs[j] + (if (⟨i, hi⟩ : Fin strs.length) = j then c • den strs[i] else 0) := by
    intro j
    by_cases h : (⟨i, hi⟩ : Fin strs.length) = j
    · subst h
      rw [if_pos rfl, h0, zero_smul, zero_add, List.getD_eq_getElem _ _ (by simp; omega), List.getElem_set_self]
      rfl
    · have hne : i ≠ (j : ℕ) := fun e => h (Fin.ext e)
      rw [if_neg h, add_zero, List.getD_eq_getElem?_getD, List.getElem?_set_ne hne, ← List.getD_eq_getElem?_getD]
  rw [linComb, Finset.sum_congr rfl (fun j _ => this j), Finset.sum_add_distrib]
  simp [linComb]

theorem many2Vector_den {b : Basis} (hb : b.Inv) {A B : Operator K} (hn : (A.terms.map Prod.snd).Nodup) (den : OpString → 𝔸) (h : many2Vector b A = .ok B) :
    linComb den b.strs (fun j => B.coeffs.getD j 0) = A.den den ∧ B.coeffs.length = b.len := by
  unfold many2Vector at h
  obtain ⟨v, h1, h2⟩ := py_bind_ok h
  rw [(mkOperator_none_inv h2).1]
  have key : ∀ (l : List (K × OpString)) (v w : List K), (l.map Prod.snd).Nodup → v.length = b.len → (∀ t ∈ l, v.getD (b.strs.idxOf t.2) 0 = 0) →
      l.foldlM (fun (v : List K) t => (do
        let i ← b.index t.2
        .ok (v.set i t.1) : Py (List K))) v = .ok w →
      linComb den b.strs (fun j => w.getD j 0) = linComb den b.strs (fun j => v.getD j 0) + (l.map (fun t => t.1 • den t.2)).sum ∧ w.length = b.len := by
    intro l
    induction l with
    | nil => intro v w _ hv _ h; cases h; exact ⟨by simp, hv⟩
    | cons t l ih =>
      intro v w hl hv h0 h
      rw [List.foldlM_cons] at h
      obtain ⟨u, h1, h⟩ := py_bind_ok h
      obtain ⟨i, h2, h3⟩ := py_bind_ok h1
      cases h3
      obtain ⟨hmem, hidx⟩ : t.2 ∈ b.strs ∧ b.strs.idxOf t.2 = i := by
        rw [hb.1, Basis.index_ofList] at h2
        split at h2
        · rename_i hm; exact ⟨hm, Except.ok.inj h2⟩
        · simp at h2
      have hi : i < b.strs.length := hidx ▸ List.idxOf_lt_length_iff.mpr hmem
      have ht : b.strs[i] = t.2 := by subst hidx; exact List.getElem_idxOf hi
      rw [List.map_cons, List.nodup_cons] at hl
      obtain ⟨r1, r2⟩ := ih (v.set i t.1) w hl.2 (by simpa using hv) (by
        intro t' ht'
        have hne : i ≠ b.strs.idxOf t'.2 := by
          intro e
          apply hl.1
          have : t'.2 ∈ b.strs := by
            rw [← List.idxOf_lt_length_iff, ← e]; exact hi
          have h5 := List.getElem_idxOf (List.idxOf_lt_length_iff.mpr this)
          have : t'.2 = t.2 := by
            rw [← h5, ← ht]
            subst e
            rfl
          rw [← this]
          exact List.mem_map.mpr ⟨t', ht', rfl⟩
        rw [List.getD_eq_getElem?_getD, List.getElem?_set_ne hne, ← List.getD_eq_getElem?_getD]
        exact h0 t' (List.mem_cons_of_mem _ ht')) h
      refine ⟨?_, r2⟩
      have h6 := h0 t (List.mem_cons_self ..)
      rw [hidx] at h6
      rw [r1, linComb_set den hi (by rw [hv]; rfl) h6, ht, List.map_cons, List.sum_cons, add_assoc]
  obtain ⟨r1, r2⟩ := key A.terms _ v hn (by simp) (by
    intro t _
    rw [List.getD_eq_getElem?_getD]
    by_cases h : b.strs.idxOf t.2 < b.len
    · rw [List.getElem?_replicate, if_pos h]; rfl
    · rw [List.getElem?_replicate, if_neg h]; rfl) h1
  refine ⟨?_, r2⟩
  rw [r1]
  have : linComb den b.strs (fun j => (List.replicate b.len (0 : K)).getD j 0) = 0 := by
    refine Finset.sum_eq_zero fun j _ => ?_
    show (List.replicate b.len (0 : K)).getD j 0 • _ = _
    rw [List.getD_eq_getElem _ _ (by rw [List.length_replicate]; exact j.2), List.getElem_replicate, zero_smul]
  rw [this, zero_add]
  rfl

theorem many2Loop_appends {num : Numerics K} {args : ManyOps2Args K} : ∀ (m step : ℕ) {s s' : Many2State K}, many2Loop num args m step s = .ok s' → s.operators <+: s'.operators := by
  intro m
  induction m with
  | zero => intro step s s' h; cases h; exact List.prefix_rfl
  | succ m ih =>
    intro step s s' h
    unfold many2Loop at h
    obtain ⟨⟨new, st⟩, _, h⟩ := py_bind_ok h
    simp only [] at h
    split at h
    · cases h; exact List.prefix_rfl
    · obtain ⟨⟨r, st2⟩, _, h⟩ := py_bind_ok h
      obtain ⟨s1, h3, h5⟩ := py_bind_ok h
      refine List.IsPrefix.trans ?_ (ih _ h5)
      unfold many2Finish at h3
      obtain ⟨_, _, h3⟩ := py_bind_ok h3
      obtain ⟨_, _, h3⟩ := py_bind_ok h3
      obtain ⟨_, _, h3⟩ := py_bind_ok h3
      obtain ⟨_, _, h3⟩ := py_bind_ok h3
      obtain ⟨_, _, h3⟩ := py_bind_ok h3
      obtain ⟨_, _, h3⟩ := py_bind_ok h3
      cases h3
      exact List.prefix_append _ _

/-- the first step: all operators found are combinations of the same strings -/
theorem manyOps2_first (R : StrAlg K 𝔸) {num : Numerics K} (ha : IsArgsort num.argsort) {args : ManyOps2Args K} (hH : ∀ s ∈ args.H.basis.strs, R.Str s)
    (hHn : args.H.basis.strs.Nodup) (hx : args.explored.Coherent R (· ∈ args.H.termStrs)) (hi : ∀ A ∈ args.initialOperators, A.WF ∧ ∀ s ∈ A.basis.strs, R.Str s)
    {best : List (Operator K)} {ops : List (List (Operator K))} {norms : List (List K)} (h : manyOps2 num args = .ok (best :: ops, norms)) {numH : ℕ}
    (hn : args.numHTerms.at 0 = .ok numH) :
    ∃ b b', b.Nodup ∧ (∀ s, s ∈ b ↔ ∃ A ∈ args.initialOperators, s ∈ A.basis.strs) ∧
      IsCommutatorSteps K R.Str R.den (args.H.den R.den) numH (args.initialOperators.map fun A => A.den R.den) b b' ∧ ∀ O ∈ best, O.basis.strs = b' := by
  unfold manyOps2 at h
  split at h
  · simp at h
  · simp only [] at h
    obtain ⟨current, h1, h⟩ := py_bind_ok h
    obtain ⟨s, h2, h⟩ := py_bind_ok h
    simp only [Except.ok.injEq, Prod.mk.injEq] at h
    have hfin := h.1
    clear h
    have hi' : ∀ A ∈ args.initialOperators, ∀ s ∈ A.basis.strs, R.Str s := fun A hA => (hi A hA).2
    have hempty : GoodBasis R emptyBasis := ⟨Basis.Inv.ofList List.nodup_nil, fun s hs => by simp [emptyBasis] at hs⟩
    have hbase := foldl_iadd_good args.initialOperators (b := emptyBasis) hi' hempty
    have hmem := fun t => mem_foldl_iadd args.initialOperators hempty hi' (t := t)
    generalize args.initialOperators.foldl (fun (b : Basis) op => b.iadd op.basis) emptyBasis = b at *
    have hcur : List.Forall₂ (fun (A B : Operator K) => linComb R.den b.strs (fun j => B.coeffs.getD j 0) = A.den R.den ∧ B.coeffs.length = b.len) args.initialOperators current := by
      have := mapM_ok_inv h1
      refine List.forall₂_iff_get.mpr ⟨this.length_eq, fun i p1 p2 => ?_⟩
      refine many2Vector_den hbase.1 ?_ R.den ((List.forall₂_iff_get.mp this).2 i p1 p2)
      have hA := (hi _ (List.get_mem args.initialOperators ⟨i, p1⟩)).1
      have : (args.initialOperators.get ⟨i, p1⟩).terms.map Prod.snd = (args.initialOperators.get ⟨i, p1⟩).basis.strs := by
        show ((args.initialOperators.get ⟨i, p1⟩).coeffs.zip _).map Prod.snd = _
        exact List.map_snd_zip (by rw [hA.len])
      rw [this]
      exact hA.basis.2
    cases hns : args.numSteps with
    | zero =>
      rw [hns] at h2
      cases h2
      simp at hfin
    | succ m =>
      rw [hns] at h2
      unfold many2Loop at h2
      obtain ⟨⟨new, st⟩, h3, h2⟩ := py_bind_ok h2
      obtain ⟨q1, q2, q3⟩ := many2Fold_steps R ha hH hHn hn hbase (fun O hO => let ⟨_, _, h⟩ := forall₂_mem_right hcur hO; h.2) hempty (by simp [emptyBasis]) hx h3
      simp only [] at h2
      rw [if_neg (by simp [many2Stop])] at h2
      obtain ⟨⟨r, st2⟩, _, h2⟩ := py_bind_ok h2
      obtain ⟨s1, h4, h2⟩ := py_bind_ok h2
      have hpre := many2Loop_appends _ _ h2
      unfold many2Finish at h4
      obtain ⟨_, _, h4⟩ := py_bind_ok h4
      obtain ⟨_, _, h4⟩ := py_bind_ok h4
      obtain ⟨_, _, h4⟩ := py_bind_ok h4
      obtain ⟨best', e1, h4⟩ := py_bind_ok h4
      obtain ⟨_, _, h4⟩ := py_bind_ok h4
      obtain ⟨_, _, h4⟩ := py_bind_ok h4
      cases h4
      rw [hfin] at hpre
      obtain ⟨t, ht⟩ := hpre
      have hb : best' = best := by
        have := congrArg List.head? ht
        simpa using this
      subst hb
      have hunion : (b.iadd new).strs = b.strs ++ new.strs := by
        have hu := Basis.iadd_ofList hbase.1.2 new
        rw [← hbase.1.1, unionList_eq_filter _ q2.2] at hu
        rw [hu]
        show b.strs ++ new.strs.filter _ = _
        rw [List.filter_eq_self.mpr (fun s hs => by simpa using q3 s hs)]
      refine ⟨b.strs, b.strs ++ new.strs, hbase.1.2, fun s => by rw [hmem s]; simp [emptyBasis], ?_, fun O hO => ?_⟩
      · have e : current.map (fun O => linComb R.den b.strs (fun j => O.coeffs.getD j 0)) = args.initialOperators.map fun A => A.den R.den := by
          refine List.ext_getElem (by simpa using hcur.length_eq.symm) fun i p1 p2 => ?_
          simp only [List.getElem_map]
          exact ((List.forall₂_iff_get.mp hcur).2 i (by simpa using p2) (by simpa using p1)).1
        rw [e] at q1
        simpa [emptyBasis] using q1
      · obtain ⟨v, _, hv⟩ := forall₂_mem_right (mapM_ok_inv e1) hO
        rw [(mkOperator_none_inv hv).2.1, hunion]

end Qosy
