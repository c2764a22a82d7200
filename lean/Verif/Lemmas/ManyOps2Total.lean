import Verif.Lemmas.ManyOps2

/-! # When `selected_ci_greedy_many_ops2` raises no exception -/

namespace Qosy
open Coef RealOps
variable {K : Type} [Field K] [StarRing K] [Coef K] [RealCoef K]
variable {𝔸 : Type} [Ring 𝔸] [Algebra K 𝔸]

theorem many2Eig_total {num : Numerics K} (hnum : IsNumerics num) {com : Mat K} {n : ℕ} (hc : com.IsHermitian n) {k : ℕ} (h1 : 1 ≤ k) (h2 : k < 20) (h3 : k ≤ n) :
    ∃ r, many2Eig num com n k = .ok r ∧ k ≤ r.2.length := by
  unfold many2Eig
  by_cases hn : n < 20
  · rw [if_pos ⟨hn, h2⟩]
    obtain ⟨e1, e2, _⟩ := hnum.eigh com n hc
    exact ⟨_, rfl, by rw [← e1.len, e2]; exact h3⟩
  · rw [if_neg (by omega), if_neg (by omega), if_neg (by omega)]
    obtain ⟨e1, e2, _⟩ := hnum.eigsh k com n h1 (by omega) hc
    obtain ⟨a, b, s1, s2, s3, _⟩ := sortPairs_ok hnum.argsort e1.len
    refine ⟨_, s1, ?_⟩
    have := s3.length_eq
    simp only [List.length_zip, s2, e1.len, min_self] at this
    rw [this, ← e1.len, e2]

/-- `ip` with a combination of vectors -/
theorem ip_zipWith {n : ℕ} {u v w : List K} (hv : v.length = n) (hw : w.length = n) (c : K) :
    ip n u (List.zipWith (fun x y => x + c * y) v w) = ip n u v + c * ip n u w := by
  unfold ip
  rw [Finset.mul_sum, ← Finset.sum_add_distrib]
  refine Finset.sum_congr rfl fun j _ => ?_
  have h1 : (List.zipWith (fun x y => x + c * y) v w).getD j 0 = v.getD j 0 + c * w.getD j 0 := by
    have hj := j.isLt
    rw [List.getD_eq_getElem _ _ (by simp; omega), List.getD_eq_getElem _ _ (by omega), List.getD_eq_getElem _ _ (by omega), List.getElem_zipWith]
  rw [h1]; ring

theorem ip_fold {n : ℕ} {u : List K} {f : ℕ → K} : ∀ (l : List (List K × ℕ)) (acc : List K), (∀ e ∈ l, e.1.length = n ∧ ip n u e.1 = 0) → acc.length = n →
    (l.foldl (fun (acc : List K) e => List.zipWith (fun x y => x + f e.2 * y) acc e.1) acc).length = n ∧
    ip n u (l.foldl (fun (acc : List K) e => List.zipWith (fun x y => x + f e.2 * y) acc e.1) acc) = ip n u acc := by
  intro l
  induction l with
  | nil => exact fun acc _ h => ⟨h, rfl⟩
  | cons e l ih =>
    intro acc h1 h2
    obtain ⟨h3, h4⟩ := h1 e (List.mem_cons_self ..)
    obtain ⟨i1, i2⟩ := ih (List.zipWith (fun x y => x + f e.2 * y) acc e.1) (fun e h => h1 e (List.mem_cons_of_mem _ h)) (by simp [h2, h3])
    exact ⟨i1, by rw [List.foldl_cons, i2, ip_zipWith h2 h3, h4, mul_zero, add_zero]⟩

theorem ip_zero_right {n : ℕ} {u w : List K} (h : ∀ j < n, w.getD j 0 = 0) : ip n u w = 0 :=
  Finset.sum_eq_zero fun j _ => by rw [h j j.isLt, mul_zero]

theorem many2Truncate_total {num : Numerics K} (hnum : IsNumerics num) {args : ManyOps2Args K} (ha : Many2Safe args) (step : ℕ) {b : Basis} (hb : b.Inv)
    {M : Mat K} {r : List K × List (List K)} (hE : IsEigenpairs M b.len r) (hr : args.initialOperators.length ≤ r.2.length) (hn : args.initialOperators.length ≤ b.len) :
    ∃ small, many2Truncate num args step b (r.2.take args.initialOperators.length) = .ok small ∧ small.Inv ∧ args.initialOperators.length ≤ small.len ∧ small.len ≤ b.len := by
  obtain ⟨evals, evecs⟩ := r
  obtain ⟨z, hz, hz'⟩ := ha.size
  have hk := ha.some
  obtain ⟨v, l, hvl⟩ : ∃ v l, evecs.take args.initialOperators.length = v :: l := by
    cases h : evecs.take args.initialOperators.length with
    | nil =>
      have := congrArg List.length h
      simp only [List.length_take, List.length_nil] at this
      have hr' : args.initialOperators.length ≤ evecs.length := hr
      omega
    | cons v l => exact ⟨v, l, rfl⟩
  have hmem : ∀ w ∈ v :: l, w ∈ evecs := fun w hw => List.mem_of_mem_take (hvl ▸ hw)
  have hpw : (v :: l).Pairwise (fun v w => ip b.len v w = 0) := hvl ▸ List.Pairwise.sublist (List.take_sublist _ _) hE.orthogonal
  have hunit : ip b.len v v = 1 := hE.unit v (hmem v (List.mem_cons_self ..))
  have hdv : v.length = b.len := hE.dim v (hmem v (List.mem_cons_self ..))
  obtain ⟨f1, f2⟩ := ip_fold (n := b.len) (u := v) (f := fun i => 2 * args.rand step i - 1) (l.zipIdx 1)
    (List.zipWith (fun x y => x + (2 * args.rand step 0 - 1) * y) (List.replicate b.len 0) v) (by
      intro e he
      have he' := List.fst_mem_of_mem_zipIdx he
      exact ⟨hE.dim _ (hmem _ (List.mem_cons_of_mem _ he')), (List.pairwise_cons.mp hpw).1 _ he'⟩) (by simp [hdv])
  rw [ip_zipWith (by simp) hdv, hunit, ip_zero_right (w := List.replicate b.len 0) (by intro j _; simp [List.getD_replicate])] at f2
  unfold many2Truncate
  simp only [hvl, List.zipIdx_cons, List.foldl_cons, hz, SizeArg.scalar, bind, Except.bind]
  generalize List.foldl _ _ _ = w at f1 f2 ⊢
  have hww : IsReal (innerL w w) ∧ 0 ≤ toR (innerL w w) := by
    rw [innerL_eq f1 f1]
    refine ⟨IsReal.sum fun i _ => IsReal.star_mul_self _, ?_⟩
    rw [toR_sum]
    exact Finset.sum_nonneg fun c _ => by rw [toR_mul_self_star]; positivity
  obtain ⟨n1, n2⟩ := hnum.sqrt _ hww.1 hww.2
  have hnz : ¬ reZero (num.sqrt (innerL w w)) = true := by
    rw [reZero_iff n1]
    intro h0
    rw [h0, zero_pow two_ne_zero] at n2
    have h1 : toR (innerL w w) = 0 := by rw [← n2, toR_zero]
    rw [innerL_eq f1 f1, toR_sum] at h1
    have h2 := (Finset.sum_eq_zero_iff_of_nonneg (fun i _ => by rw [toR_mul_self_star]; positivity)).mp h1
    have h3 : ip b.len v w = 0 := ip_zero_right fun j hj => by
      have := h2 ⟨j, hj⟩ (Finset.mem_univ _)
      rw [toR_mul_self_star] at this
      have h4 : ‖toC (w.getD j 0)‖ = 0 := by simpa using this
      exact toC_inj (by rw [norm_eq_zero.mp h4, map_zero])
    rw [h3] at f2
    exact ha.rand step (by simpa using f2.symm)
  rw [if_neg hnz]
  obtain ⟨strs, t1, t2, t3⟩ := truncateBasis_ok hnum.argsort hb.2 (filterFun := none) (vector := w.map (· / num.sqrt (innerL w w)))
      (vec := w.map (· / num.sqrt (innerL w w))) rfl (by rw [List.length_map]; exact f1) args.threshold z
  refine ⟨_, t1, Basis.Inv.ofList t2, ?_, ?_⟩
  · by_cases hfull : (Basis.ofList strs).len = z
    · omega
    · have hsub : b.strs ⊆ strs := fun s hs => by
        rcases t3.full s hs (lt_of_lt_of_le (by exact_mod_cast ha.threshold) (norm_nonneg _)) with h | h
        · exact h
        · exact absurd h hfull
      have := (hb.2.subperm hsub).length_le
      exact le_trans hn this
  · exact (t2.subperm fun s hs => (t3.above s hs).1).length_le

theorem many2Fold_total (R : StrAlg K 𝔸) {num : Numerics K} (ha : IsArgsort num.argsort) {args : ManyOps2Args K} (hH : ∀ s ∈ args.H.basis.strs, R.Str s)
    (hHn : args.H.basis.strs.Nodup) {step : ℕ} (hstep : ∃ z, args.numHTerms.at step = .ok z) {b : Basis} (hb : GoodBasis R b) : ∀ {ops : List (Operator K)}, (∀ O ∈ ops, O.coeffs.length = b.len) →
    ∀ {acc : Basis × Explored K}, GoodBasis R acc.1 → acc.2.Coherent R (· ∈ args.H.termStrs) →
    ∃ r, ops.foldlM (fun acc op => (do
      let numH ← args.numHTerms.at step
      many2Expand num args.H numH b acc op : Py (Basis × Explored K))) acc = .ok r := by
  intro ops
  obtain ⟨z, hz⟩ := hstep
  induction ops with
  | nil => intro _ acc _ _; exact ⟨acc, rfl⟩
  | cons O ops ih =>
    intro hO acc h1 h2
    obtain ⟨new', st', e1, e2, e3⟩ := many2Expand_ok R ha hH hHn z hb (new := acc.1) (st := acc.2) h1 (hO O (List.mem_cons_self ..)) h2
    obtain ⟨r, hr⟩ := ih (fun O h => hO O (List.mem_cons_of_mem _ h)) (acc := (new', st')) e2 e3
    refine ⟨r, ?_⟩
    rw [List.foldlM_cons, show (args.numHTerms.at step >>= fun numH => many2Expand num args.H numH b acc O) = .ok (new', st') by rw [hz]; exact e1]
    exact hr

theorem many2Finish_total {R : StrAlg K 𝔸} {num : Numerics K} (hnum : IsNumerics num) {args : ManyOps2Args K} (ha : Many2Safe args) (step : ℕ) (s : Many2State K)
    {b : Basis} (hb : GoodBasis R b) (st : Explored K) {M : Mat K} {evals : List K} {evecs : List (List K)} (hE : IsEigenpairs M b.len (evals, evecs))
    (hr : args.initialOperators.length ≤ evecs.length) (hn : args.initialOperators.length ≤ b.len) :
    ∃ s', many2Finish num args step s b st evals evecs = .ok s' ∧ args.initialOperators.length ≤ s'.basis.len := by
  have hk := ha.some
  have hlen : evals.length = evecs.length := hE.len
  obtain ⟨small, t1, t2, t3, t4⟩ := many2Truncate_total hnum ha step hb.1 hE hr hn
  obtain ⟨vecs, v1, _⟩ := mapM_forall₂ (l := List.range args.initialOperators.length) (f := pyGet evecs) (Q := fun _ _ => True) (by
    intro i hi
    rw [List.mem_range] at hi
    exact ⟨_, pyGet_lt (by omega), trivial⟩)
  obtain ⟨hv, _⟩ := range_mapM_pyGet v1
  have hbne : b.strs ≠ [] := fun h => by rw [Basis.len, h] at hn; simp at hn; rw [hn] at hk; simp at hk
  have hsne : small.strs ≠ [] := fun h => by rw [Basis.len, h] at t3; simp at t3; rw [t3] at hk; simp at hk
  obtain ⟨best, b1, _⟩ := mapM_forall₂ (l := vecs) (f := fun v => mkOperator v b.strs none) (Q := fun _ _ => True) (by
    intro v _
    exact ⟨_, mkOperator_none_ok hbne hb.1.2 (fun s hs => R.str_type s (hb.2 s hs)), trivial⟩)
  have hgood := many2Truncate_good hnum hb (fun v hv => hE.dim v (List.mem_of_mem_take hv)) t1
  obtain ⟨current, c1, _⟩ := mapM_forall₂ (l := vecs) (f := fun v => (do
      let coeffs ← small.strs.mapM (fun os => do
        let i ← small.index os
        pyGet v i)
      mkOperator coeffs small.strs none : Py (Operator K))) (Q := fun _ _ => True) (by
    intro v hv'
    have hd : v.length = b.len := hE.dim v (List.mem_of_mem_take (hv ▸ hv'))
    obtain ⟨cs, k1, _⟩ := mapM_forall₂ (l := small.strs) (f := fun os => (do
        let i ← small.index os
        pyGet v i : Py K)) (Q := fun _ _ => True) (by
      intro os hos
      have hidx : small.index os = .ok (small.strs.idxOf os) := by
        rw [t2.1, Basis.index_ofList, if_pos]
        · rfl
        · exact hos
      have hlt : small.strs.idxOf os < v.length := by
        have := List.idxOf_lt_length_of_mem hos
        have : small.strs.length ≤ b.len := t4
        omega
      exact ⟨v[small.strs.idxOf os], by simp only [hidx, bind, Except.bind, pyGet_lt hlt], trivial⟩)
    exact ⟨⟨cs, Basis.ofList small.strs, R.type⟩, by rw [k1]; exact mkOperator_none_ok hsne t2.2 (fun s hs => R.str_type s (hgood.2 s hs)), trivial⟩)
  refine ⟨⟨st, small, current, s.operators ++ [best], s.comNorms ++ [evals.take args.initialOperators.length], b, some s.previous⟩, ?_, t3⟩
  unfold many2Finish
  rw [pyGet_lt (show 0 < evecs.length by omega), pyGet_lt (show 0 < evals.length by omega), v1]
  simp only [bind, Except.bind]
  simp only [bind, Except.bind] at c1
  rw [b1, hv, t1]
  simp only
  rw [← hv, c1]

theorem many2Loop_total (R : StrAlg K 𝔸) {num : Numerics K} (hnum : IsNumerics num) {args : ManyOps2Args K} (hH : ∀ s ∈ args.H.basis.strs, R.Str s)
    (hHn : args.H.basis.strs.Nodup) (ha : Many2Safe args) : ∀ (m step : ℕ) {s : Many2State K}, step + m = args.numSteps → Many2Inv R args.H args.initialOperators.length s →
    args.initialOperators.length ≤ s.basis.len → ∃ s', many2Loop num args m step s = .ok s' := by
  intro m
  induction m with
  | zero => exact fun step s _ _ _ => ⟨s, rfl⟩
  | succ m ih =>
    intro step s hm hs hn
    have hstep : ∃ z, args.numHTerms.at step = .ok z := by
      cases h : args.numHTerms with
      | int n => exact ⟨n, rfl⟩
      | list l =>
        have := ha.terms l h
        exact ⟨_, pyGet_lt (show step < l.length by omega)⟩
    have hempty : GoodBasis R emptyBasis := ⟨Basis.Inv.ofList List.nodup_nil, fun s hs => by simp [emptyBasis] at hs⟩
    obtain ⟨⟨new, st⟩, h1⟩ := many2Fold_total R hnum.argsort hH hHn hstep hs.good hs.current (acc := (emptyBasis, s.explored)) hempty hs.cache
    obtain ⟨g1, g2⟩ := many2Fold_ok R hnum.argsort hH hHn step hs.good hs.current (acc := (emptyBasis, s.explored)) hempty hs.cache h1
    have hb : GoodBasis R (s.basis.iadd new) := hs.good.iadd g1.2
    have hn' : args.initialOperators.length ≤ (s.basis.iadd new).len :=
      le_trans hn (hs.good.1.2.subperm fun t ht => (mem_iadd hs.good.1).mpr (Or.inl ht)).length_le
    obtain ⟨M, st', c1, c2, c3⟩ := greedyCommutant_ok R hH hHn g2 hb
    obtain ⟨⟨evals, evecs⟩, e1, e2⟩ := many2Eig_total hnum c2.herm ha.some ha.few hn'
    obtain ⟨q1, q2⟩ := many2Eig_ok hnum c2.herm e1
    obtain ⟨s1, f1, f2⟩ := many2Finish_total (R := R) hnum ha step s hb st' q1 e2 hn'
    obtain ⟨p1, _⟩ := many2Finish_ok hnum hs.records hb c3 c2 q1 (q2 c2.nonneg) f1
    obtain ⟨s', hs'⟩ := ih (step + 1) (by omega) p1 f2
    unfold many2Loop
    simp only [bind, Except.bind] at h1 ⊢
    rw [h1]
    simp only
    split
    · exact ⟨_, rfl⟩
    · refine ⟨s', ?_⟩
      unfold many2Solve
      simp only [c1, ManyOps2Args.penalise, ManyOps2Args.recompute, ha.orth, e1, f1, bind, Except.bind]
      exact hs'

theorem many2Vector_total {R : StrAlg K 𝔸} {b : Basis} (hb : GoodBasis R b) (hne : b.strs ≠ []) {A : Operator K} (hA : ∀ s ∈ A.basis.strs, s ∈ b.strs) :
    ∃ B, many2Vector b A = .ok B ∧ B.coeffs.length = b.len := by
  have key : ∀ (l : List (K × OpString)) (v : List K), (∀ t ∈ l, t.2 ∈ b.strs) → ∃ w, l.foldlM (fun (v : List K) t => (do
      let i ← b.index t.2
      .ok (v.set i t.1) : Py (List K))) v = .ok w ∧ w.length = v.length := by
    intro l
    induction l with
    | nil => exact fun v _ => ⟨v, rfl, rfl⟩
    | cons t l ih =>
      intro v h
      obtain ⟨w, w1, w2⟩ := ih (v.set (b.strs.idxOf t.2) t.1) (fun t ht => h t (List.mem_cons_of_mem _ ht))
      refine ⟨w, ?_, by rw [w2, List.length_set]⟩
      have hidx : b.index t.2 = .ok (b.strs.idxOf t.2) := by
        rw [hb.1.1, Basis.index_ofList, if_pos]
        · rfl
        · exact h t (List.mem_cons_self ..)
      rw [List.foldlM_cons, hidx]
      exact w1
  obtain ⟨w, w1, w2⟩ := key A.terms (List.replicate b.len 0) (fun t ht => hA _ (List.of_mem_zip ht).2)
  refine ⟨⟨w, Basis.ofList b.strs, R.type⟩, ?_, by rw [w2, List.length_replicate]⟩
  unfold many2Vector
  rw [w1]
  exact mkOperator_none_ok hne hb.1.2 (fun s hs => R.str_type s (hb.2 s hs))

theorem manyOps2_total (R : StrAlg K 𝔸) {num : Numerics K} (hnum : IsNumerics num) {args : ManyOps2Args K} (hH : ∀ s ∈ args.H.basis.strs, R.Str s)
    (hHn : args.H.basis.strs.Nodup) (hlab : ∃ s ∈ args.H.basis.strs, s.labels ≠ []) (ha : Many2Safe args) (hx : args.explored.Coherent R (· ∈ args.H.termStrs))
    (hi : ∀ A ∈ args.initialOperators, ∀ s ∈ A.basis.strs, R.Str s)
    (hn : ∃ strs : List OpString, strs.Nodup ∧ (∀ s ∈ strs, ∃ A ∈ args.initialOperators, s ∈ A.basis.strs) ∧ args.initialOperators.length ≤ strs.length) :
    ∃ r, manyOps2 num args = .ok r := by
  have hempty : GoodBasis R emptyBasis := ⟨Basis.Inv.ofList List.nodup_nil, fun s hs => by simp [emptyBasis] at hs⟩
  have hbase := foldl_iadd_good args.initialOperators (b := emptyBasis) hi hempty
  have hmem : ∀ A ∈ args.initialOperators, ∀ t ∈ A.basis.strs, t ∈ (args.initialOperators.foldl (fun (b : Basis) op => b.iadd op.basis) emptyBasis).strs :=
    fun A hA t ht => (mem_foldl_iadd args.initialOperators hempty hi).mpr (Or.inr ⟨A, hA, ht⟩)
  have hl : (args.H.basis.strs.all fun s => s.labels.isEmpty) = false := by
    obtain ⟨s, hs, hn⟩ := hlab
    rw [List.all_eq_false]
    exact ⟨s, hs, by simpa using hn⟩
  have hlen : args.initialOperators.length ≤ (args.initialOperators.foldl (fun (b : Basis) op => b.iadd op.basis) emptyBasis).len := by
    obtain ⟨strs, n1, n2, n3⟩ := hn
    refine le_trans n3 (n1.subperm fun s hs => ?_).length_le
    obtain ⟨A, hA, h⟩ := n2 s hs
    exact hmem A hA s h
  have hne : (args.initialOperators.foldl (fun (b : Basis) op => b.iadd op.basis) emptyBasis).strs ≠ [] := fun h => by
    have := ha.some
    rw [Basis.len, h] at hlen
    simp at hlen; rw [hlen] at this; simp at this
  obtain ⟨current, c1, c2⟩ := mapM_forall₂ (l := args.initialOperators)
    (f := many2Vector (args.initialOperators.foldl (fun (b : Basis) op => b.iadd op.basis) emptyBasis))
    (Q := fun _ O => O.coeffs.length = (args.initialOperators.foldl (fun (b : Basis) op => b.iadd op.basis) emptyBasis).len) (by
      intro A hA
      exact many2Vector_total hbase hne (hmem A hA))
  obtain ⟨s', hs'⟩ := many2Loop_total R hnum hH hHn ha args.numSteps 0 (s := ⟨args.explored, _, current, [], [], _, none⟩) (by omega)
    ⟨hx, hbase, fun O hO => let ⟨_, _, h⟩ := forall₂_mem_right c2 hO; h, .nil⟩ hlen
  refine ⟨(s'.operators, s'.comNorms), ?_⟩
  unfold manyOps2
  simp only [hl, Bool.false_eq_true, if_false, c1, bind, Except.bind]
  rw [hs']

end Qosy
