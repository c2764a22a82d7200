import Verif.Lemmas.ExpansionLoop
import Verif.Lemmas.GreedyGeneral
import Verif.Lemmas.RealMat
import Verif.Model.Core
import Verif.Model.Greedy
import Verif.Props.Algorithms
import Verif.Props.Core
import Verif.Props.Graph
import Verif.Props.Greedy
import Verif.Props.Operator

/-! # C118: tolerances, sizes and numbers of steps act in one direction -/

namespace Qosy

/-! ### tolerances of `commuting_operators` and `invariant_operators` -/

private theorem selectColumns_sublist {n : ℕ} (r : EighResult (Fin n) n) (target : ℝ) {tol tol' : ℝ} (h : tol ≤ tol') :
    (selectColumns r target tol).Sublist (selectColumns r target tol') := by
  refine List.Sublist.map _ ?_
  refine List.monotone_filter_right _ fun k hk => ?_
  simp only [decide_eq_true_eq] at hk ⊢
  exact lt_of_lt_of_le hk h

/-- **C118** (`commuting_operators`): with a larger tolerance no operator is lost: the vectors found with the smaller tolerance are, in the same order, among
those found with the larger one.  If one call raises an exception, so does the other.  This holds for every eigensolver, exact or not. -/
theorem C118_commuting_operators (eigh : Eigh) (x : BasisArg ℂ) (O : Operator ℂ) (mode : Mode) {tol tol' : ℝ} (h : tol ≤ tol') :
    (∃ e, commutingOperators eigh x O mode tol = .error e ∧ commutingOperators eigh x O mode tol' = .error e) ∨
    ∃ (n : ℕ) (vecs vecs' : List (Fin n → ℂ)) (C : Matrix (Fin n) (Fin n) ℂ) (evals : Fin n → ℝ) (evecs : Matrix (Fin n) (Fin n) ℂ),
      commutingOperators eigh x O mode tol = .ok ⟨n, vecs, C, evals, evecs⟩ ∧ commutingOperators eigh x O mode tol' = .ok ⟨n, vecs', C, evals, evecs⟩ ∧
      vecs.Sublist vecs' := by
  unfold commutingOperators
  cases hL : liouvillianMatrix x O mode with
  | error e => exact Or.inl ⟨e, rfl, rfl⟩
  | ok L =>
    simp only [bind, Except.bind]
    cases hC : L.1.getH.dot L.1 with
    | error e => exact Or.inl ⟨e, rfl, rfl⟩
    | ok C => exact Or.inr ⟨_, _, _, _, _, _, rfl, rfl, selectColumns_sublist _ _ h⟩

/-- **C118** (`invariant_operators`): the same. -/
theorem C118_invariant_operators (eigh : Eigh) (pinv : Mat ℂ → Py (Mat ℂ)) (x : BasisArg ℂ) (T : Transformation ℂ) (mode : String) {tol tol' : ℝ} (h : tol ≤ tol') :
    (∃ e, invariantOperators eigh pinv x T mode tol = .error e ∧ invariantOperators eigh pinv x T mode tol' = .error e) ∨
    ∃ (n : ℕ) (vecs vecs' : List (Fin n → ℂ)) (M : Matrix (Fin n) (Fin n) ℂ) (evals : Fin n → ℝ) (evecs : Matrix (Fin n) (Fin n) ℂ),
      invariantOperators eigh pinv x T mode tol = .ok ⟨n, vecs, M, evals, evecs⟩ ∧ invariantOperators eigh pinv x T mode tol' = .ok ⟨n, vecs', M, evals, evecs⟩ ∧
      vecs.Sublist vecs' := by
  unfold invariantOperators
  cases hS : symmetryMatrixOf pinv x T with
  | error e => exact Or.inl ⟨e, rfl, rfl⟩
  | ok S =>
    simp only [bind, Except.bind]
    cases hs : symmetrySign mode with
    | error e => exact Or.inl ⟨e, rfl, rfl⟩
    | ok sign => exact Or.inr ⟨_, _, _, _, _, _, rfl, rfl, selectColumns_sublist _ _ h⟩

section
variable {K : Type} [Field K] [StarRing K] [Coef K]

/-! ### truncation -/

/-- **C118** (`remove_zeros`): with a larger tolerance no term appears that was removed with a smaller one. -/
theorem C118_remove_zeros {A : Operator K} (hA : A.WF) {tol tol' : ℚ} (h : tol ≤ tol') :
    ∃ B B', A.removeZeros tol = .ok B ∧ A.removeZeros tol' = .ok B' ∧ B'.terms.Sublist B.terms := by
  obtain ⟨B, b1, -, -, b2⟩ := Operator.removeZeros_ok hA tol
  obtain ⟨B', c1, -, -, c2⟩ := Operator.removeZeros_ok hA tol'
  refine ⟨B, B', b1, c1, ?_⟩
  rw [b2, c2]
  refine List.monotone_filter_right _ fun t ht => ?_
  rw [Coef.absGt_iff] at ht ⊢
  exact lt_of_le_of_lt (by exact_mod_cast h) ht

/-- **C118** (truncation): a truncation to a smaller size is the beginning of the truncation to a larger size. -/
theorem C118_truncate {argsort : List K → List ℕ} (ha : IsArgsort argsort) {basis : Basis} (hn : basis.strs.Nodup) (vector : List K)
    (filterFun : Option (List K → Basis → List K)) (hl : (filteredVector filterFun vector basis).length = basis.len) (threshold : ℚ) {m n : ℕ} (h : m ≤ n) :
    ∃ b b', truncateBasis argsort basis vector threshold m filterFun = .ok b ∧ truncateBasis argsort basis vector threshold n filterFun = .ok b' ∧
      b.strs <+: b'.strs := by
  obtain ⟨strs, h1, -, -⟩ := truncateBasis_ok ha hn (rfl : filteredVector filterFun vector basis = _) hl threshold m
  obtain ⟨strs', h1', -, -⟩ := truncateBasis_ok ha hn (rfl : filteredVector filterFun vector basis = _) hl threshold n
  refine ⟨_, _, h1, h1', ?_⟩
  have key : ∀ {n : ℕ} {b : Basis}, truncateBasis argsort basis vector threshold n filterFun = .ok b →
      b.strs = (((argsort (filteredVector filterFun vector basis)).reverse.filter
        (fun i => absGt ((filteredVector filterFun vector basis).getD i 0) threshold)).take n).map (basis.strs.getD · (identityString .pauli)) := by
    intro n b hb
    unfold truncateBasis at hb
    obtain ⟨strs, k1, k2⟩ := py_bind_ok hb
    rw [(mkBasis_inv k2).2, mapM_pyGet (identityString .pauli) k1]
    congr 1
    split
    · rfl
    · rename_i h'
      rw [List.take_of_length_le (by omega)]
  rw [key h1, key h1']
  exact (List.take_prefix_take_left h).map _

end

/-! ### bases of strings -/

/-- **C118** (`cluster_basis`): more labels and more allowed numbers of orbitals give at least the same strings. -/
theorem C118_cluster_basis {t : OpType} (ht : t = .pauli ∨ t = .majorana ∨ t = .fermion) {k k' : KArg} (hk : k.Ok) (hk' : k'.Ok)
    (hkk : ∀ n, k.allows n → k'.allows n) {labels labels' : List ℤ} (hl : labels.Nodup) (hl' : labels'.Nodup) (hll : ∀ x ∈ labels, x ∈ labels')
    {incl incl' : Bool} (hi : incl = true → incl' = true) :
    ∃ b b', clusterBasis k labels t incl = .ok b ∧ clusterBasis k' labels' t incl' = .ok b' ∧ ∀ s ∈ b.strs, s ∈ b'.strs := by
  rcases ht with rfl | rfl | rfl
  · obtain ⟨b, h1, -, -, h2⟩ := C18_pauli hk hl incl
    obtain ⟨b', h1', -, -, h2'⟩ := C18_pauli hk' hl' incl'
    refine ⟨b, b', h1, h1', fun s hs => (h2' s).mpr ?_⟩
    rcases (h2 s).mp hs with ⟨a1, a2⟩ | ⟨a1, a2, a3, a4⟩
    · exact Or.inl ⟨hi a1, a2⟩
    · exact Or.inr ⟨a1, hkk _ a2, ⟨a3.type, a3.ops, a3.len, a3.nodup, fun l hl => hll l (a3.mem l hl), a3.pref⟩, a4⟩
  · obtain ⟨b, h1, -, -, h2⟩ := C18_majorana hk hl incl
    obtain ⟨b', h1', -, -, h2'⟩ := C18_majorana hk' hl' incl'
    refine ⟨b, b', h1, h1', fun s hs => (h2' s).mpr ?_⟩
    rcases (h2 s).mp hs with ⟨a1, a2⟩ | ⟨a1, a2, a3, a4⟩
    · exact Or.inl ⟨hi a1, a2⟩
    · exact Or.inr ⟨a1, hkk _ a2, ⟨a3.type, a3.ops, a3.len, a3.nodup, fun l hl => hll l (a3.mem l hl), a3.pref⟩, a4⟩
  · obtain ⟨b, h1, -, h2⟩ := C18_fermion hk hl incl
    obtain ⟨b', h1', -, h2'⟩ := C18_fermion hk' hl' incl'
    refine ⟨b, b', h1, h1', fun s hs => (h2' s).mpr ?_⟩
    rcases (h2 s).mp hs with ⟨a1, a2⟩ | ⟨F, f1, f2, f3, f4, hc⟩
    · exact Or.inl ⟨hi a1, a2⟩
    · refine Or.inr ⟨F, f1, hkk _ f2, f3, fun x hx => hll x (f4 x hx), ?_⟩
      rcases hc with rfl | ⟨B, p, b1, b2, b3, b4, rfl⟩
      · exact Or.inl rfl
      · exact Or.inr ⟨B, p, b1, fun x hx => hll x (b2 x hx), b3, b4, rfl⟩

/-- **C118** (`distance_basis`): a larger radius, more allowed orbitals and more allowed numbers of orbitals give at least the same strings. -/
theorem C118_distance_basis {D : Type} [LinearOrder D] [Add D] [Zero D] {o o' : SetOracle} (ho : o.Valid) (ho' : o'.Valid) {lim n : ℕ} (hlim : n ≤ lim)
    (dist : ℕ → ℕ → D) {t : OpType} (ht : t = .pauli ∨ t = .majorana ∨ t = .fermion) {k k' : KArg} (hk : k.Ok) (hk' : k'.Ok)
    (hkk : ∀ n, k.allows n → k'.allows n) {R R' tol tol' : D} (hR : R + tol ≤ R' + tol') {allowed allowed' : Option (List ℕ)}
    (ha : ∀ l, allowed = some l → ∀ i ∈ l, i < n) (ha' : ∀ l, allowed' = some l → ∀ i ∈ l, i < n)
    (haa : ∀ l', allowed' = some l' → ∃ l, allowed = some l ∧ ∀ i ∈ l, i ∈ l') (incl incl' : Bool) :
    ∃ b b', distanceBasis o lim n dist k R t allowed incl tol = .ok b ∧ distanceBasis o' lim n dist k' R' t allowed' incl' tol' = .ok b' ∧
      ∀ s ∈ b.strs, s ∈ b'.strs := by
  have hw : ∀ labels, WithinDistance n allowed dist (R + tol) labels → WithinDistance n allowed' dist (R' + tol') labels := by
    rintro labels ⟨h1, h2⟩
    refine ⟨fun x hx => ?_, fun i j hi hj hij => (h2 i j hi hj hij).trans hR⟩
    obtain ⟨i, i1, i2, i3⟩ := h1 x hx
    refine ⟨i, i1, fun l' hl' => ?_, i3⟩
    obtain ⟨l, l1, l2⟩ := haa l' hl'
    exact l2 i (i2 l l1)
  rcases ht with rfl | rfl | rfl
  · obtain ⟨b, h1, -, h2⟩ := C19_pauli ho hlim dist hk R tol allowed ha incl
    obtain ⟨b', h1', -, h2'⟩ := C19_pauli ho' hlim dist hk' R' tol' allowed' ha' incl'
    refine ⟨b, b', h1, h1', fun s hs => (h2' s).mpr ?_⟩
    obtain ⟨⟨a1, a2, a3, a4⟩, a5⟩ := (h2 s).mp hs
    exact ⟨⟨a1, hkk _ a2, a3, a4⟩, hw _ a5⟩
  · obtain ⟨b, h1, -, h2⟩ := C19_majorana ho hlim dist hk R tol allowed ha incl
    obtain ⟨b', h1', -, h2'⟩ := C19_majorana ho' hlim dist hk' R' tol' allowed' ha' incl'
    refine ⟨b, b', h1, h1', fun s hs => (h2' s).mpr ?_⟩
    obtain ⟨⟨a1, a2, a3, a4⟩, a5⟩ := (h2 s).mp hs
    exact ⟨⟨a1, hkk _ a2, a3, a4⟩, hw _ a5⟩
  · obtain ⟨b, h1, -, h2⟩ := C19_fermion ho hlim dist hk R tol allowed ha incl
    obtain ⟨b', h1', -, h2'⟩ := C19_fermion ho' hlim dist hk' R' tol' allowed' ha' incl'
    refine ⟨b, b', h1, h1', fun s hs => (h2' s).mpr ?_⟩
    obtain ⟨⟨F, f1, f2, f3⟩, a5⟩ := (h2 s).mp hs
    exact ⟨⟨F, f1, hkk _ f2, f3⟩, hw _ a5⟩

/-! ### numbers of steps of `selected_ci_greedy` -/

section
variable {K : Type} [Field K] [StarRing K] [Coef K] [RealCoef K]
open Coef RealOps

/-- what a later state of the search keeps of an earlier one -/
private structure Later (s r : GreedyState K) : Prop where
  operators : s.operators <+: r.operators
  comNorms : s.comNorms <+: r.comNorms
  best : ∀ b, s.bestComNorm = some b → ∃ b', r.bestComNorm = some b' ∧ toR b' ≤ toR b

private theorem Later.refl (s : GreedyState K) : Later s s := ⟨List.prefix_refl _, List.prefix_refl _, fun b h => ⟨b, h, le_refl _⟩⟩

private theorem Later.trans {s r q : GreedyState K} (h : Later s r) (h' : Later r q) : Later s q :=
  ⟨h.operators.trans h'.operators, h.comNorms.trans h'.comNorms, fun b hb => by
    obtain ⟨b', h1, h2⟩ := h.best b hb
    obtain ⟨b'', h3, h4⟩ := h'.best b' h1
    exact ⟨b'', h3, h4.trans h2⟩⟩

private theorem toR_le_reAbs (x : K) : toR x ≤ toR (reAbs x) := by
  by_cases h : 0 ≤ toR x
  · rw [reAbs_of_nonneg h]
  · unfold reAbs
    rw [if_pos ((reLt_iff' x 0).mpr (by rw [toR_zero]; exact lt_of_not_ge h)), toR_neg]
    linarith [lt_of_not_ge h]

private theorem later_finish {num : Numerics K} {args : GreedyArgs K} {s s' : GreedyState K} {b : Basis} {st : Explored K} {e stop : Bool} {first v : List K} {c : K}
    (h : greedyFinish num args s b st e first v c = .ok (s', stop)) : Later s s' := by
  obtain ⟨O, size, h1, -, -, h2, -, -, -, h3, -, -⟩ := greedyFinish_general h
  refine ⟨by rw [h1]; exact List.prefix_append _ _, by rw [h2]; exact List.prefix_append _ _, fun x hx => ?_⟩
  rw [h3, hx]
  by_cases hi : improves c (some x)
  · rw [if_pos hi]
    exact ⟨c, rfl, (toR_le_reAbs c).trans ((reLt_iff' _ _).mp hi).le⟩
  · rw [if_neg hi]
    exact ⟨x, rfl, le_refl _⟩

private theorem later_step {num : Numerics K} {args : GreedyArgs K} {s : GreedyState K} {fuel : ℕ} {s' : GreedyState K} {stop : Bool}
    (h : greedyStep num args fuel s = .ok (some (s', stop))) : Later s s' := by
  unfold greedyStep at h
  obtain ⟨numH, _, h⟩ := py_bind_ok h
  obtain ⟨_, _, h⟩ := py_bind_ok h
  obtain ⟨_, _, h⟩ := py_bind_ok h
  have : ∃ b st, (greedySolve num args b s.numVecs st >>= fun x => (do
      let r ← greedyAccept num args s (if s.step = 0 then args.initialOperator else s.operator) b x.2 x.1.1 x.1.2
      .ok (some r) : Py (Option (GreedyState K × Bool)))) = .ok (some (s', stop)) := by
    simp only [] at h
    split at h
    · obtain ⟨closed, _, h⟩ := py_bind_ok h
      cases closed with
      | none => simp at h
      | some b => exact ⟨b, _, h⟩
    · exact ⟨_, _, h⟩
  obtain ⟨b, st, h⟩ := this
  obtain ⟨⟨⟨evals, evecs⟩, st2⟩, _, h⟩ := py_bind_ok h
  obtain ⟨r, h1, h⟩ := py_bind_ok h
  cases h
  unfold greedyAccept at h1
  obtain ⟨⟨v, c, f⟩, _, h1⟩ := py_bind_ok h1
  simp only [] at h1
  split at h1
  · simp only [Except.ok.injEq, Prod.mk.injEq] at h1
    obtain ⟨rfl, -⟩ := h1
    exact ⟨List.prefix_refl _, List.prefix_refl _, fun b h => ⟨b, h, le_refl _⟩⟩
  · obtain ⟨_, _, h1⟩ := py_bind_ok h1
    exact later_finish h1

private theorem later_loop {num : Numerics K} {args : GreedyArgs K} {fuel : ℕ} : ∀ (n : ℕ) {s s' : GreedyState K}, greedyLoop num args fuel n s = .ok (some s') → Later s s' := by
  intro n
  induction n with
  | zero =>
    intro s s' h
    unfold greedyLoop at h
    split at h
    · simp at h
    · cases h; exact Later.refl _
  | succ n ih =>
    intro s s' h
    unfold greedyLoop at h
    split at h
    · simp only [] at h
      obtain ⟨r, h1, h⟩ := py_bind_ok h
      cases r with
      | none => simp at h
      | some r =>
        obtain ⟨q, stop⟩ := r
        cases stop with
        | true => simp only [if_true] at h; cases h; exact later_step h1
        | false => simp only [Bool.false_eq_true, if_false] at h; exact (later_step h1).trans (ih h)
    · cases h; exact Later.refl _

private theorem later_more {num : Numerics K} {args args' : GreedyArgs K} (ha : ∃ m, args.numSteps ≤ m ∧ args' = { args with numSteps := m }) {fuel : ℕ} :
    ∀ (n : ℕ) {n' : ℕ} {s r r' : GreedyState K}, greedyLoop num args fuel n s = .ok (some r) → greedyLoop num args' fuel n' s = .ok (some r') → Later r r' := by
  obtain ⟨m, hm, rfl⟩ := ha
  intro n
  induction n with
  | zero =>
    intro n' s r r' h h'
    unfold greedyLoop at h
    split at h
    · simp at h
    · cases h; exact later_loop n' h'
  | succ n ih =>
    intro n' s r r' h h'
    unfold greedyLoop at h
    split at h
    · rename_i hc
      unfold greedyLoop at h'
      rw [if_pos (show s.step < m ∧ s.endEarly = false from ⟨hc.1.trans_le hm, hc.2⟩)] at h'
      cases n' with
      | zero => simp at h'
      | succ n' =>
        simp only [] at h h'
        obtain ⟨q, h1, h⟩ := py_bind_ok h
        obtain ⟨q', h1', h'⟩ := py_bind_ok h'
        obtain rfl : q = q' := by
          have e : greedyStep num { args with numSteps := m } fuel s = greedyStep num args fuel s := rfl
          rw [e, h1] at h1'
          exact Except.ok.inj h1'
        cases q with
        | none => simp at h
        | some q =>
          obtain ⟨q, stop⟩ := q
          cases stop with
          | true =>
            simp only [if_true] at h h'
            cases h; cases h'
            exact Later.refl _
          | false =>
            simp only [Bool.false_eq_true, if_false] at h h'
            exact ih h h'
    · cases h; exact later_loop n' h'

/-- **C118** (`selected_ci_greedy`): a longer search repeats the shorter one: if only `num_steps` is increased, the operators and the commutator norms found
before are the first ones of the new lists, and the best commutator norm does not get larger.  This holds for all arguments and all numerical routines. -/
theorem C118_greedy_steps (num : Numerics K) (args : GreedyArgs K) {m : ℕ} (hm : args.numSteps ≤ m) (fuel : ℕ) {best best' : Operator K} {norm norm' : Option K}
    {ops ops' : List (Operator K)} {norms norms' : List K} (h : selectedCiGreedy num args fuel = .ok (some (best, norm, ops, norms)))
    (h' : selectedCiGreedy num { args with numSteps := m } fuel = .ok (some (best', norm', ops', norms'))) :
    ops <+: ops' ∧ norms <+: norms' ∧ ∀ b, norm = some b → ∃ b', norm' = some b' ∧ toR b' ≤ toR b := by
  unfold selectedCiGreedy at h h'
  cases hc : args.comOps with
  | nil => simp only [hc] at h; cases h
  | cons H rest =>
    simp only [hc] at h h'
    split at h
    · cases h
    rename_i hH
    rw [if_neg hH] at h'
    obtain ⟨r, h1, h2⟩ := py_bind_ok h
    obtain ⟨r', h1', h2'⟩ := py_bind_ok h'
    cases r with
    | none => simp at h2
    | some r =>
      cases r' with
      | none => simp at h2'
      | some r' =>
        simp only [Option.map_some, Except.ok.injEq, Option.some.injEq, Prod.mk.injEq] at h2 h2'
        obtain ⟨-, rfl, rfl, rfl⟩ := h2
        obtain ⟨-, rfl, rfl, rfl⟩ := h2'
        rw [← hc] at h1'
        have := later_more (args := args) ⟨m, hm, rfl⟩ fuel h1 h1'
        exact ⟨this.operators, this.comNorms, this.best⟩

end

/-! ### non-vacuity -/

/-- two labels and at most one orbital, then three labels and at most two orbitals -/
example : ∃ b b', clusterBasis (.int 1) [4, 1] .fermion = .ok b ∧ clusterBasis (.int 2) [1, 2, 4] .fermion true = .ok b' ∧ ∀ s ∈ b.strs, s ∈ b'.strs :=
  C118_cluster_basis (Or.inr (Or.inr rfl)) (by simp [KArg.Ok]) (by simp [KArg.Ok]) (fun n h => by simp only [KArg.allows] at h ⊢; omega) (by decide) (by decide)
    (by decide) (by simp)

/-- a chain of five orbitals: the radius one on four of them, then the radius two on all of them -/
example : ∃ b b', distanceBasis exOracle 10 5 (fun i j => ((j : ℤ) - i : ℤ)) (.int 2) 1 .pauli (some [0, 1, 2, 4]) true 0 = .ok b ∧
    distanceBasis exOracle 10 5 (fun i j => ((j : ℤ) - i : ℤ)) (.int 2) 2 .pauli none true 0 = .ok b' ∧ ∀ s ∈ b.strs, s ∈ b'.strs :=
  C118_distance_basis exOracle_valid exOracle_valid (by norm_num) _ (Or.inl rfl) (by simp [KArg.Ok]) (by simp [KArg.Ok]) (fun _ h => h) (by norm_num)
    (by simp) (by simp) (by simp) true true

/-- one term fewer with the larger tolerance -/
example : ((⟨[⟨1, 0⟩, ⟨0, 3⟩], Basis.ofList [siteX, siteZ], .pauli⟩ : Operator QI).removeZeros (1 / 2)).toOption.map (fun B => B.terms.length) = some 2 ∧
    ((⟨[⟨1, 0⟩, ⟨0, 3⟩], Basis.ofList [siteX, siteZ], .pauli⟩ : Operator QI).removeZeros 2).toOption.map (fun B => B.terms.length) = some 1 := by
  constructor <;> decide +kernel

/-- the largest term, and the two largest terms -/
example : truncateBasis (K := QI) (fun _ => [1, 0, 3, 2]) (Basis.ofList [siteX, siteY, siteZ, exP1]) [⟨1, 0⟩, ⟨0, 0⟩, ⟨0, 3⟩, ⟨2, 0⟩] (1 / 2) 1 none =
      .ok (Basis.ofList [siteZ]) ∧
    truncateBasis (K := QI) (fun _ => [1, 0, 3, 2]) (Basis.ofList [siteX, siteY, siteZ, exP1]) [⟨1, 0⟩, ⟨0, 0⟩, ⟨0, 3⟩, ⟨2, 0⟩] (1 / 2) 2 none =
      .ok (Basis.ofList [siteZ, exP1]) := by constructor <;> decide +kernel

/-- one step and two steps from `X_1` with the operator `Z_1` -/
example : (∃ best c ops, selectedCiGreedy diagNumerics { initialOperator := opX, comOps := [opZ], numSteps := 1, numHTerms := [0, 0], maxSizes := [5, 5] } 10 =
      .ok (some (best, c, ops, [4]))) ∧
    ∃ best c ops, selectedCiGreedy diagNumerics { initialOperator := opX, comOps := [opZ], numSteps := 2, numHTerms := [0, 0], maxSizes := [5, 5] } 10 =
      .ok (some (best, c, ops, [4, 4])) :=
  ⟨⟨⟨[1], Basis.ofList [siteX], .pauli⟩, some 4, [⟨[1], Basis.ofList [siteX], .pauli⟩], by decide +kernel⟩,
   ⟨⟨[1], Basis.ofList [siteX], .pauli⟩, some 4, [⟨[1], Basis.ofList [siteX], .pauli⟩, ⟨[1], Basis.ofList [siteX], .pauli⟩], by decide +kernel⟩⟩

private def xzBasis : Basis := Basis.ofList [⟨[.X], [0], .pauli, .float1⟩, ⟨[.X], [1], .pauli, .float1⟩, ⟨[.Z], [0], .pauli, .float1⟩, ⟨[.Z], [1], .pauli, .float1⟩]

private theorem xz_valid : ∀ s ∈ xzBasis.strs, CanonicalOn .pauli 2 s := by
  intro s hs
  simp only [xzBasis, Basis.ofList, List.mem_cons, List.not_mem_nil, or_false] at hs
  rcases hs with rfl | rfl | rfl | rfl <;>
    exact ⟨Or.inl ⟨rfl, ⟨rfl, by decide, rfl, by decide, by unfold siteLabels; decide, by decide⟩⟩, by decide, by decide⟩

private noncomputable def zSum : Operator ℂ := ⟨[1, 1], Basis.ofList [⟨[.Z], [0], .pauli, .float1⟩, ⟨[.Z], [1], .pauli, .float1⟩], .pauli⟩

/-- the invariant operators of the exchange of two sites for two tolerances -/
example : ∃ eigh pinv, ∃ (n : ℕ) (vecs vecs' : List (Fin n → ℂ)) (M : Matrix (Fin n) (Fin n) ℂ) (evals : Fin n → ℝ) (evecs : Matrix (Fin n) (Fin n) ℂ),
    invariantOperators eigh pinv (.strings xzBasis) (labelPermutation (labelsOf (permArray (Equiv.swap (0 : Fin 2) 1)))) "commute" (1e-10) = .ok ⟨n, vecs, M, evals, evecs⟩ ∧
    invariantOperators eigh pinv (.strings xzBasis) (labelPermutation (labelsOf (permArray (Equiv.swap (0 : Fin 2) 1)))) "commute" 10 = .ok ⟨n, vecs', M, evals, evecs⟩ ∧
    vecs.Sublist vecs' := by
  obtain ⟨eigh, he⟩ := exists_exactEigh
  obtain ⟨pinv, hp⟩ := exists_isPinv
  obtain ⟨vecs, M, evals, evecs, h1, -, -⟩ := C50_reflection (Equiv.swap (0 : Fin 2) 1) (by decide) hp (b := xzBasis) (Basis.Inv.ofList (by decide))
    xz_valid he ((C50_sign "commute").1.2 (by simp)) (tol := 1e-10) (by norm_num) (by norm_num)
  rcases C118_invariant_operators eigh pinv (.strings xzBasis) (labelPermutation (labelsOf (permArray (Equiv.swap (0 : Fin 2) 1)))) "commute"
    (tol := 1e-10) (tol' := 10) (by norm_num) with ⟨e, h, -⟩ | h
  · rw [h1] at h; cases h
  · exact ⟨eigh, pinv, h⟩

/-- the commuting operators of `Z_0 + Z_1` for two tolerances -/
example : ∃ eigh, ∃ (n : ℕ) (vecs vecs' : List (Fin n → ℂ)) (C : Matrix (Fin n) (Fin n) ℂ) (evals : Fin n → ℝ) (evecs : Matrix (Fin n) (Fin n) ℂ),
    commutingOperators eigh (.strings xzBasis) zSum .commutator (1 / 10 ^ 10) = .ok ⟨n, vecs, C, evals, evecs⟩ ∧
    commutingOperators eigh (.strings xzBasis) zSum .commutator 1 = .ok ⟨n, vecs', C, evals, evecs⟩ ∧ vecs.Sublist vecs' := by
  obtain ⟨eigh, he⟩ := exists_exactEigh
  obtain ⟨vecs, M, evals, evecs, h1, -⟩ := C49_pauli (waveRep ℂ) .commutator (x := .strings xzBasis) (O := zSum)
    (fun s hs => by
      obtain ⟨h1 | h1, -⟩ := xz_valid s hs
      · exact ⟨h1.2.1, h1.2.2, h1.2.3, h1.2.4, fun _ _ => Set.mem_univ _, h1.2.6⟩
      · exact absurd h1.1 (by decide)) (by simp)
    (fun s hs => by
      simp only [zSum, Basis.ofList, List.mem_cons, List.not_mem_nil, or_false] at hs
      rcases hs with rfl | rfl <;> exact ⟨rfl, by decide, rfl, by decide, fun _ _ => Set.mem_univ _, by decide⟩) he (tol := 1 / 10 ^ 10) (by norm_num)
  rcases C118_commuting_operators eigh (.strings xzBasis) zSum .commutator (tol := 1 / 10 ^ 10) (tol' := 1) (by norm_num) with ⟨e, h, -⟩ | h
  · rw [h1] at h; cases h
  · exact ⟨eigh, h⟩

end Qosy
