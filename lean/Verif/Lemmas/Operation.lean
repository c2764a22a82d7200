import Verif.Lemmas.Site

/-! # Lemmas about `_operation_opstring` -/

namespace Qosy

variable {K : Type} [Field K] [StarRing K] [Coef K]
variable {𝔸 : Type} [Ring 𝔸] [Algebra K 𝔸]

/-- the word of a string -/
def OpString.word (s : OpString) : Word := s.ops.zip s.labels

theorem lastIndex_go_of_not_mem {l : ℤ} {labels : List ℤ} (h : l ∉ labels) (n : ℕ) (r : Option ℕ) :
    lastIndex.go l labels n r = r := by
  induction labels generalizing n r with
  | nil => rfl
  | cons x xs ih =>
    simp only [List.mem_cons, not_or] at h
    have : ¬ x = l := fun h' => h.1 h'.symm
    simp only [lastIndex.go, this, if_false]
    exact ih h.2 _ _

theorem seg_of_not_mem {ops : List Op} {labels : List ℤ} {l : ℤ} (h : l ∉ labels) :
    seg (ops.zip labels) l = [] := by
  simp only [seg, List.filter_eq_nil_iff, decide_eq_true_eq]
  intro y hy h'
  exact h (h' ▸ (List.of_mem_zip hy).2)

theorem lastIndex_go_spec {l : ℤ} : ∀ {labels : List ℤ} {ops : List Op}, ops.length = labels.length → labels.Nodup →
    ∀ n, (lastIndex.go l labels n none = none ∧ l ∉ labels) ∨
      ∃ i o, lastIndex.go l labels n none = some (n + i) ∧ ops[i]? = some o ∧ l ∈ labels ∧
        seg (ops.zip labels) l = [(o, l)] := by
  intro labels
  induction labels with
  | nil => intro ops _ _ n; left; exact ⟨rfl, by simp⟩
  | cons x xs ih =>
    intro ops hl hn n
    cases ops with
    | nil => simp at hl
    | cons o ops =>
      rw [List.nodup_cons] at hn
      by_cases hx : x = l
      · right
        subst hx
        refine ⟨0, o, ?_, rfl, by simp, ?_⟩
        · simp only [lastIndex.go, if_true, add_zero]
          exact lastIndex_go_of_not_mem hn.1 _ _
        · have := seg_of_not_mem (ops := ops) hn.1
          simp only [seg, List.zip_cons_cons] at *
          simp [this]
      · have e : lastIndex.go l (x :: xs) n none = lastIndex.go l xs (n + 1) none := by
          simp [lastIndex.go, hx]
        rw [e]
        rcases ih (ops := ops) (by simpa using hl) hn.2 (n + 1) with ⟨h1, h2⟩ | ⟨i, o', h1, h2, h3, h4⟩
        · left; refine ⟨h1, ?_⟩
          simp only [List.mem_cons, not_or]; exact ⟨fun h => hx h.symm, h2⟩
        · right
          refine ⟨i + 1, o', by rw [h1]; congr 1; omega, by simpa using h2, by simp [h3], ?_⟩
          simp only [seg, List.zip_cons_cons] at *
          simp [hx, h4]

/-- looking up a label of a well-formed string -/
theorem lookup_spec {s : OpString} (hl : s.ops.length = s.labels.length) (hn : s.labels.Nodup) (l : ℤ) :
    (lastIndex s.labels l = none ∧ l ∉ s.labels ∧ seg s.word l = []) ∨
      ∃ i o, lastIndex s.labels l = some i ∧ s.opAt i = .ok o ∧ l ∈ s.labels ∧ o ∈ s.ops ∧
        seg s.word l = [(o, l)] := by
  rcases lastIndex_go_spec (l := l) hl hn 0 with ⟨h1, h2⟩ | ⟨i, o, h1, h2, h3, h4⟩
  · left; exact ⟨h1, h2, seg_of_not_mem h2⟩
  · right
    refine ⟨i, o, by simpa [lastIndex] using h1, by simp [OpString.opAt, h2], h3, ?_, h4⟩
    exact List.mem_of_getElem? h2

theorem word_map_snd {s : OpString} (hl : s.ops.length = s.labels.length) : s.word.map Prod.snd = s.labels := by
  simp only [OpString.word]
  rw [List.map_snd_zip]; omega

theorem word_map_fst {s : OpString} (hl : s.ops.length = s.labels.length) : s.word.map Prod.fst = s.ops := by
  simp only [OpString.word]
  rw [List.map_fst_zip]; omega

/-- a string all of whose operators are understood by a site system -/
structure SiteSys.Good {S : Set ℤ} (R : SiteSys K 𝔸 S) (s : OpString) : Prop where
  len : s.ops.length = s.labels.length
  nodup : s.labels.Nodup
  ops : ∀ o ∈ s.ops, R.ok o
  mem : ∀ l ∈ s.labels, l ∈ S

theorem SiteSys.Good.ok {S : Set ℤ} {R : SiteSys K 𝔸 S} {s : OpString} (h : R.Good s) : R.Ok s.word := by
  intro x hx
  have := List.of_mem_zip hx
  exact ⟨h.ops _ this.1, h.mem _ this.2⟩

namespace SiteSys
variable {S : Set ℤ} (R : SiteSys K 𝔸 S)

/-- the loop of `_operation_opstring` computes both `AB` and `BA` site by site -/
theorem loop_spec {A B : OpString} (hA : R.Good A) (hB : R.Good B) :
    ∀ Ls : List ℤ, (∀ l ∈ Ls, l ∈ A.labels ∨ l ∈ B.labels) → ∃ (c : K) (n : ℕ) (wC : Word),
      (∀ st : LoopState K, Ls.foldlM (loopStep A B) st =
        .ok ⟨st.coeff * c, st.numDiff + n, st.opsC ++ wC.map Prod.fst, st.labelsC ++ wC.map Prod.snd⟩) ∧
      (∀ st : LoopState K, Ls.foldlM (loopStep B A) st =
        .ok ⟨st.coeff * star c, st.numDiff + n, st.opsC ++ wC.map Prod.fst, st.labelsC ++ wC.map Prod.snd⟩) ∧
      R.Ok wC ∧ (wC.map Prod.snd).Sublist Ls ∧ Coef.IsPhase c ∧ star c = (-1) ^ n * c ∧
      R.prod (Ls.flatMap (fun l => seg A.word l ++ seg B.word l)) = c • R.prod wC ∧
      R.prod (Ls.flatMap (fun l => seg B.word l ++ seg A.word l)) = star c • R.prod wC ∧
      (A.ops = B.ops → A.labels = B.labels → c = 1 ∧ n = 0 ∧ wC = []) := by
  intro Ls
  induction Ls with
  | nil =>
    intro _
    refine ⟨1, 0, [], ?_, ?_, ?_, ?_, Coef.IsPhase.one, ?_, ?_, ?_, ?_⟩ <;>
      simp [SiteSys.Ok, pure, Except.pure]
  | cons l Ls ih =>
    intro hmem
    obtain ⟨c, n, wC, h1, h2, h3, h4, h5, h6, h7, h8, h9⟩ := ih (fun l hl => hmem l (List.mem_cons_of_mem _ hl))
    rcases lookup_spec hA.len hA.nodup l with ⟨a1, a2, a3⟩ | ⟨i, o, a1, a2, a3, a4, a5⟩
    · rcases lookup_spec hB.len hB.nodup l with ⟨b1, b2, b3⟩ | ⟨j, o', b1, b2, b3, b4, b5⟩
      · exfalso
        rcases hmem l List.mem_cons_self with h | h
        · exact a2 h
        · exact b2 h
      · -- only in B
        refine ⟨c, n, (o', l) :: wC, ?_, ?_, ?_, ?_, h5, h6, ?_, ?_, ?_⟩
        · intro st
          rw [List.foldlM_cons]
          simp only [loopStep, a1, b1, b2, bind, Except.bind]
          rw [h1]; simp
        · intro st
          rw [List.foldlM_cons]
          simp only [loopStep, a1, b1, b2, bind, Except.bind]
          rw [h2]; simp
        · intro x hx
          rcases List.mem_cons.mp hx with rfl | hx
          · exact ⟨hB.ops _ b4, hB.mem _ b3⟩
          · exact h3 x hx
        · simpa using h4
        · simp only [List.flatMap_cons, a3, b5, prod_append, h7]; simp
        · simp only [List.flatMap_cons, a3, b5, prod_append, h8]; simp
        · intro e1 e2; rw [e2] at a2; exact absurd b3 a2
    · rcases lookup_spec hB.len hB.nodup l with ⟨b1, b2, b3⟩ | ⟨j, o', b1, b2, b3, b4, b5⟩
      · -- only in A
        refine ⟨c, n, (o, l) :: wC, ?_, ?_, ?_, ?_, h5, h6, ?_, ?_, ?_⟩
        · intro st
          rw [List.foldlM_cons]
          simp only [loopStep, a1, b1, a2, bind, Except.bind]
          rw [h1]; simp
        · intro st
          rw [List.foldlM_cons]
          simp only [loopStep, a1, b1, a2, bind, Except.bind]
          rw [h2]; simp
        · intro x hx
          rcases List.mem_cons.mp hx with rfl | hx
          · exact ⟨hA.ops _ a4, hA.mem _ a3⟩
          · exact h3 x hx
        · simpa using h4
        · simp only [List.flatMap_cons, b3, a5, prod_append, h7]; simp
        · simp only [List.flatMap_cons, b3, a5, prod_append, h8]; simp
        · intro e1 e2; rw [e2] at a3; exact absurd a3 b2
      · -- in both
        by_cases hoo : o = o'
        · subst hoo
          have hsq := R.sq o (hA.ops _ a4) l (hA.mem _ a3)
          refine ⟨c, n, wC, ?_, ?_, h3, ?_, h5, h6, ?_, ?_, h9⟩
          · intro st
            rw [List.foldlM_cons]
            simp only [loopStep, a1, b1, a2, b2, bind, Except.bind, ne_eq, not_true_eq_false, if_false]
            rw [h1]
          · intro st
            rw [List.foldlM_cons]
            simp only [loopStep, a1, b1, a2, b2, bind, Except.bind, ne_eq, not_true_eq_false, if_false]
            rw [h2]
          · exact h4.trans (List.sublist_cons_self _ _)
          · simp only [List.flatMap_cons, a5, b5, prod_append, h7]; simp [hsq]
          · simp only [List.flatMap_cons, a5, b5, prod_append, h8]; simp [hsq]
        · have hoo' : ¬ o' = o := fun h => hoo h.symm
          obtain ⟨k, o'', m1, m2, m3, m4, m5⟩ := R.mul o o' (hA.ops _ a4) (hB.ops _ b4) hoo
          obtain ⟨k', o3, m1', m2', m3', m4', m5'⟩ := R.mul o' o (hB.ops _ b4) (hA.ops _ a4) hoo'
          rw [m2] at m1'
          simp only [Option.some.injEq, Prod.mk.injEq] at m1'
          obtain ⟨rfl, rfl⟩ := m1'
          have hk : star k = -k := by rcases m4 with rfl | rfl <;> simp
          refine ⟨k * c, n + 1, (o'', l) :: wC, ?_, ?_, ?_, ?_, ?_, ?_, ?_, ?_, ?_⟩
          · intro st
            rw [List.foldlM_cons]
            simp only [loopStep, a1, b1, a2, b2, m1, bind, Except.bind, ne_eq, hoo, not_false_eq_true, if_true]
            rw [h1]; simp [mul_assoc]; omega
          · intro st
            rw [List.foldlM_cons]
            simp only [loopStep, a1, b1, a2, b2, m2, bind, Except.bind, ne_eq, hoo', not_false_eq_true, if_true]
            rw [h2]; simp only [List.append_assoc, List.map_cons, List.singleton_append, Except.ok.injEq, LoopState.mk.injEq, and_true, star_mul]
            exact ⟨by ring, by omega⟩
          · intro x hx
            rcases List.mem_cons.mp hx with rfl | hx
            · exact ⟨m3, hA.mem _ a3⟩
            · exact h3 x hx
          · simpa using h4
          · apply Coef.IsPhase.mul _ h5
            rcases m4 with rfl | rfl
            · exact Coef.IsPhase.I
            · exact Coef.IsPhase.I.neg
          · rw [star_mul, h6, hk, pow_succ]; ring
          · simp only [List.flatMap_cons, a5, b5, prod_append, h7, prod_cons, prod_nil, mul_one]
            rw [m5 l (hA.mem _ a3), smul_mul_smul_comm]
          · simp only [List.flatMap_cons, a5, b5, prod_append, h8, prod_cons, prod_nil, mul_one]
            rw [m5' l (hA.mem _ a3), smul_mul_smul_comm, star_mul, mul_comm (star c)]
          · intro e1 e2
            exfalso
            have e : A.word = B.word := by simp [OpString.word, e1, e2]
            rw [e, b5] at a5
            simp only [List.cons.injEq, Prod.mk.injEq, and_true] at a5
            exact hoo a5.symm

/-- product of two words, grouped by label -/
theorem prod_mul {A B : OpString} (hA : R.Good A) (hB : R.Good B) :
    R.prod A.word * R.prod B.word = ((-1 : K) ^ inversions (R.oddLabels (A.word ++ B.word))) •
      R.prod ((sortedUnion A.labels B.labels).flatMap (fun l => seg A.word l ++ seg B.word l)) := by
  rw [← prod_append, R.prod_sortPair (hA.ok.append hB.ok), sortPair_eq_flatMap]
  congr 2
  · rw [List.map_append, word_map_snd hA.len, word_map_snd hB.len, ← sortedUnion]
    apply List.flatMap_congr
    intro l _
    simp [seg]

theorem oddLabels_append (v w : Word) : R.oddLabels (v ++ w) = R.oddLabels v ++ R.oddLabels w := by
  simp [oddLabels]

end SiteSys

theorem insertLabel_append_comm_mem (a b : List ℤ) : sortedUnion a b = sortedUnion b a := by
  have h1 := sortedUnion_sorted a b
  have h2 := sortedUnion_sorted b a
  have hm : ∀ l, l ∈ sortedUnion a b ↔ l ∈ sortedUnion b a := by
    intro l; rw [mem_sortedUnion, mem_sortedUnion]; tauto
  have n1 : (sortedUnion a b).Nodup := h1.imp (fun h => ne_of_lt h)
  have n2 : (sortedUnion b a).Nodup := h2.imp (fun h => ne_of_lt h)
  have hp : (sortedUnion a b).Perm (sortedUnion b a) := (List.perm_ext_iff_of_nodup n1 n2).mpr hm
  exact hp.eq_of_pairwise (fun a b _ _ h h' => absurd h' (by omega)) h1 h2

/-! ### parity of `L ++ L` -/

theorem inversions_append (a b : List ℤ) :
    inversions (a ++ b) = inversions a + inversions b + (a.map (fun x => b.countP (fun y => y < x))).sum := by
  induction a with
  | nil => simp [inversions]
  | cons x a ih =>
    simp only [List.cons_append, inversions, ih, List.countP_append, List.map_cons, List.sum_cons]
    omega

theorem cross_self (L : List ℤ) (h : L.Nodup) :
    (L.map (fun x => L.countP (fun y => y < x))).sum = L.length.choose 2 := by
  induction L with
  | nil => rfl
  | cons x L ih =>
    rw [List.nodup_cons] at h
    have ih' := ih h.2
    have e : (L.map (fun y => (x :: L).countP (fun z => z < y))).sum
        = (L.map (fun y => L.countP (fun z => z < y))).sum + L.countP (fun y => x < y) := by
      clear ih ih'
      have key : ∀ M : List ℤ, (M.map (fun y => (x :: L).countP (fun z => z < y))).sum
        = (M.map (fun y => L.countP (fun z => z < y))).sum + M.countP (fun y => x < y) := by
        intro M
        induction M with
        | nil => rfl
        | cons m M ihM =>
          rw [List.map_cons, List.sum_cons, ihM, List.countP_cons, List.countP_cons, List.map_cons, List.sum_cons]
          omega
      exact key L
    have e2 : L.countP (fun y => y < x) + L.countP (fun y => x < y) = L.length := by
      have hx := h.1
      clear e ih ih' h
      induction L with
      | nil => rfl
      | cons m M ihM =>
        simp only [List.mem_cons, not_or] at hx
        have := ihM hx.2
        simp only [List.countP_cons, List.length_cons]
        rcases lt_trichotomy m x with h | h | h
        · have : ¬ x < m := by omega
          simp [h, this]; omega
        · exact absurd h.symm hx.1
        · have : ¬ m < x := by omega
          simp [h, this]; omega
    rw [List.map_cons, List.sum_cons, e, ih', List.length_cons, Nat.choose_succ_succ' L.length 1, List.countP_cons]
    simp
    omega

theorem inversions_self_append (L : List ℤ) (h : L.Nodup) :
    ((-1 : ℤ)) ^ inversions (L ++ L) = (-1) ^ (L.length.choose 2) := by
  rw [inversions_append, cross_self L h, pow_add, ← two_mul, pow_mul]
  simp

end Qosy
