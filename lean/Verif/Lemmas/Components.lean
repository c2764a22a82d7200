import Verif.Lemmas.Cliques
import Mathlib.Data.List.Range
import Mathlib.Logic.Relation

/-! # Connected components -/

namespace Qosy

open Relation

section comps
variable {adj : List (List ℕ)}

theorem Connected.symm (hadj : UndirectedLists adj) {x y : ℕ} (h : Connected adj x y) : Connected adj y x := by
  induction h with
  | refl => exact ReflTransGen.refl
  | tail _ h ih => exact ReflTransGen.head (hadj.symm _ _ h) ih

theorem Connected.lt (hadj : UndirectedLists adj) {x y : ℕ} (h : Connected adj x y) (hx : x < adj.length) : y < adj.length := by
  induction h with
  | refl => exact hx
  | tail _ h _ => exact hadj.range _ _ h

theorem popNode_ok {mode : SearchMode} (hm : mode ≠ .other) {l : List ℕ} (hl : l ≠ []) :
    ∃ x l', popNode mode l = .ok (x, l') ∧ l.Perm (x :: l') := by
  cases mode with
  | DFS =>
    refine ⟨l.getLast hl, l.dropLast, ?_, ?_⟩
    · simp [popNode, List.getLast?_eq_some_getLast hl]
    · conv_lhs => rw [← List.dropLast_append_getLast hl]
      exact List.perm_append_singleton ..
  | BFS =>
    cases l with
    | nil => exact absurd rfl hl
    | cons x l => exact ⟨x, l, rfl, List.Perm.refl _⟩
  | other => exact absurd rfl hm

theorem visit_fold (visited : List ℕ) : ∀ (nbrs tv : List ℕ), tv.Nodup → (∀ x ∈ tv, x ∉ visited) →
    (nbrs.foldl (fun tv nb => if nb ∉ visited ∧ nb ∉ tv then tv ++ [nb] else tv) tv).Nodup ∧
    ∀ x, x ∈ nbrs.foldl (fun tv nb => if nb ∉ visited ∧ nb ∉ tv then tv ++ [nb] else tv) tv ↔ x ∈ tv ∨ x ∈ nbrs ∧ x ∉ visited := by
  intro nbrs
  induction nbrs with
  | nil => intro tv h _; simpa using h
  | cons nb nbrs ih =>
    intro tv h hv
    rw [List.foldl_cons]
    by_cases hc : nb ∉ visited ∧ nb ∉ tv
    · rw [if_pos hc]
      obtain ⟨h1, h2⟩ := ih (tv ++ [nb])
        (by rw [List.nodup_append]; exact ⟨h, by simp, by intro a ha b hb e; simp at hb; subst hb; subst e; exact hc.2 ha⟩)
        (by intro x hx; rcases List.mem_append.mp hx with h | h; exact hv x h; simp at h; subst h; exact hc.1)
      refine ⟨h1, fun x => ?_⟩
      rw [h2, List.mem_append, List.mem_singleton, List.mem_cons]
      by_cases e : x = nb
      · subst e; simp [hc.1]
      · simp [e]
    · rw [if_neg hc]
      obtain ⟨h1, h2⟩ := ih tv h hv
      refine ⟨h1, fun x => ?_⟩
      rw [h2, List.mem_cons]
      by_cases e : x = nb
      · subst e
        rw [not_and_or, not_not, not_not] at hc
        rcases hc with hc | hc <;> simp [hc]
      · simp [e]

/-- invariant of the `while` loop started at `node` with the vertices `V` visited -/
structure CompInv (adj : List (List ℕ)) (V : List ℕ) (node : ℕ) (st : CompState) : Prop where
  vis : ∀ x, x ∈ st.visited ↔ x ∈ V ∨ x ∈ st.comp
  nodup : (st.comp ++ st.toVisit).Nodup
  fresh : ∀ x ∈ st.comp ++ st.toVisit, x ∉ V
  conn : ∀ x ∈ st.comp ++ st.toVisit, Connected adj node x
  start : node ∈ st.comp ++ st.toVisit
  nbrs : ∀ x ∈ st.comp, ∀ y, Adjacent adj x y → y ∈ V ∨ y ∈ st.comp ++ st.toVisit

theorem compStep_ok (hadj : UndirectedLists adj) {mode : SearchMode} (hm : mode ≠ .other) {V : List ℕ} {node : ℕ} (hn : node < adj.length)
    {st : CompState} (h : CompInv adj V node st) (hne : st.toVisit ≠ []) :
    ∃ st', compStep mode adj st = .ok st' ∧ CompInv adj V node st' ∧ st'.comp.length = st.comp.length + 1 := by
  obtain ⟨x, l', hp, hperm⟩ := popNode_ok hm hne
  have hx : x ∈ st.comp ++ st.toVisit := List.mem_append_right _ (hperm.mem_iff.mpr (List.mem_cons_self ..))
  obtain ⟨l, hl, hmem⟩ := pyGet_adj (adj := adj) (v := x) ((h.conn x hx).lt hadj hn)
  have hnd := h.nodup
  have hperm2 : (st.comp ++ st.toVisit).Perm (st.comp ++ (x :: l')) := List.Perm.append_left _ hperm
  have hnd2 := hperm2.nodup_iff.mp hnd
  rw [List.nodup_append] at hnd2
  obtain ⟨n1, n2, n3⟩ := hnd2
  rw [List.nodup_cons] at n2
  have hm2 : ∀ y, y ∈ st.comp ++ st.toVisit ↔ y ∈ st.comp ∨ y = x ∨ y ∈ l' := fun y => by
    rw [hperm2.mem_iff, List.mem_append, List.mem_cons]
  have hvis : ∀ y, y ∈ setAdd st.visited x ↔ y ∈ V ∨ y ∈ st.comp ++ [x] := by
    intro y; rw [mem_setAdd, h.vis, List.mem_append, List.mem_singleton, or_assoc]
  have hfr : ∀ y ∈ l', y ∉ setAdd st.visited x := by
    intro y hy
    rw [hvis, List.mem_append, List.mem_singleton, not_or, not_or]
    refine ⟨h.fresh y ((hm2 y).mpr (Or.inr (Or.inr hy))), ?_, ?_⟩
    · intro hc; exact n3 y hc y (List.mem_cons_of_mem _ hy) rfl
    · rintro rfl; exact n2.1 hy
  obtain ⟨f1, f2⟩ := visit_fold (setAdd st.visited x) l l' n2.2 hfr
  generalize hT : l.foldl (fun tv nb => if nb ∉ setAdd st.visited x ∧ nb ∉ tv then tv ++ [nb] else tv) l' = T at f1 f2
  have hTn : ∀ y ∈ T, y ∉ setAdd st.visited x := by
    intro y hy
    rcases (f2 y).mp hy with h1 | h1
    · exact hfr y h1
    · exact h1.2
  have hTm : ∀ y, y ∈ (st.comp ++ [x]) ++ T → y ∈ st.comp ++ st.toVisit ∨ (Adjacent adj x y ∧ y ∉ V) := by
    intro y hy
    rw [List.mem_append, List.mem_append, List.mem_singleton] at hy
    rcases hy with (h1 | h1) | h1
    · exact Or.inl ((hm2 y).mpr (Or.inl h1))
    · exact Or.inl ((hm2 y).mpr (Or.inr (Or.inl h1)))
    · rcases (f2 y).mp h1 with h2 | ⟨h2, h3⟩
      · exact Or.inl ((hm2 y).mpr (Or.inr (Or.inr h2)))
      · rw [hvis, not_or] at h3
        exact Or.inr ⟨(hmem y).mp h2, h3.1⟩
  refine ⟨⟨setAdd st.visited x, T, st.comp ++ [x]⟩, ?_, ⟨hvis, ?_, ?_, ?_, ?_, ?_⟩, by simp⟩
  · simp only [compStep, hp, hl, bind, Except.bind, hT]
  · show ((st.comp ++ [x]) ++ T).Nodup
    rw [List.nodup_append]
    refine ⟨?_, f1, ?_⟩
    · rw [List.nodup_append]
      refine ⟨n1, by simp, ?_⟩
      intro a ha b hb; simp at hb; subst hb; exact n3 a ha b (List.mem_cons_self ..)
    · intro a ha b hb e
      subst e
      exact hTn a hb ((hvis a).mpr (Or.inr ha))
  · intro y hy
    rcases hTm y hy with h1 | h1
    · exact h.fresh y h1
    · exact h1.2
  · intro y hy
    rcases hTm y hy with h1 | h1
    · exact h.conn y h1
    · exact (h.conn x hx).tail h1.1
  · show node ∈ (st.comp ++ [x]) ++ T
    rw [List.mem_append, List.mem_append, List.mem_singleton, f2]
    rcases (hm2 node).mp h.start with h1 | h1 | h1 <;> tauto
  · intro y hy z hz
    show z ∈ V ∨ z ∈ (st.comp ++ [x]) ++ T
    have key : z ∈ l' ∨ (z ∈ l ∧ z ∉ setAdd st.visited x) → z ∈ V ∨ z ∈ (st.comp ++ [x]) ++ T := fun h =>
      Or.inr (List.mem_append_right _ ((f2 z).mpr h))
    rcases List.mem_append.mp hy with h1 | h1
    · rcases h.nbrs y h1 z hz with h2 | h2
      · exact Or.inl h2
      · rcases (hm2 z).mp h2 with h3 | h3 | h3
        · exact Or.inr (by simp [h3])
        · exact Or.inr (by simp [h3])
        · exact key (Or.inl h3)
    · simp at h1; subst h1
      by_cases hzv : z ∈ setAdd st.visited y
      · rcases (hvis z).mp hzv with h2 | h2
        · exact Or.inl h2
        · exact Or.inr (List.mem_append_left _ h2)
      · exact key (Or.inr ⟨(hmem z).mpr hz, hzv⟩)

theorem CompInv.length_le (hadj : UndirectedLists adj) {V : List ℕ} {node : ℕ} (hn : node < adj.length) {st : CompState} (h : CompInv adj V node st) :
    (st.comp ++ st.toVisit).length ≤ adj.length := by
  have : List.Subperm (st.comp ++ st.toVisit) (List.range adj.length) :=
    h.nodup.subperm (fun x hx => List.mem_range.mpr ((h.conn x hx).lt hadj hn))
  simpa using this.length_le

theorem compLoop_ok (hadj : UndirectedLists adj) {mode : SearchMode} (hm : mode ≠ .other) {V : List ℕ} {node : ℕ} (hn : node < adj.length) :
    ∀ (k : ℕ) (st : CompState), CompInv adj V node st → adj.length ≤ k + st.comp.length →
      ∃ st', compLoop mode adj k st = .ok (some st') ∧ CompInv adj V node st' ∧ st'.toVisit = [] := by
  intro k
  induction k with
  | zero =>
    intro st h hk
    have h1 := h.length_le hadj hn
    have h2 : st.toVisit = [] := by
      rw [List.length_append] at h1
      exact List.eq_nil_of_length_eq_zero (by omega)
    exact ⟨st, by simp [compLoop, h2], h, h2⟩
  | succ k ih =>
    intro st h hk
    by_cases h2 : st.toVisit = []
    · exact ⟨st, by simp [compLoop, h2], h, h2⟩
    · obtain ⟨st1, h3, h4, h5⟩ := compStep_ok hadj hm hn h h2
      obtain ⟨st2, h6, h7, h8⟩ := ih st1 h4 (by omega)
      refine ⟨st2, ?_, h7, h8⟩
      rw [compLoop, if_neg h2, h3]
      exact h6

open Classical in
/-- the connected components of the vertices below `k`, in the order of their smallest vertices -/
noncomputable def componentSets (adj : List (List ℕ)) (k : ℕ) : List (Finset ℕ) :=
  ((List.range k).filter (fun v => ∀ w < v, ¬ Connected adj w v)).map
    (fun v => (Finset.range adj.length).filter (Connected adj v))

theorem components_ok (hadj : UndirectedLists adj) {mode : SearchMode} (hm : mode ≠ .other) {n : ℕ} (hn : adj.length ≤ n) :
    ∀ k ≤ adj.length, ∃ V r, (List.range k).foldlM (compNode mode adj n) (some ([], [])) = .ok (some (V, r)) ∧
      (∀ x, x ∈ V ↔ ∃ u < k, Connected adj u x) ∧ (∀ x, x ∈ V ↔ x ∈ r.flatten) ∧ r.flatten.Nodup ∧
      (∀ c ∈ r, c ≠ [] ∧ ∀ x ∈ c, ∀ y, y ∈ c ↔ Connected adj x y) ∧
      r.map List.toFinset = componentSets adj k := by
  intro k
  induction k with
  | zero => intro _; exact ⟨[], [], rfl, by simp, by simp, by simp, by simp, by simp [componentSets]⟩
  | succ k ih =>
    intro hk
    obtain ⟨V, r, h1, h2, h3, h4, h5, h6⟩ := ih (by omega)
    rw [List.range_succ, List.foldlM_append, h1]
    have hred : ∀ (X : Py (Option (List ℕ × List (List ℕ)))), (do let s ← (Except.ok (some (V, r)) : Py _); List.foldlM (compNode mode adj n) s [k]) = X ↔ compNode mode adj n (some (V, r)) k = X := by
      intro X
      simp only [bind, Except.bind, List.foldlM_cons, List.foldlM_nil]
      cases compNode mode adj n (some (V, r)) k <;> rfl
    simp only [hred]
    by_cases hkV : k ∈ V
    · obtain ⟨u, hu, hc⟩ := (h2 k).mp hkV
      refine ⟨V, r, by simp [compNode, hkV], ?_, h3, h4, h5, ?_⟩
      · intro x
        rw [h2]
        constructor
        · rintro ⟨v, hv, h⟩; exact ⟨v, by omega, h⟩
        · rintro ⟨v, hv, h⟩
          rcases Nat.lt_succ_iff_lt_or_eq.mp hv with hv | rfl
          · exact ⟨v, hv, h⟩
          · exact ⟨u, hu, ReflTransGen.trans hc h⟩
      · rw [h6, componentSets, componentSets, List.range_succ, List.filter_append]
        have : ¬ (∀ w < k, ¬ Connected adj w k) := fun h => h u hu hc
        rw [List.filter_cons_of_neg (by simpa using this), List.filter_nil, List.append_nil]
    · have hkn : k < adj.length := by omega
      have hinit : CompInv adj V k ⟨V, [k], []⟩ :=
        ⟨by simp, by simp, by intro x hx; simp at hx; subst hx; exact hkV, by intro x hx; simp at hx; subst hx; exact ReflTransGen.refl, by simp, by simp⟩
      obtain ⟨st, g1, g2, g3⟩ := compLoop_ok hadj hm hkn n _ hinit (by simpa using hn)
      have hconn := g2.conn
      have hfresh := g2.fresh
      have hnb := g2.nbrs
      have hst := g2.start
      have hnd := g2.nodup
      rw [g3, List.append_nil] at hconn hfresh hst hnd
      simp only [g3, List.append_nil] at hnb
      have hchar : ∀ y, y ∈ st.comp ↔ Connected adj k y := by
        intro y
        refine ⟨hconn y, ?_⟩
        intro h
        induction h with
        | refl => exact hst
        | tail hab hbc ih' =>
          rename_i b c
          rcases hnb b ih' c hbc with h | h
          · exfalso
            obtain ⟨u, hu, huc⟩ := (h2 c).mp h
            exact hfresh b ih' ((h2 b).mpr ⟨u, hu, huc.tail (hadj.symm _ _ hbc)⟩)
          · exact h
      have hcomp : st.comp ≠ [] := List.ne_nil_of_mem hst
      have hpos : st.comp.length > 0 := List.length_pos_iff.mpr hcomp
      refine ⟨st.visited, r ++ [st.comp], ?_, ?_, ?_, ?_, ?_, ?_⟩
      · simp only [compNode, if_neg hkV, g1, bind, Except.bind, if_pos hpos]
      · intro x
        rw [g2.vis, h2, hchar]
        constructor
        · rintro (⟨u, hu, h⟩ | h)
          · exact ⟨u, by omega, h⟩
          · exact ⟨k, by omega, h⟩
        · rintro ⟨u, hu, h⟩
          rcases Nat.lt_succ_iff_lt_or_eq.mp hu with hu | rfl
          · exact Or.inl ⟨u, hu, h⟩
          · exact Or.inr h
      · intro x
        rw [g2.vis, h3]; simp
      · rw [List.flatten_append, List.flatten_singleton, List.nodup_append]
        refine ⟨h4, hnd, ?_⟩
        intro a ha b hb e
        subst e
        exact hfresh a hb ((h3 a).mpr ha)
      · intro c hc
        rcases List.mem_append.mp hc with h | h
        · exact h5 c h
        · simp at h; subst h
          refine ⟨hcomp, ?_⟩
          intro x hx y
          rw [hchar]
          have hx' := (hchar x).mp hx
          exact ⟨fun h => ReflTransGen.trans (hx'.symm hadj) h, fun h => ReflTransGen.trans hx' h⟩
      · rw [List.map_append, h6, componentSets, componentSets, List.range_succ, List.filter_append]
        have : ∀ w < k, ¬ Connected adj w k := fun w hw h => hkV ((h2 k).mpr ⟨w, hw, h⟩)
        rw [List.filter_cons_of_pos (by simpa using this), List.filter_nil, List.map_append]
        congr 1
        simp only [List.map_cons, List.map_nil, List.cons.injEq, and_true]
        ext x
        rw [List.mem_toFinset, hchar]
        simp only [Finset.mem_filter, Finset.mem_range]
        exact ⟨fun h => ⟨h.lt hadj hkn, h⟩, fun h => h.2⟩

end comps

end Qosy
