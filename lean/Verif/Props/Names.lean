import Verif.Lemmas.Names

/-!
# Properties C70, C71, C72: `swap`, `replace`, `argsort`

`Swapped A B s t`, `Substituted subs s t`: the text `t` arises from `s` by exchanging two names, by carrying out substitutions.
-/

namespace Qosy

/-! ### C70 -/

/-- **C70** (`swap`): in a text without parentheses, two names that do not overlap are exchanged: every first name becomes the second
name and vice versa. -/
theorem C70_swap_partial {A B s : List Char} (hAB : Apart A B) (hA : Plain A) (hB : Plain B) (hs : Plain s) :
    Swapped A B s (swapNames s A B) := by
  obtain ⟨t, ht⟩ := Swapped.exists A B hAB.left hAB.right s
  rwa [swapNames_eq hAB hA hB hs.1 ht]

/-- **C70** (involution): exchanging the names twice gives the original text. -/
theorem C70_involution_partial {A B s : List Char} (hAB : OverlapFree A B) (hA : Plain A) (hB : Plain B) (hs : Plain s) :
    swapNames (swapNames s A B) A B = s := by
  have h := C70_swap_partial hAB.apart hA hB hs
  exact swapNames_eq hAB.apart hA hB (h.not_mem hA.1 hB.1 hs.1) (h.back hAB)

/-- **C70** (order of the names): it does not matter which name is the first one. -/
theorem C70_symmetric_partial {A B s : List Char} (hAB : OverlapFree A B) (hA : Plain A) (hB : Plain B) (hs : Plain s) :
    swapNames s A B = swapNames s B A := by
  have h : Swapped B A s (swapNames s A B) := by
    have := C70_swap_partial hAB.apart hA hB hs
    generalize swapNames s A B = t at this
    induction this with
    | nil => exact .nil
    | left _ ih => exact .right (ih ⟨fun h => hs.1 (by simp [h]), fun h => hs.2 (by simp [h])⟩)
    | right _ ih => exact .left (ih ⟨fun h => hs.1 (by simp [h]), fun h => hs.2 (by simp [h])⟩)
    | char h1 h2 _ ih => exact .char h2 h1 (ih ⟨fun h => hs.1 (by simp [h]), fun h => hs.2 (by simp [h])⟩)
  exact (swapNames_eq hAB.comm.apart hB hA hs.1 h).symm

/-- **C70** (unrelated texts): a text that contains neither name is not changed. -/
theorem C70_unrelated_partial {A B s : List Char} (hAB : Apart A B) (hA : Plain A) (hB : Plain B) (hs : Plain s) (h1 : ¬ A <:+: s) (h2 : ¬ B <:+: s) :
    swapNames s A B = s := swapNames_eq hAB hA hB hs.1 (.self h1 h2)

/-- the names of the two spins do not overlap -/
theorem up_dn_overlapFree : OverlapFree "Up".toList "Dn".toList :=
  overlapFree_of_tails (by decide) (by decide) (by decide) (by decide) (by decide)

theorem up_dn_plain : Plain "Up".toList ∧ Plain "Dn".toList := by unfold Plain; decide

/-- names with a common beginning -/
example : OverlapFree "spinup".toList "spindown".toList := overlapFree_of_tails (by decide) (by decide) (by decide) (by decide) (by decide)

example : swapNames "A Up B Dn".toList "Up".toList "Dn".toList = "A Dn B Up".toList := by decide

/-- **C70**, the negation: a second name in parentheses loses them and is not replaced. -/
theorem C70_refuted : OverlapFree "Up".toList "Dn".toList ∧ swapNames "s (Dn)".toList "Up".toList "Dn".toList = "s Dn".toList ∧
    ∀ t, Swapped "Up".toList "Dn".toList "s (Dn)".toList t → t = "s (Up)".toList := by
  refine ⟨up_dn_overlapFree, by decide, fun t ht => ?_⟩
  have key : ∀ {s t : List Char}, Swapped "Up".toList "Dn".toList s t → (s = "s (Dn)".toList → t = "s (Up)".toList) ∧
      (s = " (Dn)".toList → t = " (Up)".toList) ∧ (s = "(Dn)".toList → t = "(Up)".toList) ∧ (s = "Dn)".toList → t = "Up)".toList) ∧
      (s = ")".toList → t = ")".toList) ∧ (s = [] → t = []) := by
    intro s t h
    induction h with
    | nil => decide
    | @left s t _ ih => refine ⟨?_, ?_, ?_, ?_, ?_, ?_⟩ <;> intro h <;> simp at h
    | @right s t _ ih =>
      refine ⟨?_, ?_, ?_, ?_, ?_, ?_⟩ <;> intro h <;> simp at h
      simp only [h, forall_const] at ih
      simp [ih.2.2.2.2.1 (by simp)]
    | @char c s t h1 h2 _ ih =>
      refine ⟨?_, ?_, ?_, ?_, ?_, ?_⟩ <;> intro h <;> simp at h
      · obtain ⟨rfl, rfl⟩ := h; simp [ih.2.1 (by simp)]
      · obtain ⟨rfl, rfl⟩ := h; simp [ih.2.2.1 (by simp)]
      · obtain ⟨rfl, rfl⟩ := h; simp [ih.2.2.2.1 (by simp)]
      · obtain ⟨rfl, rfl⟩ := h; exact absurd (by decide) h2
      · obtain ⟨rfl, rfl⟩ := h; simp [ih.2.2.2.2.2 rfl]
  exact (key ht).1 rfl

/-- **C70**, the negation: if the second name contains the first one, swapping is wrong and swapping twice does not give the original text. -/
theorem C70_nested_refuted : swapNames "Sz".toList "S".toList "Sz".toList = "Szz".toList ∧
    swapNames (swapNames "Sz".toList "S".toList "Sz".toList) "S".toList "Sz".toList ≠ "Sz".toList := by decide

/-- **C70** (refuted for an empty name): exchanging an empty name with another one inserts the other one everywhere, and doing so twice does not give
the original text. -/
theorem C70_empty_refuted : swapNames "ab".toList [] "c".toList = "cacbc".toList ∧
    swapNames (swapNames "ab".toList [] "c".toList) [] "c".toList ≠ "ab".toList := by decide

/-! ### C71 -/

/-- **C71** (`replace`): all substitutions are carried out at once, at every place that of the longest key; what was inserted is not looked at
again. -/
theorem C71_replace {subs : List (List Char × List Char)} (hne : subs ≠ []) (hn : (subs.map Prod.fst).Nodup) (h0 : ∀ k ∈ subs, k.1 ≠ [])
    (s t : List Char) : replaceNames s subs = .ok t ↔ Substituted subs s t := by
  rw [replaceNames, if_neg hne]
  have h := subScan_substituted h0 s
  constructor
  · intro e; rw [← Except.ok.inj e]; exact h
  · intro h'; rw [h.unique hn h']

/-- **C71** (order): the order of the dictionary does not matter. -/
theorem C71_order {subs subs' : List (List Char × List Char)} (hne : subs ≠ []) (hn : (subs.map Prod.fst).Nodup) (h0 : ∀ k ∈ subs, k.1 ≠ [])
    (hp : subs.Perm subs') (s : List Char) : replaceNames s subs = replaceNames s subs' := by
  have hne' : subs' ≠ [] := fun h => hne (by rw [h] at hp; exact hp.eq_nil)
  have hn' : (subs'.map Prod.fst).Nodup := (hp.map Prod.fst).nodup_iff.mp hn
  have h0' : ∀ k ∈ subs', k.1 ≠ [] := fun k hk => h0 k (hp.mem_iff.mpr hk)
  have h := subScan_substituted h0 s
  rw [replaceNames, if_neg hne, eq_comm, C71_replace hne' hn' h0']
  generalize subScan (byLength subs) 0 s = t at h
  induction h with
  | nil => exact .nil
  | key hk hk0 hmax _ ih => exact .key (hp.mem_iff.mp hk) hk0 (fun k' hk' => hmax k' ((hp.map Prod.fst).mem_iff.mpr hk')) ih
  | char hno _ ih => exact .char (fun k hk => hno k ((hp.map Prod.fst).mem_iff.mpr hk)) ih

/-- **C71** (single characters): if all keys are single characters, every character is replaced on its own. -/
theorem C71_characters {subs : List (Char × List Char)} (hne : subs ≠ []) (hn : (subs.map Prod.fst).Nodup) (s : List Char) :
    replaceNames s (subs.map fun k => ([k.1], k.2)) = .ok (s.flatMap fun c => ((subs.find? fun k => k.1 = c).map Prod.snd).getD [c]) := by
  rw [C71_replace (by simpa using hne) (by
    rw [List.map_map, show Prod.fst ∘ (fun k : Char × List Char => ([k.1], k.2)) = (fun c => [c]) ∘ Prod.fst from rfl, ← List.map_map]
    exact hn.map (fun a b h => by simpa using h)) (by
    intro k hk
    obtain ⟨x, -, rfl⟩ := List.mem_map.mp hk
    simp)]
  induction s with
  | nil => exact .nil
  | cons c s ih =>
    rw [List.flatMap_cons]
    cases hf : subs.find? fun k => k.1 = c with
    | none =>
      refine .char (fun k hk hp => ?_) ih
      simp only [List.map_map, List.mem_map, Function.comp] at hk
      obtain ⟨x, hx, rfl⟩ := hk
      rw [List.cons_prefix_cons] at hp
      have := List.find?_eq_none.mp hf x hx
      simp [hp.1] at this
    | some k =>
      have h1 := List.mem_of_find?_eq_some hf
      have h2 := List.find?_some hf
      simp only [decide_eq_true_eq] at h2
      subst h2
      refine Substituted.key (k := [k.1]) (v := k.2) (List.mem_map.mpr ⟨k, h1, rfl⟩) (by simp) (fun k' hk' _ => ?_) ih
      simp only [List.map_map, List.mem_map, Function.comp] at hk'
      obtain ⟨x, _, rfl⟩ := hk'
      simp

/-- **C71** (exchanging names): the substitution of two names for each other exchanges them, also next to parentheses. -/
theorem C71_swap {A B : List Char} (hAB : OverlapFree A B) (s : List Char) : ∃ t, replaceNames s [(A, B), (B, A)] = .ok t ∧ Swapped A B s t := by
  have hne : A ≠ B := fun h => hAB.ab (h ▸ List.infix_rfl)
  obtain ⟨t, ht⟩ := Swapped.exists A B hAB.left hAB.right s
  refine ⟨t, ?_, ht⟩
  rw [C71_replace (by simp) (by simpa using hne) (by simp [hAB.left, hAB.right])]
  have hcmp : ∀ s, ¬ (A <+: s ∧ B <+: s) := by
    rintro s ⟨h1, h2⟩
    rcases List.prefix_or_prefix_of_prefix h1 h2 with h | h
    · exact hAB.ab h.isInfix
    · exact hAB.ba h.isInfix
  induction ht with
  | nil => exact .nil
  | @left s t _ ih =>
    refine .key (by simp) hAB.left (fun k' hk' hp => ?_) ih
    simp only [List.map_cons, List.map_nil, List.mem_cons, List.not_mem_nil, or_false] at hk'
    rcases hk' with rfl | rfl
    · exact le_rfl
    · exact absurd ⟨List.prefix_append _ _, hp⟩ (hcmp _)
  | @right s t _ ih =>
    refine .key (by simp) hAB.right (fun k' hk' hp => ?_) ih
    simp only [List.map_cons, List.map_nil, List.mem_cons, List.not_mem_nil, or_false] at hk'
    rcases hk' with rfl | rfl
    · exact absurd ⟨hp, List.prefix_append _ _⟩ (hcmp _)
    · exact le_rfl
  | char h1 h2 _ ih =>
    refine .char (fun k hk => ?_) ih
    simp only [List.map_cons, List.map_nil, List.mem_cons, List.not_mem_nil, or_false] at hk
    rcases hk with rfl | rfl
    · exact h1
    · exact h2

example : replaceNames "ABC".toList [("A".toList, "AB".toList), ("B".toList, "D".toList), ("C".toList, "AC".toList)] = .ok "ABDAC".toList := by decide

/-- longer keys first: `S` is not replaced inside of `Sz` -/
example : replaceNames "S Sz (Sz)".toList [("S".toList, "Sz".toList), ("Sz".toList, "S".toList)] = .ok "Sz S (S)".toList := by decide

/-- **C71**, the negation: without substitutions the text is not returned; KeyError. -/
theorem C71_refuted (s : List Char) : replaceNames s [] = .error .keyError := rfl

/-- **C71** (empty key): a dictionary with the empty key inserts its value before every character at which no other key occurs and at the end. -/
theorem C71_empty_key {subs : List (List Char × List Char)} (hn : (subs.map Prod.fst).Nodup) {v : List Char} (hv : ([], v) ∈ subs) (s : List Char) :
    ∃ t, replaceNames s subs = .ok t ∧ SubstitutedAround v subs s t := by
  refine ⟨subScan (byLength subs) 0 s, by rw [replaceNames, if_neg (List.ne_nil_of_mem hv)], ?_⟩
  have hm : ∀ k, k ∈ byLength subs ↔ k ∈ subs := fun k => (byLength_perm subs).mem_iff
  have hval : ∀ k ∈ subs, k.1 = [] → k.2 = v := by
    intro k hk h
    have := List.inj_on_of_nodup_map hn hk hv h
    rw [this]
  obtain ⟨n, hn'⟩ : ∃ n, s.length = n := ⟨_, rfl⟩
  induction n using Nat.strong_induction_on generalizing s with
  | _ n ih =>
    cases s with
    | nil =>
      rw [subScan]
      split
      · rename_i k hk
        obtain ⟨h1, h2, -⟩ := find?_longest (byLength_sorted subs) hk
        rw [hval k ((hm k).mp h1) (List.prefix_nil.mp h2)]
        exact .nil
      · rename_i hk
        have := List.find?_eq_none.mp hk _ ((hm _).mpr hv)
        exact absurd (by simp) this
    | cons c s =>
      rw [subScan]
      split
      · rename_i k hk
        obtain ⟨h1, ⟨r, hr⟩, h3⟩ := find?_longest (byLength_sorted subs) hk
        split
        · rename_i hk0
          rw [hval k ((hm k).mp h1) hk0]
          refine .char (fun k' hk' hk0' hp => ?_) (ih s.length (by simp at hn'; omega) s rfl)
          obtain ⟨x, hx, rfl⟩ := List.mem_map.mp hk'
          have := h3 x ((hm x).mpr hx) hp
          rw [hk0] at this
          exact hk0' (List.length_eq_zero_iff.mp (by simpa using this))
        · rename_i hk0
          have hpos := List.length_pos_of_ne_nil hk0
          have hlen := congrArg List.length hr
          simp only [List.length_append, List.length_cons] at hlen hn'
          rw [subScan_skip _ _ _ (by omega)]
          have hs : s.drop (k.1.length - 1) = r := by
            obtain ⟨d, k1, hd⟩ := List.exists_cons_of_ne_nil hk0
            rw [hd] at hr ⊢
            rw [List.cons_append] at hr
            rw [← (List.cons.inj hr).2]
            simp
          rw [hs, ← hr]
          refine SubstitutedAround.key (k := k.1) (w := k.2) ((hm k).mp h1) hk0 (fun k' hk' hp => ?_) (ih r.length (by omega) r rfl)
          obtain ⟨x, hx, rfl⟩ := List.mem_map.mp hk'
          exact h3 x ((hm x).mpr hx) (hr ▸ hp)
      · rename_i hk
        have := List.find?_eq_none.mp hk _ ((hm _).mpr hv)
        exact absurd (by simp) this

/-- non-vacuity: as Python's `re.sub`, which replaces an empty match also next to a previous non-empty one -/
example : replaceNames "abxd".toList [("".toList, "-".toList), ("x".toList, "-".toList)] = .ok "-a-b--d-".toList := by decide

/-! ### C72 -/

/-- **C72** (`argsort`): the result is a permutation of the positions that sorts the list, and equal objects keep their order. -/
theorem C72_argsort {α : Type} [LinearOrder α] (l : List α) : (argsortList (fun a b => decide (a < b)) l).Perm (List.range l.length) ∧
    ((argsortList (fun a b => decide (a < b)) l).filterMap fun i => l[i]?).Pairwise (· ≤ ·) ∧
    (argsortList (fun a b => decide (a < b)) l).Pairwise fun i j => l[i]? = l[j]? → i < j := by
  have hperm := sortIndices_perm (fun i j => match l[i]?, l[j]? with
    | some a, some b => decide (a < b)
    | _, _ => false) l.length
  have hs := sortIndices_sorted (lt := fun i j => match l[i]?, l[j]? with
    | some a, some b => decide (a < b)
    | _, _ => false) (fun i j h => ?_) (n := l.length) (fun i hi j hj k hk h1 h2 => ?_)
  · change (argsortList _ l).Perm _ at hperm
    change (argsortList (fun a b => decide (a < b)) l).Pairwise _ at hs
    have hm : ∀ i ∈ argsortList (fun a b => decide (a < b)) l, i < l.length := fun i hi => List.mem_range.mp (hperm.mem_iff.mp hi)
    refine ⟨hperm, ?_, ?_⟩
    · rw [List.pairwise_filterMap]
      refine hs.imp fun {i j} h a ha b hb => ?_
      have := h.1
      simp only [ha, hb, decide_eq_false_iff_not, not_lt] at this
      exact this
    · refine (List.pairwise_iff_forall_sublist.mpr fun {i j} hij e => ?_)
      have h := List.pairwise_iff_forall_sublist.mp hs hij
      have hj := hm j (hij.subset (by simp))
      apply h.2
      rw [e, List.getElem?_eq_getElem hj]
      simp
  · cases hi : l[i]? <;> cases hj : l[j]? <;> simp only [hi, hj] at h ⊢
    simp only [decide_eq_true_eq, decide_eq_false_iff_not] at h ⊢; exact h.asymm
  · simp only [List.getElem?_eq_getElem hi, List.getElem?_eq_getElem hj, List.getElem?_eq_getElem hk, decide_eq_false_iff_not, not_lt] at h1 h2 ⊢
    exact h2.trans h1

/-- **C72**, the negation: a comparison function is called with positions instead of objects; `argsort([2, 1], lambda a, b: a - b)` is
`[0, 1]`, which does not sort the list. -/
theorem C72_comparison_refuted : argsortComp (fun a b => a - b) [(2 : ℤ), 1] = [0, 1] ∧
    ¬ ((argsortComp (fun a b => a - b) [(2 : ℤ), 1]).filterMap fun i => ([2, 1] : List ℤ)[i]?).Pairwise (· ≤ ·) := by decide

/-- **C72** (comparison functions, what the code does): the positions are sorted with the comparison function applied to positions. -/
theorem C72_comparison_partial {α : Type} (comp : ℤ → ℤ → ℤ) (l : List α) (anti : ∀ i j, comp i j < 0 → ¬ comp j i < 0)
    (tr : ∀ i j k, ¬ comp i j < 0 → ¬ comp j k < 0 → ¬ comp i k < 0) :
    (argsortComp comp l).Perm (List.range l.length) ∧ (argsortComp comp l).Pairwise fun (i j : ℕ) => ¬ comp j i < 0 ∧ (¬ comp i j < 0 → i < j) := by
  refine ⟨sortIndices_perm _ _, (sortIndices_sorted (fun i j h => ?_) (fun i _ j _ k _ h1 h2 => ?_)).imp fun {i j} h => ?_⟩
  · simp only [decide_eq_true_eq, decide_eq_false_iff_not] at h ⊢; exact anti _ _ h
  · simp only [decide_eq_false_iff_not] at h1 h2 ⊢; exact tr _ _ _ h1 h2
  · simpa only [decide_eq_false_iff_not] using h

end Qosy
