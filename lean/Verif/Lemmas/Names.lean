import Verif.Model.Names
import Verif.Spec.Names
import Mathlib.Data.List.Basic

/-! # Lemmas about `swap`, `replace` and `argsort` -/

namespace Qosy

theorem occursIn_iff (p s : List Char) : occursIn p s = true ↔ p <:+: s := by
  induction s with
  | nil => simp [occursIn]
  | cons c s ih => rw [occursIn, Bool.or_eq_true, ih, List.isPrefixOf_iff_prefix, List.infix_cons_iff]

theorem replaceScan_skip (old new : List Char) : ∀ (k : ℕ) (s : List Char), replaceScan old new k s = replaceScan old new 0 (s.drop k)
  | 0, s => by simp
  | k + 1, [] => by simp [replaceScan]
  | k + 1, c :: s => by rw [replaceScan, replaceScan_skip old new k s, List.drop_succ_cons]

/-- a match -/
theorem strReplace_match {old : List Char} (h : old ≠ []) (new s : List Char) : strReplace old new (old ++ s) = new ++ strReplace old new s := by
  rw [strReplace, if_neg h, strReplace, if_neg h]
  obtain ⟨c, o, rfl⟩ := List.exists_cons_of_ne_nil h
  rw [List.cons_append, replaceScan, if_pos (by simp [List.isPrefixOf_iff_prefix]), replaceScan_skip]
  simp

/-- no match -/
theorem strReplace_char {old : List Char} (h : old ≠ []) (new : List Char) {c : Char} {s : List Char} (hp : ¬ old <+: c :: s) :
    strReplace old new (c :: s) = c :: strReplace old new s := by
  rw [strReplace, if_neg h, strReplace, if_neg h, replaceScan, if_neg (by rwa [List.isPrefixOf_iff_prefix])]

theorem strReplace_nil {old : List Char} (h : old ≠ []) (new : List Char) : strReplace old new [] = [] := by
  rw [strReplace, if_neg h, replaceScan]

/-- a part in which no match begins -/
theorem strReplace_part {old : List Char} (h : old ≠ []) (new : List Char) {x s : List Char} (hx : ∀ y, y <:+ x → y ≠ [] → ¬ old <+: y ++ s) :
    strReplace old new (x ++ s) = x ++ strReplace old new s := by
  induction x with
  | nil => rfl
  | cons c x ih =>
    rw [List.cons_append, strReplace_char h _ (by simpa using hx (c :: x) List.suffix_rfl (by simp)),
      ih fun y hy => hx y (hy.trans (List.suffix_cons c x)), List.cons_append]

/-- a beginning that was not touched -/
theorem prefix_of_strReplace {A p : List Char} (h : A ≠ []) (hp : '(' ∉ p) : ∀ s, p <+: strReplace A (inParens A) s → p <+: s := by
  induction p with
  | nil => intro s _; exact List.nil_prefix
  | cons a p ih =>
    intro s hs
    cases s with
    | nil => rw [strReplace_nil h] at hs; simp at hs
    | cons c s =>
      by_cases hA : A <+: c :: s
      · obtain ⟨r, hr⟩ := hA
        rw [← hr, strReplace_match h, inParens, List.cons_append, List.cons_append, List.cons_prefix_cons] at hs
        exact absurd hs.1 (fun e => hp (by rw [e]; simp))
      · rw [strReplace_char h _ hA, List.cons_prefix_cons] at hs
        rw [List.cons_prefix_cons]
        exact ⟨hs.1, ih (fun h => hp (List.mem_cons_of_mem _ h)) s hs.2⟩

theorem prefix_append_of_not_mem {B y u : List Char} {c : Char} (hc : c ∉ B) (h : B <+: y ++ c :: u) : B <+: y := by
  rcases List.prefix_or_prefix_of_prefix h (List.prefix_append y (c :: u)) with h' | ⟨r, rfl⟩
  · exact h'
  · have hr := (List.prefix_append_right_inj y).mp h
    cases r with
    | nil => simp
    | cons d r =>
      rw [List.cons_prefix_cons] at hr
      exact absurd hc (by rw [← hr.1]; simp)

theorem Swapped.exists (A B : List Char) (hA : A ≠ []) (hB : B ≠ []) (s : List Char) : ∃ t, Swapped A B s t := by
  obtain ⟨n, hn⟩ : ∃ n, s.length = n := ⟨_, rfl⟩
  induction n using Nat.strong_induction_on generalizing s with
  | _ n ih =>
    have ha := List.length_pos_of_ne_nil hA
    have hb := List.length_pos_of_ne_nil hB
    cases s with
    | nil => exact ⟨[], .nil⟩
    | cons c s =>
      by_cases h1 : A <+: c :: s
      · obtain ⟨r, hr⟩ := h1
        have hl := congrArg List.length hr
        rw [List.length_append] at hl
        obtain ⟨t, ht⟩ := ih r.length (by omega) r rfl
        exact ⟨_, hr ▸ Swapped.left ht⟩
      · by_cases h2 : B <+: c :: s
        · obtain ⟨r, hr⟩ := h2
          have hl := congrArg List.length hr
          rw [List.length_append] at hl
          obtain ⟨t, ht⟩ := ih r.length (by omega) r rfl
          exact ⟨_, hr ▸ Swapped.right ht⟩
        · obtain ⟨t, ht⟩ := ih s.length (by simp at hn; omega) s rfl
          exact ⟨_, .char h1 h2 ht⟩

theorem swapNames_eq {A B : List Char} (hAB : Apart A B) (hA : Plain A) (hB : Plain B) {s t : List Char} (hs : '(' ∉ s) (h : Swapped A B s t) :
    swapNames s A B = t := by
  have hP : inParens A ≠ [] := by simp [inParens]
  have open_part : ∀ {x u : List Char}, '(' ∉ x → strReplace (inParens A) B (x ++ u) = x ++ strReplace (inParens A) B u := by
    intro x u hx
    refine strReplace_part hP _ fun y hy hy0 hp => ?_
    obtain ⟨c, y', rfl⟩ := List.exists_cons_of_ne_nil hy0
    rw [inParens, List.cons_append, List.cons_append, List.cons_prefix_cons] at hp
    exact hx (hy.subset (by rw [← hp.1]; simp))
  simp only [swapNames]
  induction h with
  | nil => rw [strReplace_nil hAB.left, strReplace_nil hAB.right, strReplace_nil hP]
  | @left s t _ ih =>
    rw [strReplace_match hAB.left, strReplace_part hAB.right, strReplace_match hP, ih (fun h => hs (by simp [h]))]
    intro y hy hy0 hp
    rw [inParens, List.cons_append, List.suffix_cons_iff] at hy
    rcases hy with rfl | hy
    · obtain ⟨b, B', rfl⟩ := List.exists_cons_of_ne_nil hAB.right
      rw [List.cons_append, List.cons_prefix_cons] at hp
      exact hB.1 (by rw [hp.1]; simp)
    · obtain ⟨z, hz⟩ := hy
      obtain ⟨y', rfl⟩ : ∃ y', y = y' ++ [')'] := by
        refine ⟨y.dropLast, ?_⟩
        have h1 : y.getLast hy0 = ')' := by
          have : (z ++ y).getLast (by simp [hy0]) = ')' := by simp [hz]
          rwa [List.getLast_append_of_ne_nil _ hy0] at this
        conv_lhs => rw [← List.dropLast_append_getLast hy0, h1]
      rw [← List.append_assoc] at hz
      obtain ⟨hz, -⟩ := List.append_inj' hz rfl
      rw [List.append_assoc] at hp
      have := prefix_append_of_not_mem hB.2 hp
      exact hAB.inner (this.isInfix.trans (List.IsSuffix.isInfix ⟨z, hz⟩))
  | @right s t _ ih =>
    rw [strReplace_part hAB.left, strReplace_match hAB.right, open_part hA.1, ih (fun h => hs (by simp [h]))]
    intro y hy hy0 hp
    obtain ⟨h1, h2⟩ := hAB.ends y hy hy0
    rcases List.prefix_or_prefix_of_prefix hp (List.prefix_append y s) with h | h
    · exact h2 h
    · exact h1 h
  | @char c s t h1 h2 _ ih =>
    rw [strReplace_char hAB.left _ h1, strReplace_char hAB.right, strReplace_char hP, ih (fun h => hs (by simp [h]))]
    · rw [inParens, List.cons_append, List.cons_prefix_cons]
      intro h
      exact hs (by rw [← h.1]; simp)
    · intro h
      apply h2
      obtain ⟨b, B', rfl⟩ := List.exists_cons_of_ne_nil hAB.right
      rw [List.cons_prefix_cons] at h ⊢
      exact ⟨h.1, prefix_of_strReplace hAB.left (fun h' => hB.1 (by simp [h'])) _ h.2⟩

theorem OverlapFree.apart {A B : List Char} (h : OverlapFree A B) : Apart A B := by
  refine ⟨h.left, h.right, h.ba, fun y hy hy0 => ⟨fun hp => ?_, fun hp => h.ab (hp.isInfix.trans hy.isInfix)⟩⟩
  by_cases he : y = B
  · subst he; exact h.ba hp.isInfix
  · exact h.proper B (by simp) A (by simp) y hy hy0 he hp

theorem OverlapFree.comm {A B : List Char} (h : OverlapFree A B) : OverlapFree B A :=
  ⟨h.right, h.left, h.ba, h.ab, fun n hn n' hn' => h.proper n (by simp only [List.mem_cons] at hn ⊢; tauto) n' (by simp only [List.mem_cons] at hn' ⊢; tauto)⟩

theorem overlapFree_of_tails {A B : List Char} (hA : A ≠ []) (hB : B ≠ []) (hab : ¬ A <:+: B) (hba : ¬ B <:+: A)
    (h : ∀ n ∈ [A, B], ∀ n' ∈ [A, B], ∀ y ∈ n.tails, y ≠ [] → y ≠ n → ¬ y <+: n') : OverlapFree A B :=
  ⟨hA, hB, hab, hba, fun n hn n' hn' y hy => h n hn n' hn' y ((List.mem_tails y n).mpr hy)⟩

/-- an end of a name at the beginning of the new text is at the beginning of the old text -/
theorem Swapped.prefix_back {A B : List Char} (hAB : OverlapFree A B) {s t : List Char} (h : Swapped A B s t) :
    ∀ n ∈ [A, B], ∀ y, y <:+ n → y ≠ n → y <+: t → y <+: s := by
  induction h with
  | nil => intro n _ y _ _ hp; exact hp
  | @left s t _ ih =>
    intro n hn y hy hyn hp
    by_cases hy0 : y = []
    · subst hy0; exact List.nil_prefix
    rcases List.prefix_or_prefix_of_prefix hp (List.prefix_append B t) with h | h
    · exact absurd h (hAB.proper n hn B (by simp) y hy hy0 hyn)
    · simp only [List.mem_cons, List.not_mem_nil, or_false] at hn
      rcases hn with rfl | rfl
      · exact absurd (h.isInfix.trans hy.isInfix) hAB.ba
      · exact absurd (hy.eq_of_length (le_antisymm hy.length_le h.length_le)) hyn
  | @right s t _ ih =>
    intro n hn y hy hyn hp
    by_cases hy0 : y = []
    · subst hy0; exact List.nil_prefix
    rcases List.prefix_or_prefix_of_prefix hp (List.prefix_append A t) with h | h
    · exact absurd h (hAB.proper n hn A (by simp) y hy hy0 hyn)
    · simp only [List.mem_cons, List.not_mem_nil, or_false] at hn
      rcases hn with rfl | rfl
      · exact absurd (hy.eq_of_length (le_antisymm hy.length_le h.length_le)) hyn
      · exact absurd (h.isInfix.trans hy.isInfix) hAB.ab
  | @char c s t _ _ _ ih =>
    intro n hn y hy hyn hp
    cases y with
    | nil => exact List.nil_prefix
    | cons d y =>
      rw [List.cons_prefix_cons] at hp ⊢
      refine ⟨hp.1, ih n hn y ((List.suffix_cons d y).trans hy) (fun e => ?_) hp.2⟩
      have := hy.length_le
      rw [← e] at this
      simp at this

/-- names that do not overlap are exchanged back -/
theorem Swapped.back {A B : List Char} (hAB : OverlapFree A B) {s t : List Char} (h : Swapped A B s t) : Swapped A B t s := by
  induction h with
  | nil => exact .nil
  | left _ ih => exact .right ih
  | right _ ih => exact .left ih
  | @char c s t h1 h2 h ih =>
    have key : ∀ n ∈ [A, B], ¬ n <+: c :: s → ¬ n <+: c :: t := by
      intro n hn hns hnt
      cases n with
      | nil => exact hns List.nil_prefix
      | cons d y =>
        rw [List.cons_prefix_cons] at hns hnt
        exact hns ⟨hnt.1, h.prefix_back hAB _ hn y (List.suffix_cons d y) (by simp) hnt.2⟩
    exact .char (key A (by simp) h1) (key B (by simp) h2) ih

theorem Swapped.not_mem {A B : List Char} {c : Char} (hA : c ∉ A) (hB : c ∉ B) {s t : List Char} (h : Swapped A B s t) (hs : c ∉ s) : c ∉ t := by
  induction h with
  | nil => exact hs
  | left _ ih => simp only [List.mem_append, not_or] at hs ⊢; exact ⟨hB, ih hs.2⟩
  | right _ ih => simp only [List.mem_append, not_or] at hs ⊢; exact ⟨hA, ih hs.2⟩
  | char _ _ _ ih => simp only [List.mem_cons, not_or] at hs ⊢; exact ⟨hs.1, ih hs.2⟩

/-- the pieces a text is made of: names and characters -/
theorem Swapped.self {A B : List Char} {s : List Char} (hA : ¬ A <:+: s) (hB : ¬ B <:+: s) : Swapped A B s s := by
  induction s with
  | nil => exact .nil
  | cons c s ih =>
    exact .char (fun h => hA h.isInfix) (fun h => hB h.isInfix) (ih (fun h => hA (h.trans (List.suffix_cons c s).isInfix))
      (fun h => hB (h.trans (List.suffix_cons c s).isInfix)))

/-! ### `replace` -/

theorem insertByLength_perm (k : List Char × List Char) (l : List (List Char × List Char)) : (insertByLength k l).Perm (k :: l) := by
  induction l with
  | nil => exact .refl _
  | cons k' l ih =>
    rw [insertByLength]
    split
    · exact .refl _
    · exact (ih.cons k').trans (.swap ..)

theorem byLength_perm (subs : List (List Char × List Char)) : (byLength subs).Perm subs := by
  suffices h : ∀ acc, (subs.foldl (fun l k => insertByLength k l) acc).Perm (acc ++ subs) by simpa [byLength] using h []
  induction subs with
  | nil => intro acc; simp
  | cons k subs ih =>
    intro acc
    rw [List.foldl_cons]
    refine (ih _).trans (((insertByLength_perm k acc).append_right subs).trans ?_)
    rw [List.cons_append]
    exact List.perm_middle.symm

/-- longest keys first -/
def LengthSorted (l : List (List Char × List Char)) : Prop := l.Pairwise fun k k' => k'.1.length ≤ k.1.length

theorem insertByLength_sorted {k : List Char × List Char} {l : List (List Char × List Char)} (h : LengthSorted l) : LengthSorted (insertByLength k l) := by
  induction l with
  | nil => simp [insertByLength, LengthSorted]
  | cons k' l ih =>
    have h' := List.pairwise_cons.mp h
    rw [insertByLength]
    split
    · rename_i hk
      exact List.pairwise_cons.mpr ⟨fun x hx => by
        rcases List.mem_cons.mp hx with rfl | hx
        · exact hk.le
        · exact (h'.1 x hx).trans hk.le, h⟩
    · rename_i hk
      exact List.pairwise_cons.mpr ⟨fun x hx => by
        rcases List.mem_cons.mp ((insertByLength_perm k l).mem_iff.mp hx) with rfl | hx
        · exact not_lt.mp hk
        · exact h'.1 x hx, ih h'.2⟩

theorem byLength_sorted (subs : List (List Char × List Char)) : LengthSorted (byLength subs) := by
  suffices h : ∀ acc, LengthSorted acc → LengthSorted (subs.foldl (fun l k => insertByLength k l) acc) from h [] List.Pairwise.nil
  induction subs with
  | nil => intro acc h; exact h
  | cons k subs ih => intro acc h; exact ih _ (insertByLength_sorted h)

theorem find?_longest {l : List (List Char × List Char)} (hl : LengthSorted l) {s : List Char} {k : List Char × List Char}
    (h : l.find? (fun k => k.1.isPrefixOf s) = some k) : k ∈ l ∧ k.1 <+: s ∧ ∀ k' ∈ l, k'.1 <+: s → k'.1.length ≤ k.1.length := by
  induction l with
  | nil => simp at h
  | cons x l ih =>
    have hx := List.pairwise_cons.mp hl
    rw [List.find?_cons] at h
    split at h
    · rename_i hp
      obtain rfl := Option.some.inj h
      exact ⟨List.mem_cons_self, List.isPrefixOf_iff_prefix.mp hp, fun k' hk' _ => by
        rcases List.mem_cons.mp hk' with rfl | hk'
        · exact le_rfl
        · exact hx.1 k' hk'⟩
    · rename_i hp
      obtain ⟨h1, h2, h3⟩ := ih hx.2 h
      refine ⟨List.mem_cons_of_mem _ h1, h2, fun k' hk' hk => ?_⟩
      rcases List.mem_cons.mp hk' with rfl | hk'
      · rw [List.isPrefixOf_iff_prefix.mpr hk] at hp; exact absurd hp (by simp)
      · exact h3 k' hk' hk

theorem subScan_skip (keys : List (List Char × List Char)) : ∀ (n : ℕ) (s : List Char), n ≤ s.length → subScan keys n s = subScan keys 0 (s.drop n)
  | 0, s, _ => by simp
  | n + 1, [], h => by simp at h
  | n + 1, c :: s, h => by rw [subScan, subScan_skip keys n s (by simpa using h), List.drop_succ_cons]

theorem subScan_substituted {subs : List (List Char × List Char)} (h0 : ∀ k ∈ subs, k.1 ≠ []) (s : List Char) :
    Substituted subs s (subScan (byLength subs) 0 s) := by
  have hm : ∀ k, k ∈ byLength subs ↔ k ∈ subs := fun k => (byLength_perm subs).mem_iff
  obtain ⟨n, hn⟩ : ∃ n, s.length = n := ⟨_, rfl⟩
  induction n using Nat.strong_induction_on generalizing s with
  | _ n ih =>
    cases s with
    | nil =>
      rw [subScan]
      split
      · rename_i k hk
        obtain ⟨h1, h2, -⟩ := find?_longest (byLength_sorted subs) hk
        exact absurd (List.prefix_nil.mp h2) (h0 k ((hm k).mp h1))
      · exact .nil
    | cons c s =>
      rw [subScan]
      split
      · rename_i k hk
        obtain ⟨h1, ⟨r, hr⟩, h3⟩ := find?_longest (byLength_sorted subs) hk
        have hk0 := h0 k ((hm k).mp h1)
        rw [if_neg hk0]
        have hpos := List.length_pos_of_ne_nil hk0
        have hlen := congrArg List.length hr
        simp only [List.length_append, List.length_cons] at hlen hn
        rw [subScan_skip _ _ _ (by omega)]
        have hs : s.drop (k.1.length - 1) = r := by
          obtain ⟨d, k1, hd⟩ := List.exists_cons_of_ne_nil hk0
          rw [hd] at hr ⊢
          rw [List.cons_append] at hr
          rw [← (List.cons.inj hr).2]
          simp
        rw [hs, ← hr]
        refine Substituted.key (k := k.1) (v := k.2) ((hm k).mp h1) hk0 (fun k' hk' hp => ?_) (ih r.length (by omega) r rfl)
        obtain ⟨x, hx, rfl⟩ := List.mem_map.mp hk'
        exact h3 x ((hm x).mpr hx) (hr ▸ hp)
      · rename_i hk
        refine .char (fun k hk' hp => ?_) (ih s.length (by simp at hn; omega) s rfl)
        obtain ⟨x, hx, rfl⟩ := List.mem_map.mp hk'
        have := List.find?_eq_none.mp hk x ((hm x).mpr hx)
        exact this (List.isPrefixOf_iff_prefix.mpr hp)

theorem Substituted.unique {subs : List (List Char × List Char)} (hn : (subs.map Prod.fst).Nodup) {s t t' : List Char} (h : Substituted subs s t)
    (h' : Substituted subs s t') : t = t' := by
  induction h generalizing t' with
  | nil =>
    generalize hs : ([] : List Char) = s at h'
    cases h' with
    | nil => rfl
    | key _ hk _ _ => simp only [List.nil_eq, List.append_eq_nil_iff] at hs; exact absurd hs.1 hk
    | char _ _ => simp at hs
  | @key k v s t hk hk0 hmax _ ih =>
    generalize hs : k ++ s = s' at h'
    cases h' with
    | nil => simp only [List.append_eq_nil_iff] at hs; exact absurd hs.1 hk0
    | @key k' v' s' t' hk' hk0' hmax' h' =>
      have hl : k.length = k'.length := le_antisymm (hmax' k (List.mem_map.mpr ⟨_, hk, rfl⟩) (hs ▸ List.prefix_append k s))
        (hmax k' (List.mem_map.mpr ⟨_, hk', rfl⟩) (hs ▸ List.prefix_append k' s'))
      obtain ⟨rfl, rfl⟩ := List.append_inj hs hl
      obtain rfl : v = v' := by
        obtain ⟨i, hi, e⟩ := List.getElem_of_mem hk
        obtain ⟨j, hj, e'⟩ := List.getElem_of_mem hk'
        have : i = j := (hn.getElem_inj_iff (hi := by simpa using hi) (hj := by simpa using hj)).mp (by simp [e, e'])
        subst this
        rw [e] at e'
        exact (Prod.mk.inj e').2
      rw [ih h']
    | char hno _ => exact absurd (hs ▸ List.prefix_append k s) (hno k (List.mem_map.mpr ⟨_, hk, rfl⟩))
  | @char c s t hno _ ih =>
    generalize hs : c :: s = s' at h'
    cases h' with
    | nil => simp at hs
    | @key k' v' s' t' hk' _ _ _ => exact absurd (hs ▸ List.prefix_append k' s') (hno k' (List.mem_map.mpr ⟨_, hk', rfl⟩))
    | char _ h' =>
      obtain ⟨rfl, rfl⟩ := List.cons.inj hs
      rw [ih h']

/-! ### `argsort` -/

theorem insertIndex_perm (lt : ℕ → ℕ → Bool) (i : ℕ) (l : List ℕ) : (insertIndex lt i l).Perm (i :: l) := by
  induction l with
  | nil => exact .refl _
  | cons j l ih =>
    rw [insertIndex]
    split
    · exact .refl _
    · exact (ih.cons j).trans (.swap ..)

theorem sortIndices_perm (lt : ℕ → ℕ → Bool) (n : ℕ) : (sortIndices lt n).Perm (List.range n) := by
  suffices h : ∀ (l acc : List ℕ), (l.foldl (fun l i => insertIndex lt i l) acc).Perm (acc ++ l) by simpa [sortIndices] using h (List.range n) []
  intro l
  induction l with
  | nil => intro acc; simp
  | cons k subs ih =>
    intro acc
    rw [List.foldl_cons]
    refine (ih _).trans (((insertIndex_perm lt k acc).append_right subs).trans ?_)
    rw [List.cons_append]
    exact List.perm_middle.symm

/-- in order, and equivalent indices in increasing order -/
theorem sortIndices_sorted {lt : ℕ → ℕ → Bool} (irr : ∀ i j, lt i j = true → lt j i = false)
    {n : ℕ}
    (tr : ∀ i < n, ∀ j < n, ∀ k < n, lt i j = false → lt j k = false → lt i k = false) :
    (sortIndices lt n).Pairwise fun i j => lt j i = false ∧ (lt i j = false → i < j) := by
  suffices h : ∀ (l acc : List ℕ), (∀ i ∈ acc, i < n) → (∀ i ∈ l, i < n) → (∀ i ∈ acc, ∀ j ∈ l, i < j) → l.Pairwise (· < ·) → acc.Pairwise (fun i j => lt j i = false ∧ (lt i j = false → i < j)) →
      (l.foldl (fun l i => insertIndex lt i l) acc).Pairwise fun i j => lt j i = false ∧ (lt i j = false → i < j) from
    h (List.range n) [] (by simp) (by simp) (by simp) List.pairwise_lt_range List.Pairwise.nil
  intro l
  induction l with
  | nil => intro acc _ _ _ _ h; exact h
  | cons k l ih =>
    intro acc ha hl h1 h2 h3
    rw [List.pairwise_cons] at h2
    rw [List.foldl_cons]
    have hk' := hl k List.mem_cons_self
    refine ih _ (fun i hi => ?_) (fun i hi => hl i (List.mem_cons_of_mem _ hi)) (fun i hi j hj => ?_) h2.2 ?_
    · rcases List.mem_cons.mp ((insertIndex_perm lt k acc).mem_iff.mp hi) with rfl | hi
      · exact hk'
      · exact ha i hi
    · rcases List.mem_cons.mp ((insertIndex_perm lt k acc).mem_iff.mp hi) with rfl | hi
      · exact h2.1 j hj
      · exact h1 i hi j (List.mem_cons_of_mem _ hj)
    · have h4 : ∀ i ∈ acc, i < k := fun i hi => h1 i hi k List.mem_cons_self
      clear h1 ih h2 hl
      induction acc with
      | nil => simp [insertIndex]
      | cons j acc ih =>
        have h3' := List.pairwise_cons.mp h3
        rw [insertIndex]
        split
        · rename_i hk
          refine List.pairwise_cons.mpr ⟨fun x hx => ?_, h3⟩
          rcases List.mem_cons.mp hx with rfl | hx
          · exact ⟨irr _ _ hk, fun h => by rw [hk] at h; exact absurd h (by simp)⟩
          · have hxj := h3'.1 x hx
            have h5 : lt k x = true := by
              by_contra hc
              rw [Bool.not_eq_true] at hc
              rw [tr k hk' x (ha x (List.mem_cons_of_mem _ hx)) j (ha j List.mem_cons_self) hc hxj.1] at hk
              exact absurd hk (by simp)
            exact ⟨irr _ _ h5, fun h => by rw [h5] at h; exact absurd h (by simp)⟩
        · rename_i hk
          rw [Bool.not_eq_true] at hk
          refine List.pairwise_cons.mpr ⟨fun x hx => ?_, ih (fun i hi => ha i (List.mem_cons_of_mem _ hi)) h3'.2 (fun i hi => h4 i (List.mem_cons_of_mem _ hi))⟩
          rcases List.mem_cons.mp ((insertIndex_perm lt k acc).mem_iff.mp hx) with rfl | hx
          · exact ⟨hk, fun _ => h4 j List.mem_cons_self⟩
          · exact h3'.1 x hx

end Qosy
