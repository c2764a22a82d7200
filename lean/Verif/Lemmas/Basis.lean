import Verif.Spec.Linear
import Verif.Lemmas.OperationCore

/-! # Lemmas about `Basis` values -/

namespace Qosy

/-- Two strings are one dictionary key iff they are equal as model objects (including the prefactor object). -/
theorem sameKey_iff_eq (s t : OpString) : s.sameKey t = true ↔ s = t := by
  simp only [OpString.sameKey, Bool.and_eq_true, beq_iff_eq]
  constructor
  · rintro ⟨hn, he⟩
    obtain ⟨h1, h2, h3⟩ := pyEq_iff.mp he
    rw [OpString.name, OpString.name, h1, h2] at hn
    have h4 : s.pref.text = t.pref.text := List.append_cancel_right hn
    have h5 : s.pref = t.pref := by
      have hl := congrArg List.length h4
      revert hl; cases s.pref <;> cases t.pref <;> simp [Pref.text]
    cases s; cases t; simp_all
  · rintro rfl; exact ⟨rfl, pyEq_iff.mpr ⟨rfl, rfl, rfl⟩⟩

namespace Dict
variable {V : Type}

theorem get?_append (d e : Dict V) (k : OpString) :
    Dict.get? (d ++ e) k = match Dict.get? d k with | some v => some v | none => Dict.get? e k := by
  induction d with
  | nil => simp [Dict.get?]
  | cons x d ih => obtain ⟨k', v⟩ := x; by_cases h : k' = k <;> simp [Dict.get?, h, ih]

theorem get?_eq_none {d : Dict V} {k : OpString} : d.get? k = none ↔ k ∉ d.map Prod.fst := by
  induction d with
  | nil => simp [Dict.get?]
  | cons x d ih =>
    obtain ⟨k', v⟩ := x
    by_cases h : k' = k
    · simp [Dict.get?, h]
    · simp only [Dict.get?, h, if_false, ih, List.map_cons, List.mem_cons, not_or]
      exact ⟨fun h' => ⟨fun e => h e.symm, h'⟩, fun h' => h'.2⟩

theorem set_of_not_mem {d : Dict V} {k : OpString} (h : k ∉ d.map Prod.fst) (v : V) : d.set k v = d ++ [(k, v)] := by
  induction d with
  | nil => rfl
  | cons x d ih =>
    obtain ⟨k', v'⟩ := x
    simp only [List.map_cons, List.mem_cons, not_or] at h
    simp [Dict.set, Ne.symm h.1, ih h.2]

theorem length_set_of_mem {d : Dict V} {k : OpString} (h : k ∈ d.map Prod.fst) (v : V) :
    (d.set k v).length = d.length := by
  induction d with
  | nil => simp at h
  | cons x d ih =>
    obtain ⟨k', v'⟩ := x
    by_cases hk : k' = k
    · simp [Dict.set, hk]
    · simp only [List.map_cons, List.mem_cons] at h
      rcases h with h | h
      · exact absurd h.symm hk
      · simp [Dict.set, hk, ih h]

theorem keys_set (d : Dict V) (k : OpString) (v : V) :
    (d.set k v).map Prod.fst = if k ∈ d.map Prod.fst then d.map Prod.fst else d.map Prod.fst ++ [k] := by
  induction d with
  | nil => simp [Dict.set]
  | cons x d ih =>
    obtain ⟨k', v'⟩ := x
    by_cases hk : k' = k
    · simp [Dict.set, hk]
    · simp only [Dict.set, hk, if_false, List.map_cons, ih, List.mem_cons]
      have : k ≠ k' := fun e => hk e.symm
      simp only [this, false_or]
      split <;> simp

theorem get?_set (d : Dict V) (k k' : OpString) (v : V) :
    (d.set k v).get? k' = if k = k' then some v else d.get? k' := by
  induction d with
  | nil => simp [Dict.set, Dict.get?]
  | cons x d ih =>
    obtain ⟨k'', v'⟩ := x
    by_cases hk : k'' = k
    · subst hk
      by_cases h2 : k'' = k' <;> simp [Dict.set, Dict.get?, h2]
    · simp only [Dict.set, hk, if_false, Dict.get?, ih]
      by_cases h2 : k'' = k'
      · subst h2; simp [Ne.symm hk]
      · simp [h2]

end Dict

theorem Basis.Inv.ofList {l : List OpString} (h : l.Nodup) : (Basis.ofList l).Inv := ⟨rfl, h⟩

theorem fillIndices_nodup : ∀ (strs : List OpString) (i : ℕ) (d : Dict ℕ),
    (d.map Prod.fst ++ strs).Nodup → fillIndices strs i d = d ++ strs.zipIdx i := by
  intro strs
  induction strs with
  | nil => intro i d _; simp [fillIndices]
  | cons s ss ih =>
    intro i d h
    have hs : s ∉ d.map Prod.fst := by
      intro hm
      rw [List.nodup_append] at h
      exact h.2.2 s hm s (List.mem_cons_self ..) rfl
    rw [fillIndices, Dict.set_of_not_mem hs, ih]
    · simp [List.zipIdx_cons]
    · simpa using h

theorem fillIndices_length : ∀ (strs : List OpString) (i : ℕ) (d : Dict ℕ), (d.map Prod.fst).Nodup →
    (fillIndices strs i d).length = d.length + strs.length → (d.map Prod.fst ++ strs).Nodup := by
  have hle : ∀ (strs : List OpString) (i : ℕ) (d : Dict ℕ), (fillIndices strs i d).length ≤ d.length + strs.length := by
    intro strs
    induction strs with
    | nil => intro i d; simp [fillIndices]
    | cons s ss ih =>
      intro i d
      have := ih (i + 1) (d.set s i)
      have h2 : (d.set s i).length ≤ d.length + 1 := by
        by_cases hm : s ∈ d.map Prod.fst
        · rw [Dict.length_set_of_mem hm]; omega
        · rw [Dict.set_of_not_mem hm]; simp
      simp only [fillIndices, List.length_cons]; omega
  intro strs
  induction strs with
  | nil => intro i d h _; simpa using h
  | cons s ss ih =>
    intro i d h hl
    by_cases hm : s ∈ d.map Prod.fst
    · exfalso
      have := hle ss (i + 1) (d.set s i)
      rw [Dict.length_set_of_mem hm] at this
      simp only [fillIndices, List.length_cons] at hl; omega
    · rw [fillIndices] at hl
      have h1 := ih (i + 1) (d.set s i) (by rw [Dict.keys_set, if_neg hm]; exact h.append (by simp) (by simpa using hm))
        (by rw [hl, Dict.set_of_not_mem hm]; simp; omega)
      rw [Dict.keys_set, if_neg hm] at h1
      simpa using h1

theorem mkBasis_ok {strs : List OpString} (h : strs.Nodup) : mkBasis strs = .ok (Basis.ofList strs) := by
  have e := fillIndices_nodup strs 0 [] (by simpa using h)
  simp [mkBasis, e, Basis.ofList]

theorem mkBasis_error {strs : List OpString} (h : ¬ strs.Nodup) : mkBasis strs = .error .valueError := by
  have : (fillIndices strs 0 []).length ≠ strs.length := by
    intro hl
    exact h (by simpa using fillIndices_length strs 0 [] (by simp) (by simpa using hl))
  simp [mkBasis, this]

theorem get?_zipIdx (strs : List OpString) (s : OpString) (n : ℕ) :
    Dict.get? (strs.zipIdx n) s = if s ∈ strs then some (n + strs.idxOf s) else none := by
  induction strs generalizing n with
  | nil => simp [Dict.get?]
  | cons t ts ih =>
    rw [List.zipIdx_cons]
    by_cases h : t = s
    · subst h; simp [Dict.get?]
    · have h' : s ≠ t := fun e => h e.symm
      simp only [Dict.get?, h, if_false, ih, List.mem_cons, h', false_or, List.idxOf_cons_ne _ h]
      split
      · congr 1; omega
      · rfl

@[simp] theorem Basis.ofList_strs (l : List OpString) : (Basis.ofList l).strs = l := rfl
@[simp] theorem Basis.ofList_len (l : List OpString) : (Basis.ofList l).len = l.length := rfl

theorem Basis.contains_ofList (l : List OpString) (s : OpString) : (Basis.ofList l).contains s = decide (s ∈ l) := by
  simp only [Basis.contains, Basis.ofList, get?_zipIdx]
  by_cases h : s ∈ l <;> simp [h]

theorem Basis.index_ofList (l : List OpString) (s : OpString) :
    (Basis.ofList l).index s = if s ∈ l then .ok (l.idxOf s) else .error .keyError := by
  simp only [Basis.index, Basis.ofList, get?_zipIdx]
  by_cases h : s ∈ l <;> simp [h]

/-- ordered union of lists of strings -/
def unionList (a b : List OpString) : List OpString := b.foldl (fun acc s => if s ∈ acc then acc else acc ++ [s]) a

theorem unionList_nodup {a : List OpString} (h : a.Nodup) (b : List OpString) : (unionList a b).Nodup := by
  induction b generalizing a with
  | nil => exact h
  | cons s b ih =>
    rw [unionList, List.foldl_cons, ← unionList]
    split
    · exact ih h
    · rename_i hs; exact ih (h.append (by simp) (by simpa using hs))

theorem mem_unionList {a b : List OpString} {s : OpString} : s ∈ unionList a b ↔ s ∈ a ∨ s ∈ b := by
  induction b generalizing a with
  | nil => simp [unionList]
  | cons t b ih =>
    rw [unionList, List.foldl_cons, ← unionList, ih]
    split
    · rename_i h
      simp only [List.mem_cons]
      constructor
      · rintro (h1 | h1); exacts [Or.inl h1, Or.inr (Or.inr h1)]
      · rintro (h1 | rfl | h1); exacts [Or.inl h1, Or.inl h, Or.inr h1]
    · simp only [List.mem_append, List.mem_cons, List.not_mem_nil, or_false]; tauto

theorem unionList_eq_filter (a : List OpString) {b : List OpString} (h : b.Nodup) :
    unionList a b = a ++ b.filter (fun s => decide (s ∉ a)) := by
  induction b generalizing a with
  | nil => simp [unionList]
  | cons s b ih =>
    rw [List.nodup_cons] at h
    rw [unionList, List.foldl_cons, ← unionList]
    by_cases hs : s ∈ a
    · rw [if_pos hs, ih a h.2]; simp [hs]
    · rw [if_neg hs, ih _ h.2]
      simp only [hs, not_false_eq_true, decide_true, List.filter_cons_of_pos, List.append_assoc, List.cons_append,
        List.nil_append, List.append_cancel_left_eq, List.cons.injEq, true_and]
      apply List.filter_congr
      intro t ht
      have : t ≠ s := fun e => h.1 (e ▸ ht)
      simp [this]

theorem unionList_prefix (a b : List OpString) : ∃ t, unionList a b = a ++ t := by
  induction b generalizing a with
  | nil => exact ⟨[], by simp [unionList]⟩
  | cons s b ih =>
    rw [unionList, List.foldl_cons, ← unionList]
    split
    · exact ih a
    · obtain ⟨t, ht⟩ := ih (a ++ [s])
      exact ⟨s :: t, by rw [ht]; simp⟩

theorem iadd_fold {a : List OpString} (h : a.Nodup) (b : List OpString) :
    b.foldl iaddStep (Basis.ofList a, a.length) = (Basis.ofList (unionList a b), (unionList a b).length) := by
  induction b generalizing a with
  | nil => simp [unionList]
  | cons s b ih =>
    rw [List.foldl_cons, unionList, List.foldl_cons, ← unionList]
    by_cases hs : s ∈ a
    · have : iaddStep (Basis.ofList a, a.length) s = (Basis.ofList a, a.length) := by
        simp [iaddStep, Basis.contains_ofList, hs]
      rw [this, ih h, if_pos hs]
    · have : iaddStep (Basis.ofList a, a.length) s = (Basis.ofList (a ++ [s]), (a ++ [s]).length) := by
        have hk : s ∉ (a.zipIdx 0).map Prod.fst := by simpa using hs
        simp only [iaddStep, Basis.contains_ofList, hs, decide_false, Bool.false_eq_true, if_false,
          List.length_append, List.length_singleton]
        rw [Basis.ofList, Basis.ofList, List.zipIdx_append, Dict.set_of_not_mem hk]
        simp
      rw [this, ih (h.append (by simp) (by simpa using hs)), if_neg hs]

theorem Basis.iadd_ofList {a : List OpString} (h : a.Nodup) (b : Basis) :
    (Basis.ofList a).iadd b = Basis.ofList (unionList a b.strs) := by
  have := iadd_fold h b.strs
  rw [Basis.iadd, Basis.ofList_strs, this]

theorem Basis.iaddString_ofList {a : List OpString} (s : OpString) :
    (Basis.ofList a).iaddString s = Basis.ofList (unionList a [s]) := by
  have e : unionList a [s] = if s ∈ a then a else a ++ [s] := rfl
  by_cases hs : s ∈ a
  · simp [Basis.iaddString, Basis.contains_ofList, hs, e]
  · have hk : s ∉ (a.zipIdx 0).map Prod.fst := by simpa using hs
    simp only [Basis.iaddString, Basis.contains_ofList, hs, decide_false, Bool.false_eq_true, if_false, e]
    rw [Basis.ofList, Basis.ofList, List.zipIdx_append, Dict.set_of_not_mem hk]
    simp

theorem Basis.add_ofList {a b : List OpString} (ha : a.Nodup) (hb : b.Nodup) :
    (Basis.ofList a).add (Basis.ofList b) = .ok (Basis.ofList (unionList a b)) := by
  rw [Basis.add]
  have e : (Basis.ofList b).strs.filter (fun s => !(Basis.ofList a).contains s) = b.filter (fun s => decide (s ∉ a)) := by
    apply List.filter_congr
    intro s _
    rw [Basis.contains_ofList]; simp
  rw [e, Basis.ofList_strs, ← unionList_eq_filter a hb, mkBasis_ok (unionList_nodup ha b)]

theorem Basis.addString_ofList {a : List OpString} (ha : a.Nodup) (s : OpString) :
    (Basis.ofList a).addString s = .ok (Basis.ofList (unionList a [s])) := by
  have e : unionList a [s] = a ++ if (Basis.ofList a).contains s then [] else [s] := by
    rw [Basis.contains_ofList]
    by_cases h : s ∈ a <;> simp [unionList, h]
  rw [Basis.addString, Basis.ofList_strs, ← e, mkBasis_ok (unionList_nodup ha _)]

theorem Basis.Inv.indexedSet {b : Basis} (h : b.Inv) : IndexedSet b := by
  obtain ⟨h1, h2⟩ := h
  rw [h1]
  refine ⟨h2, ?_, ?_, ?_⟩
  · intro s i
    rw [Basis.index_ofList, Basis.ofList_strs]
    by_cases hs : s ∈ b.strs
    · rw [if_pos hs]
      simp only [Except.ok.injEq]
      constructor
      · rintro rfl
        rw [List.getElem?_eq_getElem (List.idxOf_lt_length_iff.mpr hs), List.getElem_idxOf]
      · intro hi
        obtain ⟨hlt, rfl⟩ := List.getElem?_eq_some_iff.mp hi
        exact h2.idxOf_getElem i hlt
    · rw [if_neg hs]
      simp only [reduceCtorEq, false_iff]
      intro hi
      exact hs (List.mem_of_getElem? hi)
  · intro s hs
    rw [Basis.index_ofList, if_neg (by simpa using hs)]
  · intro s
    rw [Basis.contains_ofList]; simp

end Qosy
