import Verif.Lemmas.ArgSort

/-! # Properties C22-C26: `qosy/tools.py` -/

namespace Qosy

/-! ## C22 -/

/-- **C22**: both methods of `sort_sign` return the ascending rearrangement and the parity of the number of inverted
pairs; any other method name is rejected. -/
theorem C22_sort_sign (v : List Int) :
    ∃ r : List Int, r.Pairwise (· ≤ ·) ∧ r.Perm v ∧
      sortSignMethod "insertionsort" v = .ok (r, (-1) ^ inversions v) ∧
      sortSignMethod "mergesort" v = .ok (r, (-1) ^ inversions v) ∧
      ∀ m, m ≠ "insertionsort" → m ≠ "mergesort" → sortSignMethod m v = .error .valueError := by
  refine ⟨v.insertionSort (· ≤ ·), List.pairwise_insertionSort _ v, List.perm_insertionSort _ v, ?_, ?_, ?_⟩
  · rw [sortSignMethod, if_neg (by decide), if_pos rfl, ← sortSign_fst, ← sortSign_snd]
  · rw [sortSignMethod, if_pos rfl, sortSignMerge_spec]
  · intro m h1 h2; rw [sortSignMethod, if_neg h2, if_neg h1]

/-- The number of inverted pairs, as a specification: it counts the pairs of positions `i < j` with `v[i] > v[j]`. -/
theorem C22_inversions_spec (v : List Int) : inversions v =
    ((Finset.univ ×ˢ Finset.univ).filter (fun p : Fin v.length × Fin v.length => p.1 < p.2 ∧ v[p.2] < v[p.1])).card := by
  induction v with
  | nil => simp [inversions]
  | cons x xs ih =>
    rw [inversions, ih]
    have : ((Finset.univ ×ˢ Finset.univ).filter
        (fun p : Fin (x :: xs).length × Fin (x :: xs).length => p.1 < p.2 ∧ (x :: xs)[p.2] < (x :: xs)[p.1])) =
      ((Finset.univ.filter (fun j : Fin xs.length => xs[j] < x)).map
        ⟨fun j => ((0 : Fin (xs.length + 1)), j.succ), fun a b h => Fin.succ_injective _ (Prod.ext_iff.mp h).2⟩) ∪
      (((Finset.univ ×ˢ Finset.univ).filter
        (fun p : Fin xs.length × Fin xs.length => p.1 < p.2 ∧ xs[p.2] < xs[p.1])).map
        ⟨fun p => (p.1.succ, p.2.succ), fun a b h => by
          have := Prod.ext_iff.mp h
          exact Prod.ext (Fin.succ_injective _ this.1) (Fin.succ_injective _ this.2)⟩) := by
      ext ⟨i, j⟩
      simp only [Finset.mem_filter, Finset.mem_product, Finset.mem_univ, true_and, Finset.mem_union, Finset.mem_map,
        Function.Embedding.coeFn_mk, Prod.mk.injEq]
      constructor
      · rintro ⟨hij, hv⟩
        rcases Fin.eq_zero_or_eq_succ i with rfl | ⟨i', rfl⟩
        · obtain ⟨j', rfl⟩ := Fin.exists_succ_eq.mpr (Fin.ne_zero_of_lt hij)
          exact Or.inl ⟨j', by simpa using hv, rfl⟩
        · obtain ⟨j', rfl⟩ := Fin.exists_succ_eq.mpr (Fin.ne_zero_of_lt hij)
          exact Or.inr ⟨(i', j'), ⟨by simpa using hij, by simpa using hv⟩, rfl⟩
      · rintro (⟨j', h, e⟩ | ⟨⟨i', j'⟩, ⟨h, h'⟩, e⟩)
        · obtain ⟨rfl, rfl⟩ := Prod.mk.inj e
          exact ⟨Fin.succ_pos _, by simpa using h⟩
        · obtain ⟨rfl, rfl⟩ := Prod.mk.inj e
          exact ⟨by simpa using h, by simpa using h'⟩
    rw [this, Finset.card_union_of_disjoint, Finset.card_map, Finset.card_map]
    · congr 1
      have hc : ∀ (l : List ℤ) (p : ℤ → Bool), l.countP p = (Finset.univ.filter (fun j : Fin l.length => p l[j] = true)).card := by
        intro l p
        induction l with
        | nil => simp
        | cons y l ih =>
          rw [List.countP_cons, ih]
          show _ = (Finset.filter (fun j : Fin (l.length + 1) => p (y :: l)[j] = true) Finset.univ).card
          rw [Fin.univ_succ, Finset.filter_cons]
          split <;> simp_all [Finset.filter_map, Function.comp_def]
      rw [hc]; simp
    · rw [Finset.disjoint_left]
      rintro ⟨i, j⟩ h1 h2
      simp only [Finset.mem_map, Function.Embedding.coeFn_mk, Prod.mk.injEq] at h1 h2
      obtain ⟨_, _, e1⟩ := h1
      obtain ⟨_, _, e2⟩ := h2
      have h1 := (Prod.mk.inj e1).1
      have h2 := (Prod.mk.inj e2).1
      rw [← h1] at h2
      exact absurd h2 (Fin.succ_ne_zero _)

-- non-vacuity: ties are not counted
example : sortSignMethod "mergesort" [3, 1, 3, 2] = .ok ([1, 2, 3, 3], -1) := by decide +kernel
example : sortSignMethod "insertionsort" [3, 1, 3, 2] = .ok ([1, 2, 3, 3], -1) := by decide +kernel
example : inversions [3, 1, 3, 2] = 3 := by decide

/-! ## C23 -/

/-- **C23**: `sign` of a permutation array is the sign of the permutation. -/
theorem C23_sign {n : ℕ} (σ : Equiv.Perm (Fin n)) : sign (permArray σ) = .ok (Equiv.Perm.sign σ : ℤ) :=
  sign_permArray σ

/-- **C23**, for arrays: every rearrangement `p` of `0..n-1` is the array of a permutation, so `sign p` is its sign. -/
theorem C23_sign_array {p : List ℕ} (h : IsPermArray p) :
    ∃ σ : Equiv.Perm (Fin p.length), p = permArray σ ∧ sign p = .ok (Equiv.Perm.sign σ : ℤ) := by
  obtain ⟨σ, hσ⟩ := h.exists_perm
  exact ⟨σ, hσ, by rw [← sign_permArray, ← hσ]⟩

example : IsPermArray [2, 0, 1, 4, 3] := by unfold IsPermArray; decide
example : sign [2, 0, 1, 4, 3] = .ok (-1) := by decide +kernel

/-! ## C26 -/

/-- **C26**: `compose_permutations` is composition of permutations. -/
theorem C26_compose {n : ℕ} (σ τ : Equiv.Perm (Fin n)) :
    composePermutations (permArray σ) (permArray τ) = .ok (permArray (σ * τ)) := by
  unfold composePermutations
  have h : ∀ (m : ℕ) (f : Fin m → Fin n), (List.ofFn (fun i => (f i : ℕ))).mapM
      (fun i => match (permArray σ)[i]? with | some x => Except.ok x | none => .error PyErr.indexError)
      = .ok (List.ofFn (fun i => (σ (f i) : ℕ))) := by
    intro m
    induction m with
    | zero => intro f; rfl
    | succ m ih =>
      intro f
      rw [List.ofFn_succ, List.mapM_cons, ih (fun i => f i.succ), permArray_get, List.ofFn_succ]
      rfl
  exact h n τ

/-- **C26**: the value at each index, for arbitrary index arrays: `compose_permutations(p, q)[i] = p[q[i]]`, and IndexError iff
some `q[i]` is out of range. -/
theorem C26_compose_entries (p q : List ℕ) :
    ((∀ i ∈ q, i < p.length) → ∃ r, composePermutations p q = .ok r ∧ r.length = q.length ∧
      ∀ k (hk : k < q.length), r[k]? = p[q[k]]?) ∧
    ((∃ i ∈ q, p.length ≤ i) → composePermutations p q = .error .indexError) := by
  unfold composePermutations
  induction q with
  | nil => exact ⟨fun _ => ⟨[], rfl, rfl, by simp⟩, by simp⟩
  | cons i q ih =>
    constructor
    · intro h
      obtain ⟨r, hr, hlen, hget⟩ := ih.1 (fun j hj => h j (List.mem_cons_of_mem _ hj))
      have hi := h i (List.mem_cons_self ..)
      refine ⟨p[i] :: r, ?_, by simp [hlen], ?_⟩
      · rw [List.mapM_cons, hr, List.getElem?_eq_getElem hi]; rfl
      · intro k hk
        cases k with
        | zero => simp [hi]
        | succ k => simpa using hget k (by simpa using hk)
    · rintro ⟨j, hj, hle⟩
      rw [List.mapM_cons]
      by_cases hi : i < p.length
      · rw [List.getElem?_eq_getElem hi]
        rcases List.mem_cons.mp hj with rfl | hj
        · omega
        · rw [ih.2 ⟨j, hj, hle⟩]; rfl
      · rw [List.getElem?_eq_none (by omega)]; rfl

/-- **C26**: composing permutation arrays gives a permutation array; composition is associative, `arange(n)` is a unit
and inverses exist. -/
theorem C26_group {n : ℕ} (σ τ υ : Equiv.Perm (Fin n)) :
    IsPermArray (permArray (σ * τ)) ∧
    (do let a ← composePermutations (permArray σ) (permArray τ); composePermutations a (permArray υ)) =
      (do let a ← composePermutations (permArray τ) (permArray υ); composePermutations (permArray σ) a) ∧
    composePermutations (permArray σ) (List.range n) = .ok (permArray σ) ∧
    composePermutations (List.range n) (permArray σ) = .ok (permArray σ) ∧
    composePermutations (permArray σ) (permArray σ⁻¹) = .ok (List.range n) ∧
    composePermutations (permArray σ⁻¹) (permArray σ) = .ok (List.range n) := by
  have h1 : List.range n = permArray (1 : Equiv.Perm (Fin n)) := by
    simp [permArray, List.ofFn_eq_map]
  rw [h1]
  simp only [C26_compose, bind, Except.bind, mul_assoc, mul_one, one_mul, mul_inv_cancel, inv_mul_cancel]
  exact ⟨permArray_isPermArray _, by simp⟩

/-- **C23**: hence `sign` is multiplicative under `compose_permutations`. -/
theorem C23_sign_mul {n : ℕ} (σ τ : Equiv.Perm (Fin n)) :
    ∃ r s t u, composePermutations (permArray σ) (permArray τ) = .ok r ∧ sign r = .ok s ∧
      sign (permArray σ) = .ok t ∧ sign (permArray τ) = .ok u ∧ s = t * u := by
  refine ⟨_, _, _, _, C26_compose σ τ, sign_permArray _, sign_permArray _, sign_permArray _, ?_⟩
  rw [Equiv.Perm.sign_mul, Units.val_mul]

example : composePermutations [1, 2, 0] [2, 1, 0] = .ok [0, 2, 1] := by decide +kernel

/-! ## C24 -/

theorem compare_lex_spec : ∀ (a b : List Int), a.length = b.length →
    (compare.lex a b = -1 ∧ a < b) ∨ (compare.lex a b = 1 ∧ b < a) ∨ (compare.lex a b = 0 ∧ a = b) := by
  intro a
  induction a with
  | nil => intro b h; cases b <;> simp_all [compare.lex]
  | cons i is ih =>
    intro b h
    cases b with
    | nil => simp at h
    | cons j js =>
      simp only [compare.lex]
      split
      · rename_i hij; exact Or.inl ⟨rfl, List.Lex.rel hij⟩
      · split
        · rename_i _ hij; exact Or.inr (Or.inl ⟨rfl, List.Lex.rel hij⟩)
        · have : i = j := by omega
          subst this
          rcases ih js (by simpa using h) with ⟨h1, h2⟩ | ⟨h1, h2⟩ | ⟨h1, h2⟩
          · exact Or.inl ⟨h1, List.Lex.cons h2⟩
          · exact Or.inr (Or.inl ⟨h1, List.Lex.cons h2⟩)
          · exact Or.inr (Or.inr ⟨h1, by rw [h2]⟩)

/-- The order meant by the documentation: shorter tuples first, then lexicographic. -/
def ShortLex (a b : List Int) : Prop := a.length < b.length ∨ (a.length = b.length ∧ a < b)

/-- **C24**: `compare` decides the short-lex order. -/
theorem C24_compare (a b : List Int) :
    (compare a b = -1 ∧ ShortLex a b) ∨ (compare a b = 1 ∧ ShortLex b a) ∨ (compare a b = 0 ∧ a = b) := by
  unfold compare ShortLex
  split
  · rename_i h; exact Or.inl ⟨rfl, Or.inl h⟩
  · split
    · rename_i h; exact Or.inr (Or.inl ⟨rfl, Or.inl h⟩)
    · have : a.length = b.length := by omega
      rcases compare_lex_spec a b this with ⟨h1, h2⟩ | ⟨h1, h2⟩ | h
      · exact Or.inl ⟨h1, Or.inr ⟨this, h2⟩⟩
      · exact Or.inr (Or.inl ⟨h1, Or.inr ⟨this.symm, h2⟩⟩)
      · exact Or.inr (Or.inr h)

theorem ShortLex.irrefl (a : List Int) : ¬ ShortLex a a := by
  rintro (h | ⟨_, h⟩)
  · omega
  · exact lt_irrefl _ h

theorem ShortLex.trans {a b c : List Int} (h1 : ShortLex a b) (h2 : ShortLex b c) : ShortLex a c := by
  rcases h1 with h1 | ⟨h1, h1'⟩ <;> rcases h2 with h2 | ⟨h2, h2'⟩
  · left; omega
  · left; omega
  · left; omega
  · right; exact ⟨by omega, lt_trans h1' h2'⟩

/-- **C24**: the three values characterise the order. -/
theorem C24_compare_iff (a b : List Int) :
    (compare a b = -1 ↔ ShortLex a b) ∧ (compare a b = 1 ↔ ShortLex b a) ∧ (compare a b = 0 ↔ a = b) := by
  rcases C24_compare a b with ⟨h, h'⟩ | ⟨h, h'⟩ | ⟨h, h'⟩
  · refine ⟨by simp [h, h'], ?_, ?_⟩
    · simp only [h]; constructor
      · intro h; omega
      · intro h2; exact absurd (h'.trans h2) (ShortLex.irrefl a)
    · simp only [h]; constructor
      · intro h; omega
      · rintro rfl; exact absurd h' (ShortLex.irrefl _)
  · refine ⟨?_, by simp [h, h'], ?_⟩
    · simp only [h]; constructor
      · intro h; omega
      · intro h2; exact absurd (h'.trans h2) (ShortLex.irrefl b)
    · simp only [h]; constructor
      · intro h; omega
      · rintro rfl; exact absurd h' (ShortLex.irrefl _)
  · subst h'
    refine ⟨?_, ?_, by simp [h]⟩ <;> simp only [h] <;> constructor
    · intro h; omega
    · intro h; exact absurd h (ShortLex.irrefl _)
    · intro h; omega
    · intro h; exact absurd h (ShortLex.irrefl _)

/-- **C24**: antisymmetric, transitive, total, zero exactly on equal tuples. -/
theorem C24_total_order (a b c : List Int) :
    compare a b = -compare b a ∧ (compare a b ≤ 0 → compare b c ≤ 0 → compare a c ≤ 0) ∧
    (compare a b ≤ 0 ∨ compare b a ≤ 0) ∧ (compare a b = 0 ↔ a = b) := by
  have h1 : compare a b = -compare b a := by
    rcases C24_compare a b with ⟨h, h'⟩ | ⟨h, h'⟩ | ⟨h, h'⟩
    · rw [h, (C24_compare_iff b a).2.1.mpr h']
    · rw [h, (C24_compare_iff b a).1.mpr h']; rfl
    · rw [h, (C24_compare_iff b a).2.2.mpr h'.symm]; rfl
  refine ⟨h1, ?_, by omega, (C24_compare_iff a b).2.2⟩
  intro h2 h3
  rcases C24_compare a b with ⟨h, h'⟩ | ⟨h, h'⟩ | ⟨h, h'⟩
  · rcases C24_compare b c with ⟨k, k'⟩ | ⟨k, k'⟩ | ⟨k, k'⟩
    · rw [(C24_compare_iff a c).1.mpr (h'.trans k')]; decide
    · omega
    · subst k'; exact h2
  · omega
  · subst h'; exact h3

example : compare [5] [1, 2] = -1 ∧ compare [1, 2] [1, 1] = 1 ∧ compare [7, -2] [7, -2] = 0 := by decide

/-! ## C25 -/

/-- **C25**: processing one more object: it is kept exactly when no earlier object is equivalent to it.  Together with
`removeDuplicates equiv [] = []` this determines the result: the first occurrence of every class, in order. -/
theorem C25_snoc {α : Type} (equiv : α → α → Bool) (hr : ∀ x, equiv x x = true)
    (ht : ∀ x y z, equiv x y = true → equiv y z = true → equiv x z = true) (l : List α) (x : α) :
    removeDuplicates equiv (l ++ [x]) =
      if l.any (fun y => equiv x y) then removeDuplicates equiv l else removeDuplicates equiv l ++ [x] := by
  have key : ∀ (l : List α), (∀ y ∈ removeDuplicates equiv l, y ∈ l) ∧
      (∀ y ∈ l, ∃ z ∈ removeDuplicates equiv l, equiv y z = true) := by
    intro l
    induction l using List.reverseRecOn with
    | nil => simp [removeDuplicates]
    | append_singleton l x ih =>
      have e : removeDuplicates equiv (l ++ [x]) = if (removeDuplicates equiv l).any (fun y => equiv x y)
          then removeDuplicates equiv l else removeDuplicates equiv l ++ [x] := by
        simp [removeDuplicates, List.foldl_append]
      rw [e]
      split
      · rename_i h
        refine ⟨fun y hy => List.mem_append_left _ (ih.1 y hy), ?_⟩
        intro y hy
        rcases List.mem_append.mp hy with hy | hy
        · exact ih.2 y hy
        · simp at hy; subst hy
          obtain ⟨z, hz, hz'⟩ := List.any_eq_true.mp h
          exact ⟨z, hz, hz'⟩
      · refine ⟨?_, ?_⟩
        · intro y hy
          rcases List.mem_append.mp hy with hy | hy
          · exact List.mem_append_left _ (ih.1 y hy)
          · exact List.mem_append_right _ hy
        · intro y hy
          rcases List.mem_append.mp hy with hy | hy
          · obtain ⟨z, hz, hz'⟩ := ih.2 y hy
            exact ⟨z, List.mem_append_left _ hz, hz'⟩
          · simp at hy; subst hy
            exact ⟨_, List.mem_append_right _ (by simp), hr _⟩
  have e : removeDuplicates equiv (l ++ [x]) = if (removeDuplicates equiv l).any (fun y => equiv x y)
      then removeDuplicates equiv l else removeDuplicates equiv l ++ [x] := by
    simp [removeDuplicates, List.foldl_append]
  rw [e]
  have : (removeDuplicates equiv l).any (fun y => equiv x y) = l.any (fun y => equiv x y) := by
    rw [Bool.eq_iff_iff, List.any_eq_true, List.any_eq_true]
    constructor
    · rintro ⟨y, hy, h⟩; exact ⟨y, (key l).1 y hy, h⟩
    · rintro ⟨y, hy, h⟩
      obtain ⟨z, hz, hz'⟩ := (key l).2 y hy
      exact ⟨z, hz, ht _ _ _ h hz'⟩
  rw [this]

/-- **C25**: the kept objects are a sublist in the original order, no two are equivalent, and every object is
equivalent to a kept one.  (For the first two, `equiv` may be any test.) -/
theorem C25_remove_duplicates {α : Type} (equiv : α → α → Bool) (l : List α) :
    (removeDuplicates equiv l).Sublist l ∧
    (removeDuplicates equiv l).Pairwise (fun x y => equiv y x = false) ∧
    ((∀ x, equiv x x = true) → ∀ x ∈ l, ∃ y ∈ removeDuplicates equiv l, equiv x y = true) := by
  induction l using List.reverseRecOn with
  | nil => simp [removeDuplicates]
  | append_singleton l x ih =>
    have e : removeDuplicates equiv (l ++ [x]) = if (removeDuplicates equiv l).any (fun y => equiv x y)
        then removeDuplicates equiv l else removeDuplicates equiv l ++ [x] := by
      simp [removeDuplicates, List.foldl_append]
    rw [e]
    obtain ⟨h1, h2, h3⟩ := ih
    split
    · rename_i h
      refine ⟨h1.trans (List.sublist_append_left _ _), h2, ?_⟩
      intro hr y hy
      rcases List.mem_append.mp hy with hy | hy
      · exact h3 hr y hy
      · simp at hy; subst hy
        exact List.any_eq_true.mp h
    · rename_i h
      refine ⟨h1.append (List.Sublist.refl _), ?_, ?_⟩
      · rw [List.pairwise_append]
        refine ⟨h2, by simp, ?_⟩
        intro y hy z hz
        simp at hz; subst hz
        rw [Bool.eq_false_iff]
        intro h'; exact h (List.any_eq_true.mpr ⟨y, hy, h'⟩)
      · intro hr y hy
        rcases List.mem_append.mp hy with hy | hy
        · obtain ⟨z, hz, hz'⟩ := h3 hr y hy
          exact ⟨z, List.mem_append_left _ hz, hz'⟩
        · simp at hy; subst hy
          exact ⟨_, List.mem_append_right _ (by simp), hr _⟩

-- the numpy default test `np.allclose` is not transitive; congruence modulo 3 is
example : removeDuplicates (fun a b : ℕ => a % 3 == b % 3) [4, 7, 2, 3, 5, 0] = [4, 2, 3] := by decide
example : (∀ x : ℕ, (x % 3 == x % 3) = true) ∧
    (∀ x y z : ℕ, (x % 3 == y % 3) = true → (y % 3 == z % 3) = true → (x % 3 == z % 3) = true) := by
  simp only [beq_iff_eq]; exact ⟨fun _ => trivial, fun _ _ _ h1 h2 => h1.trans h2⟩

end Qosy
