import Verif.Lemmas.Fermion
import Verif.Lemmas.Cluster

/-! # `_convert_fermion_string` -/

namespace Qosy
open Coef
variable {K : Type} [Field K] [StarRing K] [Coef K]
variable {𝔸 : Type} [Ring 𝔸] [Algebra K 𝔸] {S : Set ℤ}

/-! ### loops that may `continue` -/

theorem collect_ok {α β : Type} {f : α → Py (Option β)} {g : α → Option β} : ∀ (xs : List α), (∀ x ∈ xs, f x = .ok (g x)) →
    collect f xs = .ok (xs.filterMap g)
  | [], _ => rfl
  | x :: xs, h => by
    rw [collect, h x (List.mem_cons_self ..), collect_ok xs (fun y hy => h y (List.mem_cons_of_mem _ hy)), List.filterMap_cons]
    cases g x <;> rfl

theorem mkOperator_none_ok {cs : List K} {strs : List OpString} {t : OpType} (hne : strs ≠ []) (hn : strs.Nodup)
    (ht : ∀ s ∈ strs, s.opType = t) : mkOperator cs strs none = .ok ⟨cs, Basis.ofList strs, t⟩ := by
  rw [mkOperator, mkBasis_ok hn]
  cases strs with
  | nil => exact absurd rfl hne
  | cons s ss =>
    simp only [bind, Except.bind, mkOperatorB, Basis.ofList]
    rw [ht s (List.mem_cons_self ..)]

/-! ### the pieces of one factor -/

/-- coefficient of the chosen term of a factor -/
def pieceC (K : Type) [Field K] [CoefOps K] : FType → Bool → K
  | .CDag, false => 1 / 2
  | .CDag, true => -(1 / 2) * I
  | .C, false => 1 / 2
  | .C, true => 1 / 2 * I
  | .CDagC, false => -(1 / 2)
  | .CDagC, true => 1 / 2

/-- Majorana operators of the chosen term of a factor -/
def pieceO : FType → Bool → List Op
  | .CDag, false => [.A]
  | .CDag, true => [.B]
  | .C, false => [.A]
  | .C, true => [.B]
  | .CDagC, false => [.D]
  | .CDagC, true => []

/-- coefficient of a choice of terms -/
def fcoef (K : Type) [Field K] [CoefOps K] : List (FType × ℤ) → List Bool → K
  | (t, _) :: ops, ch :: chs => pieceC K t ch * fcoef K ops chs
  | _, _ => 1

/-- Majorana word of a choice of terms -/
def fwrd : List (FType × ℤ) → List Bool → Word
  | (t, l) :: ops, ch :: chs => (pieceO t ch).map (fun o => (o, l)) ++ fwrd ops chs
  | _, _ => []

theorem fToMLoop_eq : ∀ (ops : List (FType × ℤ)) (chs : List Bool) (c : K) (os : List Op) (ls : List ℤ),
    fToMLoop ops chs (c, os, ls) = (c * fcoef K ops chs, os ++ (fwrd ops chs).map Prod.fst, ls ++ (fwrd ops chs).map Prod.snd)
  | [], _, c, os, ls => by simp [fToMLoop, fcoef, fwrd]
  | (t, l) :: ops, [], c, os, ls => by simp [fToMLoop, fcoef, fwrd]
  | (t, l) :: ops, ch :: chs, c, os, ls => by
    cases t <;> cases ch <;> rw [fToMLoop] <;> rw [fToMLoop_eq] <;>
      simp [fcoef, fwrd, pieceC, pieceO, mul_assoc]

/-- the operator of a factor -/
def FType.val (R : MajoranaRep K 𝔸 S) : FType × ℤ → 𝔸
  | (.CDag, l) => R.cdag l
  | (.C, l) => R.c l
  | (.CDagC, l) => R.cdag l * R.c l

theorem piece_sum (R : MajoranaRep K 𝔸 S) (t : FType) {l : ℤ} (hl : l ∈ S) : FType.val R (t, l) =
    pieceC K t false • R.sys.prod ((pieceO t false).map (fun o => (o, l))) +
    pieceC K t true • R.sys.prod ((pieceO t true).map (fun o => (o, l))) := by
  cases t
  · simp only [FType.val, pieceC, pieceO, MajoranaRep.cdag, List.map_cons, List.map_nil, SiteSys.prod_cons, SiteSys.prod_nil, mul_one]
    show _ = (1 / 2 : K) • R.a l + (-(1 / 2) * I : K) • R.b l
    rw [smul_sub, smul_smul, neg_mul, neg_smul, sub_eq_add_neg]
  · simp only [FType.val, pieceC, pieceO, MajoranaRep.c, List.map_cons, List.map_nil, SiteSys.prod_cons, SiteSys.prod_nil, mul_one]
    show _ = (1 / 2 : K) • R.a l + (1 / 2 * I : K) • R.b l
    rw [smul_add, smul_smul]
  · simp only [FType.val, pieceC, pieceO, List.map_cons, List.map_nil, SiteSys.prod_cons, SiteSys.prod_nil, mul_one]
    show _ = (-(1 / 2) : K) • R.d l + (1 / 2 : K) • 1
    rw [R.cdag_mul_c hl, smul_sub, neg_smul]; abel

/-- all choices of terms -/
abbrev choices (n : ℕ) : List (List Bool) := productRepeat [false, true] n

theorem choices_succ (n : ℕ) : choices (n + 1) = (choices n).map (false :: ·) ++ (choices n).map (true :: ·) := by
  simp [choices, productRepeat]

theorem sum_map_smul {α : Type} (l : List α) (f : α → 𝔸) (c : K) : (l.map (fun x => c • f x)).sum = c • (l.map f).sum := by
  induction l with
  | nil => simp
  | cons x l ih => simp [ih, smul_add]

theorem sum_map_mul {α : Type} (l : List α) (f : α → 𝔸) (c : 𝔸) : (l.map (fun x => c * f x)).sum = c * (l.map f).sum := by
  induction l with
  | nil => simp
  | cons x l ih => simp [ih, mul_add]

/-- multiplying out the factors -/
theorem expand_factors (R : MajoranaRep K 𝔸 S) : ∀ (ops : List (FType × ℤ)), (∀ x ∈ ops, x.2 ∈ S) →
    (ops.map (FType.val R)).prod = ((choices ops.length).map (fun ch => fcoef K ops ch • R.sys.prod (fwrd ops ch))).sum
  | [], _ => by simp [choices, productRepeat, fcoef, fwrd]
  | (t, l) :: ops, h => by
    have ih := expand_factors R ops (fun x hx => h x (List.mem_cons_of_mem _ hx))
    rw [List.map_cons, List.prod_cons, ih, piece_sum R t (h _ (List.mem_cons_self ..)), List.length_cons, choices_succ, List.map_append,
      List.sum_append, add_mul, List.map_map, List.map_map, smul_mul_assoc, smul_mul_assoc, ← sum_map_mul, ← sum_map_mul, ← sum_map_smul,
      ← sum_map_smul]
    congr 2
    · apply List.map_congr_left
      intro ch _
      simp [fcoef, fwrd, smul_smul]
    · apply List.map_congr_left
      intro ch _
      simp [fcoef, fwrd, smul_smul]

/-! ### the list of factors -/

theorem LabelDict.get?_set (d : LabelDict) (k k' : ℤ) (v : FType) :
    (d.set k v).get? k' = if k = k' then some v else d.get? k' := by
  induction d with
  | nil => simp [LabelDict.set, LabelDict.get?]
  | cons e d ih =>
    obtain ⟨k0, v0⟩ := e
    simp only [LabelDict.set]
    by_cases h : k0 = k
    · subst h
      rw [if_pos rfl]
      by_cases h2 : k0 = k' <;> simp [LabelDict.get?, h2]
    · rw [if_neg h]
      simp only [LabelDict.get?, ih]
      by_cases h2 : k0 = k'
      · subst h2; simp [Ne.symm h]
      · simp [h2]

theorem foldl_cdag (F : List ℤ) : ∀ (d : LabelDict) (l : ℤ),
    (F.foldl (fun d l => d.set l FType.CDag) d).get? l = if l ∈ F then some .CDag else d.get? l := by
  induction F with
  | nil => intro d l; simp
  | cons f F ih =>
    intro d l
    rw [List.foldl_cons, ih, LabelDict.get?_set]
    by_cases h1 : l ∈ F
    · simp [h1]
    · by_cases h2 : f = l
      · subst h2; simp [h1]
      · simp [h1, h2, Ne.symm h2]

theorem foldl_c (B : List ℤ) : ∀ (d : LabelDict) (_ : B.Nodup) (l : ℤ),
    (B.foldl (fun d l => if (d.get? l).isSome then d.set l FType.CDagC else d.set l FType.C) d).get? l =
      if l ∈ B then (if (d.get? l).isSome then some .CDagC else some .C) else d.get? l := by
  induction B with
  | nil => intro d _ l; simp
  | cons b B ih =>
    intro d hn l
    rw [List.nodup_cons] at hn
    rw [List.foldl_cons, ih _ hn.2]
    have e : (if (d.get? b).isSome then d.set b FType.CDagC else d.set b FType.C).get? l =
        if b = l then (if (d.get? b).isSome then some .CDagC else some .C) else d.get? l := by
      split <;> rw [LabelDict.get?_set]
    rw [e]
    by_cases h1 : l ∈ B
    · have : b ≠ l := fun h => hn.1 (h ▸ h1)
      simp [h1, this]
    · by_cases h2 : b = l
      · subst h2; simp [h1]
      · simp [h1, h2, Ne.symm h2]

theorem labelTypes_get {F B : List ℤ} (hB : B.Nodup) (l : ℤ) : (labelTypes F B).get? l =
    if l ∈ B then (if l ∈ F then some .CDagC else some .C) else if l ∈ F then some .CDag else none := by
  rw [labelTypes, foldl_c B _ hB, foldl_cdag]
  by_cases h1 : l ∈ B <;> by_cases h2 : l ∈ F <;> simp [h1, h2, LabelDict.get?]

theorem fermionOpsList_ok (d : LabelDict) : ∀ (sorted : List ℤ) (ops : List (FType × ℤ)), sorted.Pairwise (· ≤ ·) →
    (∀ l ∈ sorted, (d.get? l).isSome) → (∀ x ∈ ops, ∀ l ∈ sorted, x.2 ≤ l) → (ops.map Prod.snd).Pairwise (· < ·) →
    (∀ x ∈ ops, d.get? x.2 = some x.1) →
    ∃ r, sorted.foldlM (fun ops l =>
      match d.get? l with
      | none => .error .keyError
      | some t => if (t, l) ∈ ops then .ok ops else .ok (ops ++ [(t, l)])) ops = (.ok r : Py (List (FType × ℤ))) ∧
      (r.map Prod.snd).Pairwise (· < ·) ∧ ∀ x, x ∈ r ↔ x ∈ ops ∨ (x.2 ∈ sorted ∧ d.get? x.2 = some x.1)
  | [], ops, _, _, _, h4, _ => ⟨ops, rfl, h4, by simp⟩
  | l :: sorted, ops, h1, h2, h3, h4, h5 => by
    rw [List.pairwise_cons] at h1
    obtain ⟨t, ht⟩ := Option.isSome_iff_exists.mp (h2 l (List.mem_cons_self ..))
    rw [List.foldlM_cons]
    simp only [ht]
    by_cases hm : (t, l) ∈ ops
    · rw [if_pos hm]
      obtain ⟨r, k1, k2, k3⟩ := fermionOpsList_ok d sorted ops h1.2 (fun x hx => h2 x (List.mem_cons_of_mem _ hx))
        (fun x hx y hy => h3 x hx y (List.mem_cons_of_mem _ hy)) h4 h5
      refine ⟨r, k1, k2, ?_⟩
      intro x
      rw [k3, List.mem_cons]
      constructor
      · rintro (h | ⟨h, h'⟩)
        · exact Or.inl h
        · exact Or.inr ⟨Or.inr h, h'⟩
      · rintro (h | ⟨h | h, h'⟩)
        · exact Or.inl h
        · left
          rw [h, ht, Option.some.injEq] at h'
          have : x = (t, l) := Prod.ext h'.symm h
          rw [this]; exact hm
        · exact Or.inr ⟨h, h'⟩
    · rw [if_neg hm]
      have hlt : ∀ x ∈ ops, x.2 < l := by
        intro x hx
        refine lt_of_le_of_ne (h3 x hx l (List.mem_cons_self ..)) ?_
        intro he
        have := h5 x hx
        rw [he, ht, Option.some.injEq] at this
        exact hm (by rw [show (t, l) = x from Prod.ext this he.symm]; exact hx)
      obtain ⟨r, k1, k2, k3⟩ := fermionOpsList_ok d sorted (ops ++ [(t, l)]) h1.2 (fun x hx => h2 x (List.mem_cons_of_mem _ hx))
        (by
          intro x hx y hy
          rcases List.mem_append.mp hx with hx | hx
          · exact h3 x hx y (List.mem_cons_of_mem _ hy)
          · rw [List.mem_singleton] at hx; subst hx; exact h1.1 y hy)
        (by
          rw [List.map_append, List.pairwise_append]
          refine ⟨h4, by simp, ?_⟩
          intro x hx y hy
          obtain ⟨z, hz, rfl⟩ := List.mem_map.mp hx
          simp only [List.map_cons, List.map_nil, List.mem_singleton] at hy
          subst hy; exact hlt z hz)
        (by
          intro x hx
          rcases List.mem_append.mp hx with hx | hx
          · exact h5 x hx
          · rw [List.mem_singleton] at hx; subst hx; exact ht)
      refine ⟨r, k1, k2, ?_⟩
      intro x
      rw [k3, List.mem_append, List.mem_singleton, List.mem_cons]
      constructor
      · rintro ((h | h) | ⟨h, h'⟩)
        · exact Or.inl h
        · subst h; exact Or.inr ⟨Or.inl rfl, ht⟩
        · exact Or.inr ⟨Or.inr h, h'⟩
      · rintro (h | ⟨h | h, h'⟩)
        · exact Or.inl (Or.inl h)
        · left; right
          rw [h, ht, Option.some.injEq] at h'
          exact Prod.ext h'.symm h
        · exact Or.inr ⟨h, h'⟩

/-! ### the sorted word is the product of the factors -/

/-- the Fermion operators of a factor -/
def FType.expand : FType × ℤ → Word
  | (.CDag, l) => [(.CDag, l)]
  | (.C, l) => [(.C, l)]
  | (.CDagC, l) => [(.CDag, l), (.C, l)]

theorem prod_expand (R : MajoranaRep K 𝔸 S) (ops : List (FType × ℤ)) :
    ((ops.flatMap FType.expand).map (fun x => R.fsite x.1 x.2)).prod = (ops.map (FType.val R)).prod := by
  induction ops with
  | nil => rfl
  | cons x ops ih =>
    rw [List.flatMap_cons, List.map_append, List.prod_append, ih, List.map_cons, List.prod_cons]
    obtain ⟨t, l⟩ := x
    cases t <;> simp [FType.expand, FType.val, MajoranaRep.fsite]

section stable
variable {ι : Type} (key : ι → ℤ) (q : ι → ι → Prop)

theorem stable_orderedInsert (x : ι) : ∀ (t : List ι), t.Pairwise (fun a b => key a < key b ∨ key a = key b ∧ q a b) →
    (∀ y ∈ t, key x = key y → q x y) →
    (t.orderedInsert (fun a b => key a ≤ key b) x).Pairwise (fun a b => key a < key b ∨ key a = key b ∧ q a b)
  | [], _, _ => by simp
  | y :: t, hs, hq => by
    rw [List.orderedInsert]
    have hs' := hs
    rw [List.pairwise_cons] at hs
    by_cases h : key x ≤ key y
    · rw [if_pos h, List.pairwise_cons]
      refine ⟨?_, hs'⟩
      intro z hz
      have hle : key x ≤ key z := by
        rcases List.mem_cons.mp hz with rfl | hz
        · exact h
        · rcases hs.1 z hz with h1 | h1 <;> omega
      rcases lt_or_eq_of_le hle with h1 | h1
      · exact Or.inl h1
      · exact Or.inr ⟨h1, hq z hz h1⟩
    · rw [if_neg h, List.pairwise_cons]
      refine ⟨?_, stable_orderedInsert x t hs.2 (fun z hz => hq z (List.mem_cons_of_mem _ hz))⟩
      intro z hz
      rw [List.mem_orderedInsert] at hz
      rcases hz with rfl | hz
      · left; omega
      · exact hs.1 z hz

theorem stable_insertionSort : ∀ (l : List ι), l.Pairwise (fun a b => key a = key b → q a b) →
    (l.insertionSort (fun a b => key a ≤ key b)).Pairwise (fun a b => key a < key b ∨ key a = key b ∧ q a b)
  | [], _ => by simp
  | x :: l, h => by
    rw [List.pairwise_cons] at h
    rw [List.insertionSort_cons]
    refine stable_orderedInsert key q x _ (stable_insertionSort l h.2) ?_
    intro y hy
    exact h.1 y ((List.perm_insertionSort _ _).mem_iff.mp hy)

end stable

/-- the word of a normal-ordered string -/
def normalWord (F B : List ℤ) : Word := F.map (fun l => (Op.CDag, l)) ++ B.map (fun l => (Op.C, l))

theorem mem_normalWord {F B : List ℤ} {x : Op × ℤ} : x ∈ normalWord F B ↔ (x.1 = .CDag ∧ x.2 ∈ F) ∨ (x.1 = .C ∧ x.2 ∈ B) := by
  obtain ⟨o, l⟩ := x
  simp only [normalWord, List.mem_append, List.mem_map, Prod.mk.injEq]
  constructor
  · rintro (⟨a, h, rfl, rfl⟩ | ⟨a, h, rfl, rfl⟩)
    · exact Or.inl ⟨rfl, h⟩
    · exact Or.inr ⟨rfl, h⟩
  · rintro (⟨rfl, h⟩ | ⟨rfl, h⟩)
    · exact Or.inl ⟨l, h, rfl, rfl⟩
    · exact Or.inr ⟨l, h, rfl, rfl⟩

theorem map_snd_normalWord (F B : List ℤ) : (normalWord F B).map Prod.snd = F ++ B := by
  simp [normalWord, List.map_map, Function.comp_def]

theorem nodup_normalWord {F B : List ℤ} (hF : F.Nodup) (hB : B.Nodup) : (normalWord F B).Nodup := by
  rw [normalWord, List.nodup_append]
  refine ⟨hF.map (fun a b h => by simpa using h), hB.map (fun a b h => by simpa using h), ?_⟩
  intro x hx y hy hxy
  obtain ⟨a, _, rfl⟩ := List.mem_map.mp hx
  obtain ⟨b, _, rfl⟩ := List.mem_map.mp hy
  simp at hxy

/-- before sorting: on one orbital, creation comes before annihilation -/
theorem pairwise_normalWord {F B : List ℤ} (hF : F.Nodup) (hB : B.Nodup) :
    (normalWord F B).Pairwise (fun x y => x.2 = y.2 → x.1 = .CDag ∧ y.1 = .C) := by
  rw [normalWord, List.pairwise_append]
  refine ⟨?_, ?_, ?_⟩
  · rw [List.pairwise_map]; exact hF.imp (fun h h' => absurd h' h)
  · rw [List.pairwise_map]; exact hB.imp (fun h h' => absurd h' h)
  · intro x hx y hy _
    obtain ⟨a, _, rfl⟩ := List.mem_map.mp hx
    obtain ⟨b, _, rfl⟩ := List.mem_map.mp hy
    exact ⟨rfl, rfl⟩

theorem mem_flatMap_expand {ops : List (FType × ℤ)} {x : Op × ℤ} : x ∈ ops.flatMap FType.expand ↔
    (x.1 = .CDag ∧ ((FType.CDag, x.2) ∈ ops ∨ (FType.CDagC, x.2) ∈ ops)) ∨ (x.1 = .C ∧ ((FType.C, x.2) ∈ ops ∨ (FType.CDagC, x.2) ∈ ops)) := by
  obtain ⟨o, l⟩ := x
  simp only [List.mem_flatMap]
  constructor
  · rintro ⟨⟨t, l'⟩, h, hx⟩
    cases t <;> simp only [FType.expand, List.mem_cons, Prod.mk.injEq, List.not_mem_nil, or_false] at hx
    · obtain ⟨rfl, rfl⟩ := hx; exact Or.inl ⟨rfl, Or.inl h⟩
    · obtain ⟨rfl, rfl⟩ := hx; exact Or.inr ⟨rfl, Or.inl h⟩
    · rcases hx with ⟨rfl, rfl⟩ | ⟨rfl, rfl⟩
      · exact Or.inl ⟨rfl, Or.inr h⟩
      · exact Or.inr ⟨rfl, Or.inr h⟩
  · rintro (⟨rfl, h | h⟩ | ⟨rfl, h | h⟩)
    · exact ⟨_, h, by simp [FType.expand]⟩
    · exact ⟨_, h, by simp [FType.expand]⟩
    · exact ⟨_, h, by simp [FType.expand]⟩
    · exact ⟨_, h, by simp [FType.expand]⟩

/-- the strict order of the sorted word -/
def WordLt (x y : Op × ℤ) : Prop := x.2 < y.2 ∨ x.2 = y.2 ∧ (x.1 = .CDag ∧ y.1 = .C)

theorem WordLt.asymm {x y : Op × ℤ} (h : WordLt x y) (h' : WordLt y x) : False := by
  rcases h with h | ⟨h, h1, h2⟩ <;> rcases h' with k | ⟨k, k1, k2⟩
  · omega
  · omega
  · omega
  · rw [h1] at k2; simp at k2

theorem pairwise_flatMap_expand : ∀ {ops : List (FType × ℤ)}, (ops.map Prod.snd).Pairwise (· < ·) →
    (ops.flatMap FType.expand).Pairwise WordLt
  | [], _ => by simp
  | x :: ops, h => by
    rw [List.map_cons, List.pairwise_cons] at h
    rw [List.flatMap_cons, List.pairwise_append]
    refine ⟨?_, pairwise_flatMap_expand h.2, ?_⟩
    · obtain ⟨t, l⟩ := x
      cases t <;> simp [FType.expand, WordLt]
    · intro y hy z hz
      left
      have h1 : y.2 = x.2 := by
        obtain ⟨t, l⟩ := x
        cases t <;> simp only [FType.expand, List.mem_cons, List.not_mem_nil, or_false] at hy
        · rw [hy]
        · rw [hy]
        · rcases hy with rfl | rfl <;> rfl
      have h2 : z.2 ∈ ops.map Prod.snd := by
        rw [mem_flatMap_expand] at hz
        rcases hz with ⟨_, h | h⟩ | ⟨_, h | h⟩ <;> exact List.mem_map.mpr ⟨_, h, rfl⟩
      rw [h1]; exact h.1 _ h2

/-- the list of factors the code builds -/
theorem factors_ok {F B : List ℤ} (hF : F.Nodup) (hB : B.Nodup) :
    ∃ ops, fermionOpsList (labelTypes F B.reverse) (sortSign (F ++ B)).1 = .ok ops ∧
      (ops.map Prod.snd).Pairwise (· < ·) ∧ (∀ x ∈ ops, x.2 ∈ F ++ B) ∧
      (∀ l, (FType.CDag, l) ∈ ops ↔ l ∈ F ∧ l ∉ B) ∧ (∀ l, (FType.C, l) ∈ ops ↔ l ∉ F ∧ l ∈ B) ∧
      (∀ l, (FType.CDagC, l) ∈ ops ↔ l ∈ F ∧ l ∈ B) ∧
      (normalWord F B).insertionSort (fun a b => a.2 ≤ b.2) = ops.flatMap FType.expand := by
  have hp : ((F ++ B).insertionSort (· ≤ ·)).Perm (F ++ B) := List.perm_insertionSort _ _
  have hget := fun l => labelTypes_get (F := F) (List.nodup_reverse.mpr hB) l
  simp only [List.mem_reverse] at hget
  obtain ⟨ops, h1, h2, h3⟩ := fermionOpsList_ok (labelTypes F B.reverse) ((F ++ B).insertionSort (· ≤ ·)) []
    (List.pairwise_insertionSort _ _) (by
      intro l hl
      rw [hp.mem_iff, List.mem_append] at hl
      rw [hget]
      by_cases a : l ∈ B <;> by_cases b : l ∈ F <;> simp_all) (by simp) (by simp) (by simp)
  simp only [List.not_mem_nil, false_or, hp.mem_iff, List.mem_append, hget] at h3
  have hm1 : ∀ l, (FType.CDag, l) ∈ ops ↔ l ∈ F ∧ l ∉ B := by
    intro l; rw [h3]; by_cases a : l ∈ B <;> by_cases b : l ∈ F <;> simp [a, b]
  have hm2 : ∀ l, (FType.C, l) ∈ ops ↔ l ∉ F ∧ l ∈ B := by
    intro l; rw [h3]; by_cases a : l ∈ B <;> by_cases b : l ∈ F <;> simp [a, b]
  have hm3 : ∀ l, (FType.CDagC, l) ∈ ops ↔ l ∈ F ∧ l ∈ B := by
    intro l; rw [h3]; by_cases a : l ∈ B <;> by_cases b : l ∈ F <;> simp [a, b]
  refine ⟨ops, ?_, h2, fun x hx => List.mem_append.mpr ((h3 x).mp hx).1, hm1, hm2, hm3, ?_⟩
  · rw [sortSign_fst]; exact h1
  · have hs := stable_insertionSort (fun x : Op × ℤ => x.2) (fun x y => x.1 = .CDag ∧ y.1 = .C) _ (pairwise_normalWord hF hB)
    have he := pairwise_flatMap_expand h2
    have hpw : ((normalWord F B).insertionSort (fun a b => a.2 ≤ b.2)).Perm (normalWord F B) := List.perm_insertionSort _ _
    have hperm : ((normalWord F B).insertionSort (fun a b => a.2 ≤ b.2)).Perm (ops.flatMap FType.expand) := by
      rw [List.perm_ext_iff_of_nodup (hpw.nodup_iff.mpr (nodup_normalWord hF hB)) (he.imp (fun h h' => by subst h'; exact h.asymm h))]
      intro x
      rw [hpw.mem_iff, mem_normalWord, mem_flatMap_expand, hm1, hm2, hm3]
      tauto
    exact hperm.eq_of_pairwise (le := WordLt) (fun a b _ _ h1 h2 => absurd h2 (fun h => h1.asymm h)) hs he

/-- the product of a normal-ordered string, sorted and multiplied out -/
theorem normalWord_expand (R : MajoranaRep K 𝔸 S) {F B : List ℤ} (hF : F.Nodup) (hB : B.Nodup) (hS : ∀ l ∈ F ++ B, l ∈ S)
    {ops : List (FType × ℤ)} (hops : ∀ x ∈ ops, x.2 ∈ F ++ B)
    (h : (normalWord F B).insertionSort (fun a b => a.2 ≤ b.2) = ops.flatMap FType.expand) :
    ((normalWord F B).map (fun x => R.fsite x.1 x.2)).prod =
      ((choices ops.length).map (fun ch => (((-1 : K) ^ inversions (F ++ B)) * fcoef K ops ch) • R.sys.prod (fwrd ops ch))).sum := by
  rw [prod_insertionSort (K := K) (fun x : Op × ℤ => x.2), map_snd_normalWord, h, prod_expand, expand_factors R ops (fun x hx => hS _ (hops x hx)),
    ← sum_map_smul]
  · congr 1
    apply List.map_congr_left
    intro ch _
    rw [smul_smul]
  · have := pairwise_normalWord hF hB
    refine List.Pairwise.imp_of_mem ?_ this
    intro x y hx hy _ hlt
    have hmem : ∀ z ∈ normalWord F B, z.2 ∈ S := by
      intro z hz
      apply hS
      rw [← map_snd_normalWord]; exact List.mem_map_of_mem hz
    exact R.fsite_anticomm (hmem x hx) (hmem y hy) (by omega)

/-! ### the terms -/

/-- the Majorana string of a word, as the constructor builds it -/
def majOf (w : Word) : OpString :=
  ⟨w.map Prod.fst, w.map Prod.snd, .majorana, if (numAB (w.map Prod.fst)).choose 2 % 2 = 1 then .imag else .float1⟩

theorem majOf_string {w : Word} (h1 : ∀ x ∈ w, x.1 = .A ∨ x.1 = .B ∨ x.1 = .D) (h2 : (w.map Prod.snd).Nodup) (h3 : ∀ x ∈ w, x.2 ∈ S) :
    MajoranaString S (majOf w) := by
  refine ⟨rfl, ?_, by simp [majOf], h2, ?_, ?_⟩
  · intro o ho
    obtain ⟨x, hx, rfl⟩ := List.mem_map.mp ho
    exact h1 x hx
  · intro l hl
    obtain ⟨x, hx, rfl⟩ := List.mem_map.mp hl
    exact h3 x hx
  · show _ ↔ (numAB (w.map Prod.fst)).choose 2 % 2 = 1
    by_cases h : (numAB (w.map Prod.fst)).choose 2 % 2 = 1 <;> simp [majOf, h]

theorem den_majOf (R : MajoranaRep K 𝔸 S) (w : Word) : R.den (majOf w) = ((majOf w).pref.val : K) • R.sys.prod w := by
  rw [R.den_eq]
  congr 2
  simp [OpString.word, majOf, zip_fst_snd]

theorem fwrd_ops {ops : List (FType × ℤ)} {ch : List Bool} : ∀ x ∈ fwrd ops ch, x.1 = .A ∨ x.1 = .B ∨ x.1 = .D := by
  induction ops generalizing ch with
  | nil => simp [fwrd]
  | cons y ops ih =>
    obtain ⟨t, l⟩ := y
    cases ch with
    | nil => simp [fwrd]
    | cons b ch =>
      intro x hx
      rw [fwrd, List.mem_append] at hx
      rcases hx with hx | hx
      · cases t <;> cases b <;> simp [pieceO] at hx <;> subst hx <;> simp
      · exact ih x hx

theorem fwrd_labels (ops : List (FType × ℤ)) (ch : List Bool) : ((fwrd ops ch).map Prod.snd).Sublist (ops.map Prod.snd) := by
  induction ops generalizing ch with
  | nil => simp [fwrd]
  | cons y ops ih =>
    obtain ⟨t, l⟩ := y
    cases ch with
    | nil => simp [fwrd]
    | cons b ch =>
      rw [fwrd, List.map_append, List.map_cons]
      cases t <;> cases b <;> simp [pieceO, ih ch]

theorem fwrd_inj : ∀ {ops : List (FType × ℤ)}, (ops.map Prod.snd).Nodup → ∀ {ch ch' : List Bool}, ch.length = ops.length →
    ch'.length = ops.length → fwrd ops ch = fwrd ops ch' → ch = ch'
  | [], _, ch, ch', h1, h2, _ => by
    rw [List.length_nil, List.length_eq_zero_iff] at h1 h2
    rw [h1, h2]
  | (t, l) :: ops, hn, b :: ch, b' :: ch', h1, h2, h => by
    rw [List.map_cons, List.nodup_cons] at hn
    have hl : ∀ ch (o : Op), (o, l) ∉ fwrd ops ch := by
      intro ch o ho
      exact hn.1 ((fwrd_labels ops ch).subset (List.mem_map.mpr ⟨_, ho, rfl⟩))
    have ih := fun h => fwrd_inj hn.2 (ch := ch) (ch' := ch') (by simpa using h1) (by simpa using h2) h
    rw [fwrd, fwrd] at h
    cases t <;> cases b <;> cases b' <;> simp [pieceO] at h
    all_goals first
      | rw [ih h]
      | exact absurd (by rw [← h]; simp) (hl ch' .D)
      | exact absurd (by rw [h]; simp) (hl ch .D)
  | _ :: _, _, [], _, h1, _, _ => by simp at h1
  | _ :: _, _, _ :: _, [], _, h2, _ => by simp at h2

theorem fcoef_phase : ∀ (ops : List (FType × ℤ)) (ch : List Bool), ch.length = ops.length → IsPhase ((2 : K) ^ ops.length * fcoef K ops ch)
  | [], _, _ => by simp [fcoef, IsPhase]
  | (t, l) :: ops, b :: ch, h => by
    have ih := fcoef_phase ops ch (by simpa using h)
    have e : IsPhase ((2 : K) * pieceC K t b) := by
      cases t <;> cases b <;> simp [pieceC, IsPhase, ← mul_assoc]
    rw [fcoef, List.length_cons, pow_succ, show (2 : K) ^ ops.length * 2 * (pieceC K t b * fcoef K ops ch) =
      2 * pieceC K t b * (2 ^ ops.length * fcoef K ops ch) by ring]
    exact e.mul ih
  | _ :: _, [], h => by simp at h

/-- the coefficient of a term before doubling -/
def kappa (ops : List (FType × ℤ)) (ch : List Bool) (sign : ℤ) (pref : K) : K :=
  fcoef K ops ch / (majOf (fwrd ops ch)).pref.val * (sign : K) * pref

/-- the Majorana operator with the given terms -/
def ofTerms (ts : List (K × OpString)) : Operator K := ⟨ts.map Prod.fst, Basis.ofList (ts.map Prod.snd), .majorana⟩

/-- the term of a choice -/
def fterm (incl own : Bool) (ops : List (FType × ℤ)) (sign : ℤ) (pref : K) (ch : List Bool) : Option (K × OpString) :=
  if fwrd ops ch = [] ∧ incl = false then none
  else if own = false then
    if absGt (imOf (kappa ops ch sign pref)) floatEps then none else some (kappa ops ch sign pref * 2, majOf (fwrd ops ch))
  else some (kappa ops ch sign pref, majOf (fwrd ops ch))

theorem fToMTerm_eq (incl own : Bool) (ops : List (FType × ℤ)) (sign : ℤ) (pref : K) (ch : List Bool) :
    fToMTerm incl own sign pref (fToMLoop ops ch (1, [], [])) = .ok (fterm incl own ops sign pref ch) := by
  rw [fToMLoop_eq, fToMTerm, fterm]
  simp only [List.nil_append, List.length_map, List.length_eq_zero_iff, one_mul]
  by_cases h : fwrd ops ch = [] ∧ incl = false
  · rw [if_pos h, if_pos h]
  · rw [if_neg h, if_neg h, mkOpString_majorana (by simp)]
    simp only [bind, Except.bind]
    by_cases h2 : own = false
    · rw [if_pos h2, if_pos h2]
      by_cases h3 : absGt (imOf (kappa ops ch sign pref)) floatEps = true
      · rw [if_pos h3]
        exact if_pos h3
      · rw [if_neg h3]
        exact if_neg h3
    · rw [if_neg h2, if_neg h2]
      rfl

theorem star_two_pow (n : ℕ) : star ((2 : K) ^ n) = 2 ^ n := by rw [star_pow, star_ofNat]

/-- coefficients `phase / 2^n` are real or imaginary; the imaginary ones are recognised as long as `n < 52` -/
theorem phase_split {p : K} (hp : IsPhase p) {n : ℕ} (hn : n < 52) {x : K} (hx : x = p / 2 ^ n) :
    (absGt (imOf x) floatEps = true ∧ x + star x = 0) ∨ (absGt (imOf x) floatEps = false ∧ x * 2 = x + star x) := by
  have h2 : (2 : K) ≠ 0 := two_ne_zero'
  have hI := I_ne_zero (K := K)
  have hs : star x = star p / 2 ^ n := by rw [hx, star_div₀, star_two_pow]
  have him : ∀ p : K, p = I ∨ p = -I → ((2 : K) ^ n)⁻¹ = imOf (I / 2 ^ n : K) ∧ absGt (imOf (p / 2 ^ n : K)) floatEps = true := by
    intro p hp
    have e1 : imOf (I / 2 ^ n : K) = ((2 : K) ^ n)⁻¹ := by
      rw [imOf, star_div₀, star_two_pow, star_I]; field_simp; ring
    have e2 : imOf (-I / 2 ^ n : K) = -((2 : K) ^ n)⁻¹ := by
      rw [imOf, star_div₀, star_two_pow, star_neg, star_I]; field_simp; ring
    refine ⟨e1.symm, ?_⟩
    have : ‖toC (((2 : K) ^ n)⁻¹)‖ = ((2 : ℝ) ^ n)⁻¹ := by
      rw [map_inv₀, map_pow, map_ofNat, norm_inv, norm_pow, Complex.norm_ofNat]
    have hlt : ((floatEps : ℚ) : ℝ) < ((2 : ℝ) ^ n)⁻¹ := by
      rw [floatEps]; push_cast
      rw [one_div]
      apply inv_strictAnti₀ (by positivity)
      exact pow_lt_pow_right₀ (by norm_num) hn
    rcases hp with rfl | rfl
    · rw [e1, absGt_iff, this]; exact hlt
    · rw [e2, absGt_iff, map_neg, norm_neg, this]; exact hlt
  have h0 : ∀ p : K, star p = p → imOf (p / 2 ^ n : K) = 0 := by
    intro p h
    rw [imOf, star_div₀, star_two_pow, h]; simp
  have heps : (0 : ℚ) ≤ floatEps := by norm_num [floatEps]
  rcases hp with rfl | rfl | rfl | rfl
  · right
    rw [hs, hx, h0 1 (by simp), absGt_zero heps]; refine ⟨rfl, ?_⟩; simp; ring
  · right
    rw [hs, hx, h0 (-1) (by simp), absGt_zero heps]; refine ⟨rfl, ?_⟩; simp; ring
  · left
    refine ⟨by rw [hx]; exact (him I (Or.inl rfl)).2, ?_⟩
    rw [hs, hx]; simp; ring
  · left
    refine ⟨by rw [hx]; exact (him (-I) (Or.inr rfl)).2, ?_⟩
    rw [hs, hx]; simp; ring

theorem kappa_phase {ops : List (FType × ℤ)} {ch : List Bool} (h : ch.length = ops.length) {sign : ℤ} (hsign : sign = 1 ∨ sign = -1)
    (p : Pref) : ∃ q : K, IsPhase q ∧ kappa ops ch sign p.val = q / 2 ^ ops.length := by
  have h1 := fcoef_phase (K := K) ops ch h
  have h2 := ((majOf (fwrd ops ch)).pref.val_phase (K := K)).inv
  have h3 : IsPhase ((sign : ℤ) : K) := by rcases hsign with rfl | rfl <;> simp [IsPhase]
  have h4 := p.val_phase (K := K)
  refine ⟨_, ((h1.mul h2).mul h3).mul h4, ?_⟩
  have : (2 : K) ^ ops.length ≠ 0 := pow_ne_zero _ two_ne_zero'
  rw [kappa]; field_simp

/-- the coefficient of a choice in the full expansion -/
def fullCoef (own : Bool) (ops : List (FType × ℤ)) (sign : ℤ) (pref : K) (ch : List Bool) : K :=
  if own = false then kappa ops ch sign pref + star (kappa ops ch sign pref) else kappa ops ch sign pref

/-- sum of the kept terms -/
theorem fterm_den (R : MajoranaRep K 𝔸 S) {incl own : Bool} {ops : List (FType × ℤ)} (hn : ops.length < 52) {sign : ℤ}
    (hsign : sign = 1 ∨ sign = -1) (p : Pref) : ∀ (cs : List (List Bool)), (∀ ch ∈ cs, ch.length = ops.length) →
    denT R.den (cs.filterMap (fterm incl own ops sign (p.val : K))) +
      ((cs.filter (fun ch => decide (fwrd ops ch = [] ∧ incl = false))).map (fullCoef own ops sign (p.val : K))).sum • (1 : 𝔸) =
      (cs.map (fun ch => fullCoef own ops sign (p.val : K) ch • R.den (majOf (fwrd ops ch)))).sum
  | [], _ => by simp [denT]
  | ch :: cs, h => by
    have ih := fterm_den R (incl := incl) (own := own) hn hsign p cs (fun c hc => h c (List.mem_cons_of_mem _ hc))
    obtain ⟨q, hq, hk⟩ := kappa_phase (K := K) (h ch (List.mem_cons_self ..)) hsign p
    rw [List.map_cons, List.sum_cons, ← ih, List.filterMap_cons, List.filter_cons]
    by_cases h1 : fwrd ops ch = [] ∧ incl = false
    · have e : fterm incl own ops sign p.val ch = (none : Option (K × OpString)) := by rw [fterm, if_pos h1]
      have e1 : R.den (majOf (fwrd ops ch)) = 1 := by rw [h1.1, den_majOf]; simp [majOf, numAB, Pref.val]
      rw [if_pos (by simpa using h1), e, e1]
      simp only [List.map_cons, List.sum_cons, add_smul]
      abel
    · rw [if_neg (by simpa using h1)]
      by_cases h2 : own = false
      · rcases phase_split hq hn hk with ⟨h3, h4⟩ | ⟨h3, h4⟩
        · have e : fterm incl own ops sign p.val ch = (none : Option (K × OpString)) := by rw [fterm, if_neg h1, if_pos h2, if_pos h3]
          rw [e, fullCoef, if_pos h2, h4]; simp
        · have e : fterm incl own ops sign p.val ch = some (kappa ops ch sign (p.val : K) * 2, majOf (fwrd ops ch)) := by
            rw [fterm, if_neg h1, if_pos h2, if_neg (by rw [h3]; simp)]
          rw [e, fullCoef, if_pos h2, ← h4]
          simp only [denT, List.map_cons, List.sum_cons]; abel
      · have e : fterm incl own ops sign p.val ch = some (kappa ops ch sign (p.val : K), majOf (fwrd ops ch)) := by
          rw [fterm, if_neg h1, if_neg h2]
        rw [e, fullCoef, if_neg h2]
        simp only [denT, List.map_cons, List.sum_cons]; abel

/-- the full expansion in strings -/
theorem full_expand (R : MajoranaRep K 𝔸 S) {F B : List ℤ} (hF : F.Nodup) (hB : B.Nodup) (hS : ∀ l ∈ F ++ B, l ∈ S)
    {ops : List (FType × ℤ)} (hops : ∀ x ∈ ops, x.2 ∈ F ++ B)
    (h : (normalWord F B).insertionSort (fun a b => a.2 ≤ b.2) = ops.flatMap FType.expand) (p : Pref) :
    (p.val : K) • ((normalWord F B).map (fun x => R.fsite x.1 x.2)).prod =
      ((choices ops.length).map (fun ch => kappa ops ch (sortSign (F ++ B)).2 (p.val : K) • R.den (majOf (fwrd ops ch)))).sum := by
  rw [normalWord_expand R hF hB hS hops h, ← sum_map_smul]
  congr 1
  apply List.map_congr_left
  intro ch _
  rw [den_majOf, smul_smul, smul_smul, kappa, sortSign_snd, cast_sign]
  congr 1
  have : ((majOf (fwrd ops ch)).pref.val : K) ≠ 0 := ((majOf (fwrd ops ch)).pref.val_phase (K := K)).ne_zero
  field_simp

theorem star_sum_map [StarRing 𝔸] {α : Type} (l : List α) (f : α → 𝔸) : star (l.map f).sum = (l.map (fun x => star (f x))).sum := by
  induction l with
  | nil => simp
  | cons x l ih => simp [ih]

theorem sum_map_add' {α : Type} (l : List α) (f g : α → 𝔸) : (l.map f).sum + (l.map g).sum = (l.map (fun x => f x + g x)).sum := by
  induction l with
  | nil => simp
  | cons x l ih => simp only [List.map_cons, List.sum_cons, ← ih]; abel

/-! ### there is at least one term -/

theorem numAB_fwrd : ∀ (ops : List (FType × ℤ)) (ch : List Bool), ch.length = ops.length →
    numAB ((fwrd ops ch).map Prod.fst) = ops.countP (fun x => decide (x.1 ≠ .CDagC))
  | [], _, _ => by simp [fwrd, numAB]
  | (t, l) :: ops, b :: ch, h => by
    have ih := numAB_fwrd ops ch (by simpa using h)
    rw [fwrd, List.map_append, numAB, List.filter_append, List.length_append, ← numAB, ← numAB, ih, List.countP_cons]
    cases t <;> cases b <;> simp [pieceO, numAB, Nat.add_comm]
  | _ :: _, [], h => by simp at h

theorem fwrd_ne_nil {ops : List (FType × ℤ)} (h : ops ≠ []) : fwrd ops (List.replicate ops.length false) ≠ [] := by
  cases ops with
  | nil => exact absurd rfl h
  | cons x ops =>
    obtain ⟨t, l⟩ := x
    rw [List.length_cons, List.replicate_succ, fwrd]
    cases t <;> simp [pieceO]

theorem exists_real_choice : ∀ (ops : List (FType × ℤ)) (q : K), IsPhase q →
    ((∃ x ∈ ops, x.1 ≠ .CDagC) ∨ (ops ≠ [] ∧ (q = 1 ∨ q = -1))) →
    ∃ ch, ch.length = ops.length ∧ fwrd ops ch ≠ [] ∧ (2 ^ ops.length * fcoef K ops ch * q = 1 ∨ 2 ^ ops.length * fcoef K ops ch * q = -1)
  | [], _, _, h => by simp at h
  | (t, l) :: ops, q, hq, h => by
    have hp := fcoef_phase (K := K) ops (List.replicate ops.length false) (by simp)
    have e : ∀ (b : Bool) (ch : List Bool), (2 : K) ^ ((t, l) :: ops).length * fcoef K ((t, l) :: ops) (b :: ch) * q =
        (2 * pieceC K t b) * (2 ^ ops.length * fcoef K ops ch * q) := by
      intro b ch; rw [fcoef, List.length_cons, pow_succ]; ring
    have h2 : (2 : K) ≠ 0 := two_ne_zero'
    by_cases ht : t = .CDagC
    · subst ht
      have hne : ∀ ch, fwrd ((FType.CDagC, l) :: ops) (false :: ch) ≠ [] := by intro ch; simp [fwrd, pieceO]
      have key : ∃ ch, ch.length = ops.length ∧ (2 ^ ops.length * fcoef K ops ch * q = 1 ∨ 2 ^ ops.length * fcoef K ops ch * q = -1) := by
        by_cases ho : ops = []
        · subst ho
          refine ⟨[], rfl, ?_⟩
          simp only [List.mem_singleton, exists_eq_left, ne_eq, not_true_eq_false, false_or] at h
          simpa [fcoef] using h.2
        · obtain ⟨ch, k1, _, k3⟩ := exists_real_choice ops q hq (by
            rcases h with ⟨x, hx, hx'⟩ | ⟨_, h⟩
            · rcases List.mem_cons.mp hx with rfl | hx
              · exact absurd rfl hx'
              · exact Or.inl ⟨x, hx, hx'⟩
            · exact Or.inr ⟨ho, h⟩)
          exact ⟨ch, k1, k3⟩
      obtain ⟨ch, k1, k2⟩ := key
      refine ⟨false :: ch, by simp [k1], hne ch, ?_⟩
      rw [e false ch, pieceC]
      have : (2 : K) * -(1 / 2) = -1 := by field_simp
      rw [this]
      rcases k2 with k2 | k2 <;> rw [k2] <;> simp
    · have hne : ∀ b ch, fwrd ((t, l) :: ops) (b :: ch) ≠ [] := by
        intro b ch; cases t <;> cases b <;> simp_all [fwrd, pieceO]
      have h1 : (2 : K) * pieceC K t false = 1 := by cases t <;> simp_all [pieceC]
      have h1' : (2 : K) * pieceC K t true = I ∨ (2 : K) * pieceC K t true = -I := by
        cases t
        · right; simp only [pieceC]; field_simp
        · left; simp only [pieceC]; field_simp
        · exact absurd rfl ht
      have hpq := hp.mul hq
      rcases hpq with h3 | h3 | h3 | h3
      · exact ⟨false :: List.replicate ops.length false, by simp, hne _ _, by rw [e, h1, h3]; simp⟩
      · exact ⟨false :: List.replicate ops.length false, by simp, hne _ _, by rw [e, h1, h3]; simp⟩
      · exact ⟨true :: List.replicate ops.length false, by simp, hne _ _, by rw [e, h3]; rcases h1' with h | h <;> rw [h] <;> simp⟩
      · exact ⟨true :: List.replicate ops.length false, by simp, hne _ _, by rw [e, h3]; rcases h1' with h | h <;> rw [h] <;> simp⟩

/-! ### strings and words -/

theorem zip_swap_filter (o : Op) : ∀ (ls : List ℤ) (os : List Op),
    ((ls.zip os).filter (fun x => decide (x.2 = o))).map Prod.fst = ((os.zip ls).filter (fun x => decide (x.1 = o))).map Prod.snd
  | [], _ => by simp
  | _ :: _, [] => by simp
  | l :: ls, o' :: os => by
    have ih := zip_swap_filter o ls os
    simp only [List.zip_cons_cons, List.filter_cons]
    by_cases h : o' = o <;> simp [h, ih]

theorem zip_replicate_left (o : Op) : ∀ (n : ℕ) (L : List ℤ), L.length = n → (List.replicate n o).zip L = L.map (fun l => (o, l))
  | 0, [], _ => rfl
  | 0, _ :: _, h => by simp at h
  | _ + 1, [], h => by simp at h
  | n + 1, l :: L, h => by
    rw [List.replicate_succ, List.zip_cons_cons, zip_replicate_left o n L (by simpa using h)]; rfl

theorem normal_zip (F B : List ℤ) : (List.replicate F.length Op.CDag ++ List.replicate B.length Op.C).zip (F ++ B) = normalWord F B := by
  rw [List.zip_append (by simp), zip_replicate_left _ _ _ rfl, zip_replicate_left _ _ _ rfl, normalWord]

theorem filter_normalWord (F B : List ℤ) :
    ((normalWord F B).filter (fun x => decide (x.1 = .CDag))).map Prod.snd = F ∧
    ((normalWord F B).filter (fun x => decide (x.1 = .C))).map Prod.snd = B := by
  rw [normalWord, List.filter_append, List.filter_append]
  simp [List.filter_map, Function.comp_def, List.filter_eq_self.mpr]

/-- the string with given labels -/
theorem normalString_labels (F B : List ℤ) (t : OpType) (p : Pref) :
    (⟨List.replicate F.length .CDag ++ List.replicate B.length .C, F ++ B, t, p⟩ : OpString).cdagLabels = F ∧
    (⟨List.replicate F.length .CDag ++ List.replicate B.length .C, F ++ B, t, p⟩ : OpString).cLabels = B := by
  rw [OpString.cdagLabels, OpString.cLabels]
  simp only [normal_zip]
  exact filter_normalWord F B

theorem FermionString.labels_eq {s : OpString} (h : FermionString S s) : s.labels = s.cdagLabels ++ s.cLabels := by
  have hl : s.labels.length = s.cdagLabels.length + s.cLabels.length := by
    rw [← h.len, h.ordered]; simp
  generalize hm : s.cdagLabels.length = m at hl
  generalize hn : s.cLabels.length = n at hl
  have ho := h.ordered
  rw [hm, hn] at ho
  have e1 : (s.labels.take m).length = m := by rw [List.length_take]; omega
  have e2 : (s.labels.drop m).length = n := by rw [List.length_drop]; omega
  have hz : s.ops.zip s.labels = normalWord (s.labels.take m) (s.labels.drop m) := by
    rw [ho, ← normal_zip, e1, e2, List.take_append_drop]
  rw [OpString.cdagLabels, OpString.cLabels, hz, (filter_normalWord _ _).1, (filter_normalWord _ _).2, List.take_append_drop]

theorem FermionString.zip_eq {s : OpString} (h : FermionString S s) : s.ops.zip s.labels = normalWord s.cdagLabels s.cLabels := by
  rw [h.labels_eq, h.ordered, normal_zip]

theorem wordProd_zip (site : Op → ℤ → 𝔸) : ∀ (ops : List Op) (ls : List ℤ),
    wordProd site ops ls = ((ops.zip ls).map (fun x => site x.1 x.2)).prod
  | [], _ => by simp [wordProd]
  | _ :: _, [] => by simp [wordProd]
  | o :: os, l :: ls => by simp [wordProd, wordProd_zip site os ls]

/-! ### the theorem -/

theorem norm_two_pow (n : ℕ) : ‖toC ((2 : K) ^ n)‖ = (2 : ℝ) ^ n := by
  rw [map_pow, norm_pow, map_ofNat]; norm_num

theorem big_of_phase {q x : K} (hq : IsPhase q) {n : ℕ} (hn : n < 52) (hx : x = q / 2 ^ n) : (1 / 10 ^ 16 : ℝ) < ‖toC x‖ := by
  rw [hx, map_div₀, norm_div, hq.norm, norm_two_pow]
  have h1 : (2 : ℝ) ^ n ≤ 2 ^ 51 := pow_le_pow_right₀ (by norm_num) (by omega)
  have h2 : (0 : ℝ) < 2 ^ n := by positivity
  refine one_div_lt_one_div_of_lt h2 (lt_of_le_of_lt h1 (by norm_num))

theorem convertFermionString_full {s : OpString} (h : FermionString S s) (incl : Bool) (hn : s.labels.toFinset.card < 52)
    (h1 : s.labels ≠ [] ∨ incl = true)
    (h2 : s.OwnConjugate ∨ s.pref ≠ .imag ∨ ∃ l, ¬ (l ∈ s.cdagLabels ↔ l ∈ s.cLabels)) :
    ∃ (O : Operator K) (k : K), convertFermionString s incl = .ok O ∧ O.opType = .majorana ∧ O.WF ∧
      (∀ M ∈ O.basis.strs, MajoranaString S M ∧ M.Canonical ∧ (incl = false → M.ops ≠ [])) ∧
      (∀ c ∈ O.coeffs, (1 / 10 ^ 16 : ℝ) < ‖toC c‖) ∧ (incl = true → k = 0) ∧
      (∀ {𝔸 : Type} [Ring 𝔸] [Algebra K 𝔸] [StarRing 𝔸] [StarModule K 𝔸] (R : MajoranaRep K 𝔸 S)
        (_ : ∀ i ∈ S, star (R.a i) = R.a i ∧ star (R.b i) = R.b i), R.fden s = O.den R.den + k • 1) ∧
      ∃ ops : List (FType × ℤ), (ops.map Prod.snd).Pairwise (· < ·) ∧ (∀ l, l ∈ ops.map Prod.snd ↔ l ∈ s.cdagLabels ++ s.cLabels) ∧
        (∀ l, (FType.CDag, l) ∈ ops ↔ l ∈ s.cdagLabels ∧ l ∉ s.cLabels) ∧ (∀ l, (FType.C, l) ∈ ops ↔ l ∉ s.cdagLabels ∧ l ∈ s.cLabels) ∧
        (∀ l, (FType.CDagC, l) ∈ ops ↔ l ∈ s.cdagLabels ∧ l ∈ s.cLabels) ∧
        k = (((choices ops.length).filter (fun ch => decide (fwrd ops ch = [] ∧ incl = false))).map
          (fullCoef (decide s.OwnConjugate) ops (sortSign (s.cdagLabels ++ s.cLabels)).2 (s.pref.val : K))).sum ∧
        O = ofTerms ((choices ops.length).filterMap (fterm incl (decide s.OwnConjugate) ops (sortSign (s.cdagLabels ++ s.cLabels)).2 (s.pref.val : K))) := by
  set F := s.cdagLabels with hFd
  set B := s.cLabels with hBd
  have hlab : s.labels = F ++ B := h.labels_eq
  have hS : ∀ l ∈ F ++ B, l ∈ S := by rw [← hlab]; exact h.mem
  obtain ⟨ops, o1, o2, o3, o4, o5, o6, o7⟩ := factors_ok h.cdag_nodup h.c_nodup
  have hnd : (ops.map Prod.snd).Nodup := o2.imp (fun h => ne_of_lt h)
  have hmem : ∀ l, l ∈ ops.map Prod.snd ↔ l ∈ F ++ B := by
    intro l
    constructor
    · intro hl; obtain ⟨x, hx, rfl⟩ := List.mem_map.mp hl; exact o3 x hx
    · intro hl
      rw [List.mem_append] at hl
      by_cases a : l ∈ F <;> by_cases b : l ∈ B
      · exact List.mem_map.mpr ⟨_, (o6 l).mpr ⟨a, b⟩, rfl⟩
      · exact List.mem_map.mpr ⟨_, (o4 l).mpr ⟨a, b⟩, rfl⟩
      · exact List.mem_map.mpr ⟨_, (o5 l).mpr ⟨a, b⟩, rfl⟩
      · tauto
  have hcard : ops.length < 52 := by
    have : (ops.map Prod.snd).toFinset = s.labels.toFinset := by
      ext l; rw [List.mem_toFinset, List.mem_toFinset, hmem, hlab]
    have e := List.toFinset_card_of_nodup hnd
    rw [this, List.length_map] at e
    omega
  have hops : ops ≠ [] ↔ s.labels ≠ [] := by
    rw [hlab]
    constructor
    · intro hne h0
      obtain ⟨x, hx⟩ := List.exists_mem_of_ne_nil _ hne
      have := o3 x hx; rw [h0] at this; simp at this
    · intro hne h0
      obtain ⟨x, hx⟩ := List.exists_mem_of_ne_nil _ hne
      have := (hmem x).mpr hx; rw [h0] at this; simp at this
  set own : Bool := decide (F = B.reverse) with hown
  set sg : ℤ := (sortSign (F ++ B)).2 with hsg
  have hsign : sg = 1 ∨ sg = -1 := by
    rw [hsg, sortSign_snd]; exact neg_one_pow_eq_or ℤ _
  set g := fterm incl own ops sg (s.pref.val : K) with hg
  set terms := (choices ops.length).filterMap g with hterms
  have hlen : ∀ ch ∈ choices ops.length, ch.length = ops.length := fun ch hch => (mem_productRepeat.mp hch).1
  have hch : ∀ ch : List Bool, ch.length = ops.length → ch ∈ choices ops.length := by
    intro ch hc
    exact mem_productRepeat.mpr ⟨hc, by intro b _; cases b <;> simp⟩
  have hgs : ∀ ch t, g ch = some t → t.2 = majOf (fwrd ops ch) ∧ ¬ (fwrd ops ch = [] ∧ incl = false) := by
    intro ch t ht
    rw [hg, fterm] at ht
    split at ht
    · simp at ht
    · rename_i hne
      refine ⟨?_, hne⟩
      split at ht
      · split at ht
        · simp at ht
        · simp only [Option.some.injEq] at ht; rw [← ht]
      · simp only [Option.some.injEq] at ht; rw [← ht]
  have hstr : ∀ ch, MajoranaString S (majOf (fwrd ops ch)) := by
    intro ch
    apply majOf_string fwrd_ops ((fwrd_labels ops ch).nodup hnd)
    intro x hx
    exact hS _ ((hmem _).mp ((fwrd_labels ops ch).subset (List.mem_map_of_mem hx)))
  have hcan : ∀ ch, (majOf (fwrd ops ch)).Canonical := by
    intro ch
    refine ⟨o2.sublist (fwrd_labels ops ch), ?_⟩
    simp only [majOf]; split <;> simp
  have htm : ∀ t ∈ terms, ∃ ch ∈ choices ops.length, t.2 = majOf (fwrd ops ch) ∧ ¬ (fwrd ops ch = [] ∧ incl = false) := by
    intro t ht
    obtain ⟨ch, hc, e⟩ := List.mem_filterMap.mp ht
    exact ⟨ch, hc, hgs ch t e⟩
  have hnodup : (terms.map Prod.snd).Nodup := by
    rw [List.Nodup, List.pairwise_map, hterms, List.pairwise_filterMap]
    refine List.Pairwise.imp_of_mem ?_ (nodup_productRepeat (l := [false, true]) (by simp) ops.length)
    intro a b ha hb hab t ht t' ht' he
    apply hab
    apply fwrd_inj hnd (hlen a ha) (hlen b hb)
    rw [(hgs a t ht).1, (hgs b t' ht').1] at he
    have e1 : (majOf (fwrd ops a)).word = (majOf (fwrd ops b)).word := by rw [he]
    simpa [OpString.word, majOf, zip_fst_snd] using e1
  have hne : terms.map Prod.snd ≠ [] := by
    obtain ⟨ch, hc, t, ht⟩ : ∃ ch ∈ choices ops.length, ∃ t, g ch = some t := by
      by_cases ho : own = false
      · have hno : ¬ s.OwnConjugate := by
          intro hc; rw [hown] at ho; simp only [decide_eq_false_iff_not] at ho; exact ho hc
        have hops' : ops ≠ [] := by
          rw [hops]; rintro h0
          apply hno
          rw [hlab] at h0
          have := List.append_eq_nil_iff.mp h0
          rw [OpString.OwnConjugate, ← hFd, ← hBd, this.1, this.2]; rfl
        set n2 := ops.countP (fun x => decide (x.1 ≠ .CDagC)) with hn2
        set mp : Pref := if n2.choose 2 % 2 = 1 then .imag else .float1 with hmp
        obtain ⟨ch, k1, k2, k3⟩ := exists_real_choice (K := K) ops ((mp.val)⁻¹ * (sg : K) * s.pref.val)
          ((mp.val_phase.inv.mul (by rcases hsign with h | h <;> rw [h] <;> simp [IsPhase])).mul s.pref.val_phase) (by
            by_cases hall : ∃ x ∈ ops, x.1 ≠ .CDagC
            · exact Or.inl hall
            · right
              refine ⟨hops', ?_⟩
              have hzero : n2 = 0 := by
                rw [hn2, List.countP_eq_zero]; intro x hx
                by_contra hc
                exact hall ⟨x, hx, by simpa using hc⟩
              have hpv : (s.pref.val : K) = 1 := by
                apply Pref.val_of_ne_imag
                rcases h2 with h2 | h2 | ⟨l, hl⟩
                · exact absurd h2 hno
                · exact h2
                · exfalso
                  apply hall
                  by_cases a : l ∈ F
                  · exact ⟨(.CDag, l), (o4 l).mpr ⟨a, fun b => hl ⟨fun _ => b, fun _ => a⟩⟩, by simp⟩
                  · have b : l ∈ B := by by_contra b; exact hl ⟨fun h => absurd h a, fun h => absurd h b⟩
                    exact ⟨(.C, l), (o5 l).mpr ⟨a, b⟩, by simp⟩
              rw [hmp, hzero, hpv]
              rcases hsign with h | h <;> rw [h] <;> simp [Pref.val])
        have hk : kappa ops ch sg (s.pref.val : K) = (2 ^ ops.length * fcoef K ops ch * ((mp.val)⁻¹ * (sg : K) * s.pref.val)) / 2 ^ ops.length := by
          have e : (majOf (fwrd ops ch)).pref = mp := by rw [hmp, hn2, ← numAB_fwrd ops ch k1]; rfl
          have : (2 : K) ^ ops.length ≠ 0 := pow_ne_zero _ two_ne_zero'
          rw [kappa, e, mul_assoc (2 ^ ops.length), mul_div_cancel_left₀ _ this]
          ring
        have hreal : absGt (imOf (kappa ops ch sg (s.pref.val : K))) floatEps = false := by
          have h0 : imOf (kappa ops ch sg (s.pref.val : K)) = 0 := by
            rw [hk, imOf, star_div₀, star_two_pow]
            rcases k3 with k3 | k3 <;> rw [k3] <;> simp
          rw [h0]; exact absGt_zero (by norm_num [floatEps])
        exact ⟨ch, hch ch k1, (kappa ops ch sg (s.pref.val : K) * 2, majOf (fwrd ops ch)), by
          rw [hg, fterm, if_neg (fun h => k2 h.1), if_pos ho, if_neg (by rw [hreal]; simp)]⟩
      · by_cases hops' : ops = []
        · have hi : incl = true := by
            rcases h1 with h1 | h1
            · exact absurd hops' (hops.mpr h1)
            · exact h1
          exact ⟨List.replicate ops.length false, hch _ (by simp), _, by rw [hg, fterm, if_neg (by simp [hi]), if_neg ho]⟩
        · exact ⟨List.replicate ops.length false, hch _ (by simp), _, by
            rw [hg, fterm, if_neg (fun h => fwrd_ne_nil hops' h.1), if_neg ho]⟩
    have : t.2 ∈ terms.map Prod.snd := List.mem_map_of_mem (List.mem_filterMap.mpr ⟨ch, hc, ht⟩)
    intro h0; rw [h0] at this; simp at this
  have htype : ∀ M ∈ terms.map Prod.snd, M.opType = .majorana := by
    intro M hM
    obtain ⟨t, ht, rfl⟩ := List.mem_map.mp hM
    obtain ⟨ch, _, e, _⟩ := htm t ht
    rw [e]; rfl
  refine ⟨⟨terms.map Prod.fst, Basis.ofList (terms.map Prod.snd), .majorana⟩,
    (((choices ops.length).filter (fun ch => decide (fwrd ops ch = [] ∧ incl = false))).map (fullCoef own ops sg (s.pref.val : K))).sum,
    ?_, rfl, Operator.WF.mk' hnodup (by simp) htype, ?_, ?_, ?_, ?_, ops, o2, hmem, o4, o5, o6, rfl, rfl⟩
  · rw [convertFermionString]
    simp only [zip_swap_filter]
    have e1 : ((s.ops.zip s.labels).filter (fun x => decide (x.1 = .CDag))).map Prod.snd = F := rfl
    have e2 : ((s.ops.zip s.labels).filter (fun x => decide (x.1 = .C))).map Prod.snd = B := rfl
    rw [e1, e2]
    show (do let ops ← fermionOpsList (labelTypes F B.reverse) (sortSign (F ++ B)).1; _) = _
    rw [o1]
    simp only [bind, Except.bind]
    rw [collect_ok (g := g) _ (fun ch _ => fToMTerm_eq incl own ops sg s.pref.val ch)]
    exact mkOperator_none_ok hne hnodup htype
  · intro M hM
    obtain ⟨t, ht, rfl⟩ := List.mem_map.mp hM
    obtain ⟨ch, _, e, hne'⟩ := htm t ht
    rw [e]
    refine ⟨hstr ch, hcan ch, ?_⟩
    intro hi h0
    exact hne' ⟨by simpa [majOf] using h0, hi⟩
  · intro c hc
    obtain ⟨t, ht, rfl⟩ := List.mem_map.mp hc
    obtain ⟨ch, hcc, e⟩ := List.mem_filterMap.mp ht
    obtain ⟨q, hq, hk⟩ := kappa_phase (K := K) (hlen ch hcc) hsign s.pref
    have hb := big_of_phase hq hcard hk
    rw [hg, fterm] at e
    split at e
    · simp at e
    · split at e
      · split at e
        · simp at e
        · simp only [Option.some.injEq] at e
          rw [← e]
          simp only [map_mul, norm_mul, map_ofNat]
          have : ‖(2 : ℂ)‖ = 2 := by norm_num
          rw [this]
          linarith [norm_nonneg (toC (kappa ops ch sg (s.pref.val : K)))]
      · simp only [Option.some.injEq] at e; rw [← e]; exact hb
  · intro hi
    rw [List.filter_eq_nil_iff.mpr (by intro ch _; simp [hi])]; simp
  · intro 𝔸 _ _ _ _ R hs
    have hden : (⟨terms.map Prod.fst, Basis.ofList (terms.map Prod.snd), .majorana⟩ : Operator K).den R.den = denT R.den terms := by
      rw [Operator.den, Operator.terms]
      simp only [Basis.ofList, zip_fst_snd]
    rw [hden, hterms, hg, fterm_den R hcard hsign s.pref _ hlen]
    have hw : R.fword s = ((choices ops.length).map (fun ch => kappa ops ch sg (s.pref.val : K) • R.den (majOf (fwrd ops ch)))).sum := by
      rw [MajoranaRep.fword, wordProd_zip, h.zip_eq]
      exact full_expand R h.cdag_nodup h.c_nodup hS o3 o7 s.pref
    by_cases ho : s.OwnConjugate
    · rw [MajoranaRep.fden, if_pos ho, hw]
      have : own = true := decide_eq_true ho
      congr 1
      apply List.map_congr_left
      intro ch _
      rw [fullCoef, if_neg (by rw [this]; simp)]
    · rw [MajoranaRep.fden, if_neg ho, hw, star_sum_map, sum_map_add']
      have : own = false := decide_eq_false ho
      congr 1
      apply List.map_congr_left
      intro ch _
      rw [fullCoef, if_pos this, star_smul, R.star_den hs (hstr ch), ← add_smul]

/-- the conversion of a Fermion string -/
theorem convertFermionString_ok {s : OpString} (h : FermionString S s) (incl : Bool) (hn : s.labels.toFinset.card < 52)
    (h1 : s.labels ≠ [] ∨ incl = true)
    (h2 : s.OwnConjugate ∨ s.pref ≠ .imag ∨ ∃ l, ¬ (l ∈ s.cdagLabels ↔ l ∈ s.cLabels)) :
    ∃ (O : Operator K) (k : K), convertFermionString s incl = .ok O ∧ O.opType = .majorana ∧ O.WF ∧
      (∀ M ∈ O.basis.strs, MajoranaString S M ∧ M.Canonical ∧ (incl = false → M.ops ≠ [])) ∧
      (∀ c ∈ O.coeffs, (1 / 10 ^ 16 : ℝ) < ‖toC c‖) ∧ (incl = true → k = 0) ∧
      ∀ {𝔸 : Type} [Ring 𝔸] [Algebra K 𝔸] [StarRing 𝔸] [StarModule K 𝔸] (R : MajoranaRep K 𝔸 S)
        (_ : ∀ i ∈ S, star (R.a i) = R.a i ∧ star (R.b i) = R.b i), R.fden s = O.den R.den + k • 1 := by
  obtain ⟨O, k, g1, g2, g3, g4, g5, g6, g7, -⟩ := convertFermionString_full (K := K) h incl hn h1 h2
  exact ⟨O, k, g1, g2, g3, g4, g5, g6, g7⟩

end Qosy
