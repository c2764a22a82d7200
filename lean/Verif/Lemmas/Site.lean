import Verif.Model.AlgebraString
import Verif.Spec.Rep
import Verif.Lemmas.Sort
import Mathlib.Algebra.BigOperators.Group.List.Basic
import Mathlib.Algebra.Algebra.Tower
import Mathlib.Tactic.Module
import Mathlib.Tactic.NoncommRing

/-! # Reordering products of site operators

A common abstraction of the Pauli and Majorana algebras: site operators that (anti)commute between
different sites according to a parity, and multiply on one site by `PRODUCT_DICT`. -/

namespace Qosy

variable {K : Type} [Field K] [StarRing K] [Coef K]
variable {𝔸 : Type} [Ring 𝔸] [Algebra K 𝔸]

/-- common abstraction of the Pauli and the Majorana relations -/
structure SiteSys (K : Type) [Field K] [StarRing K] [Coef K] (𝔸 : Type) [Ring 𝔸] [Algebra K 𝔸] (S : Set ℤ) where
  site : Op → ℤ → 𝔸
  ok : Op → Prop
  odd : Op → Bool
  sq : ∀ o, ok o → ∀ i ∈ S, site o i * site o i = 1
  mul : ∀ o o', ok o → ok o' → o ≠ o' → ∃ (c : K) (o'' : Op),
    productDict o o' = some (c, o'') ∧ productDict o' o = some (star c, o'') ∧ ok o'' ∧
    (c = I ∨ c = -I) ∧ ∀ i ∈ S, site o i * site o' i = c • site o'' i
  comm : ∀ o o', ok o → ok o' → ∀ i ∈ S, ∀ j ∈ S, i ≠ j →
    site o i * site o' j = ((-1 : K) ^ (if odd o ∧ odd o' then 1 else 0)) • (site o' j * site o i)

abbrev Word := List (Op × ℤ)

namespace SiteSys
variable {S : Set ℤ} (R : SiteSys K 𝔸 S)

/-- product of a word -/
def prod (w : Word) : 𝔸 := (w.map (fun x => R.site x.1 x.2)).prod

/-- all operators valid and all labels in `S` -/
def Ok (w : Word) : Prop := ∀ x ∈ w, R.ok x.1 ∧ x.2 ∈ S

@[simp] theorem prod_nil : R.prod [] = 1 := rfl
@[simp] theorem prod_cons (x : Op × ℤ) (w : Word) : R.prod (x :: w) = R.site x.1 x.2 * R.prod w := by
  simp [prod]
@[simp] theorem prod_append (v w : Word) : R.prod (v ++ w) = R.prod v * R.prod w := by
  simp [prod]

/-- labels of the odd operators -/
def oddLabels (w : Word) : List ℤ := (w.filter (fun x => R.odd x.1)).map Prod.snd

theorem wordProd_eq (ops : List Op) (labels : List ℤ) :
    wordProd R.site ops labels = R.prod (ops.zip labels) := by
  induction ops generalizing labels with
  | nil => simp [wordProd]
  | cons o ops ih => cases labels <;> simp [wordProd, ih]

end SiteSys

/-- stable insertion of a pair by label -/
def insPair (x : Op × ℤ) : Word → Word
  | [] => [x]
  | y :: ys => if x.2 ≤ y.2 then x :: y :: ys else y :: insPair x ys

/-- stable sort of a word by label -/
def sortPair (w : Word) : Word := w.foldr insPair []

theorem mem_insPair {x y : Op × ℤ} {w : Word} : y ∈ insPair x w ↔ y = x ∨ y ∈ w := by
  induction w with
  | nil => simp [insPair]
  | cons z w ih =>
    simp only [insPair]
    split
    · simp
    · simp [ih]; tauto

theorem mem_sortPair {y : Op × ℤ} {w : Word} : y ∈ sortPair w ↔ y ∈ w := by
  induction w with
  | nil => simp [sortPair]
  | cons x w ih => simp only [sortPair, List.foldr_cons, mem_insPair, List.mem_cons] at *; rw [ih]

theorem insPair_sorted {x : Op × ℤ} {w : Word} (h : w.Pairwise (fun a b => a.2 ≤ b.2)) :
    (insPair x w).Pairwise (fun a b => a.2 ≤ b.2) := by
  induction w with
  | nil => simp [insPair]
  | cons z w ih =>
    rw [List.pairwise_cons] at h
    simp only [insPair]
    split
    · rename_i hx
      rw [List.pairwise_cons, List.pairwise_cons]
      refine ⟨?_, h⟩
      intro y hy
      rcases List.mem_cons.mp hy with rfl | hy
      · exact hx
      · exact hx.trans (h.1 y hy)
    · rename_i hx
      rw [List.pairwise_cons]
      refine ⟨?_, ih h.2⟩
      intro y hy
      rcases mem_insPair.mp hy with rfl | hy
      · omega
      · exact h.1 y hy

theorem sortPair_sorted (w : Word) : (sortPair w).Pairwise (fun a b => a.2 ≤ b.2) := by
  induction w with
  | nil => simp [sortPair]
  | cons x w ih => exact insPair_sorted ih

namespace SiteSys
variable {S : Set ℤ} (R : SiteSys K 𝔸 S)

theorem Ok.tail {R : SiteSys K 𝔸 S} {x : Op × ℤ} {w : Word} (h : R.Ok (x :: w)) : R.Ok w :=
  fun y hy => h y (List.mem_cons_of_mem _ hy)

theorem Ok.head {R : SiteSys K 𝔸 S} {x : Op × ℤ} {w : Word} (h : R.Ok (x :: w)) : R.ok x.1 ∧ x.2 ∈ S :=
  h x List.mem_cons_self

theorem Ok.sortPair {R : SiteSys K 𝔸 S} {w : Word} (h : R.Ok w) : R.Ok (sortPair w) :=
  fun y hy => h y (mem_sortPair.mp hy)

theorem Ok.append {R : SiteSys K 𝔸 S} {v w : Word} (h : R.Ok v) (h' : R.Ok w) : R.Ok (v ++ w) := by
  intro y hy
  rcases List.mem_append.mp hy with h1 | h1
  · exact h y h1
  · exact h' y h1

/-- moving one operator into a sorted word -/
theorem prod_insPair {x : Op × ℤ} {w : Word} (hx : R.ok x.1 ∧ x.2 ∈ S) (hw : R.Ok w)
    (hs : w.Pairwise (fun a b => a.2 ≤ b.2)) :
    R.prod (x :: w) = ((-1 : K) ^ (if R.odd x.1 then (R.oddLabels w).countP (fun y => y < x.2) else 0))
      • R.prod (insPair x w) := by
  induction w with
  | nil => simp [insPair, oddLabels]
  | cons z w ih =>
    rw [List.pairwise_cons] at hs
    by_cases hle : x.2 ≤ z.2
    · have : (R.oddLabels (z :: w)).countP (fun y => y < x.2) = 0 := by
        rw [List.countP_eq_zero]
        intro y hy
        simp only [oddLabels, List.mem_map, List.mem_filter] at hy
        obtain ⟨p, ⟨hp, -⟩, rfl⟩ := hy
        rcases List.mem_cons.mp hp with rfl | hp
        · simp; omega
        · have := hs.1 p hp; simp; omega
      simp [this, insPair, hle]
    · rw [insPair, if_neg hle]
      have hne : x.2 ≠ z.2 := by omega
      have ih' := ih hw.tail hs.2
      have hc := R.comm x.1 z.1 hx.1 hw.head.1 x.2 hx.2 z.2 hw.head.2 hne
      rw [prod_cons, prod_cons, ← mul_assoc, hc, smul_mul_assoc, mul_assoc, ← prod_cons, ih', prod_cons,
        mul_smul_comm, smul_smul, ← pow_add]
      congr 2
      by_cases h1 : R.odd x.1 <;> by_cases h2 : R.odd z.1 <;>
        simp [h1, h2, oddLabels]
      have : z.2 < x.2 := by omega
      simp [this, add_comm]

theorem oddLabels_cons (x : Op × ℤ) (w : Word) :
    R.oddLabels (x :: w) = if R.odd x.1 then x.2 :: R.oddLabels w else R.oddLabels w := by
  simp only [oddLabels, List.filter_cons]
  split <;> simp

theorem oddLabels_insPair (x : Op × ℤ) (w : Word) :
    (R.oddLabels (insPair x w)).Perm (R.oddLabels (x :: w)) := by
  induction w with
  | nil => exact List.Perm.refl _
  | cons z w ih =>
    simp only [insPair]
    split
    · exact List.Perm.refl _
    · rw [oddLabels_cons, oddLabels_cons R x, oddLabels_cons R z] at *
      split
      · refine (ih.cons _).trans ?_
        split
        · exact List.Perm.swap _ _ _
        · exact List.Perm.refl _
      · exact ih

theorem oddLabels_sortPair (w : Word) : (R.oddLabels (sortPair w)).Perm (R.oddLabels w) := by
  induction w with
  | nil => exact List.Perm.refl _
  | cons x w ih =>
    refine (R.oddLabels_insPair x (sortPair w)).trans ?_
    rw [oddLabels_cons, oddLabels_cons]
    split
    · exact ih.cons _
    · exact ih

/-- sorting a word by label multiplies its product by the parity of the inversions of its odd operators -/
theorem prod_sortPair {w : Word} (hw : R.Ok w) :
    R.prod w = ((-1 : K) ^ inversions (R.oddLabels w)) • R.prod (sortPair w) := by
  induction w with
  | nil => simp [sortPair, oddLabels, inversions]
  | cons x w ih =>
    have h1 := ih hw.tail
    have h2 := R.prod_insPair hw.head hw.tail.sortPair (sortPair_sorted w)
    rw [prod_cons, h1, mul_smul_comm, ← prod_cons, h2, smul_smul, ← pow_add]
    rw [(R.oddLabels_sortPair w).countP_eq]
    congr 2
    rw [oddLabels_cons]
    by_cases h : R.odd x.1
    · simp [h, inversions, add_comm]
    · simp [h]

end SiteSys

/-! ### the sorted word, grouped by label -/

theorem insPair_of_le {x : Op × ℤ} {w : Word} (h : ∀ y ∈ w, x.2 ≤ y.2) : insPair x w = x :: w := by
  cases w with
  | nil => rfl
  | cons y w => simp [insPair, h y List.mem_cons_self]

theorem insPair_append {x : Op × ℤ} {v w : Word} (h : ∀ y ∈ v, y.2 < x.2) :
    insPair x (v ++ w) = v ++ insPair x w := by
  induction v with
  | nil => rfl
  | cons y v ih =>
    have h1 := h y List.mem_cons_self
    have : ¬ x.2 ≤ y.2 := by omega
    simp only [List.cons_append, insPair, this, if_false]
    rw [ih (fun z hz => h z (List.mem_cons_of_mem _ hz))]

theorem mem_insertLabel {l m : ℤ} {ks : List ℤ} : m ∈ insertLabel l ks ↔ m = l ∨ m ∈ ks := by
  induction ks with
  | nil => simp [insertLabel]
  | cons k ks ih =>
    simp only [insertLabel]
    split
    · simp
    · split
      · rename_i h1 h2; subst h2; simp
      · simp [ih]; tauto

theorem insertLabel_sorted {l : ℤ} {ks : List ℤ} (h : ks.Pairwise (· < ·)) :
    (insertLabel l ks).Pairwise (· < ·) := by
  induction ks with
  | nil => simp [insertLabel]
  | cons k ks ih =>
    rw [List.pairwise_cons] at h
    simp only [insertLabel]
    split
    · rename_i hl
      rw [List.pairwise_cons, List.pairwise_cons]
      refine ⟨?_, h⟩
      intro y hy
      rcases List.mem_cons.mp hy with rfl | hy
      · exact hl
      · exact hl.trans (h.1 y hy)
    · split
      · rw [List.pairwise_cons]; exact h
      · rw [List.pairwise_cons]
        refine ⟨?_, ih h.2⟩
        intro y hy
        rcases mem_insertLabel.mp hy with rfl | hy
        · omega
        · exact h.1 y hy

theorem sortedUnion_sorted (a b : List ℤ) : (sortedUnion a b).Pairwise (· < ·) := by
  unfold sortedUnion
  generalize a ++ b = c
  induction c with
  | nil => simp
  | cons x c ih => exact insertLabel_sorted ih

theorem mem_sortedUnion {l : ℤ} {a b : List ℤ} : l ∈ sortedUnion a b ↔ l ∈ a ∨ l ∈ b := by
  unfold sortedUnion
  rw [← List.mem_append]
  generalize a ++ b = c
  induction c with
  | nil => simp
  | cons x c ih => rw [List.foldr_cons, mem_insertLabel, ih, List.mem_cons]

theorem insPair_flatMap {x : Op × ℤ} (f : ℤ → Word) (hf : ∀ k, ∀ y ∈ f k, y.2 = k) :
    ∀ ks : List ℤ, ks.Pairwise (· < ·) → (x.2 ∉ ks → f x.2 = []) →
    insPair x (ks.flatMap f) = (insertLabel x.2 ks).flatMap (fun k => if k = x.2 then x :: f k else f k) := by
  intro ks
  induction ks with
  | nil => intro _ h; simp [insPair, insertLabel, h]
  | cons k ks ih =>
    intro hs h
    rw [List.pairwise_cons] at hs
    have hmem : ∀ y ∈ ks.flatMap f, k < y.2 := by
      intro y hy
      rw [List.mem_flatMap] at hy
      obtain ⟨m, hm, hy⟩ := hy
      rw [hf m y hy]; exact hs.1 m hm
    simp only [insertLabel]
    split
    · rename_i hl
      have h0 : f x.2 = [] := h (by
        intro hx; rcases List.mem_cons.mp hx with hx | hx
        · omega
        · have := hs.1 _ hx; omega)
      rw [insPair_of_le]
      · simp only [List.flatMap_cons, if_true, h0]
        have hk : k ≠ x.2 := by omega
        rw [if_neg hk]
        simp only [List.cons_append, List.nil_append, List.cons.injEq, true_and]
        congr 1
        apply List.flatMap_congr
        intro m hm
        have := hs.1 m hm
        rw [if_neg (by omega)]
      · intro y hy
        rw [List.flatMap_cons, List.mem_append] at hy
        rcases hy with hy | hy
        · rw [hf k y hy]; omega
        · have := hmem y hy; omega
    · split
      · rename_i h1 h2
        have hrest : ks.flatMap (fun k => if k = x.2 then x :: f k else f k) = ks.flatMap f := by
          apply List.flatMap_congr
          intro m hm
          have := hs.1 m hm
          rw [if_neg (by omega)]
        rw [List.flatMap_cons, List.flatMap_cons, hrest, if_pos h2.symm]
        rw [insPair_of_le]
        · simp
        · intro y hy
          rw [List.mem_append] at hy
          rcases hy with hy | hy
          · rw [hf k y hy]; omega
          · have := hmem y hy; omega
      · rename_i h1 h2
        rw [List.flatMap_cons, insPair_append, ih hs.2, List.flatMap_cons, if_neg (by omega)]
        · intro hx; apply h; intro hx'
          rcases List.mem_cons.mp hx' with hx' | hx'
          · omega
          · exact hx hx'
        · intro y hy
          rw [hf k y hy]; omega

/-- the operators of a word at one label -/
def seg (w : Word) (l : ℤ) : Word := w.filter (fun x => x.2 = l)

theorem sortPair_eq_flatMap (w : Word) :
    sortPair w = ((w.map Prod.snd).foldr insertLabel []).flatMap (seg w) := by
  induction w with
  | nil => simp [sortPair]
  | cons x w ih =>
    have hs : ((w.map Prod.snd).foldr insertLabel []).Pairwise (· < ·) := by
      have := sortedUnion_sorted (w.map Prod.snd) []
      simpa [sortedUnion] using this
    have hm : ∀ l, l ∈ (w.map Prod.snd).foldr insertLabel [] ↔ l ∈ w.map Prod.snd := by
      intro l
      have := mem_sortedUnion (l := l) (a := w.map Prod.snd) (b := [])
      simpa [sortedUnion] using this
    have e : sortPair (x :: w) = insPair x (sortPair w) := rfl
    rw [e, ih, insPair_flatMap (seg w)]
    · simp only [List.map_cons, List.foldr_cons]
      apply List.flatMap_congr
      intro m _
      simp only [seg, List.filter_cons]
      by_cases h : m = x.2
      · simp [h]
      · have : ¬ x.2 = m := fun h' => h h'.symm
        simp [h, this]
    · intro k y hy
      simp only [seg, List.mem_filter, decide_eq_true_eq] at hy
      exact hy.2
    · exact hs
    · intro hx
      rw [hm] at hx
      simp only [seg, List.filter_eq_nil_iff, decide_eq_true_eq]
      intro y hy h
      exact hx (List.mem_map.mpr ⟨y, hy, h⟩)

end Qosy
