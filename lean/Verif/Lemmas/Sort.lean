import Verif.Model.Tools
import Verif.Spec.Sorting

/-! # Lemmas about `sort_sign` -/

namespace Qosy

theorem swapAt_append (p q : List Int) (a b : Int) :
    swapAt p.length (p ++ a :: b :: q) = p ++ b :: a :: q := by
  induction p with
  | nil => rfl
  | cons x p ih => simp [swapAt, ih]

theorem inversions_append_singleton (p : List Int) (x : Int) :
    inversions (p ++ [x]) = inversions p + p.countP (fun y => x < y) := by
  induction p with
  | nil => rfl
  | cons a p ih =>
    simp only [List.cons_append, inversions, ih, List.countP_append, List.countP_cons, List.countP_nil]
    split <;> simp_all <;> omega

/-- effect of the inner loop on a sorted prefix followed by `x` -/
theorem sortInner_spec (p : List Int) (hp : p.Pairwise (· ≤ ·)) (x : Int) (q : List Int) :
    ∃ r : List Int, sortInner p.length (p ++ x :: q) = (r ++ q, p.countP (fun y => x < y)) ∧
      r.Pairwise (· ≤ ·) ∧ r.Perm (p ++ [x]) := by
  induction p using List.reverseRecOn generalizing q with
  | nil => exact ⟨[x], rfl, by simp, by simp⟩
  | append_singleton p a ih =>
    rw [List.pairwise_append] at hp
    obtain ⟨hp1, _, hp2⟩ := hp
    have hlen : (p ++ [a]).length = p.length + 1 := by simp
    have e1 : (p ++ [a] ++ x :: q)[p.length]? = some a := by simp
    have e2 : (p ++ [a] ++ x :: q)[p.length + 1]? = some x := by simp
    rw [hlen, sortInner, e1, e2]
    by_cases hax : a > x
    · have hne : a ≠ x := by omega
      simp only [hne, ne_eq, not_false_eq_true, hax, and_self, ↓reduceIte]
      rw [show p ++ [a] ++ x :: q = p ++ a :: x :: q by simp, swapAt_append]
      obtain ⟨r, hr, hs, hperm⟩ := ih hp1 (a :: q)
      rw [hr]
      refine ⟨r ++ [a], ?_, ?_, ?_⟩
      · simp [List.countP_append, hax]
      · rw [List.pairwise_append]
        refine ⟨hs, by simp, ?_⟩
        intro y hy z hz
        simp only [List.mem_singleton] at hz
        subst hz
        have := hperm.mem_iff.mp hy
        simp only [List.mem_append, List.mem_singleton] at this
        rcases this with h | rfl
        · exact hp2 y h z (by simp)
        · omega
      · have : (r ++ [a]).Perm ((p ++ [x]) ++ [a]) := hperm.append_right _
        refine this.trans ?_
        simp only [List.append_assoc, List.singleton_append]
        exact List.Perm.append_left p (List.Perm.swap _ _ _)
    · simp only [hax, and_false, ↓reduceIte]
      refine ⟨p ++ [a] ++ [x], ?_, ?_, List.Perm.refl _⟩
      · have h0 : List.countP (fun y => decide (x < y)) p = 0 := by
          rw [List.countP_eq_zero]
          intro y hy
          have := hp2 y hy a (by simp)
          simp; omega
        simp [List.countP_append, h0, hax]
      · rw [List.pairwise_append, List.pairwise_append]
        refine ⟨⟨hp1, by simp, hp2⟩, by simp, ?_⟩
        intro y hy z hz
        simp only [List.mem_singleton] at hz
        simp only [List.mem_append, List.mem_singleton] at hy
        rcases hy with h | rfl
        · have := hp2 y h a (by simp); omega
        · omega

theorem sortOuter_spec (q : List Int) : ∀ (p p0 : List Int), p.Pairwise (· ≤ ·) → p.Perm p0 → p0 ≠ [] →
    ∃ r : List Int, sortOuter (List.range' p.length q.length) (p ++ q) (inversions p0)
      = (r, inversions (p0 ++ q)) ∧ r.Pairwise (· ≤ ·) ∧ r.Perm (p0 ++ q) := by
  induction q with
  | nil => intro p p0 h hp _; exact ⟨p, by simp [sortOuter], h, by simpa using hp⟩
  | cons x q ih =>
    intro p p0 h hp hne
    simp only [List.length_cons, List.range'_succ, sortOuter]
    obtain ⟨r, hr, hs, hperm⟩ := sortInner_spec p h x q
    rw [hr]
    have hl : p.length + 1 = r.length := by simpa using hperm.length_eq.symm
    have hinv : inversions p0 + p.countP (fun y => x < y) = inversions (p0 ++ [x]) := by
      rw [inversions_append_singleton, hp.countP_eq]
    simp only [hinv, hl]
    obtain ⟨r', h1, h2, h3⟩ := ih r (p0 ++ [x]) hs (hperm.trans (hp.append_right _)) (by simp)
    exact ⟨r', by simpa using h1, h2, by simpa using h3⟩

theorem sortOuter_full (v : List Int) :
    ∃ r : List Int, sortOuter (List.range' 1 (v.length - 1)) v 0 = (r, inversions v) ∧
      r.Pairwise (· ≤ ·) ∧ r.Perm v := by
  cases v with
  | nil => exact ⟨[], rfl, by simp, by simp⟩
  | cons x q =>
    have := sortOuter_spec q [x] [x] (by simp) (List.Perm.refl _) (by simp)
    simpa [inversions] using this

theorem sortSign_spec (v : List Int) :
    ∃ r : List Int, sortSign v = (r, (-1) ^ inversions v) ∧ r.Pairwise (· ≤ ·) ∧ r.Perm v := by
  obtain ⟨r, h, hs, hp⟩ := sortOuter_full v
  refine ⟨r, ?_, hs, hp⟩
  simp only [sortSign, h]
  split
  · rename_i h1
    rw [Odd.neg_one_pow (Nat.odd_iff.mpr h1)]
  · rename_i h1
    rw [Even.neg_one_pow (Nat.even_iff.mpr (by omega))]

theorem sortSign_fst (v : List Int) : (sortSign v).1 = v.insertionSort (· ≤ ·) := by
  obtain ⟨r, h, hs, hp⟩ := sortSign_spec v
  rw [h]
  exact (hp.trans (List.perm_insertionSort _ v).symm).eq_of_pairwise'
    hs (List.pairwise_insertionSort _ v)

theorem sortSign_snd (v : List Int) : (sortSign v).2 = (-1) ^ inversions v := by
  obtain ⟨r, h, -, -⟩ := sortSign_spec v
  rw [h]

end Qosy
