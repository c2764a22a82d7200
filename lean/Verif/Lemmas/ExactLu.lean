import Verif.Spec.Sparsify
import Mathlib.Data.List.NodupEquivFin
import Mathlib.Data.Fintype.Basic
import Mathlib.Algebra.BigOperators.Fin

/-! # Every matrix has an LU decomposition with a row permutation -/

namespace Qosy
variable {n : ℕ}

/-- elimination with the rows `used` done: the columns vanish there -/
theorem exists_elimination (cols : List (Fin n → ℂ)) : ∀ (used : List (Fin n)), used.Nodup → (∀ c ∈ cols, ∀ r ∈ used, c r = 0) →
    ∃ (rows : List (Fin n)) (pl : List (Fin n → ℂ)) (U : ℕ → ℕ → ℂ), (used ++ rows).Nodup ∧ rows.length = min (n - used.length) cols.length ∧
      pl.length = rows.length ∧ (∀ c ∈ pl, ∀ r ∈ used, c r = 0) ∧
      (∀ (i j : ℕ) (hi : i < rows.length) (hj : j < pl.length), i ≤ j → pl[j] rows[i] = if i = j then 1 else 0) ∧
      (∀ i j, j < i → U i j = 0) ∧ ∀ (j : ℕ) (hj : j < cols.length), cols[j] = ∑ i : Fin pl.length, U i j • pl[i] := by
  obtain ⟨m, h⟩ : ∃ m, cols.length = m := ⟨_, rfl⟩
  induction m generalizing cols with
  | zero =>
    intro used hu _
    exact ⟨[], [], fun _ _ => 0, by simpa using hu, by simp [h], rfl, by simp, by simp, by simp, fun j hj => by omega⟩
  | succ k ih =>
    intro used hu hz
    obtain ⟨c, cols, rfl⟩ : ∃ c cs, cols = c :: cs := by
      cases cols with
      | nil => simp at h
      | cons c cs => exact ⟨c, cs, rfl⟩
    simp only [List.length_cons, Nat.add_right_cancel_iff] at h
    by_cases hn : used.length = n
    · have hall : ∀ r : Fin n, r ∈ used := by
        intro r
        by_contra hr
        have : (r :: used).Nodup := List.nodup_cons.mpr ⟨hr, hu⟩
        have := this.length_le_card
        simp at this
        omega
      refine ⟨[], [], fun _ _ => 0, by simpa using hu, by simp [hn], rfl, by simp, by simp, by simp, ?_⟩
      intro j hj
      funext r
      rw [hz _ (List.getElem_mem _) r (hall r)]
      simp
    · have hlt : used.length < n := by
        have := hu.length_le_card
        simp at this
        omega
      obtain ⟨r0, hr0⟩ : ∃ r : Fin n, r ∉ used := by
        by_contra hc
        push Not at hc
        have : (List.finRange n).length ≤ used.length := ((List.nodup_finRange n).subperm (fun r _ => hc r)).length_le
        simp at this
        omega
      -- a pivot row
      obtain ⟨p, v, α, hp, hv0, hvp, hc⟩ : ∃ (p : Fin n) (v : Fin n → ℂ) (α : ℂ), p ∉ used ∧ (∀ r ∈ used, v r = 0) ∧ v p = 1 ∧ c = α • v := by
        by_cases hcz : c = 0
        · refine ⟨r0, Pi.single r0 1, 0, hr0, fun r hr => ?_, by simp, by simp [hcz]⟩
          rw [Pi.single_eq_of_ne]
          rintro rfl; exact hr0 hr
        · obtain ⟨p, hp⟩ := Function.ne_iff.mp hcz
          have hp : c p ≠ 0 := hp
          refine ⟨p, (c p)⁻¹ • c, c p, fun hpu => hp (hz c (List.mem_cons_self ..) p hpu), fun r hr => ?_, ?_, ?_⟩
          · simp [hz c (List.mem_cons_self ..) r hr]
          · simp [hp]
          · rw [smul_smul, mul_inv_cancel₀ hp, one_smul]
      have hu' : (used ++ [p]).Nodup := by
        rw [List.nodup_append]
        exact ⟨hu, by simp, fun a ha b hb => by rintro rfl; simp at hb; subst hb; exact hp ha⟩
      obtain ⟨rows, pl, U, h1, h2, h3, h4, h5, h6, h7⟩ := ih (cols.map fun x => x - x p • v) (by simp [h]) (used ++ [p]) hu' (by
        intro x hx r hr
        obtain ⟨y, hy, rfl⟩ := List.mem_map.mp hx
        rcases List.mem_append.mp hr with hr | hr
        · simp [hz y (List.mem_cons_of_mem _ hy) r hr, hv0 r hr]
        · simp at hr; subst hr; simp [hvp])
      refine ⟨p :: rows, v :: pl, fun i j => match i, j with
        | 0, 0 => α
        | 0, j + 1 => (cols.getD j 0) p
        | _ + 1, 0 => 0
        | i + 1, j + 1 => U i j, by simpa using h1, ?_, by simp [h3], ?_, ?_, ?_, ?_⟩
      · simp only [List.length_cons, h2, List.length_append, List.length_map, h, List.length_nil]
        omega
      · intro x hx r hr
        rcases List.mem_cons.mp hx with rfl | hx
        · exact hv0 r hr
        · exact h4 x hx r (List.mem_append_left _ hr)
      · intro i j hi hj hij
        match i, j with
        | 0, 0 => simpa using hvp
        | 0, j + 1 =>
          simp only [List.getElem_cons_succ, List.getElem_cons_zero]
          rw [if_neg (by omega)]
          exact h4 _ (List.getElem_mem _) p (by simp)
        | i + 1, 0 => omega
        | i + 1, j + 1 =>
          simp only [List.getElem_cons_succ]
          rw [h5 i j (by simpa using hi) (by simpa using hj) (by omega)]
          simp
      · intro i j hij
        match i, j with
        | 0, _ => omega
        | i + 1, 0 => rfl
        | i + 1, j + 1 => exact h6 i j (by omega)
      · intro j hj
        show _ = ∑ i : Fin (pl.length + 1), _
        rw [Fin.sum_univ_succ]
        match j with
        | 0 =>
          simp only [List.getElem_cons_zero]
          rw [Finset.sum_eq_zero]
          · simpa using hc
          · intro i _; simp
        | j + 1 =>
          have hj' : j < cols.length := by simpa using hj
          have e := h7 j (by simp; omega)
          rw [List.getElem_map] at e
          simp only [List.getElem_cons_succ, Fin.val_zero, List.getD_eq_getElem?_getD, List.getElem?_eq_getElem hj', Option.getD_some, Fin.val_succ]
          have e' : cols[j] = cols[j] p • v + (cols[j] - cols[j] p • v) := by abel
          conv_lhs => rw [e', e]
          rfl

theorem exists_permutedLu (cols : List (Fin n → ℂ)) : ∃ pl, IsPermutedLu cols pl := by
  obtain ⟨rows, pl, U, h1, h2, h3, -, h5, h6, h7⟩ := exists_elimination cols [] List.nodup_nil (by simp)
  rw [List.nil_append] at h1
  refine ⟨pl, by rw [h3, h2]; simp, ?_, U, h6, h7⟩
  let all := rows ++ (List.finRange n).filter (fun r => r ∉ rows)
  have hnd : all.Nodup := by
    rw [List.nodup_append]
    refine ⟨h1, (List.nodup_finRange n).filter _, ?_⟩
    rintro a ha b hb rfl
    simp at hb
    exact hb ha
  have hmem : ∀ r : Fin n, r ∈ all := by
    intro r
    by_cases hr : r ∈ rows
    · exact List.mem_append_left _ hr
    · exact List.mem_append_right _ (by simp [hr])
  have hlen : all.length = n := by
    have := List.Nodup.getEquivOfForallMemList all hnd hmem
    simpa using Fintype.card_congr this
  refine ⟨(finCongr hlen.symm).trans (List.Nodup.getEquivOfForallMemList all hnd hmem), ?_⟩
  intro i j hi hj hij
  have hir : i < rows.length := by omega
  have e : ((finCongr hlen.symm).trans (List.Nodup.getEquivOfForallMemList all hnd hmem)) ⟨i, hi⟩ = rows[i] := by
    simp [all, List.getElem_append_left hir]
  rw [e]
  exact h5 i j hir hj hij

theorem exists_exactLu : ∃ lu : PermutedLu, ExactLu lu :=
  ⟨fun _ cols => (exists_permutedLu cols).choose, fun _ cols => (exists_permutedLu cols).choose_spec⟩

theorem exists_isSort : ∃ argsort : List ℕ → List ℕ, IsSort argsort := by
  refine ⟨fun l => (List.range l.length).mergeSort (fun i j => l.getD i 0 ≤ l.getD j 0), fun l => ⟨List.mergeSort_perm _ _, ?_⟩⟩
  have := List.pairwise_mergeSort (le := fun i j => decide (l.getD i 0 ≤ l.getD j 0)) (by
    intro a b c h1 h2
    simp only [decide_eq_true_eq] at h1 h2 ⊢
    exact h1.trans h2) (by
    intro a b
    simp only [Bool.or_eq_true, decide_eq_true_eq]
    exact le_total _ _) (List.range l.length)
  simpa using this

end Qosy
