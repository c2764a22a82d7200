import Verif.Lemmas.PermSign
import Verif.Lemmas.Sort

/-! # The merge-sort method of `sort_sign` -/

namespace Qosy

theorem argInsert_perm (v : List Int) (i : ℕ) (js : List ℕ) : (argInsert v i js).Perm (i :: js) := by
  induction js with
  | nil => simp [argInsert]
  | cons j js ih =>
    rw [argInsert]
    split
    · exact List.Perm.refl _
    · exact (List.Perm.cons j ih).trans (List.Perm.swap i j js)

theorem argInsert_spec (v : List Int) (i : ℕ) (js : List ℕ) (hlt : ∀ j ∈ js, i < j)
    (hs : (js.map (fun k => v.getD k 0)).Pairwise (· ≤ ·)) :
    ((argInsert v i js).map (fun k => v.getD k 0)).Pairwise (· ≤ ·) ∧
    inversions ((argInsert v i js).map (fun k : ℕ => (k : ℤ))) =
      (js.map (fun k => v.getD k 0)).countP (fun y => y < v.getD i 0) + inversions (js.map (fun k : ℕ => (k : ℤ))) := by
  induction js with
  | nil => simp [argInsert, inversions]
  | cons j js ih =>
    rw [List.map_cons, List.pairwise_cons] at hs
    rw [argInsert]
    split
    · rename_i hle
      refine ⟨?_, ?_⟩
      · rw [List.map_cons, List.pairwise_cons]
        refine ⟨?_, by rw [List.map_cons, List.pairwise_cons]; exact hs⟩
        intro y hy
        rw [List.map_cons] at hy
        rcases List.mem_cons.mp hy with rfl | hy
        · exact hle
        · exact hle.trans (hs.1 y hy)
      · have h0 : ((j :: js).map (fun k => v.getD k 0)).countP (fun y => y < v.getD i 0) = 0 := by
          rw [List.countP_eq_zero]
          intro y hy
          rw [List.map_cons] at hy
          rcases List.mem_cons.mp hy with rfl | hy
          · simp only [decide_eq_true_eq, not_lt]; exact hle
          · simp only [decide_eq_true_eq, not_lt]; exact hle.trans (hs.1 y hy)
        rw [h0, List.map_cons, inversions]
        congr 1
        rw [List.countP_eq_zero]
        intro y hy
        obtain ⟨k, hk, rfl⟩ := List.mem_map.mp hy
        have := hlt k hk
        simp only [decide_eq_true_eq, not_lt]; omega
    · rename_i hnle
      obtain ⟨h1, h2⟩ := ih (fun k hk => hlt k (List.mem_cons_of_mem _ hk)) hs.2
      have hp := argInsert_perm v i js
      refine ⟨?_, ?_⟩
      · rw [List.map_cons, List.pairwise_cons]
        refine ⟨?_, h1⟩
        intro y hy
        rw [(hp.map _).mem_iff, List.map_cons] at hy
        rcases List.mem_cons.mp hy with rfl | hy
        · omega
        · exact hs.1 y hy
      · rw [List.map_cons, inversions, h2, (hp.map _).countP_eq, List.map_cons, List.countP_cons, List.map_cons,
          List.countP_cons, List.map_cons, inversions]
        have := hlt j (List.mem_cons_self ..)
        have h3 : decide ((i : ℤ) < (j : ℤ)) = true := by simp; omega
        have h4 : decide (v.getD j 0 < v.getD i 0) = true := by simp only [decide_eq_true_eq]; omega
        rw [h3, h4]
        simp only [if_true]; omega

theorem argsort_foldr_spec (v : List Int) : ∀ (is : List ℕ), is.Pairwise (· < ·) →
    ((is.foldr (argInsert v) []).Perm is ∧
    ((is.foldr (argInsert v) []).map (fun k => v.getD k 0)).Pairwise (· ≤ ·) ∧
    inversions ((is.foldr (argInsert v) []).map (fun k : ℕ => (k : ℤ))) = inversions (is.map (fun k => v.getD k 0))) := by
  intro is
  induction is with
  | nil => simp [inversions]
  | cons i is ih =>
    intro h
    rw [List.pairwise_cons] at h
    obtain ⟨h1, h2, h3⟩ := ih h.2
    obtain ⟨h4, h5⟩ := argInsert_spec v i (is.foldr (argInsert v) []) (fun j hj => h.1 j (h1.mem_iff.mp hj)) h2
    rw [List.foldr_cons]
    refine ⟨(argInsert_perm v i _).trans (h1.cons i), h4, ?_⟩
    rw [h5, h3, List.map_cons, inversions, (h1.map _).countP_eq]

theorem map_getD_range (v : List Int) : (List.range v.length).map (fun k => v.getD k 0) = v := by
  apply List.ext_getElem
  · simp
  · intro i h1 h2; simp [h2]

theorem sortSignMerge_spec (v : List Int) : sortSignMerge v = .ok (v.insertionSort (· ≤ ·), (-1) ^ inversions v) := by
  obtain ⟨h1, h2, h3⟩ := argsort_foldr_spec v (List.range v.length) List.pairwise_lt_range
  rw [map_getD_range] at h3
  have hp : IsPermArray (argsortStable v) := by
    rw [IsPermArray, argsortStable, h1.length_eq, List.length_range]; exact h1
  obtain ⟨σ, hσ⟩ := hp.exists_perm
  have hsg : sign (argsortStable v) = .ok ((-1) ^ inversions v) := by
    rw [← h3, ← argsortStable, hσ, sign_permArray, sign_eq_inversions]
  have hsort : (argsortStable v).map (fun i => v.getD i 0) = v.insertionSort (· ≤ ·) := by
    have e : ((argsortStable v).map (fun i => v.getD i 0)).Perm v := by
      have := h1.map (fun k => v.getD k 0)
      rwa [map_getD_range] at this
    exact (e.trans (List.perm_insertionSort _ v).symm).eq_of_pairwise' h2 (List.pairwise_insertionSort _ v)
  simp only [sortSignMerge, hsg, bind, Except.bind, hsort]

end Qosy
