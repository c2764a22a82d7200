import Verif.Spec.Algorithms
import Verif.Lemmas.Distance
import Mathlib.Data.List.Sort

/-! # Truncation of bases -/

namespace Qosy
open Coef
variable {K : Type} [Field K] [StarRing K] [Coef K]

/-- the contract of `np.argsort` can be met -/
theorem exists_isArgsort : ∃ argsort : List K → List ℕ, IsArgsort argsort := by
  classical
  refine ⟨fun v => (List.range v.length).mergeSort (fun i j => decide (‖toC (v.getD i 0)‖ ≤ ‖toC (v.getD j 0)‖)), fun v => ⟨List.mergeSort_perm _ _, ?_⟩⟩
  have := List.pairwise_mergeSort (le := fun i j => decide (‖toC (v.getD i 0)‖ ≤ ‖toC (v.getD j 0)‖))
    (fun a b c => by simp only [decide_eq_true_eq]; exact le_trans) (fun a b => by simp only [Bool.or_eq_true, decide_eq_true_eq]; exact le_total _ _)
    (List.range v.length)
  exact this.imp (by simp)

theorem coefAt_get {basis : Basis} (hn : basis.strs.Nodup) (v : List K) {i : ℕ} {s : OpString} (h : basis.strs[i]? = some s) :
    coefAt basis v s = v.getD i 0 := by
  obtain ⟨h1, h2⟩ := List.getElem?_eq_some_iff.mp h
  rw [coefAt, ← h2, List.Nodup.idxOf_getElem hn]

theorem truncateBasis_ok {argsort : List K → List ℕ} (ha : IsArgsort argsort) {basis : Basis} (hn : basis.strs.Nodup) {vector vec : List K}
    {filterFun : Option (List K → Basis → List K)} (hv : vec = filteredVector filterFun vector basis)
    (hl : vec.length = basis.strs.length) (θ : ℚ) (n : ℕ) :
    ∃ strs, truncateBasis argsort basis vector θ n filterFun = .ok (Basis.ofList strs) ∧ strs.Nodup ∧ IsTruncation basis vec θ n (Basis.ofList strs) := by
  obtain ⟨hperm, hsort⟩ := ha vec
  set I := (argsort vec).reverse.filter (fun i => absGt (vec.getD i 0) θ) with hI
  have hIn : I.Nodup := ((List.nodup_reverse.mpr ((hperm.nodup_iff).mpr List.nodup_range)).filter _)
  have hImem : ∀ i, i ∈ I ↔ i < basis.strs.length ∧ (θ : ℝ) < ‖toC (vec.getD i 0)‖ := by
    intro i
    rw [hI, List.mem_filter, List.mem_reverse, hperm.mem_iff, List.mem_range, hl, absGt_iff]
  have hIs : I.Pairwise (fun i j => ‖toC (vec.getD j 0)‖ ≤ ‖toC (vec.getD i 0)‖) := (List.pairwise_reverse.mpr hsort).filter _
  have htake : (if n ≤ I.length then I.take n else I) = I.take n := by
    split
    · rfl
    · rename_i h; rw [List.take_of_length_le (by omega)]
  have hJ : ∀ i ∈ I.take n, i < basis.strs.length := fun i hi => ((hImem i).mp (List.mem_of_mem_take hi)).1
  let g : ℕ → OpString := fun i => (basis.strs[i]?).getD ⟨[], [], .pauli, .float1⟩
  have hg : ∀ i, i < basis.strs.length → basis.strs[i]? = some (g i) := by
    intro i hi
    simp only [g, List.getElem?_eq_getElem hi, Option.getD_some]
  have hmap : (I.take n).mapM (pyGet basis.strs) = .ok ((I.take n).map g) := by
    apply mapM_ok
    intro i hi
    rw [pyGet, hg i (hJ i hi)]
  have hginj : ∀ i ∈ I.take n, ∀ j ∈ I.take n, g i = g j → i = j := by
    intro i hi j hj h
    have h1 := hg i (hJ i hi)
    have h2 := hg j (hJ j hj)
    rw [h] at h1
    obtain ⟨a1, a2⟩ := List.getElem?_eq_some_iff.mp h1
    obtain ⟨b1, b2⟩ := List.getElem?_eq_some_iff.mp h2
    exact (List.Nodup.getElem_inj_iff hn).mp (a2.trans b2.symm)
  have hnd : ((I.take n).map g).Nodup := List.Nodup.map_on hginj (hIn.sublist (List.take_sublist _ _))
  have hco : ∀ i, i < basis.strs.length → coefAt basis vec (g i) = vec.getD i 0 := fun i hi => coefAt_get hn vec (hg i hi)
  refine ⟨(I.take n).map g, ?_, hnd, ⟨(Basis.Inv.ofList hnd).indexedSet, ?_, ?_, ?_, ?_, ?_⟩⟩
  · simp only [truncateBasis, ← hv, ← hI, htake, hmap, bind, Except.bind, mkBasis_ok hnd]
  · intro s hs
    obtain ⟨i, hi, rfl⟩ := List.mem_map.mp hs
    have h := (hImem i).mp (List.mem_of_mem_take hi)
    exact ⟨List.mem_of_getElem? (hg i h.1), by rw [hco i h.1]; exact h.2⟩
  · simp only [Basis.ofList_len, List.length_map, List.length_take]; omega
  · intro s hs hθ
    obtain ⟨i, hi, rfl⟩ := List.getElem_of_mem hs
    rw [coefAt_get hn vec (List.getElem?_eq_getElem hi)] at hθ
    have him : i ∈ I := (hImem i).mpr ⟨hi, hθ⟩
    by_cases hlen : n ≤ I.length
    · right
      simp only [Basis.ofList_len, List.length_map, List.length_take]; omega
    · left
      simp only [Basis.ofList_strs]
      rw [List.take_of_length_le (by omega)]
      refine List.mem_map.mpr ⟨i, him, ?_⟩
      have := hg i hi
      rw [List.getElem?_eq_getElem hi, Option.some.injEq] at this
      exact this.symm
  · simp only [Basis.ofList_strs]
    rw [List.pairwise_map]
    refine List.Pairwise.imp_of_mem ?_ (hIs.sublist (List.take_sublist n I))
    intro i j hi hj h
    rw [hco i (hJ i hi), hco j (hJ j hj)]
    exact h
  · intro s hs hnot hθ t ht
    obtain ⟨i, hi, rfl⟩ := List.getElem_of_mem hs
    obtain ⟨j, hj, rfl⟩ := List.mem_map.mp ht
    rw [coefAt_get hn vec (List.getElem?_eq_getElem hi)] at hθ ⊢
    rw [hco j (hJ j hj)]
    have him : i ∈ I := (hImem i).mpr ⟨hi, hθ⟩
    have hid : i ∈ I.drop n := by
      rw [← List.take_append_drop n I, List.mem_append] at him
      rcases him with him | him
      · exfalso
        apply hnot
        refine List.mem_map.mpr ⟨i, him, ?_⟩
        have := hg i hi
        rw [List.getElem?_eq_getElem hi, Option.some.injEq] at this
        exact this.symm
      · exact him
    have := hIs
    rw [← List.take_append_drop n I, List.pairwise_append] at this
    exact this.2.2 j hj i hid

end Qosy
