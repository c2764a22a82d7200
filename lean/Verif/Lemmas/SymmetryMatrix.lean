import Verif.Lemmas.PermGroup
import Verif.Lemmas.Liouvillian
import Verif.Lemmas.Conversion

/-! # Symmetry matrices -/

namespace Qosy
open Coef
variable {K : Type} [Field K] [StarRing K] [Coef K]
variable {t : OpType} {V : OpString → Prop}

/-- coefficients that do not exceed the tolerance are dropped -/
def dropSmall (tol : ℚ) (x : K) : K := if absGt x tol then x else 0

theorem dropSmall_zero (tol : ℚ) : dropSmall tol (0 : K) = 0 := by unfold dropSmall; split <;> rfl

theorem dropSmall_eq {tol : ℚ} {x : K} (h : x = 0 ∨ absGt x tol = true) : dropSmall tol x = x := by
  rcases h with rfl | h
  · exact dropSmall_zero tol
  · rw [dropSmall, if_pos h]

/-- the entries of one column -/
def symCol (basis : List OpString) (tol : ℚ) (j : ℕ) (ts : List (K × OpString)) : List (ℕ × ℕ × K) :=
  ts.filterMap (fun t => if t.2 ∈ basis ∧ absGt t.1 tol = true then some (basis.idxOf t.2, j, t.1) else none)

theorem symmetryColumn_ok (basis : List OpString) (tol : ℚ) (j : ℕ) (ts : List (K × OpString)) :
    symmetryColumn (Basis.ofList basis) tol j ts = .ok (symCol basis tol j ts) := by
  rw [symmetryColumn, symCol]
  apply collect_ok
  intro t _
  rw [Basis.contains_ofList]
  by_cases hm : t.2 ∈ basis
  · by_cases hb : absGt t.1 tol = true
    · simp [hm, hb, Basis.index_ofList, bind, Except.bind]
    · simp [hm, hb, Basis.index_ofList, bind, Except.bind]
  · simp [hm]

theorem tget_symCol {basis : List OpString} (hn : basis.Nodup) {tol : ℚ} {j : ℕ} {i : ℕ} (hi : i < basis.length) (j' : ℕ) :
    ∀ {ts : List (K × OpString)}, (ts.map Prod.snd).Nodup →
    tget (symCol basis tol j ts) i j' = if j = j' then dropSmall tol (coefT ts basis[i]) else 0
  | [], _ => by simp [symCol, dropSmall_zero]
  | t :: ts, h => by
    rw [List.map_cons, List.nodup_cons] at h
    have ih := tget_symCol hn (tol := tol) (j := j) hi j' h.2
    rw [coefT_cons]
    have e : symCol basis tol j (t :: ts) = (if t.2 ∈ basis ∧ absGt t.1 tol = true then [(basis.idxOf t.2, j, t.1)] else []) ++ symCol basis tol j ts := by
      rw [symCol, List.filterMap_cons]
      split <;> rename_i hx
      · split at hx
        · simp at hx
        · rename_i h'; rw [if_neg h']; rfl
      · split at hx
        · rename_i h'; rw [if_pos h']; simp only [Option.some.injEq] at hx; rw [← hx]; rfl
        · simp at hx
    rw [e, tget_append, ih]
    by_cases h2 : t.2 = basis[i]
    · have hc : coefT ts basis[i] = 0 := by
        apply coefT_of_not_mem
        rw [← h2]; exact h.1
      have hm : t.2 ∈ basis := h2 ▸ List.getElem_mem _
      rw [hc, dropSmall_zero, if_pos h2, add_zero]
      by_cases hb : absGt t.1 tol = true
      · rw [if_pos ⟨hm, hb⟩, tget_cons, h2, hn.idxOf_getElem, dropSmall, if_pos hb]
        by_cases hj : j = j' <;> simp [hj]
      · rw [if_neg (fun h => hb h.2), dropSmall, if_neg hb]; simp
    · rw [if_neg h2, zero_add]
      have : tget (if t.2 ∈ basis ∧ absGt t.1 tol = true then [(basis.idxOf t.2, j, t.1)] else []) i j' = 0 := by
        apply tget_eq_zero
        intro x hx
        split at hx
        · rename_i h'
          rw [List.mem_singleton] at hx
          subst hx
          left
          intro h3
          apply h2
          subst h3
          exact (List.getElem_idxOf _).symm
        · simp at hx
      rw [this, zero_add]

/-- the entries of the symmetry matrix -/
theorem symmetryMatrix_ok {b : List OpString} (hn : b.Nodup) {T : Transformation K} {tol : ℚ}
    (h : ∀ s ∈ b, ∃ O, T s = .ok O ∧ O.WF) :
    ∃ M, symmetryMatrix (Basis.ofList b) T tol = .ok M ∧ M.nrows = b.length ∧ M.ncols = b.length ∧ M.WF ∧
      ∀ i j (hi : i < b.length) (hj : j < b.length), M.get i j = dropSmall tol (T.entry b[i] b[j]) := by
  have hcols : b.zipIdx.mapM (fun e => do
      let r ← T e.1
      symmetryColumn (Basis.ofList b) tol e.2 r.terms) = .ok (b.zipIdx.map (fun e => symCol b tol e.2 (T.image e.1))) := by
    apply mapM_ok
    intro e he
    have hm : e.1 ∈ b := (List.mem_zipIdx' he).2 ▸ List.getElem_mem _
    obtain ⟨O, h1, -⟩ := h e.1 hm
    rw [image_eq h1]
    simp only [h1, bind, Except.bind]
    exact symmetryColumn_ok ..
  have hwf : (⟨b.length, b.length, (b.zipIdx.map (fun e => symCol b tol e.2 (T.image e.1))).flatten⟩ : Mat K).WF := by
    intro e he
    obtain ⟨D, hD, he⟩ := List.mem_flatten.mp he
    obtain ⟨x, hx, rfl⟩ := List.mem_map.mp hD
    obtain ⟨t, ht', hte⟩ := List.mem_filterMap.mp he
    have hx' := List.mem_zipIdx' hx
    by_cases hb : t.2 ∈ b ∧ absGt t.1 tol = true
    · rw [if_pos hb] at hte
      simp only [Option.some.injEq] at hte
      rw [← hte]
      exact ⟨List.idxOf_lt_length_iff.mpr hb.1, hx'.1⟩
    · rw [if_neg hb] at hte; cases hte
  refine ⟨_, ?_, rfl, rfl, hwf, ?_⟩
  · rw [symmetryMatrix]
    simp only [bind, Except.bind, show (Basis.ofList b).strs = b from rfl] at hcols ⊢
    rw [hcols]
    exact mkCsr_ok hwf
  · intro i j hi hj
    rw [Mat.get_eq, tget_flatten, List.map_map]
    have e1 : b.zipIdx.map ((fun D => tget D i j) ∘ fun e => symCol b tol e.2 (T.image e.1)) =
        b.zipIdx.map (fun e => if e.2 = j then dropSmall tol (T.entry b[i] e.1) else 0) := by
      apply List.map_congr_left
      intro e he
      have hm : e.1 ∈ b := (List.mem_zipIdx' he).2 ▸ List.getElem_mem _
      obtain ⟨O, h1, h2⟩ := h e.1 hm
      rw [Function.comp, entry_eq h1, image_eq h1]
      exact tget_symCol hn hi j (by
        rw [Operator.terms, List.map_snd_zip (by have := h2.len; omega)]; exact h2.basis.2)
    rw [e1]
    have key : ∀ (l : List OpString) (n : ℕ) (g : OpString → K), ((l.zipIdx n).map (fun e => if e.2 = j then g e.1 else 0)).sum =
        if h : n ≤ j ∧ j - n < l.length then g (l[j - n]'h.2) else 0 := by
      intro l
      induction l with
      | nil => simp
      | cons x l ih =>
        intro n g
        rw [List.zipIdx_cons, List.map_cons, List.sum_cons, ih]
        by_cases h1 : n = j
        · subst h1; simp
        · by_cases h2 : n + 1 ≤ j ∧ j - (n + 1) < l.length
          · have h3 : n ≤ j ∧ j - n < (x :: l).length := by simp only [List.length_cons]; omega
            rw [dif_pos h2, dif_pos h3, if_neg h1, zero_add]
            congr 1
            have : j - n = (j - (n + 1)) + 1 := by omega
            simp [this]
          · have h3 : ¬ (n ≤ j ∧ j - n < (x :: l).length) := by simp only [List.length_cons]; omega
            rw [dif_neg h2, dif_neg h3, if_neg h1, zero_add]
    rw [key b 0 (fun s => dropSmall tol (T.entry b[i] s))]
    simp [hj]

/-- a sum over the terms of an Operator as a sum over a basis -/
theorem sum_terms_basis {b : List OpString} (hn : b.Nodup) {A : Operator K} (hA : ∀ s ∈ A.basis.strs, s ∈ b) (f : OpString → K) :
    (A.terms.map (fun x => x.1 * f x.2)).sum = ∑ i : Fin b.length, A.coef b[i] * f b[i] := by
  have := denT_eq_sum (K := K) f hn A.terms (fun t ht => hA _ (mem_terms ht))
  simp only [smul_eq_mul] at this
  change _ = ∑ i : Fin b.length, coefT A.terms b[i] * f b[i]
  rw [this, denT]; rfl

end Qosy
