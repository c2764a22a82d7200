import Verif.Lemmas.Sparsify
import Verif.Lemmas.ExactLu
import Mathlib.Analysis.Complex.Basic
import Mathlib.Data.Complex.BigOperators

/-!
# `sparsify` spans the same space (C66)
-/

namespace Qosy
variable {n : ℕ} {lu : PermutedLu} {argsort : List ℕ → List ℕ}

theorem sparsifyLu_ok (hlu : ExactLu lu) (cols : List (Fin n → ℂ)) (o : Bool) :
    ∃ q, sparsifyLu lu cols o = .ok q ∧ q.length = min n cols.length ∧ IndependentColumns q ∧ colSpan cols ≤ colSpan q ∧
      (o = true → OrthonormalColumns q) := by
  have h := hlu n cols
  have hr := h.independent.perm (List.reverse_perm _).symm
  have hs : colSpan (lu n cols).reverse = colSpan (lu n cols) := colSpan_perm (List.reverse_perm _)
  cases o with
  | false =>
    exact ⟨(lu n cols).reverse, by simp [sparsifyLu], by simp [h.len], hr, hs ▸ h.span_le, by simp⟩
  | true =>
    obtain ⟨q, h1, h2, h3, h4⟩ := gramSchmidt_independent hr
    exact ⟨q, by simp [sparsifyLu, h1], by simp [h4, h.len], orthonormal_independent h2, by rw [h3, hs]; exact h.span_le, fun _ => h2⟩

/-- **C66** for at least two and at most `n` vectors in `n` dimensions: `sparsify` gives as many unit vectors, linearly independent, whose
span contains the given vectors; they are orthonormal if asked for, and ordered by the number of entries larger than the tolerance. -/
theorem C66_sparsify (hlu : ExactLu lu) (hsort : IsSort argsort) (cols : List (Fin n → ℂ)) (o : Bool) (tol : ℝ) (h2 : 2 ≤ cols.length) (hn : cols.length ≤ n) :
    ∃ q, sparsify lu argsort cols o tol = .ok q ∧ q.length = cols.length ∧ (∀ v ∈ q, vnorm v = 1) ∧ IndependentColumns q ∧ colSpan cols ≤ colSpan q ∧
      (o = true → OrthonormalColumns q) ∧ q.Pairwise (fun v w => countNonzero tol v ≤ countNonzero tol w) := by
  obtain ⟨r, hr, hlen, hind, hspan, hort⟩ := sparsifyLu_ok hlu cols o
  rw [min_eq_right hn] at hlen
  have hnz : ∀ v ∈ r, v ≠ 0 := fun v hv => hind.ne_zero hv
  set u := r.map fun v => vdiv v (vnorm v) with hu
  have hul : u.length = r.length := by simp [hu]
  have hsp : colSpan u = colSpan r := colSpan_normalize hnz
  have huo : o = true → OrthonormalColumns u := fun ho => by
    rw [hu, map_normalize_unit fun v hv => (hort ho).unit hv]
    exact hort ho
  obtain ⟨hp, hs⟩ := hsort (u.map (countNonzero tol))
  rw [List.length_map] at hp
  obtain ⟨q, hq, hqp, hf⟩ := mapM_pyGet_perm hp
  have hui : IndependentColumns u := independent_of_finrank (by rw [hsp, hind.finrank, hul])
  refine ⟨q, ?_, by rw [hqp.length_eq, hul, hlen], ?_, hui.perm hqp.symm, ?_, fun ho => (huo ho).perm hqp.symm, ?_⟩
  · rw [sparsify, if_neg (by omega)]
    simp only [hr, bind, Except.bind]
    rw [if_neg (by omega), List.take_of_length_le (by omega), mapM_normalize hnz]
    exact hq
  · intro v hv
    obtain ⟨w, hw, rfl⟩ := List.mem_map.mp (hqp.mem_iff.mp hv)
    exact vnorm_vdiv (hnz w hw)
  · rw [colSpan_perm hqp, hsp]; exact hspan
  · have key : ∀ {inds : List ℕ} {q : List (Fin n → ℂ)}, List.Forall₂ (fun i x => u[i]? = some x) inds q →
        inds.Pairwise (fun i j => (u.map (countNonzero tol)).getD i 0 ≤ (u.map (countNonzero tol)).getD j 0) →
        q.Pairwise (fun v w => countNonzero tol v ≤ countNonzero tol w) := by
      intro inds q h
      induction h with
      | nil => intro _; exact List.Pairwise.nil
      | @cons i x inds q hix hf ih =>
        intro hpw
        rw [List.pairwise_cons] at hpw ⊢
        refine ⟨fun y hy => ?_, ih hpw.2⟩
        obtain ⟨j, hj, hy⟩ : ∃ j ∈ inds, u[j]? = some y := by
          clear ih hpw
          induction hf with
          | nil => simp at hy
          | @cons j z inds q hjz hf ih =>
            rcases List.mem_cons.mp hy with rfl | hy
            · exact ⟨j, List.mem_cons_self .., hjz⟩
            · obtain ⟨k, hk, h⟩ := ih hy
              exact ⟨k, List.mem_cons_of_mem _ hk, h⟩
        have := hpw.1 j hj
        simpa [List.getD_eq_getElem?_getD, hix, hy] using this
    exact key hf hs

/-- **C66** the span is the same exactly when the given vectors are linearly independent -/
theorem C66_span (hlu : ExactLu lu) (hsort : IsSort argsort) (cols : List (Fin n → ℂ)) (o : Bool) (tol : ℝ) (h2 : 2 ≤ cols.length) (hn : cols.length ≤ n) :
    ∃ q, sparsify lu argsort cols o tol = .ok q ∧ (colSpan q = colSpan cols ↔ IndependentColumns cols) := by
  obtain ⟨q, h, hl, -, hi, hs, -⟩ := C66_sparsify hlu hsort cols o tol h2 hn
  refine ⟨q, h, fun he => independent_of_finrank (by rw [← he, hi.finrank, hl]), fun hc => ?_⟩
  exact (Submodule.eq_of_le_of_finrank_eq hs (by rw [hi.finrank, hc.finrank, hl])).symm

/-- **C66** more vectors than dimensions raise IndexError -/
theorem C66_too_many (hlu : ExactLu lu) (cols : List (Fin n → ℂ)) (o : Bool) (tol : ℝ) (h2 : 2 ≤ cols.length) (hn : n < cols.length) :
    sparsify lu argsort cols o tol = .error .indexError := by
  obtain ⟨r, hr, hlen, -⟩ := sparsifyLu_ok hlu cols o
  rw [sparsify, if_neg (by omega)]
  simp only [hr, bind, Except.bind]
  rw [if_pos (by omega)]

/-- **C66** no vector or a single vector is returned as given, not normalized -/
theorem C66_short (cols : List (Fin n → ℂ)) (o : Bool) (tol : ℝ) (h : cols.length ≤ 1) : sparsify lu argsort cols o tol = .ok cols := by
  rw [sparsify, if_pos h]

/-- **C66 refuted** "spans the same space" fails for dependent vectors: from two copies of `(1, 0)`, `sparsify` makes vectors that span
the whole plane. -/
theorem C66_refuted (hlu : ExactLu lu) (hsort : IsSort argsort) (o : Bool) (tol : ℝ) :
    ∃ q, sparsify lu argsort [![1, 0], ![1, 0]] o tol = .ok q ∧ (![0, 1] : Fin 2 → ℂ) ∈ colSpan q ∧ (![0, 1] : Fin 2 → ℂ) ∉ colSpan [![1, 0], ![1, 0]] := by
  obtain ⟨q, h, hl, -, hi, -⟩ := C66_sparsify hlu hsort [![1, 0], ![1, 0]] o tol (by simp) (by simp)
  refine ⟨q, h, ?_, ?_⟩
  · have : colSpan q = ⊤ := Submodule.eq_top_of_finrank_eq (by rw [hi.finrank, hl]; simp)
    rw [this]; trivial
  · intro hm
    have hle : colSpan [![1, 0], ![1, 0]] ≤ LinearMap.ker (LinearMap.proj (R := ℂ) (φ := fun _ : Fin 2 => ℂ) 1) := by
      rw [colSpan, Submodule.span_le]
      intro v hv
      simp at hv
      subst hv
      simp
    simpa using hle hm

/-- routines with the properties assumed of `sla.lu` and `np.argsort` exist -/
example : ∃ (lu : PermutedLu) (argsort : List ℕ → List ℕ), ExactLu lu ∧ IsSort argsort :=
  ⟨_, _, exists_exactLu.choose_spec, exists_isSort.choose_spec⟩

/-- the example of the docstring: two independent vectors that are not orthogonal -/
example : 2 ≤ [(![1, 1] : Fin 2 → ℂ), ![1, 0]].length ∧ [(![1, 1] : Fin 2 → ℂ), ![1, 0]].length ≤ 2 ∧ IndependentColumns [(![1, 1] : Fin 2 → ℂ), ![1, 0]] := by
  refine ⟨by simp, by simp, ?_⟩
  show LinearIndependent ℂ (fun i : Fin 2 => [(![1, 1] : Fin 2 → ℂ), ![1, 0]][i])
  rw [Fintype.linearIndependent_iff]
  intro g hg
  have h0 := congrFun hg 0
  have h1 := congrFun hg 1
  simp [Fin.sum_univ_two] at h0 h1
  intro i
  fin_cases i
  · exact h1
  · simpa [h1] using h0

/-- three vectors in the plane -/
example : 2 < [(![1, 1] : Fin 2 → ℂ), ![1, 0], ![0, 1]].length := by simp

end Qosy
