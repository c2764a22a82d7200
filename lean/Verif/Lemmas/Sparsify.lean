import Verif.Spec.Sparsify
import Verif.Lemmas.LinAlg
import Verif.Props.LinAlg
import Mathlib.LinearAlgebra.Dimension.Constructions
import Mathlib.LinearAlgebra.FiniteDimensional.Lemmas

/-! # The steps of `sparsify` -/

namespace Qosy
variable {n : ℕ}

theorem colSpan_range (q : List (Fin n → ℂ)) : colSpan q = Submodule.span ℂ (Set.range (fun i : Fin q.length => q[i])) := by
  rw [colSpan]
  congr 1
  ext v
  simp only [Set.mem_setOf_eq, Set.mem_range]
  constructor
  · intro h
    obtain ⟨i, hi, rfl⟩ := List.getElem_of_mem h
    exact ⟨⟨i, hi⟩, rfl⟩
  · rintro ⟨i, rfl⟩; exact List.getElem_mem _

theorem IndependentColumns.finrank {q : List (Fin n → ℂ)} (h : IndependentColumns q) : Module.finrank ℂ (colSpan q) = q.length := by
  rw [colSpan_range, finrank_span_eq_card h, Fintype.card_fin]

theorem independent_of_finrank {q : List (Fin n → ℂ)} (h : q.length ≤ Module.finrank ℂ (colSpan q)) : IndependentColumns q := by
  rw [colSpan_range] at h
  exact linearIndependent_iff_card_le_finrank_span.mpr (by rw [Fintype.card_fin]; exact h)

theorem finrank_colSpan_le (q : List (Fin n → ℂ)) : Module.finrank ℂ (colSpan q) ≤ q.length := by
  rw [colSpan_range]
  exact (finrank_range_le_card _).trans (by rw [Fintype.card_fin])

theorem colSpan_perm {p q : List (Fin n → ℂ)} (h : p.Perm q) : colSpan p = colSpan q := by
  rw [colSpan, colSpan]
  congr 1
  ext v; exact h.mem_iff

theorem IndependentColumns.perm {p q : List (Fin n → ℂ)} (h : p.Perm q) (hp : IndependentColumns p) : IndependentColumns q :=
  independent_of_finrank (by rw [← colSpan_perm h, hp.finrank, h.length_eq])

theorem IndependentColumns.le {q : List (Fin n → ℂ)} (h : IndependentColumns q) : q.length ≤ n := by
  rw [← h.finrank]
  exact (Submodule.finrank_le _).trans (by simp)

theorem IndependentColumns.ne_zero {q : List (Fin n → ℂ)} (h : IndependentColumns q) {v : Fin n → ℂ} (hv : v ∈ q) : v ≠ 0 := by
  obtain ⟨i, hi, rfl⟩ := List.getElem_of_mem hv
  exact LinearIndependent.ne_zero (⟨i, hi⟩ : Fin q.length) h

theorem orthonormal_independent {q : List (Fin n → ℂ)} (h : OrthonormalColumns q) : IndependentColumns q := by
  rw [IndependentColumns, Fintype.linearIndependent_iff]
  intro g hg i
  have h1 : vdot q[i] (∑ j, g j • q[j]) = g i := by
    have : vdot q[i] (∑ j, g j • q[j]) = ∑ j, g j * vdot q[i] q[j] := by
      unfold vdot
      simp only [Finset.sum_apply, Pi.smul_apply, smul_eq_mul, Finset.mul_sum]
      rw [Finset.sum_comm]
      exact Finset.sum_congr rfl fun j _ => Finset.sum_congr rfl fun x _ => by ring
    rw [this, Finset.sum_eq_single i]
    · rw [show vdot q[i] q[i] = 1 from (h i i i.2 i.2).trans (if_pos rfl), mul_one]
    · intro j _ hj
      rw [show vdot q[i] q[j] = 0 from (h i j i.2 j.2).trans (if_neg fun e => hj (Fin.ext e.symm)), mul_zero]
    · simp
  rw [hg] at h1
  simpa [vdot] using h1.symm

theorem OrthonormalColumns.unit {q : List (Fin n → ℂ)} (h : OrthonormalColumns q) {v : Fin n → ℂ} (hv : v ∈ q) : vnorm v = 1 := by
  obtain ⟨i, hi, rfl⟩ := List.getElem_of_mem hv
  have h1 : vdot q[i] q[i] = 1 := (h i i hi hi).trans (if_pos rfl)
  rw [← vnorm_sq] at h1
  have h2 : vnorm q[i] ^ 2 = 1 := by exact_mod_cast h1
  nlinarith [vnorm_nonneg q[i]]

theorem OrthonormalColumns.ortho {q : List (Fin n → ℂ)} (h : OrthonormalColumns q) : Ortho q := by
  constructor
  · intro e he
    obtain ⟨i, hi, rfl⟩ := List.getElem_of_mem he
    exact (h i i hi hi).trans (if_pos rfl)
  · rw [List.pairwise_iff_getElem]
    intro i j hi hj hij
    exact (h i j hi hj).trans (if_neg hij.ne)

theorem OrthonormalColumns.perm {p q : List (Fin n → ℂ)} (hpq : p.Perm q) (h : OrthonormalColumns p) : OrthonormalColumns q := by
  have h := h.ortho
  refine Ortho.columns ⟨fun e he => h.1 e (hpq.mem_iff.mpr he), hpq.pairwise_iff (fun {a b} hab => ?_) |>.mp h.2⟩
  rw [← vdot_star, hab, star_zero]

theorem IsPermutedLu.independent {cols pl : List (Fin n → ℂ)} (h : IsPermutedLu cols pl) : IndependentColumns pl := by
  obtain ⟨σ, hσ⟩ := h.lower
  have hn : pl.length ≤ n := by rw [h.len]; exact min_le_left _ _
  rw [IndependentColumns, Fintype.linearIndependent_iff]
  intro g hg
  have key : ∀ (i : ℕ) (hi : i < pl.length), g ⟨i, hi⟩ = 0 := by
    intro i
    induction i using Nat.strong_induction_on with
    | _ i ih =>
      intro hi
      have h1 := congrFun hg (σ ⟨i, by omega⟩)
      rw [Finset.sum_apply, Finset.sum_eq_single (⟨i, hi⟩ : Fin pl.length)] at h1
      · simp only [Pi.smul_apply, smul_eq_mul, Pi.zero_apply] at h1
        have h2 := hσ i i (by omega) hi le_rfl
        rw [if_pos rfl] at h2
        have h3 : pl[(⟨i, hi⟩ : Fin pl.length)] (σ ⟨i, by omega⟩) = 1 := h2
        rwa [h3, mul_one] at h1
      · intro j _ hj
        rcases lt_or_gt_of_ne (fun e => hj (Fin.ext e) : (j : ℕ) ≠ i) with hlt | hgt
        · rw [show g j = 0 from ih j hlt j.2, zero_smul]; rfl
        · have h2 := hσ i j (by omega) j.2 hgt.le
          rw [if_neg hgt.ne] at h2
          have h3 : pl[j] (σ ⟨i, by omega⟩) = 0 := h2
          rw [Pi.smul_apply, h3, smul_zero]
      · simp
  exact fun i => key i i.2

theorem IsPermutedLu.span_le {cols pl : List (Fin n → ℂ)} (h : IsPermutedLu cols pl) : colSpan cols ≤ colSpan pl := by
  obtain ⟨U, -, hU⟩ := h.upper
  rw [colSpan, Submodule.span_le]
  intro v hv
  obtain ⟨j, hj, rfl⟩ := List.getElem_of_mem hv
  rw [hU j hj]
  exact Submodule.sum_mem _ fun i _ => Submodule.smul_mem _ _ (Submodule.subset_span (List.getElem_mem _))

/-- `gram_schmidt` of linearly independent columns keeps their number -/
theorem gramSchmidt_independent {cols : List (Fin n → ℂ)} (h : IndependentColumns cols) :
    ∃ q, gramSchmidt cols = some q ∧ OrthonormalColumns q ∧ colSpan q = colSpan cols ∧ q.length = cols.length := by
  cases cols with
  | nil => exact ⟨[], rfl, by intro i j hi; simp at hi, rfl, rfl⟩
  | cons c rest =>
    obtain ⟨q, h1, h2, h3⟩ := C27_span rest (h.ne_zero (List.mem_cons_self ..))
    exact ⟨q, h1, h2, h3, by rw [← (orthonormal_independent h2).finrank, h3, h.finrank]⟩

theorem normalizeVector_ok {v : Fin n → ℂ} (h : v ≠ 0) : normalizeVector v = .ok (vdiv v (vnorm v)) := by
  rw [normalizeVector, normalizeColumn, if_neg (fun h0 => h (vnorm_eq_zero.mp h0))]

theorem mapM_normalize : ∀ {q : List (Fin n → ℂ)}, (∀ v ∈ q, v ≠ 0) → q.mapM normalizeVector = .ok (q.map fun v => vdiv v (vnorm v))
  | [], _ => rfl
  | v :: q, h => by
    rw [List.mapM_cons, normalizeVector_ok (h v (List.mem_cons_self ..)), mapM_normalize fun w hw => h w (List.mem_cons_of_mem _ hw)]
    rfl

theorem vnorm_vdiv {v : Fin n → ℂ} (h : v ≠ 0) : vnorm (vdiv v (vnorm v)) = 1 := by
  have h1 := vdiv_unit (fun h0 => h (vnorm_eq_zero.mp h0) : vnorm v ≠ 0)
  rw [← vnorm_sq] at h1
  have h2 : vnorm (vdiv v (vnorm v)) ^ 2 = 1 := by exact_mod_cast h1
  nlinarith [vnorm_nonneg (vdiv v (vnorm v))]

theorem colSpan_normalize {q : List (Fin n → ℂ)} (h : ∀ v ∈ q, v ≠ 0) : colSpan (q.map fun v => vdiv v (vnorm v)) = colSpan q := by
  apply le_antisymm
  · rw [colSpan, Submodule.span_le]
    intro v hv
    obtain ⟨w, hw, rfl⟩ := List.mem_map.mp hv
    rw [vdiv_eq]
    exact Submodule.smul_mem _ _ (Submodule.subset_span hw)
  · rw [colSpan, Submodule.span_le]
    intro v hv
    have h0 : (vnorm v : ℂ) ≠ 0 := by exact_mod_cast fun h0 => h v hv (vnorm_eq_zero.mp h0)
    have : v = (vnorm v : ℂ) • vdiv v (vnorm v) := by rw [vdiv_eq, smul_smul, mul_inv_cancel₀ h0, one_smul]
    rw [this]
    exact Submodule.smul_mem _ _ (Submodule.subset_span (List.mem_map.mpr ⟨v, hv, rfl⟩))

theorem map_normalize_unit {q : List (Fin n → ℂ)} (h : ∀ v ∈ q, vnorm v = 1) : (q.map fun v => vdiv v (vnorm v)) = q := by
  conv_rhs => rw [← List.map_id q]
  apply List.map_congr_left
  intro v hv
  rw [h v hv, vdiv_eq]; simp

theorem mapM_pyGet_perm {α : Type} {l : List α} {inds : List ℕ} (h : inds.Perm (List.range l.length)) :
    ∃ r, inds.mapM (pyGet l) = .ok r ∧ r.Perm l ∧ List.Forall₂ (fun i x => l[i]? = some x) inds r := by
  have hlt : ∀ i ∈ inds, i < l.length := fun i hi => List.mem_range.mp (h.mem_iff.mp hi)
  have key : ∀ inds : List ℕ, (∀ i ∈ inds, i < l.length) → ∃ r, inds.mapM (pyGet l) = .ok r ∧ r.map some = inds.map (l[·]?) ∧
      List.Forall₂ (fun i x => l[i]? = some x) inds r := by
    intro inds
    induction inds with
    | nil => intro _; exact ⟨[], rfl, rfl, .nil⟩
    | cons i inds ih =>
      intro hi
      obtain ⟨r, h1, h2, h3⟩ := ih fun j hj => hi j (List.mem_cons_of_mem _ hj)
      have hil := hi i (List.mem_cons_self ..)
      refine ⟨l[i] :: r, ?_, ?_, .cons (List.getElem?_eq_getElem hil) h3⟩
      · rw [List.mapM_cons, h1]
        simp [pyGet, List.getElem?_eq_getElem hil, bind, Except.bind, pure, Except.pure]
      · rw [List.map_cons, List.map_cons, h2, List.getElem?_eq_getElem hil]
  obtain ⟨r, h1, h2, h3⟩ := key inds hlt
  refine ⟨r, h1, ?_, h3⟩
  have h4 : (r.map some).Perm (l.map some) := by
    rw [h2]
    refine (h.map _).trans (List.Perm.of_eq ?_)
    apply List.ext_getElem
    · simp
    · intro i hi hi'
      simp at hi hi' ⊢
      
  exact (List.map_perm_map_iff (Option.some_injective _)).mp h4

end Qosy
