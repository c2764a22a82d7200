import Verif.Lemmas.Subsystem

/-! # Lemmas for C105: partial traces and permutations of the sites -/

namespace Qosy
open Coef Matrix
variable {K : Type} [Field K] [StarRing K] [Coef K] {n : ℕ}

/-- permuting the sites of both states and the sites that are kept does not change the partial trace -/
theorem partialTrace_trans {m : ℕ} (g : Equiv.Perm (Fin n)) (f : Fin m ↪ Fin n) (ψ φ : Cfg n → K) :
    partialTrace (f.trans g.toEmbedding) (fun σ => ψ (fun i => σ (g i))) (fun σ => φ (fun i => σ (g i))) = partialTrace f ψ φ := by
  funext α β
  unfold partialTrace
  let e : Cfg n ≃ Cfg n := g.symm.arrowCongr (Equiv.refl Bool)
  have he : ∀ σ, e σ = fun i => σ (g i) := fun σ => rfl
  conv_rhs => rw [← e.sum_comp]
  apply Finset.sum_congr rfl
  intro σ _
  conv_rhs => rw [← e.sum_comp]
  apply Finset.sum_congr rfl
  intro τ _
  rw [he, he]
  have h : (∀ i, i ∉ Set.range (f.trans g.toEmbedding) → σ i = τ i) ↔ ∀ i, i ∉ Set.range f → σ (g i) = τ (g i) := by
    constructor
    · intro H i hi
      apply H
      rintro ⟨j, hj⟩
      exact hi ⟨j, g.injective hj⟩
    · intro H i hi
      have := H (g.symm i) (by
        rintro ⟨j, hj⟩
        exact hi ⟨j, by simp [hj]⟩)
      simpa using this
  have h1 : ∀ (ρ : Cfg n) (γ : Cfg m), (ρ ∘ (f.trans g.toEmbedding) = γ) = ((fun i => ρ (g i)) ∘ f = γ) := fun _ _ => rfl
  simp only [h, h1]

/-- listing the kept sites in another order permutes the rows and columns -/
theorem partialTrace_order {m : ℕ} (h : Equiv.Perm (Fin m)) (f : Fin m ↪ Fin n) (ψ φ : Cfg n → K) :
    partialTrace (h.toEmbedding.trans f) ψ φ =
      (partialTrace f ψ φ).submatrix (h.arrowCongr (Equiv.refl Bool)) (h.arrowCongr (Equiv.refl Bool)) := by
  funext α β
  simp only [Matrix.submatrix_apply]
  unfold partialTrace
  have hr : ∀ i, i ∉ Set.range (h.toEmbedding.trans f) ↔ i ∉ Set.range f := by
    intro i
    have : Set.range (h.toEmbedding.trans f) = Set.range f := by
      ext x
      constructor
      · rintro ⟨j, rfl⟩; exact ⟨h j, rfl⟩
      · rintro ⟨j, rfl⟩; exact ⟨h.symm j, by simp⟩
    rw [this]
  have hc : ∀ (σ : Cfg n) (γ : Cfg m), σ ∘ (h.toEmbedding.trans f) = γ ↔ σ ∘ f = h.arrowCongr (Equiv.refl Bool) γ := by
    intro σ γ
    constructor
    · rintro rfl; funext j; simp [Equiv.arrowCongr]
    · intro H; funext j; have := congrFun H (h j); simpa [Equiv.arrowCongr] using this
  simp only [hr, hc]

theorem submatrix_equiv_pow {ι : Type} [Fintype ι] [DecidableEq ι] (M : Matrix ι ι K) (e : ι ≃ ι) (k : ℕ) :
    (M.submatrix e e) ^ k = (M ^ k).submatrix e e := by
  induction k with
  | zero => simp
  | succ k ih => rw [pow_succ, pow_succ, ih, Matrix.submatrix_mul_equiv]

theorem trace_submatrix_equiv {ι : Type} [Fintype ι] [DecidableEq ι] (M : Matrix ι ι K) (e : ι ≃ ι) : (M.submatrix e e).trace = M.trace := by
  simp only [Matrix.trace, Matrix.diag_apply, Matrix.submatrix_apply]
  exact e.sum_comp (fun i => M i i)

/-- multiples of a state -/
theorem IsState.smul {v : List K} {ψ : Cfg n → K} (h : IsState n v ψ) (c : K) : IsState n (v.map (c * ·)) (fun σ => c * ψ σ) :=
  ⟨by simp [h.length], fun k hk => by rw [List.getElem?_map, h.entries k hk]; rfl⟩

end Qosy
