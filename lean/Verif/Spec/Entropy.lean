import Verif.Spec.Diagonalization
import Mathlib.Analysis.SpecialFunctions.Log.Basic

/-! # Specification: the Rényi entropy of a probability distribution, product states -/

namespace Qosy

/-- the Rényi entropy of order `α` of the numbers `p` -/
noncomputable def renyi {ι : Type} [Fintype ι] (α : ℕ) (p : ι → ℝ) : ℝ := 1 / (1 - (α : ℝ)) * Real.log (∑ i, p i ^ α)

/-- the sites `f 0, f 1, …` are not entangled with the others: the amplitude is a product of a function of the spins on these sites and a function of
the other spins -/
def IsProductState {m n : ℕ} (f : Fin m ↪ Fin n) (ψ : Cfg n → ℂ) : Prop :=
  ∃ a b : Cfg n → ℂ, (∀ σ τ, (∀ i ∈ Set.range f, σ i = τ i) → a σ = a τ) ∧ (∀ σ τ, (∀ i ∉ Set.range f, σ i = τ i) → b σ = b τ) ∧
    ∀ σ, ψ σ = a σ * b σ

end Qosy
