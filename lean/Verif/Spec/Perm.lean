import Mathlib.GroupTheory.Perm.Sign

/-! # Specification: permutation arrays -/

namespace Qosy

/-- The array `[σ 0, σ 1, …, σ (n-1)]` of a permutation of `0, …, n-1`. -/
def permArray {n : ℕ} (σ : Equiv.Perm (Fin n)) : List ℕ := List.ofFn (fun i => (σ i : ℕ))

/-- An array is a permutation array iff it is a rearrangement of `0, …, n-1`. -/
def IsPermArray (p : List ℕ) : Prop := p.Perm (List.range p.length)

end Qosy
