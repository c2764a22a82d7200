import Verif.Model.SelectedCi
import Verif.Spec.Greedy

/-! # Specification: the strings reached by commutators -/

namespace Qosy
variable {K : Type} [Field K] [StarRing K] [Coef K]
variable {𝔸 : Type} [Ring 𝔸] [Algebra K 𝔸]

/-- `t` is the string of a non-zero commutator of a string of the list with a term of `H` that has an allowed label -/
def Reached (Str : OpString → Prop) (den : OpString → 𝔸) (strs : List OpString) (H : Operator K) (allowed : Option (List ℤ)) (t : OpString) : Prop :=
  (Str t ∧ t.Canonical) ∧ ∃ s ∈ strs, ∃ h ∈ H.termStrs, (∀ ls ∈ allowed, ∃ l ∈ h.labels, l ∈ ls) ∧
    ∃ c : K, c ≠ 0 ∧ bracketOf .commutator (den s) (den h) = c • den t

/-- `t` is the string of a non-zero commutator `[h', [h, s]]` with a string of the list and two terms of `H` -/
def ReachedTwice (Str : OpString → Prop) (den : OpString → 𝔸) (strs : List OpString) (H : Operator K) (t : OpString) : Prop :=
  ∃ u, Reached Str den strs H none u ∧ Reached Str den [u] H none t

end Qosy
