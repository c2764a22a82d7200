import Verif.Spec.Greedy

/-! # Specification: how `selected_ci_greedy` and `selected_ci_greedy_many_ops2` extend their basis -/

namespace Qosy
variable {K : Type} [Field K] [StarRing K] [Coef K] [RealCoef K]
variable {𝔸 : Type} [Ring 𝔸] [Algebra K 𝔸]

/-- different canonical strings with coefficients, whose combination is `x` -/
structure IsExpansion (Str : OpString → Prop) (den : OpString → 𝔸) (x : 𝔸) (strs : List OpString) (w : OpString → K) : Prop where
  valid : ∀ s ∈ strs, Str s ∧ s.Canonical
  nodup : strs.Nodup
  sum : (strs.map (fun s => w s • den s)).sum = x

/-- `sel` are the `n` strings with the largest coefficients, or all if there are no more than `n` -/
structure IsStrongest (n : ℕ) (strs : List OpString) (w : OpString → K) (sel : List OpString) : Prop where
  nodup : sel.Nodup
  subset : sel ⊆ strs
  length : sel.length = min strs.length n
  largest : ∀ s ∈ sel, ∀ t ∈ strs, t ∉ sel → ‖Coef.toC (w t)‖ ≤ ‖Coef.toC (w s)‖

/-- `b'` is `b` with `n` new strings, the ones with the largest coefficients `u` among the strings of `strs` that are not in `b`, or all of them if there are not so many -/
def IsExtendedBy (n : ℕ) (strs : List OpString) (u : OpString → K) (b b' : List OpString) : Prop :=
  ∃ new, b' = b ++ new ∧ IsStrongest n (strs.filter (fun s => s ∉ b)) u new

/-- `b'` is `b` with the largest terms of `[[x, H], H]`, where only the `n` largest terms of `[x, H]` are taken, and at most `n` terms are added -/
def IsCommutatorStep (Str : OpString → Prop) (den : OpString → 𝔸) (H x : 𝔸) (n : ℕ) (b b' : List OpString) : Prop :=
  ∃ strs sel strs' : List OpString, ∃ w w' : OpString → K, IsExpansion Str den (x * H - H * x) strs w ∧ IsStrongest n strs w sel ∧
    IsExpansion Str den ((sel.map (fun s => w s • den s)).sum * H - H * (sel.map (fun s => w s • den s)).sum) strs' w' ∧ IsExtendedBy n strs' w' b b'

/-- the same for several operators, one after the other -/
inductive IsCommutatorSteps (K : Type) [Field K] [StarRing K] [Coef K] [RealCoef K] [Algebra K 𝔸] (Str : OpString → Prop) (den : OpString → 𝔸) (H : 𝔸) (n : ℕ) :
    List 𝔸 → List OpString → List OpString → Prop
  | nil (b : List OpString) : IsCommutatorSteps K Str den H n [] b b
  | cons {x : 𝔸} {xs : List 𝔸} {b b' b'' : List OpString} : IsCommutatorStep (K := K) Str den H x n b b' → IsCommutatorSteps K Str den H n xs b' b'' →
      IsCommutatorSteps K Str den H n (x :: xs) b b''

end Qosy
