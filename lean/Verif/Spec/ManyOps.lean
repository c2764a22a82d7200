import Verif.Model.ManyOps
import Verif.Spec.Greedy

/-! # Specification: `selected_ci_greedy_many_ops` and `selected_ci_greedy_many_ops2` -/

namespace Qosy
variable {K : Type} [Field K] [StarRing K] [Coef K] [RealCoef K]
variable {𝔸 : Type} [Ring 𝔸] [Algebra K 𝔸]

/-- two operators over the same strings are orthogonal -/
def Operator.Orthogonal (A B : Operator K) : Prop := A.basis = B.basis ∧ (List.zipWith (fun x y => star x * y) A.coeffs B.coeffs).sum = 0

/-- a list of operators is valid: non-empty, well-formed and made of valid strings -/
def ValidInitial (Str : OpString → Prop) (ops : List (Operator K)) : Prop :=
  ∀ A ∈ ops, A.WF ∧ (∀ s ∈ A.basis.strs, Str s) ∧ A.basis.strs ≠ []

/-- `size` bounds the strings of the initial operators and `max_basis_size`, `terms` bounds `num_H_terms` -/
structure ManyOpsArgs.Bounds (args : ManyOpsArgs K) (size terms : ℕ) : Prop where
  initial : ∀ A ∈ args.initialOperators, A.basis.len ≤ size
  size : ∀ z, args.maxSize = .int z → z ≤ size
  terms : ∀ i t, args.numHTerms.at i = .ok t → t ≤ terms

/-- the arguments for which `selected_ci_greedy_many_ops` raises no exception: `H` has a term other than the identity, the lists are long enough and the threshold
does not remove all strings of a normalised operator -/
structure ManySafe (args : ManyOpsArgs K) : Prop where
  label : ∃ s ∈ args.H.basis.strs, s.labels ≠ []
  terms : ∀ l, args.numHTerms = .list l → args.numSteps ≤ l.length
  size : ∃ z, args.maxSize = .int z ∧ 0 < z
  threshold : args.threshold ≤ 0 ∨ ∃ size terms, args.Bounds size terms ∧ ((size + terms + 2 * args.numOTerms : ℕ) : ℚ) * args.threshold ^ 2 < 1

/-- what `selected_ci_greedy_many_ops` reports for the operator `i` of a step: the last operator and norm of `selected_ci_greedy` with one step, started from this operator of
the step before (truncated, except in the first step), with the other operators as `orth_ops`: the new ones before it and the old ones after it.  Without an explored
space of the caller each call starts with an empty one. -/
def IsManyCall (num : Numerics K) (args : ManyOpsArgs K) (step : ℕ) (before after : List (Operator K)) (norms : List K) (i : ℕ) : Prop :=
  ∃ A B O c numH size x best bestNorm ops comNorms, before[i]? = some A ∧ after[i]? = some O ∧ norms[i]? = some c ∧ (step = 0 → B = A) ∧
    (step ≠ 0 → ∃ n, args.maxSize = .int n ∧ truncateOperator num.argsort A args.threshold n none = .ok B) ∧
    args.numHTerms.at step = .ok numH ∧ args.maxSize.at step = .ok size ∧ (args.explored = none → x = Explored.empty) ∧
    selectedCiGreedy num
      { initialOperator := B, comOps := [args.H], numSteps := 1, numHTerms := [numH], numOTerms := args.numOTerms, threshold := args.threshold,
        maxSizes := [size], explored := x, orthOps := some (after.take i ++ before.drop (i + 1)) } 1 = .ok (some (best, bestNorm, ops, comNorms)) ∧
    ops.getLast? = some O ∧ comNorms.getLast? = some c

/-- the arguments for which `selected_ci_greedy_many_ops2` raises no exception: between 1 and 19 operators, no `orth_ops`, a basis size that suffices for them, a negative threshold and
a first random number other than 1/2 -/
structure Many2Safe (args : ManyOps2Args K) : Prop where
  terms : ∀ l, args.numHTerms = .list l → args.numSteps ≤ l.length
  size : ∃ z, args.maxSize = .int z ∧ args.initialOperators.length ≤ z
  threshold : args.threshold < 0
  orth : args.orthOps = none
  some : 1 ≤ args.initialOperators.length
  few : args.initialOperators.length < 20
  rand : ∀ step, 2 * args.rand step 0 - 1 ≠ 0

/-- the operators of one step with their commutator norms: normalised, real, pairwise orthogonal, and the first one has the smallest norm of all
normalised real combinations of the strings -/
structure IsOrthoStep (Str : OpString → Prop) (den : OpString → 𝔸) (H : 𝔸) (n : ℕ) (ops : List (Operator K)) (norms : List K) : Prop where
  len : ops.length = n
  records : List.Forall₂ (IsGreedyRecord Str den H) ops norms
  orthogonal : ops.Pairwise Operator.Orthogonal
  least : ∀ O c, ops.head? = some O → norms.head? = some c → IsLeastComNorm (fun s => Str s ∧ s.Canonical) den O H c

/-- the operators of a step are not over the same strings as those of the step before, or of the one before that -/
def Progress (ops : List (List (Operator K))) : Prop :=
  ∀ (k : ℕ) (o o' : List (Operator K)), ops[k]? = some o → ops[k + 1]? = some o' ∨ ops[k + 2]? = some o' → ∀ A ∈ o, ∀ B ∈ o', ¬ ∀ t, t ∈ B.basis.strs ↔ t ∈ A.basis.strs

end Qosy
