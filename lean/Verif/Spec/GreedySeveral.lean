import Verif.Spec.Greedy

/-! # Specification: `selected_ci_greedy` with several operators in `com_ops` -/

namespace Qosy
variable {K : Type} [Field K] [StarRing K] [Coef K] [RealCoef K]

/-- the part of `A` with the strings of `H` -/
def Operator.within (A H : Operator K) : Operator K :=
  ⟨(A.terms.filter (fun t => t.2 ∈ H.termStrs)).map Prod.fst, Basis.ofList ((A.terms.filter (fun t => t.2 ∈ H.termStrs)).map Prod.snd), A.opType⟩

/-- the arguments: the operators `H` and `rest`, a well-formed initial operator, neither transformations nor a target -/
structure SeveralOK (Str : OpString → Prop) (H : Operator K) (rest : List (Operator K)) (args : GreedyArgs K) : Prop where
  com : args.comOps = H :: rest
  several : rest ≠ []
  str : ∀ A ∈ H :: rest, ∀ s ∈ A.basis.strs, Str s
  nodup : ∀ A ∈ H :: rest, A.basis.strs.Nodup
  transformations : args.transformations = none
  initial : args.initialOperator.WF
  initialStr : ∀ s ∈ args.initialOperator.basis.strs, Str s
  nonempty : args.initialOperator.basis.strs ≠ []
  vecs : 1 ≤ args.numVecs
  target : args.targetOperator = none

/-- the squared norms of the commutators of `O` with the parts in `H` of the operators `ops` -/
def AreComNorms {𝔸 : Type} [Ring 𝔸] [Algebra K 𝔸] (Str : OpString → Prop) (den : OpString → 𝔸) (O : 𝔸) (H : Operator K) (ops : List (Operator K)) (ds : List K) : Prop :=
  List.Forall₂ (fun A d => IsComNorm (fun s => Str s ∧ s.Canonical) den O ((A.within H).den den) d) ops ds

/-- what is recorded for a step with the operators `H` and `rest`: a well-formed real normalised operator of valid strings with its squared commutator norm `c` with `H`.
Without `orth_ops`, `c` is at most the sum of squared commutator norms of any real normalised combination of its strings, with the parts of all operators in `H`; with at
least 20 strings and `num_vecs = 1` the operator has the smallest sum. -/
structure IsSeveralRecord {𝔸 : Type} [Ring 𝔸] [Algebra K 𝔸] (Str : OpString → Prop) (den : OpString → 𝔸) (H : Operator K) (rest : List (Operator K)) (args : GreedyArgs K)
    (O : Operator K) (c : K) : Prop extends IsGreedyRecord Str den (H.den den) O c where
  bound : Nontrivial 𝔸 → args.orthOps = none → ∀ (w : OpString → K) (ds : List K), (∀ s, IsReal (w s)) → (O.basis.strs.map (fun s => star (w s) * w s)).sum = 1 →
    AreComNorms Str den (O.basis.strs.map (fun s => w s • den s)).sum H (H :: rest) ds → toR c ≤ (ds.map toR).sum
  least : Nontrivial 𝔸 → args.orthOps = none → args.numVecs = 1 → 20 ≤ O.basis.strs.length →
    ∃ es, AreComNorms Str den (O.den den) H (H :: rest) es ∧
      ∀ (w : OpString → K) (ds : List K), (∀ s, IsReal (w s)) → (O.basis.strs.map (fun s => star (w s) * w s)).sum = 1 →
        AreComNorms Str den (O.basis.strs.map (fun s => w s • den s)).sum H (H :: rest) ds → (es.map toR).sum ≤ (ds.map toR).sum

end Qosy
