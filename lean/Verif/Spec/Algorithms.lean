import Verif.Model.Algorithms
import Verif.Spec.Matrix

/-! # Specification: truncation and exploration of bases -/

namespace Qosy
variable {K : Type} [Field K] [StarRing K] [Coef K]

/-- what `np.argsort(np.abs(v))` promises: a permutation of the indices that sorts the magnitudes; the order of ties is free -/
def IsArgsort (argsort : List K → List ℕ) : Prop := ∀ v : List K, (argsort v).Perm (List.range v.length) ∧
  (argsort v).Pairwise (fun i j => ‖Coef.toC (v.getD i 0)‖ ≤ ‖Coef.toC (v.getD j 0)‖)

/-- the component of a vector that belongs to a string of the basis -/
def coefAt (basis : Basis) (v : List K) (s : OpString) : K := v.getD (basis.strs.idxOf s) 0

/-- `b` holds the (at most) `n` largest components of a vector that exceed the threshold, in decreasing order of magnitude. -/
structure IsTruncation (basis : Basis) (v : List K) (threshold : ℚ) (n : ℕ) (b : Basis) : Prop where
  indexed : IndexedSet b
  above : ∀ s ∈ b.strs, s ∈ basis.strs ∧ (threshold : ℝ) < ‖Coef.toC (coefAt basis v s)‖
  size : b.len ≤ n
  full : ∀ s ∈ basis.strs, (threshold : ℝ) < ‖Coef.toC (coefAt basis v s)‖ → s ∈ b.strs ∨ b.len = n
  sorted : b.strs.Pairwise (fun s t => ‖Coef.toC (coefAt basis v t)‖ ≤ ‖Coef.toC (coefAt basis v s)‖)
  largest : ∀ s ∈ basis.strs, s ∉ b.strs → (threshold : ℝ) < ‖Coef.toC (coefAt basis v s)‖ →
    ∀ t ∈ b.strs, ‖Coef.toC (coefAt basis v s)‖ ≤ ‖Coef.toC (coefAt basis v t)‖

/-- the strings an operator sums over -/
def Operator.termStrs (A : Operator K) : List OpString := A.terms.map Prod.snd

/-- the arguments of one exploration: a basis, an operator and the labels allowed in its terms -/
abbrev ExploreCall (K : Type) := Basis × Operator K × Option (List ℤ)

/-- the part of an operator that an exploration takes into account -/
def Operator.partDen {M : Type} [AddCommMonoid M] [Module K M] (A : Operator K) (allowed : Option (List ℤ)) (den : OpString → M) : M :=
  match allowed with
  | none => A.den den
  | some ls => denT den (A.terms.filter (fun t => decide (∃ l ∈ t.2.labels, l ∈ ls)))

/-- the results of a sequence of explorations that share one cache -/
def exploreAll (st : Explored K) : List (ExploreCall K) → Py (List (Mat K × Basis))
  | [] => .ok []
  | (b, H, allowed) :: calls => do
    let (r, st') ← explore b H allowed st
    let rs ← exploreAll st' calls
    .ok (r :: rs)

end Qosy
