import Verif.Model.Greedy
import Verif.Spec.Algorithms
import Verif.Spec.Rep

/-! # Specification: `selected_ci_greedy` -/

namespace Qosy
variable {K : Type} [Field K] [StarRing K] [Coef K] [RealCoef K]

/-- the value of a real number -/
noncomputable def toR (x : K) : ℝ := (Coef.toC x).re

/-- a number is real -/
def IsReal (x : K) : Prop := star x = x

/-- the `n × n` matrix is Hermitian -/
def Mat.IsHermitian (M : Mat K) (n : ℕ) : Prop := M.nrows = n ∧ M.ncols = n ∧ ∀ i j, i < n → j < n → M.get j i = star (M.get i j)

/-- the form `u† M u` -/
def Mat.form (M : Mat K) (n : ℕ) (u : ℕ → K) : K := ∑ i : Fin n, ∑ j : Fin n, star (u i) * M.get i j * u j

/-- orthonormal eigenvectors of a matrix with their eigenvalues -/
structure IsEigenpairs (M : Mat K) (n : ℕ) (r : List K × List (List K)) : Prop where
  len : r.1.length = r.2.length
  dim : ∀ v ∈ r.2, v.length = n
  unit : ∀ v ∈ r.2, ∑ j : Fin n, star (v.getD j 0) * v.getD j 0 = 1
  orthogonal : r.2.Pairwise (fun v w => ∑ j : Fin n, star (v.getD j 0) * w.getD j 0 = 0)
  eigen : ∀ e ∈ r.1.zip r.2, ∀ i, i < n → ∑ j : Fin n, M.get i j * e.2.getD j 0 = e.1 * e.2.getD i 0
  real : ∀ x ∈ r.1, IsReal x
  realVectors : (∀ i j, i < n → j < n → IsReal (M.get i j)) → ∀ v ∈ r.2, ∀ x ∈ v, IsReal x

/-- what the numerical routines promise: `eigh` returns all eigenvectors of a Hermitian matrix, the smallest eigenvalue first; `eigsh` some
of them, among them one with the smallest eigenvalue if no eigenvalue is negative; real matrices have real eigenvectors -/
structure IsNumerics (num : Numerics K) : Prop where
  argsort : IsArgsort num.argsort
  eigh : ∀ M n, M.IsHermitian n → IsEigenpairs M n (num.eigh M) ∧ (num.eigh M).1.length = n ∧
    ∀ x ∈ (num.eigh M).1.head?, ∀ u : ℕ → K, toR x * ∑ j : Fin n, ‖Coef.toC (u j)‖ ^ 2 ≤ toR (M.form n u)
  eigsh : ∀ k M n, 1 ≤ k → k < n → M.IsHermitian n → IsEigenpairs M n (num.eigsh k M) ∧ (num.eigsh k M).1.length = k ∧
    ((∀ u, 0 ≤ toR (M.form n u)) → ∃ x ∈ (num.eigsh k M).1, ∀ u : ℕ → K, toR x * ∑ j : Fin n, ‖Coef.toC (u j)‖ ^ 2 ≤ toR (M.form n u))
  sqrt : ∀ x, IsReal x → 0 ≤ toR x → IsReal (num.sqrt x) ∧ num.sqrt x ^ 2 = x

/-- `c` is the sum of the squared magnitudes of the coefficients of the commutator of `O` with `H`.  `P` says which strings may
occur (valid ones in their standard form, which are linearly independent). -/
def IsComNorm {𝔸 : Type} [Ring 𝔸] [Algebra K 𝔸] (P : OpString → Prop) (den : OpString → 𝔸) (O H : 𝔸) (c : K) : Prop :=
  ∃ (strs : List OpString) (w : ℕ → K), strs.Nodup ∧ (∀ s ∈ strs, P s) ∧ bracketOf .commutator O H = linComb den strs w ∧
    c = ∑ i : Fin strs.length, star (w i) * w i

/-- the operator is normalised -/
def Operator.IsUnit (O : Operator K) : Prop := (O.coeffs.map (fun x => star x * x)).sum = 1

/-- `c` is the smallest squared commutator norm of all normalised real combinations of the strings of the operator -/
def IsLeastComNorm {𝔸 : Type} [Ring 𝔸] [Algebra K 𝔸] (P : OpString → Prop) (den : OpString → 𝔸) (O : Operator K) (H : 𝔸) (c : K) : Prop :=
  ∀ (u : ℕ → K) (c' : K), (∀ j, IsReal (u j)) → ∑ j : Fin O.basis.strs.length, star (u j) * u j = 1 →
    IsComNorm P den (linComb den O.basis.strs u) H c' → toR c ≤ toR c'

/-- the best operator and norm are those of the (first) smallest norm of the records -/
def IsBest (initial : Operator K) (ops : List (Operator K)) (norms : List K) (best : Operator K) (bestNorm : Option K) : Prop :=
  (norms = [] ∧ best = initial ∧ bestNorm = none) ∨
  ∃ (i : ℕ) (c : K), ops[i]? = some best ∧ norms[i]? = some c ∧ bestNorm = some c ∧ (∀ c' ∈ norms, toR c ≤ toR c') ∧ ∀ (j : ℕ) (c' : K), j < i → norms[j]? = some c' → toR c < toR c'

/-- the arguments the theorems apply to: one operator `H`, a well-formed initial operator, no transformations, a target only without `orth_ops`
and with real coefficients.  `Str` says which strings are valid. -/
structure GreedyOK (Str : OpString → Prop) (H : Operator K) (args : GreedyArgs K) : Prop where
  com : args.comOps = [H]
  str : ∀ s ∈ H.basis.strs, Str s
  nodup : H.basis.strs.Nodup
  transformations : args.transformations = none
  initial : args.initialOperator.WF
  initialStr : ∀ s ∈ args.initialOperator.basis.strs, Str s
  nonempty : args.initialOperator.basis.strs ≠ []
  vecs : 1 ≤ args.numVecs
  target : ∀ T ∈ args.targetOperator, args.orthOps = none ∧ ∀ x ∈ T.coeffs, IsReal x

/-- neither a penalty nor a target -/
def GreedyArgs.least (args : GreedyArgs K) : Prop := args.targetOperator = none ∧ args.orthOps = none

/-- the operator is well-formed, made of valid strings, real and normalised, and `c` is its squared commutator norm with `H` -/
structure IsGreedyRecord {𝔸 : Type} [Ring 𝔸] [Algebra K 𝔸] (Str : OpString → Prop) (den : OpString → 𝔸) (H : 𝔸) (O : Operator K) (c : K) : Prop where
  wf : O.WF
  str : ∀ s ∈ O.basis.strs, Str s
  real : ∀ x ∈ O.coeffs, IsReal x
  unit : O.IsUnit
  norm : IsComNorm (fun s => Str s ∧ s.Canonical) den (O.den den) H c

/-- the overlap `⟨A, u⟩` of an operator with a vector over a basis -/
def overlapWith (b : Basis) (A : Operator K) (u : ℕ → K) : K := ∑ j : Fin b.strs.length, star (A.coef b.strs[j]) * u j

/-- the `n × n` matrix is diagonal -/
def Mat.IsDiagonal (M : Mat K) (n : ℕ) : Prop := ∀ i j, i < n → j < n → i ≠ j → M.get i j = 0

/-- routines that keep the promises of `IsNumerics` on diagonal matrices and on squares -/
structure IsNumericsOnDiagonal (num : Numerics K) : Prop where
  argsort : IsArgsort num.argsort
  eigh : ∀ M n, M.IsHermitian n → M.IsDiagonal n → IsEigenpairs M n (num.eigh M) ∧ (num.eigh M).1.length = n ∧
    ∀ x ∈ (num.eigh M).1.head?, ∀ u : ℕ → K, toR x * ∑ j : Fin n, ‖Coef.toC (u j)‖ ^ 2 ≤ toR (M.form n u)

/-- routines that keep the promises of `IsNumerics` on the matrices of a class -/
structure IsNumericsOn (D : Mat K → ℕ → Prop) (num : Numerics K) : Prop where
  argsort : IsArgsort num.argsort
  eigh : ∀ M n, M.IsHermitian n → D M n → IsEigenpairs M n (num.eigh M) ∧ (num.eigh M).1.length = n ∧
    ∀ x ∈ (num.eigh M).1.head?, ∀ u : ℕ → K, toR x * ∑ j : Fin n, ‖Coef.toC (u j)‖ ^ 2 ≤ toR (M.form n u)

/-- the search is to end after the commutator norms `norms`: one of them is smaller than `target_com_norm`, or the last one is larger than the smallest `b` of those
before it or differs too little from it -/
def StopsAfter (targetNorm minChange : Option K) (norms : List K) : Prop :=
  (∃ t c, targetNorm = some t ∧ c ∈ norms ∧ toR c < toR t) ∨
  ∃ m earlier b c, minChange = some m ∧ norms = earlier ++ [c] ∧ (b ∈ earlier ∧ ∀ c' ∈ earlier, toR b ≤ toR c') ∧
    (toR b + 1 / 10 ^ 16 < toR c ∨ (toR b ≠ 0 ∧ |toR c - toR b| / toR b < toR m))

/-- the states `selected_ci_greedy` goes through at the beginning of its steps -/
inductive GreedyReach (num : Numerics K) (args : GreedyArgs K) (fuel : ℕ) : GreedyState K → Prop
  | init : GreedyReach num args fuel (greedyInit args)
  | step {s s' : GreedyState K} : GreedyReach num args fuel s → s.step < args.numSteps → s.endEarly = false →
      greedyStep num args fuel s = .ok (some (s', false)) → GreedyReach num args fuel s'

end Qosy
