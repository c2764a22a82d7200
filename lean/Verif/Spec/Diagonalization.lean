import Verif.Model.Diagonalization
import Verif.Spec.MatrixRep
import Verif.Spec.Linear
import Mathlib.LinearAlgebra.Matrix.Trace

/-!
# Specification: how numbers encode spin configurations, matrices and state vectors

Site 0 is the most significant of the `n` bits, as in the Kronecker product `site 0 ⊗ site 1 ⊗ …`.
-/

namespace Qosy
variable {K : Type} [Field K] [StarRing K] [Coef K] {n : ℕ}

/-- the spin configuration that the number `k < 2 ^ n` stands for -/
def cfgOf (n k : ℕ) : Cfg n := fun i => k.testBit (n - 1 - i)

/-- `M` is the matrix `D`, its rows and columns being numbered by the configurations -/
structure IsMatrixOf (n : ℕ) (M : Mat K) (D : Matrix (Cfg n) (Cfg n) K) : Prop where
  nrows : M.nrows = 2 ^ n
  ncols : M.ncols = 2 ^ n
  entries : ∀ a b, a < 2 ^ n → b < 2 ^ n → M.get a b = D (cfgOf n a) (cfgOf n b)
  outside : ∀ a b, ¬ (a < 2 ^ n ∧ b < 2 ^ n) → M.get a b = 0

/-- the list `v` is the state vector `ψ` -/
structure IsState (n : ℕ) (v : List K) (ψ : Cfg n → K) : Prop where
  length : v.length = 2 ^ n
  entries : ∀ k, k < 2 ^ n → v[k]? = some (ψ (cfgOf n k))

/-- `M` is the dense matrix `D` -/
structure IsDenseOf (n : ℕ) (M : Dense K) (D : Matrix (Cfg n) (Cfg n) K) : Prop where
  nrows : M.nrows = 2 ^ n
  ncols : M.ncols = 2 ^ n
  entries : ∀ a b, a < 2 ^ n → b < 2 ^ n → M.get a b = D (cfgOf n a) (cfgOf n b)

/-- the 2×2 Pauli matrices, and the identity for a site without operator; `false` is the first basis state -/
def pauliMatrix : Option Op → Bool → Bool → K
  | none, a, b => if a = b then 1 else 0
  | some .X, a, b => if a = b then 0 else 1
  | some .Y, a, b => if a = b then 0 else if a then I else -I
  | some .Z, a, b => if a = b then (if a then -1 else 1) else 0
  | some _, _, _ => 0

/-- the operator that the string has at a site -/
def OpString.siteOp (s : OpString) (l : ℤ) : Option Op := ((s.ops.zip s.labels).find? (fun x => decide (x.2 = l))).map Prod.fst

/-- the list of orbital labels `[f 0, f 1, …]` -/
def siteList {m : ℕ} (f : Fin m ↪ Fin n) : List ℤ := List.ofFn (fun j => ((f j : ℕ) : ℤ))

/-- The operator `tr_rest |ψ⟩⟨φ|` on the sites `f 0, f 1, …`, the other sites being traced out: the entry for the configurations
`α`, `β` of these sites is the sum over all configurations that extend them and agree with each other on the other sites. -/
def partialTrace {m : ℕ} (f : Fin m ↪ Fin n) (ψ φ : Cfg n → K) : Matrix (Cfg m) (Cfg m) K := fun α β =>
  ∑ σ : Cfg n, ∑ τ : Cfg n, if σ ∘ f = α ∧ τ ∘ f = β ∧ (∀ i, i ∉ Set.range f → σ i = τ i) then ψ σ * star (φ τ) else 0

/-- the matrix-vector product -/
def matVec (M : Mat K) (v : List K) : List K :=
  (List.range M.nrows).map (fun a => ∑ b ∈ Finset.range M.ncols, M.get a b * v.getD b 0)

end Qosy
