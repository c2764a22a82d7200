import Verif.Model.Matrix
import Verif.Spec.Linear
import Verif.Model.AlgebraMatrix
import Mathlib.LinearAlgebra.Matrix.PosDef
import Mathlib.Analysis.Complex.Order

/-! # Specification: matrices, coefficient vectors and linear combinations -/

namespace Qosy
open scoped ComplexOrder
variable {K : Type} [Field K]

/-- the matrix a sparse matrix stores -/
def Mat.toMatrix (M : Mat K) : Matrix (Fin M.nrows) (Fin M.ncols) K := fun i j => M.get i j

/-- the matrix with the given numbers of rows and columns -/
def Mat.rect (M : Mat K) (m n : ℕ) : Matrix (Fin m) (Fin n) K := fun i j => M.get i j

/-- the matrix-vector product -/
def Mat.mulVec (M : Mat K) (v : ℕ → K) : ℕ → K := fun i => ∑ j : Fin M.ncols, M.get i j * v j

/-- the operator with coefficients `v` in a basis -/
def linComb {M : Type} [AddCommMonoid M] [Module K M] (den : OpString → M) (strs : List OpString) (v : ℕ → K) : M :=
  ∑ i : Fin strs.length, v i • den strs[i]

/-- the `n × n` complex matrix a sparse matrix stores -/
def Mat.square [StarRing K] [Coef K] (M : Mat K) (n : ℕ) : Matrix (Fin n) (Fin n) ℂ := fun i j => Coef.toC (M.get i j)

section
variable {𝔸 : Type} [Ring 𝔸] [Algebra K 𝔸]

/-- What the result `(N, ext)` of `structure_constants(A, B)` has to satisfy: there is one matrix for every string of `B`,
with rows for the extended basis and columns for `A`, which expands all brackets of strings of `A` with that string over
the extended basis; the extended basis lists, without repetitions, only strings of non-zero brackets. -/
structure IsStructureConstants (den : OpString → 𝔸) (mode : Mode) (A B : Basis) (N : Dict (Mat K)) (ext : Basis) : Prop where
  indexed : IndexedSet ext
  keys : ∀ s, s ∉ B.strs → N.get? s = none
  expand : ∀ sB ∈ B.strs, ∃ M, N.get? sB = some M ∧ M.nrows = ext.len ∧ M.ncols = A.len ∧
    ∀ a (h : a < A.strs.length),
      bracketOf mode (den A.strs[a]) (den sB) = ∑ c : Fin ext.strs.length, M.get c a • den ext.strs[c]
  needed : ∀ s ∈ ext.strs, ∃ sA ∈ A.strs, ∃ sB ∈ B.strs, ∃ c : K, c ≠ 0 ∧ bracketOf mode (den sA) (den sB) = c • den s

/-- What the result `(L, ext)` of `liouvillian_matrix(x, O)` has to satisfy, for a list `x` of operators: one column for each
of them, one row for each string of the extended basis, and `L v` is the coefficient vector of the bracket of
`∑ v_j x_j` with `O`. -/
structure IsLiouvillian (den : OpString → 𝔸) (mode : Mode) (x : List 𝔸) (O : 𝔸) (L : Mat K) (ext : Basis) : Prop where
  indexed : IndexedSet ext
  nrows : L.nrows = ext.len
  ncols : L.ncols = x.length
  represents : ∀ v : ℕ → K, bracketOf mode (∑ j : Fin x.length, v j • x[j]) O = linComb den ext.strs (L.mulVec v)

/-- the operators whose brackets `liouvillian_matrix` represents -/
def BasisArg.den (den : OpString → 𝔸) : BasisArg K → List 𝔸
  | .strings b => b.strs.map den
  | .operators l => l.map (fun o => o.den den)

/-- all strings of the argument satisfy a predicate -/
def BasisArg.All (P : OpString → Prop) : BasisArg K → Prop
  | .strings b => ∀ s ∈ b.strs, P s
  | .operators l => ∀ o ∈ l, ∀ s ∈ o.basis.strs, P s

/-- What the commutant matrix `C` of the operators `x` with `O` has to satisfy: it is square, Hermitian and positive
semidefinite; `v† C v` is the squared norm of the coefficients, over the returned extended basis, of the bracket of `∑ v_j x_j`
with `O`; and `C v = 0` exactly when that bracket vanishes. -/
structure IsCommutant [StarRing K] [Coef K] (den : OpString → 𝔸) (mode : Mode) (x : List 𝔸) (O : 𝔸) (C : Mat K) (ext : Basis) : Prop where
  indexed : IndexedSet ext
  nrows : C.nrows = x.length
  ncols : C.ncols = x.length
  psd : (C.square x.length).PosSemidef
  form : ∀ v : ℕ → K, ∃ w : ℕ → K, bracketOf mode (∑ j : Fin x.length, v j • x[j]) O = linComb den ext.strs w ∧
    ∑ i : Fin x.length, ∑ j : Fin x.length, star (v i) * C.get i j * v j = ∑ c : Fin ext.strs.length, star (w c) * w c
  kernel : ∀ v : ℕ → K, (∀ i : Fin x.length, C.mulVec v i = 0) ↔ bracketOf mode (∑ j : Fin x.length, v j • x[j]) O = 0

end

end Qosy
