import Verif.Model.Basis

/-!
# Model of the scipy.sparse matrices qosy uses

A sparse matrix is modelled by its shape and a list of coordinate triples `(row, column, value)`; repeated coordinates add up, as
scipy does when it builds a csr/csc matrix from coordinate data.  The storage order is not modelled.
-/

namespace Qosy

/-- a `scipy.sparse.csr_matrix` or `csc_matrix` -/
structure Mat (K : Type) where
  nrows : Nat
  ncols : Nat
  data : List (Nat × Nat × K)
deriving DecidableEq, Repr

variable {K : Type} [Field K] [StarRing K] [CoefOps K]

/-- the entry at row `i` and column `j` -/
def Mat.get (M : Mat K) (i j : Nat) : K :=
  (M.data.map (fun e => if e.1 = i ∧ e.2.1 = j then e.2.2 else 0)).sum

/-- `ss.csr_matrix((data, (row_inds, col_inds)), shape=(nrows, ncols))`; scipy raises ValueError for indices that exceed
the shape -/
def mkCsr (data : List (Nat × Nat × K)) (nrows ncols : Nat) : Py (Mat K) :=
  if data.all (fun e => decide (e.1 < nrows) && decide (e.2.1 < ncols)) then .ok ⟨nrows, ncols, data⟩ else .error .valueError

/-- `ss.csr_matrix((nrows, ncols))` -/
def Mat.zero (nrows ncols : Nat) : Mat K := ⟨nrows, ncols, []⟩

/-- `M + N` and `M += N`; ValueError for different shapes -/
def Mat.add (M N : Mat K) : Py (Mat K) :=
  if M.nrows ≠ N.nrows ∨ M.ncols ≠ N.ncols then .error .valueError else .ok ⟨M.nrows, M.ncols, M.data ++ N.data⟩

/-- `c * M` -/
def Mat.smul (c : K) (M : Mat K) : Mat K := ⟨M.nrows, M.ncols, M.data.map (fun e => (e.1, e.2.1, c * e.2.2))⟩

/-- `M.dot(N)`; ValueError for incompatible shapes -/
def Mat.dot (M N : Mat K) : Py (Mat K) :=
  if M.ncols ≠ N.nrows then .error .valueError
  else .ok ⟨M.nrows, N.ncols,
    M.data.flatMap (fun e => (N.data.filter (fun f => decide (f.1 = e.2.1))).map (fun f => (e.1, f.2.1, e.2.2 * f.2.2)))⟩

/-- `M.getH()` and `M.H` -/
def Mat.getH (M : Mat K) : Mat K := ⟨M.ncols, M.nrows, M.data.map (fun e => (e.2.1, e.1, star e.2.2))⟩

end Qosy
