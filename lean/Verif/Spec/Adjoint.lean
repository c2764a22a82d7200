import Verif.Spec.Matrix

/-! # The adjoint representation (C103) -/

namespace Qosy

section
variable {K : Type} [Field K]

/-- the coefficient of the string `s` in column `j` of a matrix whose rows belong to the strings of `ext` -/
def Mat.coefAt [StarRing K] [Coef K] (L : Mat K) (ext : Basis) (j : ℕ) (s : OpString) : K :=
  if s ∈ ext.strs then L.get (ext.strs.idxOf s) j else 0

/-- the structure constant `f(i, k; s)`: the coefficient of `s` in the commutator of the strings `i` and `k` of the basis, as returned by `structure_constants` -/
def structureConstant [StarRing K] [Coef K] (b : Basis) (N : Dict (Mat K)) (ext : Basis) (i k : ℕ) (s : OpString) : K :=
  match (b.strs[k]?).bind N.get? with
  | some M => M.coefAt ext i s
  | none => 0

end

end Qosy
