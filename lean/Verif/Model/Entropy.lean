import Verif.Model.Diagonalization
import Mathlib.Analysis.SpecialFunctions.Log.Basic
import Mathlib.Data.EReal.Operations

/-!
# Model of `renyi_entropy` (`qosy/diagonalization.py`)

The numbers are complex numbers.  The value of the logarithm at zero is `-inf` as in numpy.  The matrix is complex, as
`reduced_density_matrix` returns it, so the real part of the logarithm of a number is the logarithm of its absolute value.
-/

namespace Qosy
variable {K : Type} [Field K]

/-- `np.eye(n)` -/
def Dense.eye (n : ℕ) : Dense K := ⟨n, n, fun i j => if i = j then 1 else 0⟩

/-- `np.dot(A, B)` -/
def Dense.dot (A B : Dense K) : Py (Dense K) :=
  if A.ncols ≠ B.nrows then .error .valueError
  else .ok ⟨A.nrows, B.ncols, fun i j => ((List.range A.ncols).map (fun k => A.get i k * B.get k j)).sum⟩

/-- `np.trace(A)` -/
def Dense.trace (A : Dense K) : K := ((List.range (min A.nrows A.ncols)).map (fun i => A.get i i)).sum

/-- the loop of `renyi_entropy` (diagonalization.py:217-218) with the given number of passes -/
def Dense.productLoop (rho : Dense K) : ℕ → Dense K → Py (Dense K)
  | 0, P => .ok P
  | k + 1, P => do
    let P ← P.dot rho
    productLoop rho k P

/-- `np.real(np.log(z))` -/
noncomputable def logAbs (z : ℂ) : EReal := if z = 0 then ⊥ else (Real.log ‖z‖ : ℝ)

/-- `renyi_entropy` (diagonalization.py:214-220); `range(n)` is empty for a negative `n`, and `1.0/(1.0-n)` raises ZeroDivisionError for `n = 1` -/
noncomputable def renyiEntropy (rho : Dense ℂ) (n : ℤ := 2) : Py EReal := do
  let P ← rho.productLoop n.toNat (Dense.eye rho.nrows)
  if n = 1 then .error .zeroDivision
  else .ok (((1 / (1 - (n : ℝ)) : ℝ) : EReal) * logAbs P.trace)

end Qosy
