import Verif.Model.AlgebraOperator
import Verif.Spec.Linear
import Verif.RealCoef

/-! # Specification: laws of the products and brackets of Operators (C99) -/

namespace Qosy

/-- no product of two non-zero coefficients is below the tolerance `1e-16`, so that `mode(A, B)` leaves out nothing -/
def NothingCut {K : Type} [Field K] [StarRing K] [Coef K] (mode : Mode) (A B : Operator K) : Prop :=
  ∀ ta ∈ A.terms, ∀ tb ∈ B.terms, ta.1 * tb.1 = 0 ∨ (1 : ℝ) / 10 ^ 16 ≤ ‖Coef.toC (ta.1 * tb.1)‖ * bracketFactor mode

end Qosy
