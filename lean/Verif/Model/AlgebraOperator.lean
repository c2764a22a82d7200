import Verif.Model.Basis

/-!
# Model of `qosy/algebra.py`, part 2: products and brackets of `Operator`s
-/

namespace Qosy
variable {K : Type} [Field K] [StarRing K] [CoefOps K]

/-- the body of the double loop of `_operation_operator` (algebra.py:131-141).  A zero bracket comes as `(0.0, None)`;
its coefficient 0 is below every positive tolerance, so `None` never becomes a key (for `tol ≤ 0` it would, and the
constructor of the result would then fail). -/
def operatorStep (mode : Mode) (tol : ℚ) (ca : K) (sa : OpString) (d : Dict K) (tb : K × OpString) : Py (Dict K) := do
  let (cC, s) ← operationOpString mode sa tb.2
  let coeff := ca * tb.1 * cC
  if absLt coeff tol then .ok d
  else match s with
    | none => .error .attributeError
    | some s =>
      match d.get? s with
      | some c => .ok (d.set s (c + coeff))
      | none => .ok (d.set s coeff)

/-- `_operation_operator(A, B, operation_mode, tol)` (algebra.py:122-151) -/
def operationOperator (mode : Mode) (A B : Operator K) (tol : ℚ := tolOperator) : Py (Operator K) :=
  if A.opType ≠ B.opType then .error .valueError
  else do
    let d ← A.terms.foldlM (fun d ta => B.terms.foldlM (operatorStep mode tol ta.1 ta.2) d) []
    mkOperator (d.map Prod.snd) (d.map Prod.fst) (some A.opType)

/-- `product(A, B)` of two Operators (algebra.py:178-179) -/
def productO (A B : Operator K) : Py (Operator K) := operationOperator .product A B
/-- `commutator(A, B)` of two Operators (algebra.py:208-209) -/
def commutatorO (A B : Operator K) : Py (Operator K) := operationOperator .commutator A B
/-- `anticommutator(A, B)` of two Operators (algebra.py:238-239) -/
def anticommutatorO (A B : Operator K) : Py (Operator K) := operationOperator .anticommutator A B

end Qosy
