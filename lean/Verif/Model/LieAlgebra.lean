import Verif.Model.AlgebraMatrix

/-!
# Model of `generate_lie_algebra` for a `Basis` (qosy/algebra.py:498-560)

The two nested `while` loops over a growing basis are one loop over the state `(lie_algebra, inds_computed, indA, indB)`; the
model runs it for a given number of iterations.  `none` means "still running": the property shows that for every valid input
some number of iterations suffices.
-/

namespace Qosy
variable {K : Type} [Field K] [StarRing K] [CoefOps K]

/-- the local variables of the loops (algebra.py:520-530) -/
structure LieState where
  lie : Basis
  computed : List (Nat × Nat)
  indA : Nat
  indB : Nat

/-- one test of a loop condition and, if it holds, one iteration of the inner loop (algebra.py:530-558);
`none` when the outer loop is finished -/
def lieStep (K : Type) [Field K] [StarRing K] [CoefOps K] (tol : ℚ) (st : LieState) : Py (Option LieState) :=
  if st.indA < st.lie.len then
    if st.indB < st.lie.len then
      if (st.indA, st.indB) ∈ st.computed ∨ (st.indB, st.indA) ∈ st.computed then
        .ok (some { st with indB := st.indB + 1 })
      else do
        let osA ← pyGet st.lie.strs st.indA
        let osB ← pyGet st.lie.strs st.indB
        let (coeffC, osC) ← (commutatorS osA osB : Py (K × Option OpString))
        if absLt coeffC tol then
          .ok (some { st with computed := st.computed ++ [(st.indA, st.indB)], indB := st.indB + 1 })
        else
          match osC with
          | none => .error .typeError
          | some osC =>
            let lie := if st.lie.contains osC then st.lie else st.lie.iaddString osC
            .ok (some { lie := lie, computed := st.computed ++ [(st.indA, st.indB)], indA := st.indA, indB := st.indB + 1 })
    else .ok (some { st with indA := st.indA + 1, indB := 0 })
  else .ok none

/-- at most `n` iterations -/
def lieRun (K : Type) [Field K] [StarRing K] [CoefOps K] (tol : ℚ) : Nat → LieState → Py (Option Basis)
  | 0, _ => .ok none
  | n + 1, st => do
    match ← lieStep K tol st with
    | none => .ok (some st.lie)
    | some st' => lieRun K tol n st'

/-- `generate_lie_algebra(operators, tol)` for a Basis (algebra.py:519-560), run for at most `n` iterations -/
def generateLieAlgebra (K : Type) [Field K] [StarRing K] [CoefOps K] (operators : Basis) (n : Nat) (tol : ℚ := 1 / 10 ^ 12) : Py (Option Basis) :=
  lieRun K tol n ⟨emptyBasis.iadd operators, [], 0, 0⟩

end Qosy
