import Verif.Model.AlgebraOperator
import Verif.Model.Matrix
import Verif.Model.LinAlg

/-!
# Model of `generate_lie_algebra` for a list of `Operator`s (qosy/algebra.py:498-517, 561-674)

Exact complex arithmetic.  As in `Model/LieAlgebra.lean` the two nested `while` loops over a growing list are one loop over the state, run
for a given number of iterations; `none` means "still running".  The local variable `vectors` is used only to set up `projector`; after
that it is carried along without being read, and is left out of the state.
-/

namespace Qosy

/-- `combined_basis` (algebra.py:564-566) -/
def combinedBasis (ops : List (Operator ℂ)) : Basis := ops.foldl (fun b op => b.iadd op.basis) emptyBasis

open Classical in
/-- one column of `vectors` (algebra.py:568-582): the coefficients above the tolerance at the positions of their strings; repeated positions
add up -/
noncomputable def operatorColumn (tol : ℝ) (b : Basis) (op : Operator ℂ) : Py (List ℂ) := do
  let entries ← op.terms.mapM (fun t => do let i ← b.index t.2; Except.ok (i, t.1))
  .ok ((entries.filter fun e => tol < ‖e.2‖).foldl (fun v e => v.set e.1 (v.getD e.1 0 + e.2)) (List.replicate b.len 0))

open Classical in
/-- `gram_schmidt(matrix)` (tools.py:423-489) for a sparse matrix with the given columns.  It differs from the dense case (`gramSchmidt`)
in the first column if that is zero: then no entry is stored and the division by its norm leaves a column of zeros. -/
noncomputable def gramSchmidtSparse {n : ℕ} (cols : List (Fin n → ℂ)) (tol : ℝ := 0) : List (Fin n → ℂ) :=
  match cols with
  | [] => []
  | c :: rest =>
    if n = 0 then c :: rest
    else gsLoop tol rest [if vnorm c = 0 then 0 else vdiv c (vnorm c)]

/-- the sparse matrix with the given columns -/
def columnsMat {n : ℕ} (cols : List (Fin n → ℂ)) : Mat ℂ :=
  ⟨n, cols.length, (List.finRange cols.length).flatMap fun k => (List.finRange n).map fun i => (i.1, k.1, (cols.get k) i)⟩

/-- `vectors` and `projector` before the loops (algebra.py:580-597) -/
noncomputable def initialProjector (tol : ℝ) (b : Basis) (ops : List (Operator ℂ)) : Py (Mat ℂ) := do
  let cols ← ops.mapM (operatorColumn tol b)
  let vectors := columnsMat (gramSchmidtSparse (cols.map fun c (i : Fin b.len) => c.getD i 0))
  vectors.dot vectors.getH

/-- the local variables of the loops (algebra.py:562, 564, 597, 601-610) -/
structure LieOpState where
  lie : List (Operator ℂ)
  combined : Basis
  projector : Mat ℂ
  computed : List (ℕ × ℕ)
  indA : ℕ
  indB : ℕ

/-- `vec = op.to_vector(basis, fmt='csc')` as an n×1 matrix (algebra.py:647) -/
def columnMat (v : List ℂ) : Mat ℂ := ⟨v.length, 1, v.zipIdx.map fun e => (e.2, 0, e.1)⟩

/-- the strings of an operator that are missing in the basis are added to it (algebra.py:632-636); the number of the new ones is the
second component -/
def addMissing (b : Basis) (strs : List OpString) : Basis × ℕ :=
  strs.foldl (fun st s => if st.1.contains s then st else (st.1.iaddString s, st.2 + 1)) (b, 0)

/-- `ss.block_diag((projector, ss.csr_matrix((m, m))))` (algebra.py:643) -/
def enlarge (P : Mat ℂ) (m : ℕ) : Mat ℂ := ⟨P.nrows + m, P.ncols + m, P.data⟩

open Classical in
/-- the new operator is compared with the space spanned so far and added if it is not contained in it (algebra.py:630-669).  `vecC` is divided
by its norm (a non-zero number). -/
noncomputable def lieOpAdd (tol : ℝ) (st : LieOpState) (opC : Operator ℂ) : Py LieOpState := do
  let (combined, new) := addMissing st.combined (opC.terms.map Prod.snd)
  let projector := if new ≠ 0 then enlarge st.projector new else st.projector
  let v ← opC.toVectorCsc combined
  let vecC := columnMat v
  let overlaps ← projector.dot vecC
  let overlap ← vecC.getH.dot overlaps
  if tol < ‖overlap.get 0 0 - 1‖ then do
    let rest ← vecC.add (overlaps.smul (-1))
    let sq ← rest.getH.dot rest
    let unit := rest.smul ((Real.sqrt ‖sq.get 0 0‖ : ℝ) : ℂ)⁻¹
    let P ← unit.dot unit.getH
    let projector ← projector.add P
    .ok { st with lie := st.lie ++ [opC], combined := combined, projector := projector,
                  computed := st.computed ++ [(st.indA, st.indB)], indB := st.indB + 1 }
  else .ok { st with combined := combined, projector := projector, computed := st.computed ++ [(st.indA, st.indB)], indB := st.indB + 1 }

open Classical in
/-- one test of a loop condition and, if it holds, one iteration of the inner loop (algebra.py:607-673); `none` when the outer loop is
finished.  The result of `opC.remove_zeros(tol=tol)` is not used (algebra.py:622).  `normalize` divides by a norm greater than `tol`. -/
noncomputable def lieOpStep (tol : ℝ) (st : LieOpState) : Py (Option LieOpState) :=
  if st.indA < st.lie.length then
    if st.indB < st.lie.length then
      if st.indA = st.indB ∨ (st.indA, st.indB) ∈ st.computed ∨ (st.indB, st.indA) ∈ st.computed then
        .ok (some { st with indB := st.indB + 1 })
      else do
        let opA ← pyGet st.lie st.indA
        let opB ← pyGet st.lie st.indB
        let com ← commutatorO opA opB
        let opC ← com.smul (-Complex.I)
        if tol < opC.norm .l2 then do
          match opC.normalize .l2 with
          | some opC => do
            let st' ← lieOpAdd tol st opC
            .ok (some st')
          | none => .error .zeroDivision
        else .ok (some { st with computed := st.computed ++ [(st.indA, st.indB)], indB := st.indB + 1 })
    else .ok (some { st with indA := st.indA + 1, indB := 0 })
  else .ok none

/-- at most `n` iterations -/
noncomputable def lieOpRun (tol : ℝ) : ℕ → LieOpState → Py (Option (List (Operator ℂ)))
  | 0, _ => .ok none
  | n + 1, st => do
    match ← lieOpStep tol st with
    | none => .ok (some st.lie)
    | some st' => lieOpRun tol n st'

/-- `generate_lie_algebra(operators, tol)` for a list of Operators (algebra.py:561-674), run for at most `n` iterations.  `operators[0]`
of an empty list raises IndexError (algebra.py:561). -/
noncomputable def generateLieAlgebraOps (operators : List (Operator ℂ)) (n : ℕ) (tol : ℝ := 1 / 10 ^ 12) : Py (Option (List (Operator ℂ))) :=
  if operators = [] then .error .indexError
  else do
    let b := combinedBasis operators
    let P ← initialProjector tol b operators
    lieOpRun tol n ⟨operators, b, P, [], 0, 0⟩

end Qosy
