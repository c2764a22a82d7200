import Verif.Model.Transformation

/-!
# Model of `symmetrize_basis` (qosy/symmetrization.py:16-101)

The `info` of a label permutation is its permutation array, so the generators are lists of arrays.
-/

namespace Qosy

/-- the loop `for g in G` (symmetrization.py:74-80), run for at most `n` iterations (`none`: still running).  `G` and `newG` are the
same list object after `G = newG` (symmetrization.py:69), so the loop also visits the elements it appends.  `newG_set` is
always the set of the arrays in `newG`, so it is not kept separately. -/
def closeUnder (gen : List ℕ) : ℕ → ℕ → List (List ℕ) → Py (Option (List (List ℕ)))
  | 0, _, _ => .ok none
  | n + 1, i, G =>
    match G[i]? with
    | none => .ok (some G)
    | some g => do
      let perm ← composePermutations g gen
      if perm ∈ G then closeUnder gen n (i + 1) G
      else closeUnder gen n (i + 1) (G ++ [perm])

/-- the loop `for gen in group_generators` (symmetrization.py:73-80) -/
def groupLoop (n : ℕ) : List (List ℕ) → List (List ℕ) → Py (Option (List (List ℕ)))
  | [], G => .ok (some G)
  | gen :: gens, G => do
    match ← closeUnder gen n 0 G with
    | none => .ok none
    | some G => groupLoop n gens G

/-- the group elements `symmetrize_basis` uses (symmetrization.py:60-80).  The loop `while len(newG) != len(G)` is entered, since there
is a generator, and left after one pass, since then `G` and `newG` are the same list. -/
def symmetryGroup (gens : List (List ℕ)) (n : ℕ) : Py (Option (List (List ℕ))) :=
  match gens with
  | [] => .error .indexError
  | gen :: _ => groupLoop n gens (List.range gen.length :: gens)

section
variable {K : Type} [Field K] [StarRing K] [CoefOps K]

/-- the loop of `_symmetrize_opstring` (symmetrization.py:23-24) -/
def symmetrizeString (s : OpString) : List (List ℕ) → Operator K → Py (Operator K)
  | [], A => .ok A
  | g :: G, A => do
    let B ← labelPermutation (g.map Int.ofNat) s
    let A ← A.iadd B
    symmetrizeString s G A

/-- `_symmetrize_opstring` (symmetrization.py:16-26) -/
def symmetrizeOpstring (s : OpString) (G : List (List ℕ)) : Py (Operator K) := do
  let zero ← mkOperator [] [] (some s.opType)
  symmetrizeString s G zero

/-- the loop over the basis (symmetrization.py:84-99); `finish` is the part after `remove_zeros` -/
def symmetrizeLoop (finish : Operator K → Option (Operator K)) (G : List (List ℕ)) :
    List OpString → List OpString → List (Operator K) → Py (List (Operator K))
  | [], _, symmetrized => .ok symmetrized
  | s :: basis, visited, symmetrized =>
    if s ∈ visited then symmetrizeLoop finish G basis visited symmetrized
    else do
      let A ← symmetrizeOpstring s G
      let visited := visited ++ A.terms.map Prod.snd
      let B ← A.removeZeros
      match finish B with
      | none => symmetrizeLoop finish G basis visited symmetrized
      | some C => symmetrizeLoop finish G basis visited (symmetrized ++ [C])
end

open Classical in
/-- `if symmetrized_op.norm() > tol: symmetrized_op.normalize()` (symmetrization.py:97-99).  (`normalize` only divides zeros by
zero when a coefficient is zero, which does not happen after `remove_zeros`.) -/
noncomputable def normalizeAbove (tol : ℚ) (A : Operator ℂ) : Option (Operator ℂ) :=
  if (tol : ℝ) < A.norm .l2 then A.normalize .l2 else none

/-- `symmetrize_basis(basis, group_generators, tol)` (symmetrization.py:28-101), where each loop that constructs the group runs for at
most `n` iterations -/
noncomputable def symmetrizeBasis (basis : Basis) (gens : List (List ℕ)) (n : ℕ) (tol : ℚ := 1 / 10 ^ 12) : Py (Option (List (Operator ℂ))) := do
  match ← symmetryGroup gens n with
  | none => .ok none
  | some G => do
    let l ← symmetrizeLoop (normalizeAbove tol) G basis.strs [] []
    .ok (some l)

end Qosy
