import Verif.Model.SelectedCi

/-!
# Model of `qosy/algorithms.py`, part 4: `selected_ci_greedy_many_ops` and `selected_ci_greedy_many_ops2`

As in `Model/Greedy.lean`: exact arithmetic, numerical routines as parameters, no printing.
-/

namespace Qosy
open RealOps
variable {K : Type} [Field K] [StarRing K] [CoefOps K] [RealOps K]

/-- an argument that is an integer or a list of integers -/
inductive SizeArg where
  | int (n : Nat)
  | list (l : List Nat)

/-- the entry for a step: an integer is turned into an array of `num_steps` equal entries (algorithms.py:1062-1068) -/
def SizeArg.at : SizeArg → Nat → Py Nat
  | .int n, _ => .ok n
  | .list l, i => pyGet l i

/-- the argument as `max_basis_size` of `_truncate_basis`, which compares it with an integer: TypeError for a list (algorithms.py:33) -/
def SizeArg.scalar : SizeArg → Py Nat
  | .int n => .ok n
  | .list _ => .error .typeError

/-- `l[-1]` -/
def pyLast {α : Type} (l : List α) : Py α :=
  match l.getLast? with
  | some x => .ok x
  | none => .error .indexError

/-! ### `selected_ci_greedy_many_ops` -/

/-- the arguments of `selected_ci_greedy_many_ops` (algorithms.py:1060) -/
structure ManyOpsArgs (K : Type) where
  initialOperators : List (Operator K)
  H : Operator K
  numSteps : Nat
  numHTerms : SizeArg := .int 10
  numOTerms : Nat := 0
  threshold : ℚ := 1 / 10 ^ 6
  maxSize : SizeArg := .int 100
  explored : Option (Explored K) := none

/-- the local variables: the current operators, the cache if one was given (it is changed by the calls), and the lists of the step -/
structure ManyState (K : Type) where
  current : List (Operator K)
  explored : Option (Explored K)
  ops : List (Operator K)
  norms : List K

/-- `selected_ci_greedy` with its variables after the loop, among them the cache it has changed (algorithms.py:702-1038) -/
def greedyCached (num : Numerics K) (args : GreedyArgs K) (fuel : Nat) : Py (Option (GreedyState K)) :=
  match args.comOps with
  | [] => .error .indexError
  | H :: _ =>
    if H.basis.strs.all (fun s => s.labels.isEmpty) then .error .valueError
    else greedyLoop num args fuel fuel (greedyInit args)

/-- the arguments of the call of `selected_ci_greedy` (algorithms.py:1107) -/
def ManyOpsArgs.call (args : ManyOpsArgs K) (op : Operator K) (orth : List (Operator K)) (numH size : Nat) (x : Option (Explored K)) : GreedyArgs K :=
  { initialOperator := op, comOps := [args.H], numSteps := 1, numHTerms := [numH], numOTerms := args.numOTerms, threshold := args.threshold,
    maxSizes := [size], explored := x.getD .empty, orthOps := some orth }

/-- the operator is truncated except in the first step (algorithms.py:1101-1102) -/
def ManyOpsArgs.truncate (num : Numerics K) (args : ManyOpsArgs K) (step : Nat) (op : Operator K) : Py (Operator K) :=
  if step = 0 then .ok op
  else do
    let n ← args.maxSize.scalar
    truncateOperator num.argsort op args.threshold n none

/-- one operator of one step (algorithms.py:1091-1112).  One iteration of the loop of `selected_ci_greedy` is enough for one step without a
target, so that the case `none` does not occur. -/
def manyOpsOne (num : Numerics K) (args : ManyOpsArgs K) (step : Nat) (st : ManyState K) (i : Nat) : Py (ManyState K) := do
  let op ← pyGet st.current i
  let op ← args.truncate num step op
  let numH ← args.numHTerms.at step
  let size ← args.maxSize.at step
  let r ← greedyCached num (args.call op (st.current.eraseIdx i) numH size st.explored) 1
  match r with
  | none => .error .recursionError
  | some s => do
    let O ← pyLast s.operators
    let c ← pyLast s.comNorms
    .ok ⟨st.current.set i O, st.explored.map (fun _ => s.explored), st.ops ++ [O], st.norms ++ [c]⟩

/-- one step (algorithms.py:1085-1115) -/
def manyOpsStep (num : Numerics K) (args : ManyOpsArgs K) (acc : ManyState K × List (List (Operator K)) × List (List K)) (step : Nat) :
    Py (ManyState K × List (List (Operator K)) × List (List K)) := do
  let st ← (List.range args.initialOperators.length).foldlM (manyOpsOne num args step) { acc.1 with ops := [], norms := [] }
  .ok (st, acc.2.1 ++ [st.ops], acc.2.2 ++ [st.norms])

/-- `selected_ci_greedy_many_ops` (algorithms.py:1060-1117) -/
def manyOps (num : Numerics K) (args : ManyOpsArgs K) : Py (List (List (Operator K)) × List (List K)) := do
  let r ← (List.range args.numSteps).foldlM (manyOpsStep num args) (⟨args.initialOperators, args.explored, [], []⟩, [], [])
  .ok r.2

/-! ### `selected_ci_greedy_many_ops2` -/

/-- the arguments of `selected_ci_greedy_many_ops2` (algorithms.py:1123); `rand` are the random numbers of the function -/
structure ManyOps2Args (K : Type) where
  initialOperators : List (Operator K)
  H : Operator K
  numSteps : Nat
  numHTerms : SizeArg := .int 10
  threshold : ℚ := 1 / 10 ^ 6
  maxSize : SizeArg := .int 100
  explored : Explored K := .empty
  orthOps : Option (List (Operator K)) := none
  rand : Nat → Nat → K

/-- the local variables of `selected_ci_greedy_many_ops2` -/
structure Many2State (K : Type) where
  explored : Explored K
  basis : Basis
  current : List (Operator K)
  operators : List (List (Operator K))
  comNorms : List (List K)
  previous : Basis
  previous2 : Option Basis

/-- the coefficients of an operator in the common basis, as an operator (algorithms.py:1153-1158) -/
def many2Vector (basis : Basis) (op : Operator K) : Py (Operator K) := do
  let v ← op.terms.foldlM (fun (v : List K) t => do
    let i ← basis.index t.2
    .ok (v.set i t.1)) (List.replicate basis.len 0)
  mkOperator v basis.strs none

/-- at most `num` strings that are neither in the basis nor among the new ones are added to the new ones (algorithms.py:1193-1200) -/
def many2Insert (num : Nat) (basis : Basis) : List OpString → Basis → Nat → Basis
  | [], new, _ => new
  | s :: l, new, count =>
    if basis.contains s || new.contains s then (if num ≤ count then new else many2Insert num basis l new count)
    else (if num ≤ count + 1 then new.iaddString s else many2Insert num basis l (new.iaddString s) (count + 1))

/-- the new strings for one operator (algorithms.py:1170-1200) -/
def many2Expand (num : Numerics K) (H : Operator K) (numH : Nat) (basis : Basis) (acc : Basis × Explored K) (op : Operator K) :
    Py (Basis × Explored K) := do
  let ((L, ext), st) ← explore basis H none acc.2
  let w ← L.dotVec op.coeffs
  let inds := (num.argsort w).reverse
  let inds := inds.take (min inds.length numH)
  let strs ← inds.mapM (pyGet ext.strs)
  let A ← mkBasis strs
  let ((L2, ext2), st) ← explore A H none st
  let v ← inds.mapM (pyGet w)
  let w2 ← L2.dotVec v
  let strs2 ← (num.argsort w2).reverse.mapM (pyGet ext2.strs)
  .ok (many2Insert (min w2.length numH) basis strs2 acc.1 0, st)

/-- the eigenvectors (algorithms.py:1224-1232).  `eigsh` raises an exception unless the number of vectors is positive and smaller than the dimension. -/
def many2Eig (num : Numerics K) (com : Mat K) (n numOps : Nat) : Py (List K × List (List K)) :=
  if n < 20 ∧ numOps < 20 then .ok (num.eigh com)
  else if numOps = 0 then .error .valueError
  else if n ≤ numOps then .error .typeError
  else
    let r := num.eigsh numOps com
    sortPairs num r.1 r.2

/-- the penalty for `orth_ops` (algorithms.py:1220-1222) -/
def ManyOps2Args.penalise (args : ManyOps2Args K) (com : Mat K) (basis : Basis) : Py (Mat K) :=
  match args.orthOps with
  | some ops => orthogonalizeComMatrix com basis ops
  | none => .ok com

/-- the norms are recomputed, with the matrix that contains the penalty (algorithms.py:1236-1243) -/
def ManyOps2Args.recompute (num : Numerics K) (args : ManyOps2Args K) (com : Mat K) (r : List K × List (List K)) : Py (List K × List (List K)) :=
  match args.orthOps with
  | some _ => greedyRecompute num com r.2
  | none => .ok r

/-- the eigenvectors and norms of a step (algorithms.py:1216-1243) -/
def many2Solve (num : Numerics K) (args : ManyOps2Args K) (basis : Basis) (st : Explored K) : Py ((List K × List (List K)) × Explored K) := do
  let (com, st) ← greedyCommutant basis args.H st
  let com ← args.penalise com basis
  let r ← many2Eig num com basis.len args.initialOperators.length
  let r ← args.recompute num com r
  .ok (r, st)

/-- the truncated basis (algorithms.py:1254-1259): if the random combination is zero, dividing by its norm gives nan, which is above no
threshold -/
def many2Truncate (num : Numerics K) (args : ManyOps2Args K) (step : Nat) (basis : Basis) (vecs : List (List K)) : Py Basis := do
  let v := vecs.zipIdx.foldl (fun (acc : List K) e => List.zipWith (fun x y => x + (2 * args.rand step e.2 - 1) * y) acc e.1) (List.replicate basis.len 0)
  let norm := num.sqrt (innerL v v)
  let size ← args.maxSize.scalar
  if reZero norm then mkBasis [] else truncateBasis num.argsort basis (v.map (· / norm)) args.threshold size none

/-- the records and the next basis and operators (algorithms.py:1245-1268) -/
def many2Finish (num : Numerics K) (args : ManyOps2Args K) (step : Nat) (s : Many2State K) (basis : Basis) (st : Explored K)
    (evals : List K) (evecs : List (List K)) : Py (Many2State K) := do
  let _ ← pyGet evecs 0
  let _ ← pyGet evals 0
  let vecs ← (List.range args.initialOperators.length).mapM (pyGet evecs)
  let best ← vecs.mapM (fun v => mkOperator v basis.strs none)
  let small ← many2Truncate num args step basis vecs
  let current ← vecs.mapM (fun v => do
    let coeffs ← small.strs.mapM (fun os => do
      let i ← small.index os
      pyGet v i)
    mkOperator coeffs small.strs none)
  .ok ⟨st, small, current, s.operators ++ [best], s.comNorms ++ [evals.take args.initialOperators.length], basis, some s.previous⟩

/-- the basis is the previous one or the one before (algorithms.py:1206-1211) -/
def many2Stop (step : Nat) (basis : Basis) (s : Many2State K) : Bool :=
  decide (0 < step) && (sameStrings basis s.previous || inCycle basis s.previous2)

/-- the steps (algorithms.py:1167-1268) from number `step` on, `n` of them -/
def many2Loop (num : Numerics K) (args : ManyOps2Args K) : Nat → Nat → Many2State K → Py (Many2State K)
  | 0, _, s => .ok s
  | n + 1, step, s => do
    let (new, st) ← s.current.foldlM (fun acc op => do
      let numH ← args.numHTerms.at step
      many2Expand num args.H numH s.basis acc op) (emptyBasis, s.explored)
    let basis := s.basis.iadd new
    if many2Stop step basis s then .ok { s with explored := st, basis := basis }
    else do
      let (r, st) ← many2Solve num args basis st
      let s ← many2Finish num args step s basis st r.1 r.2
      many2Loop num args n (step + 1) s

/-- `selected_ci_greedy_many_ops2` (algorithms.py:1123-1270): the operators and norms of the steps -/
def manyOps2 (num : Numerics K) (args : ManyOps2Args K) : Py (List (List (Operator K)) × List (List K)) :=
  if args.H.basis.strs.all (fun s => s.labels.isEmpty) then .error .valueError
  else do
    let basis := args.initialOperators.foldl (fun (b : Basis) op => b.iadd op.basis) emptyBasis
    let current ← args.initialOperators.mapM (many2Vector basis)
    let s ← many2Loop num args args.numSteps 0 ⟨args.explored, basis, current, [], [], basis, none⟩
    .ok (s.operators, s.comNorms)

end Qosy
