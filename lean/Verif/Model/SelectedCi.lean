import Verif.Model.Greedy

/-!
# Model of `qosy/algorithms.py`, part 3: `selected_ci_simple`, `selected_ci`, `selected_ci_sweep`, `selected_ci_greedy_simple`

Exact arithmetic, no printing.  What the functions do with the commutant matrix (eigenvectors, records, truncation) is an arbitrary function
`rest` of the local variables and the matrix: the theorems about these functions hold whatever it is.
-/

namespace Qosy
open RealOps
variable {K : Type} [Field K] [StarRing K] [CoefOps K] [RealOps K]

/-- the two kinds of objects given to `_l_matrix` and `_com_matrix` as `s_constants`: the data tuples of `structure_constants`, or the sparse
matrix that `_explore` returns -/
inductive StructureData (K : Type) where
  | tuples (d : Dict (List (Nat × Nat × K)))
  | matrix (M : Mat K)

/-- `s_constants[os]`.  scipy accepts integers, slices and arrays as an index of a sparse matrix; an OperatorString is none of them (numpy
makes an array without dimensions of it), so it raises IndexError. -/
def StructureData.lookup : StructureData K → OpString → Py (List (Nat × Nat × K))
  | .tuples d, s => d.lookup s
  | .matrix _, _ => .error .indexError

/-- `ss.csr_matrix((data, (row_inds, col_inds)))`: the shape is taken from the largest indices; ValueError without entries -/
def inferredCsr (data : List (Nat × Nat × K)) : Py (Mat K) :=
  if data.isEmpty then .error .valueError
  else .ok ⟨(data.map fun e => e.1 + 1).foldl max 0, (data.map fun e => e.2.1 + 1).foldl max 0, data⟩

/-- `_l_matrix` (algorithms.py:48-65) -/
def lMatrix (s : StructureData K) (A : Operator K) : Py (Mat K) := do
  let l ← A.terms.mapM (fun t => do
    let d ← s.lookup t.2
    .ok (d.map fun e => (e.1, e.2.1, t.1 * e.2.2)))
  inferredCsr l.flatten

/-- `_com_matrix` (algorithms.py:67-75) -/
def comMatrix (s : StructureData K) (A : Operator K) : Py (Mat K) := do
  let L ← lMatrix s A
  L.getH.dot L

/-- the local variables of the searches; `bestComNorm = none` is `np.inf` -/
structure CiState (K : Type) where
  explored : Explored K
  basis : Basis
  previous : Basis
  previous2 : Option Basis
  bestOperator : Operator K
  bestComNorm : Option K
  operators : List (Operator K)
  comNorms : List K

/-- what the searches return: `(best_operator, best_com_norm, operators, com_norms)` -/
abbrev CiResult (K : Type) := Operator K × Option K × List (Operator K) × List K

/-- the variables before the loop (algorithms.py:260-281, 352-374, 552-574) -/
def ciInit (initial : Operator K) (explored : Explored K) : CiState K :=
  let basis := emptyBasis.iadd initial.basis
  ⟨explored, basis, basis, none, initial, none, [], []⟩

/-- the returned value -/
def CiState.result (s : CiState K) : CiResult K := (s.bestOperator, s.bestComNorm, s.operators, s.comNorms)

/-- `set(b.op_strings) == set(c.op_strings)` -/
def sameStrings (b c : Basis) : Bool := b.strs.all c.contains && c.strs.all b.contains

/-- the basis is the one before the previous one (algorithms.py:291-293) -/
def inCycle (b : Basis) : Option Basis → Bool
  | some p => sameStrings b p
  | none => false

/-- the steps of `selected_ci` (algorithms.py:282-342) -/
def ciLoop (rest : CiState K → Mat K → Py (CiState K)) (H : Operator K) : Nat → CiState K → Py (CiState K)
  | 0, s => .ok s
  | n + 1, s => do
    let ((_, ext1), x) ← explore s.basis H none s.explored
    let ((_, ext2), x) ← explore ext1 H none x
    let basis := s.basis.iadd ext2
    if sameStrings basis s.previous || inCycle basis s.previous2 then
      .ok { s with explored := x, basis := basis }
    else do
      let ((L, _), x) ← explore basis H none x
      let C ← comMatrix (.matrix L) H
      let s ← rest { s with explored := x, basis := basis, previous := basis, previous2 := some s.previous } C.real
      ciLoop rest H n s

/-- `selected_ci(initial_operator, H, num_steps, explored_data=explored)` (algorithms.py:257-344); the other arguments are used only by `rest`
(algorithms.py:308-342) -/
def selectedCi (rest : CiState K → Mat K → Py (CiState K)) (initial H : Operator K) (numSteps : Nat) (explored : Explored K := .empty) :
    Py (CiResult K) := do
  let s ← ciLoop rest H numSteps (ciInit initial explored)
  .ok s.result

/-- `selected_ci_simple` (algorithms.py:208-254).  The name `liouvillian_matrix` is not imported into the module (algorithms.py:15-19), so
calling it raises NameError. -/
def selectedCiSimple (initial H : Operator K) : Nat → Py (CiResult K)
  | 0 => .ok (initial, none, [], [])
  | _ + 1 => do
    let basis := emptyBasis.iadd initial.basis
    let (_, ext) ← (structureConstants basis H.basis .commutator : Py (Dict (Mat K) × Basis))
    let basis := basis.iadd ext
    let (_, _) ← (structureConstants basis H.basis .commutator : Py (Dict (Mat K) × Basis))
    .error .nameError

/-- the labels of the strings of a basis -/
def Basis.allLabels (b : Basis) : List Int := b.strs.flatMap OpString.labels

/-- `np.min` of an array of integers; ValueError if it is empty -/
def npMin : List Int → Py Int
  | [] => .error .valueError
  | x :: l => .ok (l.foldl min x)

/-- the arguments of `selected_ci_sweep` that matter before the commutant matrix: `pre_filter_fun`, and the part of the loop that uses
`expand_unitary` (algorithms.py:406-420) as a function of the earlier operators -/
structure SweepArgs (K : Type) where
  preFilter : Option (Basis → Basis) := none
  expandUnitary : List (Operator K) → Basis → Explored K → Py (Basis × Explored K) := fun _ b x => .ok (b, x)

/-- the expansion by `expand_unitary`, if there are earlier operators (algorithms.py:406-420) -/
def SweepArgs.expand (args : SweepArgs K) (operators : List (Operator K)) (basis : Basis) (x : Explored K) : Py (Basis × Explored K) :=
  if operators.isEmpty then .ok (basis, x) else args.expandUnitary operators basis x

/-- `basis = pre_filter_fun(basis)` (algorithms.py:421-424) -/
def SweepArgs.filter (args : SweepArgs K) (basis : Basis) : Basis :=
  match args.preFilter with
  | none => basis
  | some f => f basis

/-- one site of a sweep (algorithms.py:385-529) -/
def sweepSite (rest : CiState K → Mat K → Py (CiState K)) (args : SweepArgs K) (H : Operator K) (maxLabel : Int) (s : CiState K) (site : Int) :
    Py (CiState K) := do
  let allowed1 := [site, min (site + 1) maxLabel]
  let allowed2 := [max 0 (site - 1), site, min (site + 1) maxLabel, min (site + 2) maxLabel]
  let ((_, ext1), x) ← explore s.basis H (some allowed1) s.explored
  let ((_, ext2), x) ← explore ext1 H (some allowed2) x
  let basis := s.basis.iadd ext2
  let (basis, x) ← args.expand s.operators basis x
  let basis := args.filter basis
  if sameStrings basis s.previous then .ok { s with explored := x, basis := basis }
  else do
    let ((L, _), x) ← explore basis H none x
    let C ← comMatrix (.matrix L) H
    rest { s with explored := x, basis := basis, previous := basis, previous2 := some s.previous } C.real

/-- the sites of a sweep in increasing order: `np.arange(site0, sitef+1)` (algorithms.py:379-380) -/
def sweepSites (lo hi : Int) : List Int := (List.range (hi + 1 - lo).toNat).map fun (i : Nat) => lo + (i : Int)

/-- the sweeps (algorithms.py:375-533); `up` says that the direction is 1 -/
def sweepLoop (rest : CiState K → Mat K → Py (CiState K)) (args : SweepArgs K) (H : Operator K) (maxLabel : Int) :
    Nat → Bool → CiState K → Py (CiState K)
  | 0, _, s => .ok s
  | n + 1, up, s => do
    let lo ← npMin s.basis.allLabels
    let hi ← npMax s.basis.allLabels
    let sites := sweepSites lo hi
    let s ← (if up then sites else sites.reverse).foldlM (sweepSite rest args H maxLabel) s
    sweepLoop rest args H maxLabel n (!up) s

/-- `selected_ci_sweep(initial_operator, H, num_sweeps, explored_data=explored, …)` (algorithms.py:347-535) -/
def selectedCiSweep (rest : CiState K → Mat K → Py (CiState K)) (args : SweepArgs K) (initial H : Operator K) (numSweeps : Nat)
    (explored : Explored K := .empty) : Py (CiResult K) := do
  let maxLabel ← npMax H.basis.allLabels
  let s ← sweepLoop rest args H maxLabel numSweeps true (ciInit initial explored)
  .ok s.result

/-- the steps of `selected_ci_greedy_simple` (algorithms.py:575-651); `rest` stands for everything after the first call of `_l_matrix` -/
def greedySimpleLoop (rest : CiState K → Mat K → Py (CiState K)) (H : Operator K) : Nat → CiState K → Py (CiState K)
  | 0, s => .ok s
  | n + 1, s => do
    let ((L, _), x) ← explore s.basis H none s.explored
    let L1 ← lMatrix (.matrix L) H
    let s ← rest { s with explored := x } L1
    greedySimpleLoop rest H n s

/-- `selected_ci_greedy_simple(initial_operator, H, num_steps, explored_data=explored, …)` (algorithms.py:541-653) -/
def selectedCiGreedySimple (rest : CiState K → Mat K → Py (CiState K)) (initial H : Operator K) (numSteps : Nat)
    (explored : Explored K := .empty) : Py (CiResult K) := do
  let _ ← npMax H.basis.allLabels
  let s ← greedySimpleLoop rest H numSteps (ciInit initial explored)
  .ok s.result

end Qosy
