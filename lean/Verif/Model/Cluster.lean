import Verif.Model.Basis
import Mathlib.Data.List.Sort

/-! # Model of `cluster_basis` (qosy/basis.py:749-870) -/

namespace Qosy

/-- `itertools.combinations(l, n)`: the sublists of length `n` in lexicographic order of positions -/
def combinations {α : Type} : Nat → List α → List (List α)
  | 0, _ => [[]]
  | _ + 1, [] => []
  | n + 1, x :: xs => (combinations n xs).map (x :: ·) ++ combinations (n + 1) xs

/-- `itertools.product(l, repeat=n)`, in lexicographic order -/
def productRepeat {α : Type} (l : List α) : Nat → List (List α)
  | 0 => [[]]
  | n + 1 => l.flatMap (fun x => (productRepeat l n).map (x :: ·))

/-- the argument `k` of `cluster_basis`: an integer, a list of integers, or something else -/
inductive KArg
  | int (k : Int)
  | list (l : List Int)
  | other
deriving DecidableEq, Repr

/-- `allowed_num_operators` (basis.py:794-799) -/
def KArg.allowedList : KArg → Py (List Int)
  | .int k => .ok ((List.range (k + 1).toNat).map Int.ofNat)
  | .list l => .ok l
  | .other => .error .valueError

/-- `np.max` of a list of integers; ValueError for an empty array -/
def npMax : List Int → Py Int
  | [] => .error .valueError
  | x :: xs => .ok (xs.foldl max x)

/-- `if op_string not in op_strings_set: op_strings.append(op_string); op_strings_set.add(op_string)` (basis.py:819-821, 838-840,
866-868), after the construction of the string.  The set always holds the same strings as the list. -/
def clusterAdd (t : OpType) (ops : List Op) (labels : List Int) (pref : Pref) (st : List OpString) : Py (List OpString) := do
  let s ← mkOpString ops labels t (some pref)
  .ok (if st.any (fun s' => s'.sameKey s) then st else st ++ [s])

/-- the Pauli and Majorana branch (basis.py:803-821) for one number of operators -/
def clusterSpin (t : OpType) (orbitalOps : List Op) (cluster : List Int) (allowed : List Int) (st : List OpString) (n : Nat) :
    Py (List OpString) :=
  if (n : Int) ∈ allowed then
    (combinations n cluster).foldlM (fun st labels =>
      (productRepeat orbitalOps n).foldlM (fun st ops => clusterAdd t ops labels .float1 st) st) st
  else .ok st

/-- number operators `c†_{i1} … c†_{im} c_{im} … c_{i1}` (basis.py:829-840) -/
def clusterFermion1 (labels : List Int) (st : List OpString) : Py (List OpString) :=
  clusterAdd .fermion (List.replicate labels.length .CDag ++ List.replicate labels.length .C) (labels ++ labels.reverse) .float1 st

/-- `c†_{i1} … c†_{im} c_{j1} … c_{jl}` with both prefactors (basis.py:847-868) for one choice of forward labels -/
def clusterFermion2 (cluster : List Int) (m : Nat) (f : List Int × Nat) (st : List OpString) : Py (List OpString) :=
  (List.range (m + 1)).foldlM (fun st l =>
    let backs := combinations l cluster
    let maxInd := if l = m then f.2 else backs.length
    [Pref.float1, Pref.imag].foldlM (fun st pref =>
      (backs.take maxInd).foldlM (fun st back =>
        clusterAdd .fermion (List.replicate f.1.length .CDag ++ List.replicate back.length .C) (f.1 ++ back) pref st) st) st) st

/-- the Fermion branch (basis.py:822-868) for one number of creation operators -/
def clusterFermion (cluster : List Int) (allowed : List Int) (st : List OpString) (m : Nat) : Py (List OpString) :=
  if (m : Int) ∈ allowed then do
    let st ← (combinations m cluster).foldlM (fun st labels => clusterFermion1 labels st) st
    (combinations m cluster).zipIdx.foldlM (fun st f => clusterFermion2 cluster m f st) st
  else .ok st

/-- the identity (basis.py:789-792) -/
def clusterInit (t : OpType) : Bool → Py (List OpString)
  | true => do
    let s ← mkOpString [] [] t
    .ok [s]
  | false => .ok []

/-- the branches of `cluster_basis` (basis.py:803-868) -/
def clusterLoop (t : OpType) (cluster allowed : List Int) (nums : List Nat) (st : List OpString) : Py (List OpString) :=
  match t with
  | .pauli => nums.foldlM (clusterSpin .pauli pauliOps cluster allowed) st
  | .majorana => nums.foldlM (clusterSpin .majorana majoranaOps cluster allowed) st
  | .fermion => nums.foldlM (clusterFermion cluster allowed) st
  | .other _ => .error .valueError

/-- `cluster_basis(k, cluster_labels, op_type, include_identity)` (basis.py:749-870).  `cluster.sort()` is the ascending sort;
`np.arange(1, max+1)` are the integers from 1 to `max`. -/
def clusterBasis (k : KArg) (clusterLabels : List Int) (t : OpType) (includeIdentity : Bool := false) : Py Basis := do
  let cluster := clusterLabels.insertionSort (· ≤ ·)
  let st ← clusterInit t includeIdentity
  let allowed ← k.allowedList
  let m ← npMax allowed
  let st ← clusterLoop t cluster allowed (List.range' 1 (min (cluster.length : Int) m).toNat) st
  mkBasis st

end Qosy
