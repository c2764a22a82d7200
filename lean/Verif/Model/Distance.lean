import Verif.Model.Graph
import Verif.Model.Cluster
import Verif.Model.Tools

/-! # Model of `distance_basis` (qosy/basis.py:872-956) -/

namespace Qosy

variable {D : Type} [LinearOrder D] [Add D] [Zero D]

/-- the entries of the matrix `distances` (basis.py:922-926): `lattice.distance` is asked for `ind1 < ind2` only -/
def distanceEntry (dist : Nat → Nat → D) (i j : Nat) : D :=
  if i < j then dist i j else if j < i then dist j i else 0

/-- one list of `orbitals_within_R` (basis.py:929); IndexError for an orbital outside the matrix (negative labels, which numpy
would count from the end, are excluded) -/
def orbitalsWithin (dist : Nat → Nat → D) (n : Nat) (bound : D) (allowed : List Nat) (i : Nat) : Py (List Nat) :=
  allowed.foldlM (fun l j =>
    if n ≤ j then .error .indexError
    else if distanceEntry dist i j ≤ bound ∧ j ≠ i then .ok (l ++ [j]) else .ok l) []

/-- the label of an orbital as it appears in operator strings -/
def orbitalLabels (c : List Nat) : List Int := c.map Int.ofNat

/-- `distance_basis(lattice, k, R, op_type, allowed_orbitals, include_identity, tol)` (basis.py:872-956) for a lattice with `n`
orbitals and distances `dist`.  `include_identity` is accepted and ignored.  `sorted(…, key=cmp_to_key(compare))` is a stable
sort; `o` and `lim` are the oracle and the recursion limit of `maximal_cliques`. -/
def distanceBasis (o : SetOracle) (lim : Nat) (n : Nat) (dist : Nat → Nat → D) (k : KArg) (R : D) (t : OpType)
    (allowedOrbitals : Option (List Nat)) (_includeIdentity : Bool) (tol : D) : Py Basis := do
  let allowed := allowedOrbitals.getD (List.range n)
  let within ← (List.range n).mapM (orbitalsWithin dist n (R + tol) allowed)
  let cliques ← maximalCliques o lim within
  let clusters := cliques.filter (fun c => c.all (fun v => decide (v ∈ allowed)))
  let sorted := (clusters.map orbitalLabels).insertionSort (fun a b => compare a b ≤ 0)
  sorted.foldlM (fun total c => do
    let b ← clusterBasis k c t
    .ok (total.iadd b)) emptyBasis

end Qosy
