import Verif.Model.LatticeSymmetry
import Verif.Model.Transformation
import Verif.Model.Names

/-!
# Model of the transformations of `qosy/transformation.py` that are defined by a `Lattice`

`space_group_symmetry`, `spin_flip_symmetry`, `spin_parity_symmetry` and `time_reversal` with spin information.  Names of orbitals that are
searched for the names of the spins are lists of characters.
-/

namespace Qosy
variable {F ω ν : Type} [Field F] [LinearOrder F] [DecidableEq ω] [DecidableEq ν]
variable {K : Type} [Field K] [StarRing K] [CoefOps K]

/-- `orbital_label_permutation` (transformation.py:352-353) -/
def spaceGroupLabels (L : Lattice F ω ν) (R : List (List F)) (d : List F) : Py (List ℤ) :=
  L.orbitals.mapM fun o => do
    let p ← rowsVec R o.1
    let p ← vadd p d
    L.index p o.2.1

/-- the check for missing labels and the label permutation (transformation.py:355-361, 388-394) -/
def checkedPermutation (perm : List ℤ) : Py (Transformation K) :=
  if -1 ∈ perm then .error .valueError else .ok (labelPermutation perm)

/-- `space_group_symmetry(lattice, R, d)` (transformation.py:328-361) -/
def spaceGroupSymmetry (L : Lattice F ω ν) (R : List (List F)) (d : List F) : Py (Transformation K) := do
  let perm ← spaceGroupLabels L R d
  checkedPermutation perm

/-- `spinflip_permutation` (transformation.py:385-386) -/
def spinFlipLabels (L : Lattice F (List Char) ν) (up dn : List Char) : Py (List ℤ) :=
  L.orbitals.mapM fun o => L.index o.1 (swapNames o.2.1 up dn)

/-- `spin_flip_symmetry(lattice, up_name, dn_name)` (transformation.py:363-394) -/
def spinFlipSymmetry (L : Lattice F (List Char) ν) (up dn : List Char) : Py (Transformation K) := do
  let perm ← spinFlipLabels L up dn
  checkedPermutation perm

/-- the counting loop of `_sz_rule` (transformation.py:408-424); the state is `(num_up, num_dn)` -/
def szCount (up dn : List ℤ) : List Op → List ℤ → ℕ × ℕ → Py (ℕ × ℕ)
  | [], _, n => .ok n
  | _ :: _, [], _ => .error .indexError
  | op :: ops, l :: ls, n =>
    match op with
    | .A | .B => szCount up dn ops ls (n.1 + (if l ∈ up then 1 else 0), n.2 + (if l ∈ dn then 1 else 0))
    | .D => szCount up dn ops ls (n.1 + (if l ∈ up then 2 else 0), n.2 + (if l ∈ dn then 2 else 0))
    | _ => .error .valueError

/-- `_sz_rule` (transformation.py:396-428); the sets of labels are lists -/
def szRule (up dn : List ℤ) : Transformation K := fun s =>
  match s.opType with
  | .majorana => do
    let n ← szCount up dn s.ops s.labels (0, 0)
    mkOperator [flipIf (n.2 % 2 = 1) 1] [s] none
  | _ => .error .valueError

/-- the labels of the orbitals whose names contain `name` (transformation.py:451-454) -/
def spinLabels (L : Lattice F (List Char) ν) (name : List Char) : Py (List ℤ) :=
  (L.orbitals.filter fun o => occursIn name o.2.1).mapM fun o => L.index o.1 o.2.1

/-- `spin_parity_symmetry(lattice, up_name, dn_name)` (transformation.py:430-458) -/
def spinParitySymmetry (L : Lattice F (List Char) ν) (up dn : List Char) : Py (Transformation K) := do
  let upLabels ← spinLabels L up
  let dnLabels ← spinLabels L dn
  .ok (szRule upLabels dnLabels)

/-- the argument of `time_reversal` -/
inductive SpinInfo (F ν : Type) where
  | none
  | lattice (L : Lattice F (List Char) ν)
  | named (L : Lattice F (List Char) ν) (up dn : List Char)
  | other

/-- spinful time reversal (transformation.py:516-529) -/
def spinfulTimeReversal (L : Lattice F (List Char) ν) (up dn : List Char) : Py (Transformation K) := do
  let Sx ← spinFlipSymmetry L up dn
  let Sz ← spinParitySymmetry L up dn
  .ok ((Sx.mul Sz).mul timeReversalRule)

/-- `time_reversal(spin_info)` (transformation.py:460-531) -/
def timeReversalOf : SpinInfo F ν → Py (Transformation K)
  | .none => .ok timeReversalRule
  | .lattice L => spinfulTimeReversal L "Up".toList "Dn".toList
  | .named L up dn => spinfulTimeReversal L up dn
  | .other => .error .valueError

end Qosy
