import Verif.Model.AlgebraMatrix
import Verif.Model.Cluster

/-!
# Model of `qosy/conversion.py`

Numbers: `np.real(x)` is `(x + x̄)/2` and `np.imag(x)` is `(x - x̄)/(2i)`.
-/

namespace Qosy
variable {K : Type} [Field K] [StarRing K] [CoefOps K]

/-- `np.real(x)` -/
def reOf (x : K) : K := (x + star x) / 2
/-- `np.imag(x)` -/
def imOf (x : K) : K := (x - star x) / (2 * I)
/-- `np.finfo(float).eps` -/
def floatEps : ℚ := 1 / 2 ^ 52

/-! ### Jordan-Wigner (conversion.py:26-90) -/

/-- the strings `['D']*orb_label + ['A']` on `np.arange(orb_label+1)` (conversion.py:49-55, 73-79).  A negative number of
repetitions gives the empty list, as does `np.arange` of a negative number. -/
def jwString (t : OpType) (tail last : Op) (label : Int) : Py OpString :=
  mkOpString (List.replicate label.toNat tail ++ [last]) ((List.range (label + 1).toNat).map Int.ofNat) t

/-- the string of one Pauli operator (conversion.py:48-62) -/
def jwFromPauli (op : Op) (label : Int) : Py OpString :=
  match op with
  | .X => jwString .majorana .D .A label
  | .Y => jwString .majorana .D .B label
  | .Z => mkOpString [.D] [label] .majorana
  | _ => .error .valueError

/-- the string of one Majorana operator (conversion.py:72-86) -/
def jwFromMajorana (op : Op) (label : Int) : Py OpString :=
  match op with
  | .A => jwString .pauli .Z .X label
  | .B => jwString .pauli .Z .Y label
  | .D => mkOpString [.Z] [label] .pauli
  | _ => .error .valueError

/-- the loops of `_jordan_wigner` (conversion.py:43-64, 68-87); `orbital_labels[ind_orb]` raises IndexError when there are
fewer labels than operators.  `product` of valid strings never returns `None`. -/
def jwLoop (one : Op → Int → Py OpString) : List Op → List Int → K × OpString → Py (K × OpString)
  | [], _, st => .ok st
  | _ :: _, [], _ => .error .indexError
  | op :: ops, l :: ls, st => do
    let s ← one op l
    match ← (productS st.2 s : Py (K × Option OpString)) with
    | (c, some r) => jwLoop one ops ls (st.1 * c, r)
    | (_, none) => .error .attributeError

/-- `_jordan_wigner(op_string)` (conversion.py:26-90) -/
def jordanWigner (s : OpString) : Py (K × OpString) :=
  match s.opType with
  | .pauli => do
    let one ← mkOpString [] [] .majorana
    jwLoop jwFromPauli s.ops s.labels (s.pref.val, one)
  | .majorana => do
    let one ← mkOpString [] [] .pauli
    jwLoop jwFromMajorana s.ops s.labels (s.pref.val, one)
  | _ => .error .valueError

/-! ### Majorana to Fermion (conversion.py:92-207) -/

/-- `_fermion_string_from_cdag_c_labels` (conversion.py:92-102) -/
def fermionString (pref : Pref) (cdag c : List Int) : Py OpString :=
  mkOpString (List.replicate cdag.length .CDag ++ List.replicate c.length .C) (cdag ++ c.reverse) .fermion (some pref)

/-- the loop over the operators for one choice of terms (conversion.py:141-169): the coefficient, `fermion_labels` and
`num_cdags`.  A choice is `false` for 0 and `true` for 1. -/
def mToFLoop (large : Int) : List Op → List Int → List Bool → K × List Int × Nat → Py (K × List Int × Nat)
  | [], _, _, st => .ok st
  | _ :: _, [], _, _ => .error .indexError
  | _ :: _, _, [], _ => .error .indexError
  | op :: ops, l :: ls, ch :: chs, (c, fl, n) =>
    mToFLoop large ops ls chs
      (match op, ch with
      | .A, false => (c, fl ++ [-l + large], n)
      | .A, true => (c, fl ++ [l], n + 1)
      | .B, false => (c * -I, fl ++ [-l + large], n)
      | .B, true => (c * I, fl ++ [l], n + 1)
      | .D, false => (c * -2, fl ++ [l, -l + large], n + 1)
      | .D, true => (c * 1, fl, n)
      | _, _ => (c, fl, n))

/-- the rest of the loop body (conversion.py:171-205); `none` is `continue` -/
def mToFTerm (large : Int) (incl : Bool) (r : K × List Int × Nat) : Py (Option (K × OpString)) :=
  if r.2.1.length = 0 ∧ incl = false then .ok none
  else do
    let (sorted, sign) := sortSign r.2.1
    let coeff := r.1 * (sign : K)
    let cdag := sorted.take r.2.2
    let c := ((sorted.drop r.2.2).map (fun x => large - x)).reverse
    let lex := compare cdag c
    if lex < 0 then .ok none
    else if lex = 0 then do
      let s ← fermionString .float1 cdag c
      .ok (some (coeff, s))
    else if absLt (imOf coeff) floatEps then do
      let s ← fermionString .float1 cdag c
      .ok (some (reOf coeff, s))
    else if absLt (reOf coeff) floatEps then do
      let s ← fermionString .imag cdag c
      .ok (some (reOf (coeff / I), s))
    else .error .valueError

/-- run a loop body that may `continue` and collect the results -/
def collect {α β : Type} (f : α → Py (Option β)) : List α → Py (List β)
  | [] => .ok []
  | x :: xs => do
    let r ← f x
    let rs ← collect f xs
    .ok (r.toList ++ rs)

/-- `_convert_majorana_string(op_string, include_identity)` (conversion.py:104-207) -/
def convertMajoranaString (s : OpString) (incl : Bool) : Py (Operator K) :=
  if s.opType ≠ .majorana then .error .valueError
  else if s.ops.length = 0 then
    if incl = true then do
      let one ← mkOpString [] [] .fermion
      mkOperator [1] [one] none
    else mkOperator [] [] (some .fermion)
  else do
    let m ← npMax s.labels
    let large := 4 * max 1 m + 4
    let terms ← collect (fun ch => do
      let r ← mToFLoop large s.ops s.labels ch (s.pref.val, [], 0)
      mToFTerm large incl r) (productRepeat [false, true] s.ops.length)
    mkOperator (terms.map Prod.fst) (terms.map Prod.snd) none

/-! ### Fermion to Majorana (conversion.py:210-310) -/

/-- the values of `label_types` -/
inductive FType
  | CDag | C | CDagC
deriving DecidableEq, Repr

/-- a dictionary with integer keys -/
abbrev LabelDict := List (Int × FType)

/-- `d[k] = v` -/
def LabelDict.set (d : LabelDict) (k : Int) (v : FType) : LabelDict :=
  match d with
  | [] => [(k, v)]
  | (k', v') :: d' => if k' = k then (k', v) :: d' else (k', v') :: LabelDict.set d' k v

/-- `d[k]` -/
def LabelDict.get? (d : LabelDict) (k : Int) : Option FType :=
  match d with
  | [] => none
  | (k', v) :: d' => if k' = k then some v else LabelDict.get? d' k

/-- `label_types` (conversion.py:221-228) -/
def labelTypes (cdag c : List Int) : LabelDict :=
  c.foldl (fun d l => if (d.get? l).isSome then d.set l .CDagC else d.set l .C)
    (cdag.foldl (fun d l => d.set l .CDag) [])

/-- the list `ops` (conversion.py:238-244) -/
def fermionOpsList (d : LabelDict) (sorted : List Int) : Py (List (FType × Int)) :=
  sorted.foldlM (fun ops l =>
    match d.get? l with
    | none => .error .keyError
    | some t => if (t, l) ∈ ops then .ok ops else .ok (ops ++ [(t, l)])) []

/-- the loop over the operators for one choice of terms (conversion.py:259-288); the last branch of the code is unreachable -/
def fToMLoop : List (FType × Int) → List Bool → K × List Op × List Int → K × List Op × List Int
  | (t, l) :: ops, ch :: chs, (c, os, ls) =>
    fToMLoop ops chs
      (match t, ch with
      | .CDag, false => (c * (1 / 2), os ++ [.A], ls ++ [l])
      | .CDag, true => (c * (-(1 / 2) * I), os ++ [.B], ls ++ [l])
      | .C, false => (c * (1 / 2), os ++ [.A], ls ++ [l])
      | .C, true => (c * (1 / 2 * I), os ++ [.B], ls ++ [l])
      | .CDagC, false => (c * -(1 / 2), os ++ [.D], ls ++ [l])
      | .CDagC, true => (c * (1 / 2), os, ls))
  | _, _, st => st

/-- the rest of the loop body (conversion.py:290-308); `none` is `continue`.  `own` says that `cdag_labels == c_labels`. -/
def fToMTerm (incl own : Bool) (sign : Int) (pref : K) (r : K × List Op × List Int) : Py (Option (K × OpString)) :=
  if r.2.1.length = 0 ∧ incl = false then .ok none
  else do
    let M ← mkOpString r.2.1 r.2.2 .majorana
    let coeff := r.1 / M.pref.val * (sign : K) * pref
    if own = false then
      if absGt (imOf coeff) floatEps then .ok none else .ok (some (coeff * 2, M))
    else .ok (some (coeff, M))

/-- `_convert_fermion_string(op_string, include_identity)` (conversion.py:210-310) -/
def convertFermionString (s : OpString) (incl : Bool) : Py (Operator K) := do
  let cdag := ((s.labels.zip s.ops).filter (fun x => decide (x.2 = .CDag))).map Prod.fst
  let c := ((s.labels.zip s.ops).filter (fun x => decide (x.2 = .C))).map Prod.fst
  let (sorted, sign) := sortSign (cdag ++ c)
  let ops ← fermionOpsList (labelTypes cdag c.reverse) sorted
  let terms ← collect (fun ch => fToMTerm incl (decide (cdag = c.reverse)) sign s.pref.val (fToMLoop ops ch (1, [], [])))
    (productRepeat [false, true] ops.length)
  mkOperator (terms.map Prod.fst) (terms.map Prod.snd) none

/-! ### `convert` and `conversion_matrix` (conversion.py:312-498) -/

/-- the loop over the Majorana terms of a Fermion string (conversion.py:333-338) -/
def jwTerms (terms : List (K × OpString)) : Py (List (K × OpString)) :=
  terms.mapM (fun t => do
    let (c, s) ← (jordanWigner t.2 : Py (K × OpString))
    .ok (c * t.1, s))

/-- `_convert_operator_string(op_string, to_op_type, include_identity)` (conversion.py:312-346) -/
def convertString (s : OpString) (tgt : OpType) (incl : Bool) : Py (Operator K) :=
  if s.opType = tgt then mkOperator [1] [s] none
  else match s.opType, tgt with
    | .majorana, .fermion => convertMajoranaString s incl
    | .fermion, .majorana => convertFermionString s incl
    | .majorana, .pauli => do
      let (c, p) ← (jordanWigner s : Py (K × OpString))
      mkOperator [c] [p] (some .pauli)
    | .pauli, .majorana => do
      let (c, p) ← (jordanWigner s : Py (K × OpString))
      mkOperator [c] [p] (some .majorana)
    | .fermion, .pauli => do
      let m ← (convertFermionString s incl : Py (Operator K))
      let terms ← jwTerms m.terms
      mkOperator (terms.map Prod.fst) (terms.map Prod.snd) (some .pauli)
    | .pauli, .fermion => do
      let (c, m) ← (jordanWigner s : Py (K × OpString))
      let f ← convertMajoranaString m incl
      f.smul c
    | _, _ => .error .notImplemented

/-- `_convert_operator(operator, to_op_type, include_identity)` (conversion.py:348-364) -/
def convertOperator (A : Operator K) (tgt : OpType) (incl : Bool) : Py (Operator K) := do
  let zero ← mkOperator [] [] (some tgt)
  (List.range A.len).foldlM (fun new i => do
    let c ← pyGet A.coeffs i
    let s ← pyGet A.basis.strs i
    let r ← convertString s tgt incl
    let cr ← r.smul c
    new.iadd cr) zero

/-- the entries of one column of `conversion_matrix` (conversion.py:481-490) -/
def conversionColumn (tgt : Basis) (tol : ℚ) (j : Nat) (terms : List (K × OpString)) : Py (List (Nat × Nat × K)) :=
  collect (fun t => if absGt t.1 tol then do
      let i ← tgt.index t.2
      .ok (some (i, j, t.1))
    else .ok none) terms

/-- `conversion_matrix(basis_from, basis_to, tol)` (conversion.py:418-498); the warning for different sizes has no effect on
the result.  For an empty source basis `ss.csr_matrix` is called without its first argument (conversion.py:472), a TypeError. -/
def conversionMatrix (fr tgt : Basis) (tol : ℚ := 1 / 10 ^ 16) : Py (Mat K) :=
  if fr.len = 0 then .error .typeError
  else do
    let first ← pyGet tgt.strs 0
    let cols ← fr.strs.zipIdx.mapM (fun e => do
      let r ← convertString e.1 first.opType false
      conversionColumn tgt tol e.2 r.terms)
    mkCsr cols.flatten tgt.len fr.len

end Qosy
