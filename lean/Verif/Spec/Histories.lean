import Verif.Model.Heap

/-! # Specification: disciplined histories

The two disciplines under which no `Basis` and no `Operator` is disturbed by an update of another one: a list is handed to
at most one `Basis`, and a `Basis` is handed to at most one `Operator`. -/

namespace Qosy
variable {K : Type} [Field K] [StarRing K] [CoefOps K]

/-- the guard: `Basis(L)` is only called with a list no Basis object holds yet -/
def Heap.Guard (h : Heap K) : Cmd K → Prop
  | .basisOf l => l ∉ h.bases.map Prod.fst
  | _ => True

/-- every `Basis(L)` of the history is called with a list no Basis object holds at that moment -/
def GuardedFrom (h : Heap K) : List (Cmd K) → Prop
  | [] => True
  | c :: cs => h.Guard c ∧ GuardedFrom (h.step c).1 cs

/-- the guard of the second kind: `Operator(coeffs, b)` is only called with a Basis no Operator holds yet -/
def Heap.OwnGuard (h : Heap K) : Cmd K → Prop
  | .opOfBasis _ b _ => b ∉ h.ops.map (fun e => e.2.1)
  | _ => True

/-- every `Operator(coeffs, b)` of the history is called with a Basis no Operator holds at that moment -/
def OwnedFrom (h : Heap K) : List (Cmd K) → Prop
  | [] => True
  | c :: cs => h.OwnGuard c ∧ OwnedFrom (h.step c).1 cs

/-- the statements that build a new object from existing ones: all but `B += C`, `B += s`, `x += y`, `x -= y` and the
rescaling of the coefficients of an operator in place -/
def Cmd.BuildsNew : Cmd K → Prop
  | .basisIadd _ _ => False
  | .basisIaddString _ _ => False
  | .opIadd _ _ => False
  | .opIsub _ _ => False
  | .opRescale _ _ => False
  | _ => True

end Qosy
