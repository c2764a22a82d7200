import Verif.Model.Conversion
import Verif.Spec.Matrix

/-! # The same operators described by Pauli and by Majorana strings (C114) -/

namespace Qosy

/-- the elements of `x'` are those of the Basis or list of Operators `x`, converted one by one with `convert(…, tgt, include_identity=incl)` -/
def BasisArg.ConvertedTo (tgt : OpType) (incl : Bool) : BasisArg ℂ → BasisArg ℂ → Prop
  | .strings b, .operators l => List.Forall₂ (fun s A => convertString s tgt incl = .ok A) b.strs l
  | .operators l, .operators l' => List.Forall₂ (fun A A' => convertOperator A tgt incl = .ok A') l l'
  | _, .strings _ => False

/-- the matrices have the same size and the same entries -/
def SameEntries (M N : Mat ℂ) : Prop := M.nrows = N.nrows ∧ M.ncols = N.ncols ∧ ∀ i < M.nrows, ∀ j < M.ncols, M.get i j = N.get i j

end Qosy
