import Verif.Spec.Description
import Verif.Spec.Transformation

/-! # Transforming a whole problem (C116) -/

namespace Qosy

/-- the elements of `x'` are those of the Basis or list of Operators `x`, transformed one by one with `T.apply` -/
def BasisArg.TransformedBy (T : Transformation ℂ) : BasisArg ℂ → BasisArg ℂ → Prop
  | .strings b, .operators l => List.Forall₂ (fun s A => T s = .ok A) b.strs l
  | .operators l, .operators l' => List.Forall₂ (fun A A' => T.apply A = .ok A') l l'
  | _, .strings _ => False

/-- the strings of `b'` are the images of the strings of `b`, without their signs -/
def Basis.ImageUnder (T : Transformation ℂ) (b b' : Basis) : Prop := ∀ s', s' ∈ b'.strs ↔ ∃ s ∈ b.strs, ∃ c : ℂ, T.Sends s c s'

end Qosy
