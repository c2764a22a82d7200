import Verif.Lemmas.StrAlg
import Verif.Props.StringAlgebra

/-! # Pauli and Majorana strings as string algebras -/

namespace Qosy
open Coef
variable {K : Type} [Field K] [StarRing K] [Coef K]
variable {𝔸 : Type} [Ring 𝔸] [Algebra K 𝔸] {S : Set ℤ}

def PauliRep.strAlg (R : PauliRep K 𝔸 S) : StrAlg K 𝔸 where
  type := .pauli
  Str := PauliString S
  den := R.den
  str_type _ h := h.type
  core _ _ hA hB := pauli_core R hA hB
  sq _ h := C05_pauli_square R h
  sep _ _ h1 h2 h3 h4 h5 := R.separates h1 h2 h3 h4 h5

def MajoranaRep.strAlg (R : MajoranaRep K 𝔸 S) : StrAlg K 𝔸 where
  type := .majorana
  Str := MajoranaString S
  den := R.den
  str_type _ h := h.type
  core _ _ hA hB := majorana_core R hA hB
  sq _ h := C05_majorana_square R h
  sep _ _ h1 h2 h3 h4 h5 := R.separates h1 h2 h3 h4 h5

end Qosy
