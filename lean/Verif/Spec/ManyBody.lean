import Mathlib.Data.Complex.Basic
import Mathlib.Algebra.BigOperators.Fin

/-! # Specification: the spectrum of free fermions -/

namespace Qosy

/-- `vals` lists the energies `½ ∑ ± E_k` of fermions without interaction in modes with the energies `E_k`, one for every choice of occupied modes -/
def FreeSpectrum (E : List ℝ) (vals : List ℂ) : Prop :=
  ∃ occupied : Fin vals.length ≃ (Fin E.length → Bool),
    ∀ i, vals[i] = ((∑ k, (if occupied i k then E[k] else -E[k]) / 2 : ℝ) : ℂ)

end Qosy
