import Verif.Spec.Diagonalization

/-!
# Specification: operators that map energies (C110)
-/

namespace Qosy
variable {K : Type} [Field K]

/-- Let `vals` and `vecs` be energies and eigenstates of the matrix `MH`.  The vector `w` satisfies the eigenvalue equation with the energy `E`; it is zero or
`E` is one of the energies; and it is a multiple of the eigenstate with this energy if there is only one. -/
structure IsEigenstate (MH : Mat K) (vals : List K) (vecs : List (List K)) (w : List K) (E : K) : Prop where
  eigen : matVec MH w = w.map (E * ·)
  found : (∀ x ∈ w, x = 0) ∨ E ∈ vals
  single : ∀ (j : ℕ) (u : List K), vals[j]? = some E → vecs[j]? = some u → (∀ i, vals[i]? = some E → i = j) → ∃ c : K, w = u.map (c * ·)

/-- `act` maps the eigenstates with energy `E` to eigenstates with energy `f E` -/
def MapsEnergies (MH : Mat K) (act : List K → List K) (vals : List K) (vecs : List (List K)) (f : K → K) : Prop :=
  ∀ (k : ℕ) (E : K) (v : List K), vals[k]? = some E → vecs[k]? = some v → IsEigenstate MH vals vecs (act v) (f E)

end Qosy
