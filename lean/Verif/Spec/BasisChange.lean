import Verif.Spec.Adjoint

/-! # Changes of basis (C106) -/

namespace Qosy
variable {K : Type} [Field K]

/-- the terms (coefficient, string) of the elements of a Basis or of a list of Operators -/
def BasisArg.elementTerms : BasisArg K → List (List (K × OpString))
  | .strings b => b.strs.map fun s => [(1, s)]
  | .operators l => l.map fun o => o.terms

/-- the number of elements -/
def BasisArg.size (x : BasisArg K) : ℕ := x.elementTerms.length

/-- the coefficient of the string `s` in the element `j` of a Basis or of a list of Operators; zero if there is no such element -/
def BasisArg.coefOf (x : BasisArg K) (j : ℕ) (s : OpString) : K := coefT (x.elementTerms.getD j []) s

/-- element `j` of `y` is the linear combination `∑ k, U k j * x[k]` of the elements of `x` -/
def LinearCombinations (x y : BasisArg K) (U : ℕ → ℕ → K) : Prop :=
  ∀ j < y.size, ∀ s, y.coefOf j s = ∑ k ∈ Finset.range x.size, U k j * x.coefOf k s

end Qosy
