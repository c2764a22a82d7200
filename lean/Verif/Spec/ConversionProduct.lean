import Verif.Model.Conversion

/-! # Specification: conversion of strings and their products (C98) -/

namespace Qosy
variable {K : Type} [Field K] [StarRing K] [CoefOps K]

/-- `convert(s, t)` is the single string `s'` with the coefficient `c` -/
def ConvertsTo (t : OpType) (s : OpString) (c : K) (s' : OpString) : Prop :=
  ∃ (incl : Bool) (O : Operator K), convertString s t incl = .ok O ∧ O.terms = [(c, s')]

/-- two results of `product`, `commutator` or `anticommutator`, the second computed from the converted arguments: both are the explicit zero
`(0, None)`, or the string of the first is converted to the string of the second and the coefficients, `x` being the product of the
coefficients of the converted arguments, agree -/
def SameAfterConversion (t : OpType) (x : K) (r r' : Py (K × Option OpString)) : Prop :=
  (r = .ok (0, none) ∧ r' = .ok (0, none)) ∨
  ∃ (c c' k : K) (C C' : OpString), r = .ok (c, some C) ∧ r' = .ok (c', some C') ∧ ConvertsTo t C k C' ∧ x * c' = c * k

end Qosy
