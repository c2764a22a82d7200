import Mathlib.Data.List.Infix

/-!
# Specification: exchanging and substituting names in a text

Texts are read from left to right.
-/

namespace Qosy

/-- `t` is the text `s` with every `A` replaced by `B` and every `B` replaced by `A`. -/
inductive Swapped (A B : List Char) : List Char → List Char → Prop
  | nil : Swapped A B [] []
  | left {s t} : Swapped A B s t → Swapped A B (A ++ s) (B ++ t)
  | right {s t} : Swapped A B s t → Swapped A B (B ++ s) (A ++ t)
  | char {c s t} : ¬ A <+: c :: s → ¬ B <+: c :: s → Swapped A B s t → Swapped A B (c :: s) (c :: t)

/-- an occurrence of `A` does not begin inside of or together with an occurrence of `B`, nor `B` inside of `A`:
`B` does not occur in `A`, and no end of `B` agrees with the beginning of `A` -/
structure Apart (A B : List Char) : Prop where
  left : A ≠ []
  right : B ≠ []
  inner : ¬ B <:+: A
  ends : ∀ y, y <:+ B → y ≠ [] → ¬ y <+: A ∧ ¬ A <+: y

/-- occurrences of two names never share a character: neither occurs in the other, and no proper end of one of them is a beginning of
one of them -/
structure OverlapFree (A B : List Char) : Prop where
  left : A ≠ []
  right : B ≠ []
  ab : ¬ A <:+: B
  ba : ¬ B <:+: A
  proper : ∀ n ∈ [A, B], ∀ n' ∈ [A, B], ∀ y, y <:+ n → y ≠ [] → y ≠ n → ¬ y <+: n'

/-- no parentheses -/
def Plain (s : List Char) : Prop := '(' ∉ s ∧ ')' ∉ s

/-- `t` is the text `s` with the substitutions carried out: at every place the longest key that occurs there is replaced. -/
inductive Substituted (subs : List (List Char × List Char)) : List Char → List Char → Prop
  | nil : Substituted subs [] []
  | key {k v s t} : (k, v) ∈ subs → k ≠ [] → (∀ k' ∈ subs.map Prod.fst, k' <+: k ++ s → k'.length ≤ k.length) → Substituted subs s t →
      Substituted subs (k ++ s) (v ++ t)
  | char {c s t} : (∀ k ∈ subs.map Prod.fst, ¬ k <+: c :: s) → Substituted subs s t → Substituted subs (c :: s) (c :: t)

/-- the same for a dictionary with the empty key, whose value is `v`: `v` is inserted before every character at which no other key occurs and at
the end. -/
inductive SubstitutedAround (v : List Char) (subs : List (List Char × List Char)) : List Char → List Char → Prop
  | nil : SubstitutedAround v subs [] v
  | key {k w s t} : (k, w) ∈ subs → k ≠ [] → (∀ k' ∈ subs.map Prod.fst, k' <+: k ++ s → k'.length ≤ k.length) → SubstitutedAround v subs s t →
      SubstitutedAround v subs (k ++ s) (w ++ t)
  | char {c s t} : (∀ k ∈ subs.map Prod.fst, k ≠ [] → ¬ k <+: c :: s) → SubstitutedAround v subs s t →
      SubstitutedAround v subs (c :: s) (v ++ c :: t)

end Qosy
