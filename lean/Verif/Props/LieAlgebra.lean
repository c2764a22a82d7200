import Verif.Lemmas.LieAlgebra
import Verif.Lemmas.StrAlgInst
import Verif.Props.Matrix

/-!
# Property C17: `generate_lie_algebra` of a basis of strings

`generateLieAlgebra K B n tol` is the loop of the code run for at most `n` iterations; the theorems say that some number of
iterations always suffices, and that the result does not depend on the bound any more from then on.
-/

namespace Qosy
open Coef
variable {K : Type} [Field K] [StarRing K] [Coef K]
variable {𝔸 : Type} [Ring 𝔸] [Algebra K 𝔸] {S : Set ℤ}

/-- **C17** (Pauli): the loop terminates and returns the smallest set of strings containing the generators and closed under
commutators, as an indexed set. -/
theorem C17_pauli (R : PauliRep K 𝔸 S) {tol : ℚ} (h0 : 0 < tol) (h2 : tol ≤ 2) {B : Basis} (hB : B.Inv)
    (hs : ∀ s ∈ B.strs, PauliString S s) :
    ∃ (m : ℕ) (r : Basis), (∀ n, m ≤ n → generateLieAlgebra K B n tol = .ok (some r)) ∧ IndexedSet r ∧
      IsLieAlgebra K R.den (PauliString S) B.strs r.strs := by
  obtain ⟨m, r, h1, h2, h3⟩ := R.strAlg.generateLieAlgebra_ok h0 h2 hB hs (by
    intro F
    refine (finite_canonical [.X, .Y, .Z] .pauli F).subset ?_
    rintro s ⟨h1, h2, h3⟩
    exact ⟨by simpa using h1.ops, h1.type, h1.len, h2.1, h2.2, h3⟩)
  exact ⟨m, r, h1, h2.indexedSet, h3⟩

/-- **C17** (Majorana) -/
theorem C17_majorana (R : MajoranaRep K 𝔸 S) {tol : ℚ} (h0 : 0 < tol) (h2 : tol ≤ 2) {B : Basis} (hB : B.Inv)
    (hs : ∀ s ∈ B.strs, MajoranaString S s) :
    ∃ (m : ℕ) (r : Basis), (∀ n, m ≤ n → generateLieAlgebra K B n tol = .ok (some r)) ∧ IndexedSet r ∧
      IsLieAlgebra K R.den (MajoranaString S) B.strs r.strs := by
  obtain ⟨m, r, h1, h2, h3⟩ := R.strAlg.generateLieAlgebra_ok h0 h2 hB hs (by
    intro F
    refine (finite_canonical [.A, .B, .D] .majorana F).subset ?_
    rintro s ⟨h1, h2, h3⟩
    exact ⟨by simpa using h1.ops, h1.type, h1.len, h2.1, h2.2, h3⟩)
  exact ⟨m, r, h1, h2.indexedSet, h3⟩

/-! ### Non-vacuity -/

/-- two generators `X 1` and `Y 1 Z 2` of a three dimensional Lie algebra -/
def exLie : List OpString := [⟨[.X], [1], .pauli, .float1⟩, ⟨[.Y, .Z], [1, 2], .pauli, .float1⟩]

theorem exLie_valid : ∀ s ∈ exLie, PauliString Set.univ s := by
  intro s hs
  simp only [exLie, List.mem_cons, List.not_mem_nil, or_false] at hs
  rcases hs with rfl | rfl <;> exact ⟨rfl, by decide, rfl, by decide, by simp, by decide⟩

example : ∃ (m : ℕ) (r : Basis), (∀ n, m ≤ n → generateLieAlgebra QI (Basis.ofList exLie) n (1 / 10 ^ 12) = .ok (some r)) ∧ IndexedSet r ∧
    IsLieAlgebra QI (waveRep QI).den (PauliString Set.univ) exLie r.strs :=
  C17_pauli (waveRep QI) (by norm_num) (by norm_num) (Basis.Inv.ofList (by decide)) exLie_valid

/-- the loop computes the third generator `Z 1 Z 2` -/
example : (generateLieAlgebra QI (Basis.ofList exLie) 20).toOption.map (Option.map Basis.strs) =
    some (some (exLie ++ [⟨[.Z, .Z], [1, 2], .pauli, .float1⟩])) := by decide +kernel

end Qosy
