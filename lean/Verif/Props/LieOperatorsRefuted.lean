import Verif.Lemmas.LieExample

/-!
# Property C77: what the tolerance hides, and examples

`gensXYZ` are the operators X₁, Y₁ and Z₁ + 1e-7 Z₂; `gensXY` are X₁ and Y₁.
-/

namespace Qosy
open Coef
variable {𝔸 : Type} [Ring 𝔸] [Algebra ℂ 𝔸] [Nontrivial 𝔸]

attribute [local instance 100] LieRing.ofAssociativeRing

/-- **C77** (refuted for the default tolerance): with the default tolerance `1e-12` the result need not span the generated Lie algebra, although all
coefficients are well above the tolerance: the overlap with the projector is compared with the tolerance, so directions up to `1e-6` are lost. -/
theorem C77_refuted (R : PauliRep ℂ 𝔸 Set.univ) : ∃ gens r, ValidOps .pauli (PauliString Set.univ) gens ∧
    (∀ A ∈ gens, ∀ s, A.coef s = 0 ∨ 1 / 10 ^ 7 ≤ ‖A.coef s‖) ∧ NothingDropped r ∧ LieOpsReturns gens (1 / 10 ^ 12) r ∧
    Submodule.span ℂ (operatorsOf R.den r) ≠ (generatedLieAlgebra R.den gens).toSubmodule := by
  refine ⟨gensXYZ, gensXYZ, gensXYZ_valid, ?_, gensXYZ_nothingDropped, gensXYZ_returns R, ?_⟩
  · intro A hA s
    simp only [gensXYZ, List.mem_cons, List.not_mem_nil, or_false] at hA
    rcases hA with rfl | rfl | rfl
    · rw [oneTerm_coef]; split
      · right; norm_num
      · left; rfl
    · rw [oneTerm_coef]; split
      · right; norm_num
      · left; rfl
    · rw [gZ_coef]
      by_cases h1 : lZ = s
      · have h2 : lZ2 ≠ s := by rw [← h1]; decide
        right; rw [if_pos h1, if_neg h2]; norm_num
      · rw [if_neg h1]
        by_cases h2 : lZ2 = s
        · right; rw [if_pos h2]; norm_num
        · left; rw [if_neg h2]; simp
  · intro h
    have := gensXYZ_missing R
    exact this.2 (h ▸ this.1)

/-! ### Non-vacuity -/

/-- X and Y generate the Lie algebra of dimension three, and the code finds it -/
example (R : PauliRep ℂ 𝔸 Set.univ) : ∃ r, LieOpsReturns gensXY 0 r ∧ r.length = 3 ∧
    Submodule.span ℂ (operatorsOf R.den r) = (generatedLieAlgebra R.den gensXY).toSubmodule ∧ Module.finrank ℂ (generatedLieAlgebra R.den gensXY) = 3 := by
  obtain ⟨r, h1, h2, h3⟩ := gensXY_returns R
  exact ⟨r, h1, h3, C77_exact_zero R gensXY_valid h1 h2, by rw [C77_dimension R gensXY_valid gensXY_canonical gensXY_independent h1 h2, h3]⟩

example (R : PauliRep ℂ 𝔸 Set.univ) : ∀ A ∈ gensXYZ, A.den R.den ∈ generatedLieAlgebra R.den gensXYZ :=
  C77_sound_pauli R (by norm_num) gensXYZ_valid (gensXYZ_returns R) gensXYZ_nothingDropped

/-- two Majorana operators -/
noncomputable def gensAB : List (Operator ℂ) := [⟨[1], Basis.ofList [⟨[.A], [1], .majorana, .float1⟩], .majorana⟩, ⟨[2], Basis.ofList [⟨[.B], [2], .majorana, .float1⟩], .majorana⟩]

example : ∃ r, LieOpsReturns gensAB (1 / 10 ^ 12) r ∧ gensAB <+: r := by
  obtain ⟨r, h1, -, -, h2, -⟩ := C77_majorana (waveMajorana ℂ) (tol := 1 / 10 ^ 12) (by norm_num) (gens := gensAB) (by
    refine ⟨by simp [gensAB], ?_⟩
    intro A hA
    simp only [gensAB, List.mem_cons, List.not_mem_nil, or_false] at hA
    rcases hA with rfl | rfl
    · refine ⟨Operator.WF.mk' (by simp) rfl (by simp), rfl, ?_⟩
      intro s hs
      rw [show s = ⟨[.A], [1], .majorana, .float1⟩ by simpa using hs]
      exact ⟨rfl, by decide, rfl, by decide, by simp, by decide⟩
    · refine ⟨Operator.WF.mk' (by simp) rfl (by simp), rfl, ?_⟩
      intro s hs
      rw [show s = ⟨[.B], [2], .majorana, .float1⟩ by simpa using hs]
      exact ⟨rfl, by decide, rfl, by decide, by simp, by decide⟩)
  exact ⟨r, h1, h2.start⟩

/-- a Pauli and a Majorana operator -/
example : generateLieAlgebraOps [oneTerm 1 lX, ⟨[1], Basis.ofList [⟨[.A], [1], .majorana, .float1⟩], .majorana⟩] 5 = .error .valueError :=
  (C77_errors 3 _).2.1 _ _ [] (by
    intro X hX
    simp only [List.mem_cons, List.not_mem_nil, or_false] at hX
    rcases hX with rfl | rfl
    · exact oneTerm_wf _ rfl
    · exact Operator.WF.mk' (by simp) rfl (by simp)) (by simp [oneTerm])

end Qosy
