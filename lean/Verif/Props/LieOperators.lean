import Verif.Lemmas.LieExact
import Verif.Lemmas.StrAlgInst
import Verif.Spec.Concrete
import Verif.Lemmas.Conversion
import Mathlib.LinearAlgebra.FiniteDimensional.Basic

/-!
# Property C77: `generate_lie_algebra` of a list of Operators

The theorems are stated for every tolerance that is not negative; the code has the default `1e-12`.
-/

namespace Qosy
open Coef
variable {𝔸 : Type} [Ring 𝔸] [Algebra ℂ 𝔸] {S : Set ℤ}

-- the Lie bracket of a ring is the commutator
attribute [local instance 100] LieRing.ofAssociativeRing

theorem LieOpsReturns.unique {gens r r' : List (Operator ℂ)} {tol : ℝ} (h : LieOpsReturns gens tol r) (h' : LieOpsReturns gens tol r') : r = r' := by
  obtain ⟨m, h⟩ := h
  obtain ⟨m', h'⟩ := h'
  have h1 := h (max m m') (le_max_left _ _)
  rw [h' (max m m') (le_max_right _ _)] at h1
  simpa using h1.symm

theorem StrAlg.lieOps (R : StrAlg ℂ 𝔸) (hfin : ∀ F : Finset ℤ, {s : OpString | R.Str s ∧ s.Canonical ∧ ∀ l ∈ s.labels, l ∈ F}.Finite)
    {tol : ℝ} (h0 : 0 ≤ tol) {gens : List (Operator ℂ)} (hg : ValidOps R.type R.Str gens) :
    ∃ r, LieOpsReturns gens tol r ∧ ValidOps R.type R.Str r ∧ (∀ A ∈ r, ∀ s ∈ A.basis.strs, ((∃ A ∈ gens, s ∈ A.basis.strs) ∨ s.Canonical) ∧
        ∀ l ∈ s.labels, ∃ A ∈ gens, ∃ s' ∈ A.basis.strs, l ∈ s'.labels) ∧
      LieClosure (trimmedSpan tol gens.length) tol gens r ∧ (NoSmallCoefficients tol gens → LieClosure coefSpan tol gens r) := by
  obtain ⟨m, r, h1, h2, h3⟩ := R.generateLieAlgebraOps_ok h0 hg.1 hg.2 hfin
  refine ⟨r, ⟨m, h1⟩, ⟨?_, fun A hA => ⟨(h2 A hA).1, (h2 A hA).2.1, fun s hs => ((h2 A hA).2.2 s hs).1⟩⟩, fun A hA s hs => ((h2 A hA).2.2 s hs).2, h3, ?_⟩
  · rintro rfl
    exact hg.1 (List.prefix_nil.mp h3.start)
  · intro hn
    have hr : trimmedSpan tol gens.length r = coefSpan r := trimmedSpan_eq h3.start hn
    refine ⟨h3.start, h3.derived, ?_, ?_⟩
    · intro k D hk hD
      have hk' := (List.getElem?_eq_some_iff.mp hD).1
      have := h3.fresh k D hk hD
      rwa [trimmedSpan_eq (List.prefix_of_prefix_length_le h3.start (List.take_prefix k r) (by rw [List.length_take]; omega)) hn] at this
    · intro i j A B hij hA hB
      have := h3.closed i j A B hij hA hB
      rwa [hr] at this

theorem pauli_finite (S : Set ℤ) (F : Finset ℤ) : {s : OpString | PauliString S s ∧ s.Canonical ∧ ∀ l ∈ s.labels, l ∈ F}.Finite := by
  refine (finite_canonical [.X, .Y, .Z] .pauli F).subset ?_
  rintro s ⟨h1, h2, h3⟩
  exact ⟨by simpa using h1.ops, h1.type, h1.len, h2.1, h2.2, h3⟩

theorem majorana_finite (S : Set ℤ) (F : Finset ℤ) : {s : OpString | MajoranaString S s ∧ s.Canonical ∧ ∀ l ∈ s.labels, l ∈ F}.Finite := by
  refine (finite_canonical [.A, .B, .D] .majorana F).subset ?_
  rintro s ⟨h1, h2, h3⟩
  exact ⟨by simpa using h1.ops, h1.type, h1.len, h2.1, h2.2, h3⟩

/-- **C77** (Pauli): `generate_lie_algebra` of Operators terminates.  It returns the generators followed by normalised commutators that are
not close to the space spanned before; the commutators of all members are small or close to the space spanned by the members.  The generators
enter without their coefficients below the tolerance; if there are no such coefficients the space is the one spanned by the members. -/
theorem C77_pauli (R : PauliRep ℂ 𝔸 S) {tol : ℝ} (h0 : 0 ≤ tol) {gens : List (Operator ℂ)} (hg : ValidOps .pauli (PauliString S) gens) :
    ∃ r, LieOpsReturns gens tol r ∧ ValidOps .pauli (PauliString S) r ∧ (∀ A ∈ r, ∀ s ∈ A.basis.strs, ((∃ A ∈ gens, s ∈ A.basis.strs) ∨ s.Canonical) ∧
        ∀ l ∈ s.labels, ∃ A ∈ gens, ∃ s' ∈ A.basis.strs, l ∈ s'.labels) ∧
      LieClosure (trimmedSpan tol gens.length) tol gens r ∧ (NoSmallCoefficients tol gens → LieClosure coefSpan tol gens r) :=
  R.strAlg.lieOps (pauli_finite S) h0 hg

/-- **C77** (Majorana) -/
theorem C77_majorana (R : MajoranaRep ℂ 𝔸 S) {tol : ℝ} (h0 : 0 ≤ tol) {gens : List (Operator ℂ)} (hg : ValidOps .majorana (MajoranaString S) gens) :
    ∃ r, LieOpsReturns gens tol r ∧ ValidOps .majorana (MajoranaString S) r ∧ (∀ A ∈ r, ∀ s ∈ A.basis.strs, ((∃ A ∈ gens, s ∈ A.basis.strs) ∨ s.Canonical) ∧
        ∀ l ∈ s.labels, ∃ A ∈ gens, ∃ s' ∈ A.basis.strs, l ∈ s'.labels) ∧
      LieClosure (trimmedSpan tol gens.length) tol gens r ∧ (NoSmallCoefficients tol gens → LieClosure coefSpan tol gens r) :=
  R.strAlg.lieOps (majorana_finite S) h0 hg

theorem StrAlg.lieOps_of (R : StrAlg ℂ 𝔸) (hfin : ∀ F : Finset ℤ, {s : OpString | R.Str s ∧ s.Canonical ∧ ∀ l ∈ s.labels, l ∈ F}.Finite)
    {tol : ℝ} (h0 : 0 ≤ tol) {gens r : List (Operator ℂ)} (hg : ValidOps R.type R.Str gens) (hr : LieOpsReturns gens tol r) :
    ValidOps R.type R.Str r ∧ (∀ A ∈ r, ∀ s ∈ A.basis.strs, (∃ A ∈ gens, s ∈ A.basis.strs) ∨ s.Canonical) ∧
      LieClosure (trimmedSpan tol gens.length) tol gens r ∧ (NoSmallCoefficients tol gens → LieClosure coefSpan tol gens r) := by
  obtain ⟨r', h1, h2, h3, h4, h5⟩ := R.lieOps hfin h0 hg
  rw [hr.unique h1]
  exact ⟨h2, fun A hA s hs => (h3 A hA s hs).1, h4, h5⟩

/-- **C77** (soundness, Pauli): every member is in the Lie algebra generated, provided that `commutator` drops no products. -/
theorem C77_sound_pauli (R : PauliRep ℂ 𝔸 S) {tol : ℝ} (h0 : 0 ≤ tol) {gens r : List (Operator ℂ)} (hg : ValidOps .pauli (PauliString S) gens)
    (hr : LieOpsReturns gens tol r) (hd : NothingDropped r) : ∀ A ∈ r, A.den R.den ∈ generatedLieAlgebra R.den gens := by
  obtain ⟨h1, -, h2, -⟩ := R.strAlg.lieOps_of (pauli_finite S) h0 hg hr
  exact R.strAlg.lie_sound h1.2 h2 hd

/-- **C77** (soundness, Majorana) -/
theorem C77_sound_majorana (R : MajoranaRep ℂ 𝔸 S) {tol : ℝ} (h0 : 0 ≤ tol) {gens r : List (Operator ℂ)}
    (hg : ValidOps .majorana (MajoranaString S) gens)
    (hr : LieOpsReturns gens tol r) (hd : NothingDropped r) : ∀ A ∈ r, A.den R.den ∈ generatedLieAlgebra R.den gens := by
  obtain ⟨h1, -, h2, -⟩ := R.strAlg.lieOps_of (majorana_finite S) h0 hg hr
  exact R.strAlg.lie_sound h1.2 h2 hd

/-- **C77** (exactness, Pauli): if nothing is dropped and the tolerance separates, the members span the Lie algebra generated by the
generators.  Missing for a full proof: both hypotheses fail for some generators, see `C77_refuted`. -/
theorem C77_exact_pauli_partial (R : PauliRep ℂ 𝔸 S) {tol : ℝ} (h0 : 0 ≤ tol) {gens r : List (Operator ℂ)} (hg : ValidOps .pauli (PauliString S) gens)
    (hr : LieOpsReturns gens tol r) (hn : NoSmallCoefficients tol gens) (hd : NothingDropped r) (hs : ToleranceSeparates tol r) :
    Submodule.span ℂ (operatorsOf R.den r) = (generatedLieAlgebra R.den gens).toSubmodule := by
  obtain ⟨h1, -, -, h2⟩ := R.strAlg.lieOps_of (pauli_finite S) h0 hg hr
  exact R.strAlg.lie_exact h1.2 (h2 hn) hd hs

/-- **C77** (exactness, Majorana) -/
theorem C77_exact_majorana_partial (R : MajoranaRep ℂ 𝔸 S) {tol : ℝ} (h0 : 0 ≤ tol) {gens r : List (Operator ℂ)}
    (hg : ValidOps .majorana (MajoranaString S) gens)
    (hr : LieOpsReturns gens tol r) (hn : NoSmallCoefficients tol gens) (hd : NothingDropped r) (hs : ToleranceSeparates tol r) :
    Submodule.span ℂ (operatorsOf R.den r) = (generatedLieAlgebra R.den gens).toSubmodule := by
  obtain ⟨h1, -, -, h2⟩ := R.strAlg.lieOps_of (majorana_finite S) h0 hg hr
  exact R.strAlg.lie_exact h1.2 (h2 hn) hd hs

theorem noSmall_zero (ops : List (Operator ℂ)) : NoSmallCoefficients 0 ops := fun A _ s => by
  by_cases h : A.coef s = 0
  · exact Or.inl h
  · exact Or.inr (norm_pos_iff.mpr h)

theorem StrAlg.separates_zero (R : StrAlg ℂ 𝔸) {r : List (Operator ℂ)} (hr : ValidOps R.type R.Str r) : ToleranceSeparates 0 r := by
  refine toleranceSeparates_zero ?_
  intro A hA B hB C hC
  obtain ⟨C', D, h1, -, h2, -⟩ := R.lieBracket (hr.2 A hA).1 (hr.2 B hB).1 (hr.2 A hA).2.2 (hr.2 B hB).2.2 (hr.2 A hA).2.1 (hr.2 B hB).2.1
  rw [hC] at h1
  rw [Except.ok.inj h1]; exact h2

/-- **C77** (tolerance 0): if nothing is dropped, the members span the Lie algebra generated by the generators. -/
theorem C77_exact_zero (R : PauliRep ℂ 𝔸 S) {gens r : List (Operator ℂ)} (hg : ValidOps .pauli (PauliString S) gens)
    (hr : LieOpsReturns gens 0 r) (hd : NothingDropped r) : Submodule.span ℂ (operatorsOf R.den r) = (generatedLieAlgebra R.den gens).toSubmodule :=
  C77_exact_pauli_partial R le_rfl hg hr (noSmall_zero gens) hd (R.strAlg.separates_zero (R.strAlg.lieOps_of (pauli_finite S) le_rfl hg hr).1)

/-- **C77** (tolerance 0, Majorana) -/
theorem C77_exact_zero_majorana (R : MajoranaRep ℂ 𝔸 S) {gens r : List (Operator ℂ)} (hg : ValidOps .majorana (MajoranaString S) gens)
    (hr : LieOpsReturns gens 0 r) (hd : NothingDropped r) : Submodule.span ℂ (operatorsOf R.den r) = (generatedLieAlgebra R.den gens).toSubmodule :=
  C77_exact_majorana_partial R le_rfl hg hr (noSmall_zero gens) hd (R.strAlg.separates_zero (R.strAlg.lieOps_of (majorana_finite S) le_rfl hg hr).1)

/-- **C77** (independence, Pauli): if the generators are linearly independent, so are the members. -/
theorem C77_independent_pauli (R : PauliRep ℂ 𝔸 S) {tol : ℝ} (h0 : 0 ≤ tol) {gens r : List (Operator ℂ)} (hg : ValidOps .pauli (PauliString S) gens)
    (hr : LieOpsReturns gens tol r) (hn : NoSmallCoefficients tol gens) (hi : IndependentOperators gens) : IndependentOperators r :=
  lie_independent h0 ((R.strAlg.lieOps_of (pauli_finite S) h0 hg hr).2.2.2 hn) hi

/-- **C77** (independence, Majorana) -/
theorem C77_independent_majorana (R : MajoranaRep ℂ 𝔸 S) {tol : ℝ} (h0 : 0 ≤ tol) {gens r : List (Operator ℂ)}
    (hg : ValidOps .majorana (MajoranaString S) gens)
    (hr : LieOpsReturns gens tol r) (hn : NoSmallCoefficients tol gens) (hi : IndependentOperators gens) : IndependentOperators r :=
  lie_independent h0 ((R.strAlg.lieOps_of (majorana_finite S) h0 hg hr).2.2.2 hn) hi

theorem StrAlg.lie_dimension [Nontrivial 𝔸] (R : StrAlg ℂ 𝔸) {gens r : List (Operator ℂ)}
    (hr : ∀ A ∈ r, A.WF ∧ ∀ s ∈ A.basis.strs, R.Str s ∧ s.Canonical) (hi : IndependentOperators r)
    (h : Submodule.span ℂ (operatorsOf R.den r) = (generatedLieAlgebra R.den gens).toSubmodule) :
    Module.finrank ℂ (generatedLieAlgebra R.den gens) = r.length := by
  have h1 := finrank_span_eq_card (R.den_independent hr hi)
  have e : Set.range (fun i : Fin r.length => r[i].den R.den) = operatorsOf R.den r := by
    ext x
    constructor
    · rintro ⟨i, rfl⟩; exact ⟨_, List.getElem_mem _, rfl⟩
    · rintro ⟨A, hA, rfl⟩
      obtain ⟨i, hi, rfl⟩ := List.getElem_of_mem hA
      exact ⟨⟨i, hi⟩, rfl⟩
  rw [e, h, Fintype.card_fin] at h1
  exact h1

/-- **C77** (dimension, tolerance 0): the number of members is the dimension of the Lie algebra. -/
theorem C77_dimension [Nontrivial 𝔸] (R : PauliRep ℂ 𝔸 S) {gens r : List (Operator ℂ)} (hg : ValidOps .pauli (PauliString S) gens)
    (hc : ∀ A ∈ gens, ∀ s ∈ A.basis.strs, s.Canonical) (hi : IndependentOperators gens)
    (hr : LieOpsReturns gens 0 r) (hd : NothingDropped r) : Module.finrank ℂ (generatedLieAlgebra R.den gens) = r.length := by
  obtain ⟨h1, h2, -, -⟩ := R.strAlg.lieOps_of (pauli_finite S) le_rfl hg hr
  refine R.strAlg.lie_dimension (fun A hA => ⟨(h1.2 A hA).1, fun s hs => ⟨(h1.2 A hA).2.2 s hs, ?_⟩⟩)
    (C77_independent_pauli R le_rfl hg hr (noSmall_zero gens) hi) (C77_exact_zero R hg hr hd)
  rcases h2 A hA s hs with ⟨B, hB, h⟩ | h
  · exact hc B hB s h
  · exact h

/-- the first two iterations reach the commutator of the first two generators -/
theorem generateLieAlgebraOps_error {A B : Operator ℂ} {rest : List (Operator ℂ)} {e : PyErr} (hw : ∀ X ∈ A :: B :: rest, X.WF)
    (h : commutatorO A B = .error e) (n : ℕ) (tol : ℝ) : generateLieAlgebraOps (A :: B :: rest) (n + 2) tol = .error e := by
  classical
  obtain ⟨l, l1, l2, l3⟩ := combinedBasis_ok (A :: B :: rest)
  obtain ⟨P, m, q, p1, -⟩ := initialProjector_ok (tol := tol) (T := l.toFinset) hw l2 (fun X hX s hs => (l3 s).mpr ⟨X, hX, hs⟩) (by simp)
  rw [generateLieAlgebraOps, if_neg (by simp)]
  simp [l1, p1, bind, Except.bind, lieOpRun, lieOpStep, pyGet, h]

/-- **C77** (errors): no generators; generators of different types; Fermion operators. -/
theorem C77_errors (n : ℕ) (tol : ℝ) :
    generateLieAlgebraOps [] n tol = .error .indexError ∧
    (∀ A B rest, (∀ X ∈ A :: B :: rest, X.WF) → A.opType ≠ B.opType → generateLieAlgebraOps (A :: B :: rest) (n + 2) tol = .error .valueError) ∧
    (∀ A B rest, (∀ X ∈ A :: B :: rest, X.WF) → A.opType = .fermion → B.opType = .fermion → A.terms ≠ [] → B.terms ≠ [] →
      generateLieAlgebraOps (A :: B :: rest) (n + 2) tol = .error .notImplemented) := by
  refine ⟨by rw [generateLieAlgebraOps, if_pos rfl], ?_, ?_⟩
  · intro A B rest hw h
    exact generateLieAlgebraOps_error hw ((C06_errors .commutator _).1 h) n tol
  · intro A B rest hw h1 h2 h3 h4
    exact generateLieAlgebraOps_error hw ((C06_errors .commutator _).2 (hw A (by simp)) h1 h2 h3 h4) n tol

end Qosy
