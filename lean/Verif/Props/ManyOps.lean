import Verif.Lemmas.ManyCalls
import Verif.Lemmas.ManyOps2Total
import Verif.Lemmas.ManySteps
import Verif.Props.Greedy

/-!
# Properties C84, C85: `selected_ci_greedy_many_ops` and `selected_ci_greedy_many_ops2`

`IsNumerics` is the contract of the numerical routines (see C58).
-/

namespace Qosy
open Coef
variable {K : Type} [Field K] [StarRing K] [Coef K] [RealCoef K]
variable {𝔸 : Type} [Ring 𝔸] [Algebra K 𝔸] {S : Set ℤ}

theorem manyOps_done (R : StrAlg K 𝔸) {num : Numerics K} (hnum : IsNumerics num) {args : ManyOpsArgs K} (hH : args.H.WF) (hs : ∀ s ∈ args.H.basis.strs, R.Str s)
    (hi : ValidInitial R.Str args.initialOperators) (hx : ∀ x ∈ args.explored, x = Explored.empty) :
    (∃ ops norms, manyOps num args = .ok (ops, norms) ∧ ops.length = args.numSteps ∧ List.Forall₂ (fun o c => o.length = args.initialOperators.length ∧
      List.Forall₂ (IsGreedyRecord R.Str R.den (args.H.den R.den)) o c) ops norms) ∨ ((∃ e, manyOps num args = .error e) ∧ ¬ ManySafe args) := by
  rcases manyOps_ok R hnum (args := args) ⟨hs, hH.basis.2, fun A hA => ⟨(hi A hA).1, (hi A hA).2.1, (hi A hA).2.2⟩,
    fun x h => by rw [hx x h]; exact Explored.empty_coherent _ _⟩ with ⟨ops, norms, h1, h2, h3⟩ | h
  · exact Or.inl ⟨ops, norms, h1, h3, h2.imp fun o c ⟨h, h'⟩ => ⟨h, h'.imp fun _ _ h => h.isGreedyRecord⟩⟩
  · exact Or.inr h

/-! ### C84 -/

/-- **C84** (Pauli strings): `selected_ci_greedy_many_ops` returns for each step as many operators as it was given, each real and normalised and with its
squared commutator norm, or raises an exception; it raises none if the arguments are `ManySafe`.  Missing: the operators of a step need not be orthogonal,
`C84_refuted`. -/
theorem C84_pauli_partial (R : PauliRep K 𝔸 S) {num : Numerics K} (hnum : IsNumerics num) {args : ManyOpsArgs K} (hH : args.H.WF)
    (hs : ∀ s ∈ args.H.basis.strs, PauliString S s) (hi : ValidInitial (PauliString S) args.initialOperators) (hx : ∀ x ∈ args.explored, x = Explored.empty) :
    (∃ ops norms, manyOps num args = .ok (ops, norms) ∧ ops.length = args.numSteps ∧ List.Forall₂ (fun o c => o.length = args.initialOperators.length ∧
      List.Forall₂ (IsGreedyRecord (PauliString S) R.den (args.H.den R.den)) o c) ops norms) ∨ ((∃ e, manyOps num args = .error e) ∧ ¬ ManySafe args) :=
  manyOps_done R.strAlg hnum hH hs hi hx

/-- **C84** (Majorana strings) -/
theorem C84_majorana_partial (R : MajoranaRep K 𝔸 S) {num : Numerics K} (hnum : IsNumerics num) {args : ManyOpsArgs K} (hH : args.H.WF)
    (hs : ∀ s ∈ args.H.basis.strs, MajoranaString S s) (hi : ValidInitial (MajoranaString S) args.initialOperators) (hx : ∀ x ∈ args.explored, x = Explored.empty) :
    (∃ ops norms, manyOps num args = .ok (ops, norms) ∧ ops.length = args.numSteps ∧ List.Forall₂ (fun o c => o.length = args.initialOperators.length ∧
      List.Forall₂ (IsGreedyRecord (MajoranaString S) R.den (args.H.den R.den)) o c) ops norms) ∨ ((∃ e, manyOps num args = .error e) ∧ ¬ ManySafe args) :=
  manyOps_done R.strAlg hnum hH hs hi hx

/-- **C84**: for all arguments and numerical routines, each operator and norm reported by `selected_ci_greedy_many_ops` is what `selected_ci_greedy` reports for
one step from this operator of the step before, truncated except in the first step, with all other operators, each in its newest version, as `orth_ops`. -/
theorem C84_calls (num : Numerics K) {args : ManyOpsArgs K} {ops : List (List (Operator K))} {norms : List (List K)} (h : manyOps num args = .ok (ops, norms)) :
    ops.length = args.numSteps ∧ ∀ step < args.numSteps, ∀ i < args.initialOperators.length,
      IsManyCall num args step ((args.initialOperators :: ops).getD step []) (ops.getD step []) (norms.getD step []) i :=
  manyOps_calls h

/-- `Z_1 + 2 Y_1` and `Y_1` with complex coefficients -/
noncomputable def cPair : List (Operator ℂ) := [⟨[1, 2], Basis.ofList [siteZ, siteY], .pauli⟩, ⟨[1], Basis.ofList [siteY], .pauli⟩]

theorem cPair_valid : ValidInitial (PauliString Set.univ) cPair := by
  intro A hA
  simp only [cPair, List.mem_cons, List.not_mem_nil, or_false] at hA
  rcases hA with rfl | rfl
  · exact ⟨cArgs_ok.initial, cArgs_ok.initialStr, cArgs_ok.nonempty⟩
  · exact ⟨⟨Basis.Inv.ofList (by decide), rfl, by intro s hs; simp at hs; rw [hs]; rfl⟩, by intro s hs; simp at hs; rw [hs]; exact site_valid.2.1, by simp⟩

theorem cX_wf : cX.WF := ⟨Basis.Inv.ofList (by decide), rfl, by intro s hs; simp [cX] at hs; rw [hs]; rfl⟩

/-- **C85** (steps): the first step is always made, and no step is recorded whose strings are those of one of the two steps before.  More steps only append to the
results; if fewer steps were made than asked for, asking for more does not change the result. -/
theorem C85_steps {num : Numerics K} {args : ManyOps2Args K} {ops : List (List (Operator K))} {norms : List (List K)} (h : manyOps2 num args = .ok (ops, norms)) :
    Progress ops ∧ (0 < args.numSteps → ops ≠ []) ∧
      (∀ m ops' norms', args.numSteps ≤ m → manyOps2 num { args with numSteps := m } = .ok (ops', norms') → ops <+: ops' ∧ norms <+: norms') ∧
      (ops.length < args.numSteps → ∀ m, args.numSteps ≤ m → manyOps2 num { args with numSteps := m } = .ok (ops, norms)) :=
  manyOps2_steps h

/-- non-vacuity: three steps of two operators -/
example : ∃ (num : Numerics ℂ) (ops : List (List (Operator ℂ))) (norms : List (List ℂ)), IsNumerics num ∧
    manyOps num { initialOperators := cPair, H := cX, numSteps := 3 } = .ok (ops, norms) ∧ ops.length = 3 ∧
    List.Forall₂ (fun o c => o.length = 2 ∧ List.Forall₂ (IsGreedyRecord (PauliString Set.univ) (waveRep ℂ).den (cX.den (waveRep ℂ).den)) o c) ops norms := by
  obtain ⟨num, hnum⟩ := exists_numerics
  rcases C84_pauli_partial (waveRep ℂ) hnum (args := { initialOperators := cPair, H := cX, numSteps := 3 }) cX_wf cArgs_ok.str cPair_valid (by simp)
    with ⟨ops, norms, h⟩ | ⟨_, h⟩
  · exact ⟨num, ops, norms, hnum, h⟩
  · exact absurd ⟨⟨siteX, by simp [cX], by decide⟩, by simp, ⟨100, rfl, by decide⟩, Or.inr ⟨100, 10, ⟨by simp [cPair, Basis.len], by simp, by simp [SizeArg.at]⟩, by norm_num⟩⟩ h

/-- **C84 refuted**: for the initial operators `3/5 X_1 + 4/5 Z_1` and `Z_1` and the operator `H = Z_1`, both operators returned are `Z_1`, though `X_1` is a combination
of the strings of the first one that is orthogonal to the second one. -/
theorem C84_refuted : ∃ A B, IsNumericsOnDiagonal diagNumerics ∧
    manyOps diagNumerics { initialOperators := [opXZ, opZ], H := opZ, numSteps := 1 } = .ok ([[A, B]], [[0, 0]]) ∧ A.basis.strs = [siteX, siteZ] ∧ A.coeffs = [0, 1] ∧
    B.basis.strs = [siteZ] ∧ B.coeffs = [1] :=
  ⟨⟨[0, 1], Basis.ofList [siteX, siteZ], .pauli⟩, opZ, diagNumerics_ok, by decide +kernel, rfl, rfl, rfl, rfl⟩

/-- non-vacuity of `C84_calls`: the second operator of this step has the new first one as `orth_ops` -/
example : ∃ A B, IsManyCall diagNumerics { initialOperators := [opXZ, opZ], H := opZ, numSteps := 1 } 0 [opXZ, opZ] [A, B] [0, 0] 1 := by
  obtain ⟨A, B, _, h, _⟩ := C84_refuted
  exact ⟨A, B, (C84_calls diagNumerics h).2 0 (by decide) 1 (by decide)⟩

/-- **C84 refuted**: if `max_basis_size` is a list, the second step raises TypeError. -/
theorem C84_refuted_list : IsNumericsOnDiagonal diagNumerics ∧
    manyOps diagNumerics { initialOperators := [opZ], H := opZ, numSteps := 2, maxSize := .list [5, 5] } = .error .typeError :=
  ⟨diagNumerics_ok, by decide +kernel⟩

/-! ### C85 -/

theorem manyOps2_done [Nontrivial 𝔸] (R : StrAlg K 𝔸) {num : Numerics K} (hnum : IsNumerics num) {args : ManyOps2Args K} (hH : args.H.WF)
    (hs : ∀ s ∈ args.H.basis.strs, R.Str s) (hi : ∀ A ∈ args.initialOperators, ∀ s ∈ A.basis.strs, R.Str s) (hx : args.explored = Explored.empty)
    (ho : args.orthOps = none) {ops : List (List (Operator K))} {norms : List (List K)} (h : manyOps2 num args = .ok (ops, norms)) :
    List.Forall₂ (IsOrthoStep R.Str R.den (args.H.den R.den) args.initialOperators.length) ops norms ∧ ops.length ≤ args.numSteps ∧
      ∀ first ∈ ops.head?, ∀ O ∈ first, ∀ A ∈ args.initialOperators, ∀ t ∈ A.basis.strs, t ∈ O.basis.strs := by
  obtain ⟨h1, h2⟩ := manyOps2_ok R hnum hs hH.basis.2 ho (by rw [hx]; exact Explored.empty_coherent _ _) hi h
  exact ⟨h1.imp fun o c h => ⟨h.len, h.records.imp fun _ _ h => h.isGreedyRecord, h.orthogonal, fun O c h1 h2 => (h.least O c h1 h2).least trivial inferInstance⟩, h2⟩

/-- **C85** (Pauli strings): without `orth_ops`, `selected_ci_greedy_many_ops2` returns for each step as many operators as it was given, each real and normalised and
with its squared commutator norm, over the same strings and orthogonal to each other, the first one with the smallest norm of all combinations of these
strings.  In the first step they include all strings of the initial operators, so that none of these has a smaller norm.  Missing: false with `orth_ops`, `C85_refuted`. -/
theorem C85_pauli_partial [Nontrivial 𝔸] (R : PauliRep K 𝔸 S) {num : Numerics K} (hnum : IsNumerics num) {args : ManyOps2Args K} (hH : args.H.WF)
    (hs : ∀ s ∈ args.H.basis.strs, PauliString S s) (hi : ∀ A ∈ args.initialOperators, ∀ s ∈ A.basis.strs, PauliString S s) (hx : args.explored = Explored.empty)
    (ho : args.orthOps = none) {ops : List (List (Operator K))} {norms : List (List K)} (h : manyOps2 num args = .ok (ops, norms)) :
    List.Forall₂ (IsOrthoStep (PauliString S) R.den (args.H.den R.den) args.initialOperators.length) ops norms ∧ ops.length ≤ args.numSteps ∧
      ∀ first ∈ ops.head?, ∀ O ∈ first, ∀ A ∈ args.initialOperators, ∀ t ∈ A.basis.strs, t ∈ O.basis.strs :=
  manyOps2_done R.strAlg hnum hH hs hi hx ho h

/-- **C85** (Majorana strings) -/
theorem C85_majorana_partial [Nontrivial 𝔸] (R : MajoranaRep K 𝔸 S) {num : Numerics K} (hnum : IsNumerics num) {args : ManyOps2Args K} (hH : args.H.WF)
    (hs : ∀ s ∈ args.H.basis.strs, MajoranaString S s) (hi : ∀ A ∈ args.initialOperators, ∀ s ∈ A.basis.strs, MajoranaString S s) (hx : args.explored = Explored.empty)
    (ho : args.orthOps = none) {ops : List (List (Operator K))} {norms : List (List K)} (h : manyOps2 num args = .ok (ops, norms)) :
    List.Forall₂ (IsOrthoStep (MajoranaString S) R.den (args.H.den R.den) args.initialOperators.length) ops norms ∧ ops.length ≤ args.numSteps ∧
      ∀ first ∈ ops.head?, ∀ O ∈ first, ∀ A ∈ args.initialOperators, ∀ t ∈ A.basis.strs, t ∈ O.basis.strs :=
  manyOps2_done R.strAlg hnum hH hs hi hx ho h

/-- **C85** (totality): it raises no exception if the arguments are `Many2Safe`, `H` has a term other than the identity and the initial operators have at least
as many different strings as there are operators. -/
theorem C85_total_partial (R : PauliRep K 𝔸 S) {num : Numerics K} (hnum : IsNumerics num) {args : ManyOps2Args K} (hH : args.H.WF)
    (hs : ∀ s ∈ args.H.basis.strs, PauliString S s) (hlab : ∃ s ∈ args.H.basis.strs, s.labels ≠ [])
    (hi : ∀ A ∈ args.initialOperators, ∀ s ∈ A.basis.strs, PauliString S s) (hx : args.explored = Explored.empty) (ha : Many2Safe args)
    (hn : ∃ strs : List OpString, strs.Nodup ∧ (∀ s ∈ strs, ∃ A ∈ args.initialOperators, s ∈ A.basis.strs) ∧ args.initialOperators.length ≤ strs.length) :
    ∃ ops norms, manyOps2 num args = .ok (ops, norms) :=
  let ⟨r, h⟩ := manyOps2_total R.strAlg hnum hs hH.basis.2 hlab ha (by rw [hx]; exact Explored.empty_coherent _ _) hi hn
  ⟨r.1, r.2, h⟩

/-- non-vacuity: three steps of two operators -/
example : ∃ (num : Numerics ℂ) (ops : List (List (Operator ℂ))) (norms : List (List ℂ)), IsNumerics num ∧
    manyOps2 num { initialOperators := cPair, H := cX, numSteps := 3, threshold := -1, rand := fun _ _ => 1 } = .ok (ops, norms) ∧
    List.Forall₂ (IsOrthoStep (PauliString Set.univ) (waveRep ℂ).den (cX.den (waveRep ℂ).den) 2) ops norms := by
  obtain ⟨num, hnum⟩ := exists_numerics
  obtain ⟨ops, norms, h⟩ := C85_total_partial (waveRep ℂ) hnum (args := { initialOperators := cPair, H := cX, numSteps := 3, threshold := -1, rand := fun _ _ => 1 }) cX_wf
    cArgs_ok.str ⟨siteX, by simp [cX], by decide⟩ (fun A hA => (cPair_valid A hA).2.1) rfl
    ⟨by simp, ⟨100, rfl, by simp [cPair]⟩, by norm_num, rfl, by simp [cPair], by simp [cPair], by norm_num⟩
    ⟨[siteZ, siteY], by decide, by intro s hs; exact ⟨_, List.mem_cons_self .., by simpa using hs⟩, by simp [cPair]⟩
  exact ⟨num, ops, norms, hnum, h, (C85_pauli_partial (waveRep ℂ) hnum cX_wf cArgs_ok.str (fun A hA => (cPair_valid A hA).2.1) rfl rfl h).1⟩

/-- random numbers for which the norm of the combination is rational -/
def exRand : ℕ → ℕ → QI := fun _ i => if i = 0 then 4 / 5 else 9 / 10

/-- **C85 refuted** with `orth_ops`: for `H = Z_1` and `orth_ops = [Z_1]`, the norm reported for `Z_1` is 10¹⁰ though it commutes with `H`. -/
theorem C85_refuted [Algebra QI 𝔸] [Nontrivial 𝔸] (R : PauliRep QI 𝔸 Set.univ) : ∃ A B, IsNumericsOnDiagonal diagNumerics ∧
    manyOps2 diagNumerics { initialOperators := [opX, opZ], H := opZ, numSteps := 1, orthOps := some [opZ], rand := exRand } = .ok ([[A, B]], [[4, ⟨10000000000, 0⟩]]) ∧
    B.den R.den = opZ.den R.den ∧ ¬ IsComNorm (fun s => PauliString Set.univ s ∧ s.Canonical) R.den (B.den R.den) (opZ.den R.den) (⟨10000000000, 0⟩ : QI) := by
  refine ⟨⟨[1, 0], Basis.ofList [siteX, siteZ], .pauli⟩, ⟨[0, 1], Basis.ofList [siteX, siteZ], .pauli⟩, diagNumerics_ok, by decide +kernel, ?_, ?_⟩
  · simp [opZ, Operator.den, denT, Operator.terms]
  · have e : (⟨[0, 1], Basis.ofList [siteX, siteZ], .pauli⟩ : Operator QI).den R.den = opZ.den R.den := by simp [opZ, Operator.den, denT, Operator.terms]
    rw [e]
    intro h
    exact absurd (C58_norm_unique R h (comNorm_commute R rfl)) (by decide +kernel)

/-- **C85** (exception): for a multiple of the identity or zero `selected_ci_greedy_many_ops2` raises ValueError, whatever the other arguments are. -/
theorem C85_identity {num : Numerics K} {args : ManyOps2Args K} (h : ∀ s ∈ args.H.basis.strs, s.labels = []) : manyOps2 num args = .error .valueError := by
  have : args.H.basis.strs.all (fun s => s.labels.isEmpty) = true := by simpa [List.all_eq_true] using h
  rw [manyOps2, if_pos this]

/-- non-vacuity: `H` is the identity -/
example : ∀ s ∈ (⟨[1], Basis.ofList [⟨[], [], .pauli, .float1⟩], .pauli⟩ : Operator QI).basis.strs, s.labels = [] := by simp [Basis.ofList]

/-- **C85 refuted** (exceptions): two initial operators of one string raise IndexError, also if the truncation leaves one string only; so does a list of basis sizes (TypeError). -/
theorem C85_refuted_exceptions : IsNumericsOnDiagonal diagNumerics ∧
    manyOps2 diagNumerics { initialOperators := [opZ, opZ], H := opZ, numSteps := 1, rand := exRand } = .error .indexError ∧
    manyOps2 diagNumerics { initialOperators := [opX, opZ], H := opZ, numSteps := 2, maxSize := .int 1, rand := exRand } = .error .indexError ∧
    manyOps2 diagNumerics { initialOperators := [opX, opZ], H := opZ, numSteps := 1, maxSize := .list [5], rand := exRand } = .error .typeError :=
  ⟨diagNumerics_ok, by decide +kernel, by decide +kernel, by decide +kernel⟩

end Qosy
