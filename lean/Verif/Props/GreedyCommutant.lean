import Verif.Lemmas.GreedyCommutant
import Verif.Props.Greedy
import Verif.Props.Core

/-!
# Property C112: the greedy search finds what commutes

`selected_ci_greedy` minimises the commutator norm numerically, while `commuting_operators` computes the operators that commute.  Both agree.
-/

namespace Qosy
open Coef
variable {𝔸 : Type} [Ring 𝔸] [Algebra ℂ 𝔸] {S : Set ℤ}

theorem greedyAgrees {den : OpString → 𝔸} {eigh : Eigh} {H O : Operator ℂ} {c : ℂ} (h1 : c = 0 ↔ bracketOf .commutator (O.den den) (H.den den) = 0)
    (h2 : c = 0 ↔ HasCommuting den O.basis.strs (H.den den))
    (h3 : ∃ δ > 0, ∀ tol, 0 < tol → tol ≤ δ → ∃ vecs M evals evecs, commutingOperators eigh (.strings O.basis) H .commutator tol =
      .ok ⟨((BasisArg.strings (K := ℂ) O.basis).den den).length, vecs, M, evals, evecs⟩ ∧ OrthonormalColumns vecs ∧
      ∀ v, v ∈ colSpan vecs ↔ bracketOf .commutator (∑ j, v j • ((BasisArg.strings (K := ℂ) O.basis).den den)[j]) (H.den den) = 0) : GreedyAgrees den eigh H O c where
  operator := h1.trans commute_iff_bracket.symm
  basis := h2
  commuting := by
    obtain ⟨δ, hδ, h⟩ := h3
    refine ⟨δ, hδ, fun tol ht htδ => ?_⟩
    obtain ⟨vecs, M, evals, evecs, e1, e2, e3⟩ := h tol ht htδ
    refine ⟨_, e1, h2.trans ?_⟩
    have hlen : ((BasisArg.strings (K := ℂ) O.basis).den den).length = O.basis.strs.length := List.length_map _
    have hlin : ∀ u : ℕ → ℂ, ∑ j : Fin ((BasisArg.strings (K := ℂ) O.basis).den den).length, u j • ((BasisArg.strings (K := ℂ) O.basis).den den)[j] =
        linComb den O.basis.strs u := by
      intro u
      rw [linComb, ← Fin.sum_congr' _ hlen]
      refine Finset.sum_congr rfl fun j _ => ?_
      congr 1
      exact List.getElem_map _
    constructor
    · rintro ⟨u, ⟨j, hj, hu⟩, hc⟩ hv
      simp only at hv
      subst hv
      have := (e3 (fun j => u j)).mpr (by rw [hlin]; exact commute_iff_bracket.mp hc)
      simp only [colSpan, List.not_mem_nil, Set.ofPred_false, Submodule.span_empty, Submodule.mem_bot] at this
      exact hu (congrFun this ⟨j, hj.trans_eq hlen.symm⟩)
    · intro hv
      simp only at hv
      obtain ⟨v, l, rfl⟩ := List.exists_cons_of_ne_nil hv
      have hb := (e3 v).mp (Submodule.subset_span List.mem_cons_self)
      have h0 := e2 0 0 (by simp) (by simp)
      simp only [List.getElem_cons_zero, if_true] at h0
      let u : ℕ → ℂ := fun j => if hj : j < ((BasisArg.strings (K := ℂ) O.basis).den den).length then v ⟨j, hj⟩ else 0
      have hu : ∀ j : Fin ((BasisArg.strings (K := ℂ) O.basis).den den).length, u j = v j := fun j => dif_pos j.2
      refine ⟨u, ?_, ?_⟩
      · by_contra hn
        push Not at hn
        have : ∀ j, v j = 0 := fun j => by rw [← hu]; exact hn j (j.2.trans_eq hlen)
        simp [this] at h0
      · rw [commute_iff_bracket, ← hlin u]
        simpa only [hu] using hb

/-- **C112**: each operator recorded by the greedy search (one real operator `H`, neither a target nor a penalty) has commutator norm zero just if it commutes
with `H`, just if the strings of its basis admit any operator that does, and just if `commuting_operators` finds one. -/
theorem C112_pauli [Nontrivial 𝔸] (R : PauliRep ℂ 𝔸 S) {num : Numerics ℂ} (hnum : IsNumerics num) {eigh : Eigh} (hE : ExactEigh eigh) {H : Operator ℂ} {args : GreedyArgs ℂ}
    (ha : GreedyOK (PauliString S) H args) (hl : args.least) (hr : ∀ x ∈ H.coeffs, IsReal x) (he : args.explored = Explored.empty) {fuel : ℕ}
    {best : Operator ℂ} {c : Option ℂ} {ops : List (Operator ℂ)} {norms : List ℂ} (h : selectedCiGreedy num args fuel = .ok (some (best, c, ops, norms))) :
    List.Forall₂ (GreedyAgrees R.den eigh H) ops norms :=
  (selectedCiGreedy_done R.strAlg hnum ha he h).1.imp fun O _ hO =>
    greedyAgrees hO.zero_iff (hO.zero_iff_basis hl ha.str hr) (C49_exact_pauli R .commutator (x := .strings O.basis) hO.basis.2 (by simp) ha.str hE)

/-- **C112** (Majorana strings) -/
theorem C112_majorana [Nontrivial 𝔸] (R : MajoranaRep ℂ 𝔸 S) {num : Numerics ℂ} (hnum : IsNumerics num) {eigh : Eigh} (hE : ExactEigh eigh) {H : Operator ℂ} {args : GreedyArgs ℂ}
    (ha : GreedyOK (MajoranaString S) H args) (hl : args.least) (hr : ∀ x ∈ H.coeffs, IsReal x) (he : args.explored = Explored.empty) {fuel : ℕ}
    {best : Operator ℂ} {c : Option ℂ} {ops : List (Operator ℂ)} {norms : List ℂ} (h : selectedCiGreedy num args fuel = .ok (some (best, c, ops, norms))) :
    List.Forall₂ (GreedyAgrees R.den eigh H) ops norms :=
  (selectedCiGreedy_done R.strAlg hnum ha he h).1.imp fun O _ hO =>
    greedyAgrees hO.zero_iff (hO.zero_iff_basis hl ha.str hr) (C49_exact_majorana R .commutator (x := .strings O.basis) hO.basis.2 (by simp) ha.str hE)

theorem best_commutes {den : OpString → 𝔸} {eigh : Eigh} {H initial best : Operator ℂ} {c : Option ℂ} {ops : List (Operator ℂ)} {norms : List ℂ}
    (h : List.Forall₂ (GreedyAgrees den eigh H) ops norms) (hn : ∀ c ∈ norms, 0 ≤ toR c ∧ IsReal c) (hb : IsBest initial ops norms best c) :
    (c = some 0 ↔ ∃ O ∈ ops, HasCommuting den O.basis.strs (H.den den)) ∧ (c = some 0 → best.den den * H.den den = H.den den * best.den den) := by
  rcases hb with ⟨rfl, rfl, rfl⟩ | ⟨i, d, h1, h2, rfl, h4, -⟩
  · cases h
    simp
  · have hi := List.getElem?_eq_some_iff.mp h1
    have hd := List.getElem?_eq_some_iff.mp h2
    obtain ⟨hi, rfl⟩ := hi
    obtain ⟨hd, rfl⟩ := hd
    have hF := (List.forall₂_iff_get.mp h).2 i hi hd
    simp only [List.get_eq_getElem] at hF
    refine ⟨⟨fun e => ⟨_, List.getElem_mem hi, hF.basis.mp (Option.some.inj e)⟩, ?_⟩, fun e => hF.operator.mp (Option.some.inj e)⟩
    rintro ⟨O, hO, hc⟩
    obtain ⟨j, hj, rfl⟩ := List.mem_iff_getElem.mp hO
    have hj' : j < norms.length := h.length_eq ▸ hj
    have hG := (List.forall₂_iff_get.mp h).2 j hj hj'
    simp only [List.get_eq_getElem] at hG
    have h0 := hG.basis.mpr hc
    have hle := h4 _ (List.getElem_mem hj')
    rw [h0, toR_zero] at hle
    obtain ⟨q1, q2⟩ := hn _ (List.getElem_mem hd)
    rw [toR_inj q2 IsReal.zero (le_antisymm hle (by rw [toR_zero]; exact q1))]

/-- **C112**: the best norm reported is zero just if the basis of any of the steps admits an operator that commutes with `H`; then the best operator commutes. -/
theorem C112_best [Nontrivial 𝔸] (R : PauliRep ℂ 𝔸 S) {num : Numerics ℂ} (hnum : IsNumerics num) {H : Operator ℂ} {args : GreedyArgs ℂ}
    (ha : GreedyOK (PauliString S) H args) (hl : args.least) (hr : ∀ x ∈ H.coeffs, IsReal x) (he : args.explored = Explored.empty) {fuel : ℕ}
    {best : Operator ℂ} {c : Option ℂ} {ops : List (Operator ℂ)} {norms : List ℂ} (h : selectedCiGreedy num args fuel = .ok (some (best, c, ops, norms))) :
    (c = some 0 ↔ ∃ O ∈ ops, HasCommuting R.den O.basis.strs (H.den R.den)) ∧
      (c = some 0 → best.den R.den * H.den R.den = H.den R.den * best.den R.den) := by
  obtain ⟨eigh, hE⟩ := exists_exactEigh
  obtain ⟨h1, h2, -⟩ := selectedCiGreedy_done R.strAlg hnum ha he h
  refine best_commutes (C112_pauli R hnum hE ha hl hr he h) (fun c hc => ?_) h2
  obtain ⟨O, -, hO⟩ := forall₂_mem_right h1 hc
  exact ⟨hO.norm.nonneg.2, hO.norm.nonneg.1⟩

/-- **C112** (Majorana strings) -/
theorem C112_best_majorana [Nontrivial 𝔸] (R : MajoranaRep ℂ 𝔸 S) {num : Numerics ℂ} (hnum : IsNumerics num) {H : Operator ℂ} {args : GreedyArgs ℂ}
    (ha : GreedyOK (MajoranaString S) H args) (hl : args.least) (hr : ∀ x ∈ H.coeffs, IsReal x) (he : args.explored = Explored.empty) {fuel : ℕ}
    {best : Operator ℂ} {c : Option ℂ} {ops : List (Operator ℂ)} {norms : List ℂ} (h : selectedCiGreedy num args fuel = .ok (some (best, c, ops, norms))) :
    (c = some 0 ↔ ∃ O ∈ ops, HasCommuting R.den O.basis.strs (H.den R.den)) ∧
      (c = some 0 → best.den R.den * H.den R.den = H.den R.den * best.den R.den) := by
  obtain ⟨eigh, hE⟩ := exists_exactEigh
  obtain ⟨h1, h2, -⟩ := selectedCiGreedy_done R.strAlg hnum ha he h
  refine best_commutes (C112_majorana R hnum hE ha hl hr he h) (fun c hc => ?_) h2
  obtain ⟨O, -, hO⟩ := forall₂_mem_right h1 hc
  exact ⟨hO.norm.nonneg.2, hO.norm.nonneg.1⟩

/-- non-vacuity: the search of `cArgs` for `X_1` ends, with real coefficients and neither a target nor a penalty, and its records are as described. -/
example : ∃ (num : Numerics ℂ) (eigh : Eigh) (best : Operator ℂ) (c : Option ℂ) (ops : List (Operator ℂ)) (norms : List ℂ), IsNumerics num ∧ ExactEigh eigh ∧
    selectedCiGreedy num cArgs 3 = .ok (some (best, c, ops, norms)) ∧ norms.length = 3 ∧ List.Forall₂ (GreedyAgrees (waveRep ℂ).den eigh cX) ops norms := by
  obtain ⟨num, hnum⟩ := exists_numerics
  obtain ⟨eigh, hE⟩ := exists_exactEigh
  rcases selectedCiGreedy_total (waveRep ℂ).strAlg hnum cArgs_ok rfl ⟨siteX, by simp [cX], by decide⟩ rfl (le_refl 3) (le_refl 3) (size := 5) (terms := 2) (by simp [cArgs, Basis.len])
    (by simp [cArgs]) (by simp [cArgs]) (le_refl 3) with ⟨⟨b, c, ops, norms⟩, h⟩ | ⟨_, h⟩
  · refine ⟨num, eigh, b, c, ops, norms, hnum, hE, h, (C64_pauli_partial (waveRep ℂ) hnum cArgs_ok rfl rfl h).2.resolve_right ?_,
      C112_pauli (waveRep ℂ) hnum hE cArgs_ok ⟨rfl, rfl⟩ ?_ rfl h⟩
    · rintro (⟨_, _, h, _⟩ | ⟨_, _, _, _, h, _⟩) <;> simp [cArgs] at h
    · intro x hx; simp [cX] at hx; subst hx; exact IsReal.one
  · rcases h with ⟨z, hz, rfl⟩ | h
    · simp [cArgs] at hz
    · simp [cArgs] at h

end Qosy
