import Verif.Lemmas.EnergyArithmetic
import Verif.Lemmas.BasisChange
import Verif.Lemmas.JordanWigner
import Verif.Spec.LieAlgebra
import Verif.Model.Core
import Verif.Model.Lanczos
import Verif.Spec.Description

/-! Inner products of coefficients are traces, so they do not depend on the kind of strings -/

namespace Qosy
open Matrix
variable {ι : Type} [Fintype ι] [DecidableEq ι]

/-- inner products of coefficients are traces -/
theorem StrAlg.trace_star_mul (R : StrAlg ℂ (Matrix ι ι ℂ)) (hR : ∀ s, R.Str s → star (R.den s) = R.den s) {strs : List OpString} (hn : strs.Nodup)
    (hs : ∀ s ∈ strs, R.Str s ∧ s.Canonical) (c d : ℕ → ℂ) :
    (star (linComb R.den strs c) * linComb R.den strs d).trace = Fintype.card ι * ∑ i : Fin strs.length, star (c i) * d i := by
  rw [linComb, linComb, star_sum, Finset.sum_mul_sum, Matrix.trace_sum, Finset.mul_sum]
  refine Finset.sum_congr rfl fun i _ => ?_
  rw [Matrix.trace_sum, Finset.sum_eq_single i]
  · rw [star_smul, hR strs[i] (hs strs[i] (List.getElem_mem _)).1, smul_mul_smul_comm, Matrix.trace_smul, R.trace_mul (hs strs[i] (List.getElem_mem _)) (hs strs[i] (List.getElem_mem _)),
      if_pos rfl, smul_eq_mul]
    ring
  · intro j _ hj
    rw [star_smul, hR strs[i] (hs strs[i] (List.getElem_mem _)).1, smul_mul_smul_comm, Matrix.trace_smul, R.trace_mul (hs strs[i] (List.getElem_mem _)) (hs strs[j] (List.getElem_mem _)), if_neg, smul_zero]
    exact fun e => hj (Fin.ext ((List.Nodup.getElem_inj_iff hn).mp e)).symm
  · simp

theorem StrAlg.inner_eq [Nonempty ι] {R R' : StrAlg ℂ (Matrix ι ι ℂ)} (hR : ∀ s, R.Str s → star (R.den s) = R.den s) (hR' : ∀ s, R'.Str s → star (R'.den s) = R'.den s)
    {strs strs' : List OpString} (hn : strs.Nodup) (hs : ∀ s ∈ strs, R.Str s ∧ s.Canonical) (hn' : strs'.Nodup) (hs' : ∀ s ∈ strs', R'.Str s ∧ s.Canonical)
    {c d c' d' : ℕ → ℂ} (hc : linComb R.den strs c = linComb R'.den strs' c') (hd : linComb R.den strs d = linComb R'.den strs' d') :
    ∑ i : Fin strs.length, star (c i) * d i = ∑ i : Fin strs'.length, star (c' i) * d' i := by
  have h := R.trace_star_mul hR hn hs c d
  rw [hc, hd, R'.trace_star_mul hR' hn' hs'] at h
  exact (mul_left_cancel₀ (Nat.cast_ne_zero.mpr Fintype.card_ne_zero) h).symm

/-- the commutant matrix depends on the operators denoted only -/
theorem StrAlg.commutant_same [Nonempty ι] {R R' : StrAlg ℂ (Matrix ι ι ℂ)} (hR : ∀ s, R.Str s → star (R.den s) = R.den s)
    (hR' : ∀ s, R'.Str s → star (R'.den s) = R'.den s) (mode : Mode) {x x' : BasisArg ℂ} (hx : x.All R.Str) (hx' : x'.All R'.Str) (hne : x ≠ .operators [])
    (hne' : x' ≠ .operators []) {O O' : Operator ℂ} (hO : ∀ s ∈ O.basis.strs, R.Str s) (hO' : ∀ s ∈ O'.basis.strs, R'.Str s) (e : x.den R.den = x'.den R'.den)
    (eO : O.den R.den = O'.den R'.den) :
    ∃ L L' C C' ext ext', liouvillianMatrix x O mode = .ok (L, ext) ∧ liouvillianMatrix x' O' mode = .ok (L', ext') ∧ commutantMatrix x O mode = .ok (C, ext) ∧
      commutantMatrix x' O' mode = .ok (C', ext') ∧ SameEntries C C' ∧ C.ncols = (x.den R.den).length := by
  obtain ⟨L, C, ext, a1, a2, a3, a4, a5, a6⟩ := R.commutant_ok mode hx hne hO
  obtain ⟨L', C', ext', b1, b2, b3, b4, b5, b6⟩ := R'.commutant_ok mode hx' hne' hO'
  have hlen : (x'.den R'.den).length = (x.den R.den).length := by rw [e]
  refine ⟨L, L', C, C', ext, ext', a1, b1, a2, b2, ⟨by rw [a4, b4, hlen], by rw [a5, b5, hlen], fun i hi j hj => ?_⟩, a5⟩
  have key : ∀ k < (x.den R.den).length, linComb R.den ext.strs (fun c => L.get c k) = linComb R'.den ext'.strs (fun c => L'.get c k) := fun k hk => by
    have h1 := a3.col k hk
    have h2 := b3.col k (by rw [hlen]; exact hk)
    rw [← e, ← eO] at h2
    exact h1.trans h2.symm
  have hin := StrAlg.inner_eq hR hR' a3.ext_inv.2 a3.ext_str b3.ext_inv.2 b3.ext_str (key i (by rw [← a4]; exact hi)) (key j (by rw [← a5]; exact hj))
  have c1 : ∀ (m n : ℕ) (h : m = n) (f : ℕ → ℂ), ∑ k : Fin m, f k = ∑ k : Fin n, f k := by rintro m _ rfl f; rfl
  rw [a6, b6, c1 _ _ a3.nrows fun k => star (L.get k i) * L.get k j, c1 _ _ b3.nrows fun k => star (L'.get k i) * L'.get k j]
  exact hin

theorem commutingOperators_of {x : BasisArg ℂ} {O : Operator ℂ} {mode : Mode} {C : Mat ℂ} {ext : Basis} (h : commutantMatrix x O mode = .ok (C, ext)) {n : ℕ}
    (hn : C.ncols = n) (eigh : Eigh) (tol : ℝ) : commutingOperators eigh x O mode tol =
      .ok ⟨n, selectColumns (eigh n (C.square n)) 0 tol, C.square n, (eigh n (C.square n)).evals, (eigh n (C.square n)).evecs⟩ := by
  obtain ⟨⟨L, ext'⟩, h1, h2⟩ := py_bind_ok h
  obtain ⟨C', h3, h4⟩ := py_bind_ok h2
  cases h4
  subst hn
  simp only [commutingOperators, h1, bind, Except.bind, h3]
  rfl

theorem commutingOperatorsVecs_of {x : BasisArg ℂ} {O : Operator ℂ} {mode : Mode} {C : Mat ℂ} {ext : Basis} (h : commutantMatrix x O mode = .ok (C, ext)) {n : ℕ}
    (hn : C.ncols = n) (eigsh : Eigsh) (k : ℕ) (tol : ℝ) : commutingOperatorsVecs eigsh x O k mode tol =
      (eigsh n (C.square n) k (-(1 / 10 ^ 6))).bind fun r => .ok ⟨n, selectVecs r 0 tol, C.square n, r.evals, r.evecs, decide ((selectVecs r 0 tol).length = k)⟩ := by
  obtain ⟨⟨L, ext'⟩, h1, h2⟩ := py_bind_ok h
  obtain ⟨C', h3, h4⟩ := py_bind_ok h2
  cases h4
  subst hn
  simp only [commutingOperatorsVecs, h1, bind, Except.bind, h3]
  rfl

theorem SameEntries.square {C C' : Mat ℂ} (h : SameEntries C C') (hr : C.nrows = C.ncols) : C.square C.ncols = C'.square C.ncols := by
  ext i j
  exact h.2.2 i (by rw [hr]; exact i.2) j j.2

/-- the strings of one algebra of strings belonging to those of another -/
def StrAlg.Corresponds {𝔸 : Type} [Ring 𝔸] [Algebra ℂ 𝔸] (R R' : StrAlg ℂ 𝔸) (s s' : OpString) : Prop := R.Can s ∧ R'.Can s' ∧ ∃ c : ℂ, c ≠ 0 ∧ R.den s = c • R'.den s'

section
variable {𝔸 : Type} [Ring 𝔸] [Algebra ℂ 𝔸] [Nontrivial 𝔸] {R R' : StrAlg ℂ 𝔸}

theorem StrAlg.Corresponds.symm {s s' : OpString} (h : R.Corresponds R' s s') : R'.Corresponds R s' s := by
  obtain ⟨h1, h2, c, hc, e⟩ := h
  exact ⟨h2, h1, c⁻¹, inv_ne_zero hc, by rw [e, smul_smul, inv_mul_cancel₀ hc, one_smul]⟩

theorem StrAlg.Corresponds.left {s t s' : OpString} (h : R.Corresponds R' s s') (h' : R.Corresponds R' t s') : s = t := by
  obtain ⟨h1, -, c, hc, e⟩ := h
  obtain ⟨h1', -, c', hc', e'⟩ := h'
  refine (R.same_string h1.1 h1'.1 h1.2 h1'.2 (c := c * c'⁻¹) ?_).1
  rw [e, e', smul_smul, mul_assoc, inv_mul_cancel₀ hc', mul_one]

theorem canonical_of_lie {gens r : List OpString} (h : IsLieAlgebra ℂ R.den R.Str gens r) (hg : ∀ s ∈ gens, R.Can s) : ∀ s ∈ r, R.Can s :=
  h.least {s | R.Can s} hg fun _ _ _ _ C _ hC1 hC2 _ _ => ⟨hC1, hC2⟩

/-- corresponding generators generate corresponding Lie algebras -/
theorem StrAlg.lie_corresponds (hex : ∀ s, R.Can s → ∃ s', R.Corresponds R' s s') {gens gens' r r' : List OpString} (h : IsLieAlgebra ℂ R.den R.Str gens r)
    (h' : IsLieAlgebra ℂ R'.den R'.Str gens' r') (hg' : ∀ s ∈ gens', R'.Can s) (hgg : ∀ s ∈ gens, ∃ s' ∈ gens', R.Corresponds R' s s') :
    ∀ s ∈ r, ∃ s' ∈ r', R.Corresponds R' s s' := by
  have hcan := canonical_of_lie h' hg'
  refine h.least {s | ∃ s' ∈ r', R.Corresponds R' s s'} (fun s hs => ?_) fun a ha b hb C c hC1 hC2 hc e => ?_
  · obtain ⟨s', h1, h2⟩ := hgg s hs
    exact ⟨s', h'.contains s' h1, h2⟩
  · obtain ⟨a', ha', -, -, ca, hca, ea⟩ := ha
    obtain ⟨b', hb', -, -, cb, hcb, eb⟩ := hb
    obtain ⟨C', hC⟩ := hex C ⟨hC1, hC2⟩
    obtain ⟨-, hC', k, hk, eC⟩ := id hC
    have e' : R'.den a' * R'.den b' - R'.den b' * R'.den a' = ((ca * cb)⁻¹ * (c * k)) • R'.den C' := by
      rw [ea, eb, eC, smul_mul_smul_comm, smul_mul_smul_comm, mul_comm cb ca, ← smul_sub, smul_smul] at e
      rw [mul_smul, ← e, smul_smul, inv_mul_cancel₀ (mul_ne_zero hca hcb), one_smul]
    have hne : (ca * cb)⁻¹ * (c * k) ≠ 0 := mul_ne_zero (inv_ne_zero (mul_ne_zero hca hcb)) (mul_ne_zero hc hk)
    rcases h'.closed a' ha' b' hb' with h0 | ⟨D, hD, d, hd, eD⟩
    · rw [e'] at h0
      have hz : R'.den C' = 0 := (smul_eq_zero.mp h0).resolve_left hne
      have h1 := R'.sq C' hC'.1
      rw [hz, mul_zero] at h1
      exact absurd h1 zero_ne_one
    · rw [e'] at eD
      have : C' = D := (R'.same_string hC'.1 (hcan D hD).1 hC'.2 (hcan D hD).2 (c := ((ca * cb)⁻¹ * (c * k))⁻¹ * d) (by
        rw [mul_smul, ← eD, smul_smul, inv_mul_cancel₀ hne, one_smul])).1
      subst this
      exact ⟨C', hD, hC⟩

/-- corresponding sets have the same number of members -/
theorem StrAlg.corresponds_length {r r' : List OpString} (hr : r.Nodup) (h : ∀ s ∈ r, ∃ s' ∈ r', R.Corresponds R' s s') : r.length ≤ r'.length := by
  classical
  have hf : ∀ s, ∃ s', s ∈ r → s' ∈ r' ∧ R.Corresponds R' s s' := fun s => by
    by_cases hs : s ∈ r
    · obtain ⟨s', h1⟩ := h s hs
      exact ⟨s', fun _ => h1⟩
    · exact ⟨s, fun h => absurd h hs⟩
  choose f hf using hf
  rw [← List.toFinset_card_of_nodup hr]
  exact (Finset.card_le_card_of_injOn f (fun s hs => by simpa using (hf s (by simpa using hs)).1) (fun s hs t ht e => by
    have h1 := (hf s (by simpa using hs)).2
    have h2 := (hf t (by simpa using ht)).2
    rw [← e] at h2
    exact h1.left h2)).trans (List.toFinset_card_le r')

end

end Qosy
