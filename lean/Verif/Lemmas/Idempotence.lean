import Verif.Lemmas.LieAlgebra
import Verif.Lemmas.LinAlg
import Verif.Lemmas.JordanWigner
import Verif.Lemmas.ManyOps2
import Verif.Lemmas.StrAlgInst
import Verif.Spec.Sorting

/-! # Operations that change nothing when they are repeated -/

namespace Qosy
open Coef

/-! ### sorting and duplicates -/

theorem inversions_sorted {v : List Int} (h : v.Pairwise (· ≤ ·)) : inversions v = 0 := by
  induction v with
  | nil => rfl
  | cons x xs ih =>
    rw [List.pairwise_cons] at h
    rw [inversions, ih h.2, Nat.add_zero, List.countP_eq_zero]
    intro y hy
    simpa using h.1 y hy

theorem removeDuplicates_distinct {α : Type} (equiv : α → α → Bool) (l : List α) (h : l.Pairwise fun x y => equiv y x = false) : removeDuplicates equiv l = l := by
  induction l using List.reverseRecOn with
  | nil => rfl
  | append_singleton l x ih =>
    rw [List.pairwise_append] at h
    unfold removeDuplicates at ih ⊢
    rw [List.foldl_append, ih h.1, List.foldl_cons, List.foldl_nil, if_neg]
    rw [List.any_eq_true]
    rintro ⟨y, hy, e⟩
    rw [h.2.2 y hy x (List.mem_singleton.mpr rfl)] at e
    cases e

/-! ### Gram-Schmidt -/

section
variable {n : ℕ}

theorem vnorm_of_unit {v : Fin n → ℂ} (h : vdot v v = 1) : vnorm v = 1 := by
  have h1 : vnorm v ^ 2 = 1 := by exact_mod_cast (vnorm_sq v).trans h
  have h2 := vnorm_nonneg v
  nlinarith

theorem gsProject_orthogonal {v : Fin n → ℂ} : ∀ {es : List (Fin n → ℂ)}, (∀ e ∈ es, vdot e v = 0) → gsProject es v = v
  | [], _ => rfl
  | e :: es, h => by
    rw [gsProject, h e (List.mem_cons_self ..)]
    simpa using gsProject_orthogonal fun x hx => h x (List.mem_cons_of_mem _ hx)

theorem gsLoop_ortho {tol : ℝ} (ht : tol < 1) : ∀ {cols found : List (Fin n → ℂ)}, Ortho (found ++ cols) → gsLoop tol cols found = found ++ cols
  | [], found, _ => by simp [gsLoop]
  | c :: cols, found, h => by
    have hu := vnorm_of_unit (h.1 c (by simp))
    have hp : gsProject found c = c := gsProject_orthogonal fun e he =>
      (List.pairwise_append.mp h.2).2.2 e he c (List.mem_cons_self ..)
    rw [gsLoop, hp, hu, if_pos ht]
    have e1 : vdiv c 1 = c := by funext i; simp [vdiv]
    have h' : Ortho ((found ++ [c]) ++ cols) := by simpa using h
    rw [e1, gsLoop_ortho ht h']
    simp

theorem gramSchmidt_ortho {tol : ℝ} (ht : tol < 1) {q : List (Fin n → ℂ)} (h : Ortho q) : gramSchmidt q tol = some q := by
  cases q with
  | nil => rfl
  | cons c q =>
    have hu := vnorm_of_unit (h.1 c (by simp))
    have e1 : vdiv c 1 = c := by funext i; simp [vdiv]
    rw [gramSchmidt]
    by_cases hn : n = 0
    · rw [if_pos hn]
    · rw [if_neg hn, hu, if_neg one_ne_zero, e1, gsLoop_ortho ht (by simpa using h)]
      rfl

theorem gramSchmidt_isOrtho {tol : ℝ} (ht : 0 ≤ tol) (hn : n ≠ 0) {cols q : List (Fin n → ℂ)} (h : gramSchmidt cols tol = some q) : Ortho q := by
  cases cols with
  | nil => cases h; exact ⟨by simp, .nil⟩
  | cons c cols =>
    rw [gramSchmidt, if_neg hn] at h
    by_cases hc : vnorm c = 0
    · rw [if_pos hc] at h; cases h
    · rw [if_neg hc] at h
      cases h
      refine (gsLoop_spec ht cols _ ⟨?_, List.pairwise_singleton _ _⟩).1
      intro e he
      rw [List.mem_singleton.mp he]
      exact vdiv_unit hc

end

/-! ### Lie algebras -/

section
variable {K : Type} [Field K] [StarRing K] [Coef K]

theorem lieStep_prefix {tol : ℚ} {st st' : LieState} (hi : st.lie.Inv) (h : lieStep K tol st = .ok (some st')) : st'.lie.Inv ∧ st.lie.strs <+: st'.lie.strs := by
  unfold lieStep at h
  split at h
  · split at h
    · split at h
      · cases h; exact ⟨hi, List.prefix_refl _⟩
      · obtain ⟨a, -, h⟩ := py_bind_ok h
        obtain ⟨b, -, h⟩ := py_bind_ok h
        obtain ⟨⟨c, C⟩, -, h⟩ := py_bind_ok h
        dsimp only at h
        split at h
        · cases h; exact ⟨hi, List.prefix_refl _⟩
        · cases C with
          | none => cases h
          | some C =>
            cases h
            dsimp only
            split
            · exact ⟨hi, List.prefix_refl _⟩
            · rename_i hc
              rw [hi.1, Basis.iaddString_ofList]
              rw [hi.1, Basis.contains_ofList] at hc
              have hc' : C ∉ st.lie.strs := by simpa using hc
              have e : unionList st.lie.strs [C] = st.lie.strs ++ [C] := by
                simp [unionList, hc']
              rw [e]
              refine ⟨Basis.Inv.ofList ?_, List.prefix_append _ _⟩
              rw [List.nodup_append]
              exact ⟨hi.2, List.nodup_singleton _, fun a ha b hb e => hc' (by rw [List.mem_singleton.mp hb] at e; exact e ▸ ha)⟩
    · cases h; exact ⟨hi, List.prefix_refl _⟩
  · cases h

theorem lieRun_prefix {tol : ℚ} : ∀ {n : ℕ} {st : LieState} {r : Basis}, st.lie.Inv → lieRun K tol n st = .ok (some r) → st.lie.strs <+: r.strs
  | 0, _, _, _, h => by cases h
  | n + 1, st, r, hi, h => by
    unfold lieRun at h
    obtain ⟨o, h1, h2⟩ := py_bind_ok h
    cases o with
    | none => cases h2; exact List.prefix_refl _
    | some st' =>
      obtain ⟨k1, k2⟩ := lieStep_prefix hi h1
      exact k2.trans (lieRun_prefix k1 h2)

variable {𝔸 : Type} [Ring 𝔸] [Algebra K 𝔸] [Nontrivial 𝔸]

omit [Nontrivial 𝔸] in
theorem IsLieAlgebra.canonical {R : StrAlg K 𝔸} {gens r : List OpString} (h : IsLieAlgebra K R.den R.Str gens r) (hg : ∀ s ∈ gens, R.Str s ∧ s.Canonical) :
    ∀ s ∈ r, R.Str s ∧ s.Canonical :=
  h.least {s | R.Str s ∧ s.Canonical} hg fun _ _ _ _ _ _ hC1 hC2 _ _ => ⟨hC1, hC2⟩

/-- whatever is generated by members of a Lie algebra belongs to it -/
theorem IsLieAlgebra.subset {R : StrAlg K 𝔸} {gens gens' r r' : List OpString} (h : IsLieAlgebra K R.den R.Str gens r) (h' : IsLieAlgebra K R.den R.Str gens' r')
    (hg' : ∀ s ∈ gens', R.Str s ∧ s.Canonical) (hsub : ∀ s ∈ gens, s ∈ r') : ∀ s ∈ r, s ∈ r' := by
  refine h.least {s | s ∈ r'} hsub fun a ha b hb C c hC hC' hc e => ?_
  rcases h'.closed a ha b hb with h0 | ⟨D, hD, d, -, e'⟩
  · exfalso
    rw [e] at h0
    have := R.same_string hC hC hC' hC' (c := 0) (by
      rw [zero_smul]
      have := congrArg (fun x => c⁻¹ • x) h0
      simpa [smul_smul, inv_mul_cancel₀ hc] using this)
    exact one_ne_zero this.2.symm
  · obtain ⟨hD1, hD2⟩ := h'.canonical hg' D hD
    have := R.same_string hC hD1 hC' hD2 (c := c⁻¹ * d) (by
      rw [mul_smul, ← e', e, smul_smul, inv_mul_cancel₀ hc, one_smul])
    show C ∈ r'
    rw [this.1]
    exact hD

/-- generating a Lie algebra from its members gives the same Basis, in the same order -/
theorem StrAlg.lie_idempotent (R : StrAlg K 𝔸) {tol : ℚ} (h0 : 0 < tol) (h2 : tol ≤ 2) {B : Basis} (hB : B.Inv) (hs : ∀ s ∈ B.strs, R.Str s ∧ s.Canonical)
    (hfin : ∀ F : Finset ℤ, {s : OpString | R.Str s ∧ s.Canonical ∧ ∀ l ∈ s.labels, l ∈ F}.Finite) :
    ∃ (m : ℕ) (r : Basis), ∀ k, m ≤ k → generateLieAlgebra K B k tol = .ok (some r) ∧ generateLieAlgebra K r k tol = .ok (some r) ∧ B.strs <+: r.strs := by
  obtain ⟨m, r, a1, a2, a3⟩ := R.generateLieAlgebra_ok h0 h2 hB (fun s h => (hs s h).1) hfin
  have hr := a3.canonical hs
  obtain ⟨m', r', b1, b2, b3⟩ := R.generateLieAlgebra_ok h0 h2 a2 (fun s h => (hr s h).1) hfin
  have start : ∀ {b : Basis}, b.Inv → emptyBasis.iadd b = b := fun {b} hb => by
    show (Basis.ofList []).iadd b = b
    rw [Basis.iadd_ofList List.nodup_nil, unionList_eq_filter _ hb.2]
    simpa using hb.1.symm
  have pre : ∀ {b r : Basis} {k : ℕ}, b.Inv → generateLieAlgebra K b k tol = .ok (some r) → b.strs <+: r.strs := fun {b r k} hb h => by
    unfold generateLieAlgebra at h
    rw [start hb] at h
    exact lieRun_prefix (st := ⟨b, [], 0, 0⟩) hb h
  have p := pre a2 (b1 m' le_rfl)
  have hlen : r'.strs.length ≤ r.strs.length := by
    rw [← List.toFinset_card_of_nodup b2.2, ← List.toFinset_card_of_nodup a2.2]
    refine Finset.card_le_card fun s h => ?_
    rw [List.mem_toFinset] at h ⊢
    exact b3.subset a3 hs (fun s h => h) s h
  have e : r'.strs = r.strs := (p.eq_of_length_le hlen).symm
  obtain rfl : r' = r := by rw [b2.1, a2.1, e]
  exact ⟨max m m', r', fun k hk => ⟨a1 k ((le_max_left ..).trans hk), b1 k ((le_max_right ..).trans hk), pre hB (a1 k ((le_max_left ..).trans hk))⟩⟩

/-- more generators generate a larger Lie algebra -/
theorem StrAlg.lie_mono (R : StrAlg K 𝔸) {tol : ℚ} (h0 : 0 < tol) (h2 : tol ≤ 2) {B B' : Basis} (hB : B.Inv) (hB' : B'.Inv) (hs : ∀ s ∈ B'.strs, R.Str s ∧ s.Canonical)
    (hfin : ∀ F : Finset ℤ, {s : OpString | R.Str s ∧ s.Canonical ∧ ∀ l ∈ s.labels, l ∈ F}.Finite) {m : ℕ} {r' : Basis}
    (hr' : ∀ k, m ≤ k → generateLieAlgebra K B' k tol = .ok (some r')) (hsub : ∀ s ∈ B.strs, s ∈ r'.strs) :
    ∃ (m' : ℕ) (r : Basis), (∀ k, m' ≤ k → generateLieAlgebra K B k tol = .ok (some r)) ∧ r.strs.Nodup ∧ ∀ s ∈ r.strs, s ∈ r'.strs := by
  obtain ⟨m₁, r₁, b1, -, b3⟩ := R.generateLieAlgebra_ok h0 h2 hB' (fun s h => (hs s h).1) hfin
  obtain rfl : r₁ = r' := by
    have := (b1 (max m m₁) (le_max_right ..)).symm.trans (hr' _ (le_max_left ..))
    exact Option.some.inj (Except.ok.inj this)
  have hc := b3.canonical hs
  obtain ⟨m', r, a1, a2, a3⟩ := R.generateLieAlgebra_ok h0 h2 hB (fun s h => (hc s (hsub s h)).1) hfin
  exact ⟨m', r, a1, a2.2, a3.subset b3 hs hsub⟩

end
end Qosy
