import Verif.Lemmas.Symmetrization
import Mathlib.Logic.Equiv.Fin.Rotate
import Mathlib.Algebra.Group.Submonoid.BigOperators

/-!
# Property C42: `symmetrize_basis`

The generators are given by permutations `σ` of the orbitals `0, …, n-1`; `permArray σ` is the array the code works with.  A returned
Operator is `Invariant` under a permutation if applying the label permutation with `Transformation.apply` changes no
coefficient.  The property is false in general (`C42_refuted_*`); it holds when the generators are distinct, none of them is the
identity and the products of powers the code forms are the whole group, in particular when each generator normalizes the group generated
by the earlier ones (commuting generators, translations followed by point group operations, …).
-/

namespace Qosy
open Coef

section
variable {n : ℕ} {t : OpType}

theorem translate_perm {σs G : List (Equiv.Perm (Fin n))} (hd : G.Nodup) (hG : ∀ x, x ∈ G ↔ x ∈ generated σs) {σ : Equiv.Perm (Fin n)}
    (hσ : σ ∈ generated σs) : (G.map (σ * ·)).Perm G ∧ (G.map (· * σ)).Perm G := by
  constructor
  · rw [List.perm_ext_iff_of_nodup (hd.map (mul_right_injective σ)) hd]
    intro x
    rw [List.mem_map]
    constructor
    · rintro ⟨y, hy, rfl⟩
      exact (hG _).mpr (Subgroup.mul_mem _ hσ ((hG y).mp hy))
    · intro hx
      exact ⟨σ⁻¹ * x, (hG _).mpr (Subgroup.mul_mem _ (Subgroup.inv_mem _ hσ) ((hG x).mp hx)), by simp⟩
  · rw [List.perm_ext_iff_of_nodup (hd.map (mul_left_injective σ)) hd]
    intro x
    rw [List.mem_map]
    constructor
    · rintro ⟨y, hy, rfl⟩
      exact (hG _).mpr (Subgroup.mul_mem _ ((hG y).mp hy) hσ)
    · intro hx
      exact ⟨x * σ⁻¹, (hG _).mpr (Subgroup.mul_mem _ ((hG x).mp hx) (Subgroup.inv_mem _ hσ)), by simp⟩

/-- **C42** (the group): for all generators the loops end; the list starts with the identity and the generators, its elements
are the products `y σ₁^k₁ σ₂^k₂ …` where `y` is the identity or a generator, and all are in the generated group. -/
theorem C42_group {σs : List (Equiv.Perm (Fin n))} (h : σs ≠ []) : ∃ G m, (∀ N, m ≤ N →
      symmetryGroup (σs.map permArray) N = .ok (some (G.map permArray))) ∧
    (1 :: σs) <+: G ∧ (∀ x, x ∈ G ↔ x ∈ powerProducts σs {y | y = 1 ∨ y ∈ σs}) ∧ (∀ x ∈ G, x ∈ generated σs) ∧
    (G.Nodup ↔ (1 :: σs).Nodup) := by
  obtain ⟨G, m, h1, h2, h3, h4⟩ := symmetryGroup_ok h
  have e : {y | y ∈ 1 :: σs} = {y | y = 1 ∨ y ∈ σs} := by ext y; simp
  refine ⟨G, m, h4, h2, fun x => by rw [h3, e], fun x hx => ?_, fun hd => hd.sublist h2.sublist, h1⟩
  exact powerProducts_le_generated σs ((h3 x).mp hx)

/-- **C42** (errors): an empty list of generators raises IndexError. -/
theorem C42_no_generators (basis : Basis) (N : ℕ) (tol : ℚ) : symmetrizeBasis basis [] N tol = .error .indexError := rfl

/-- **C42**, for generators that are distinct, different from the identity and such that the products of powers are the whole
group.  Missing from the full property: other generators, for which it is false (`C42_refuted_identity`, `C42_refuted_incomplete`).

The returned Operators are invariant under the whole group, have norm 1, have no string in common, and span the
invariant operators: every Operator made of strings of the basis that is invariant under the generators is a linear combination of
them. -/
theorem C42_symmetrize_partial {σs : List (Equiv.Perm (Fin n))} (h : σs ≠ []) (hd : (1 :: σs).Nodup)
    (hc : ∀ x ∈ generated σs, x ∈ powerProducts σs {y | y = 1 ∨ y ∈ σs})
    {basis : Basis} (hb : ∀ s ∈ basis.strs, TypedString t (siteLabels n) s ∧ s.Canonical) {tol : ℚ} (h0 : 0 ≤ tol) (h1 : tol < 1) :
    ∃ ops m, (∀ N, m ≤ N → symmetrizeBasis basis (σs.map permArray) N tol = .ok (some ops)) ∧
      (∀ O ∈ ops, O.WF ∧ O.opType = t ∧ O.norm .l2 = 1 ∧ ∀ σ ∈ generated σs, Invariant σ O) ∧
      ops.Pairwise (fun O O' => ∀ s ∈ O.basis.strs, s ∉ O'.basis.strs) ∧
      ∀ A : Operator ℂ, A.WF → A.opType = t → (∀ s ∈ A.basis.strs, s ∈ basis.strs) → (∀ σ ∈ σs, Invariant σ A) →
        A.coef ∈ Submodule.span ℂ {f | ∃ O ∈ ops, f = O.coef} := by
  obtain ⟨G, m, g1, g2, g3, g4, g5⟩ := C42_group h
  have hGd : G.Nodup := g5.mpr hd
  have hG : ∀ x, x ∈ G ↔ x ∈ generated σs := fun x => ⟨g4 x, fun hx => (g3 x).mpr (hc x hx)⟩
  obtain ⟨new, a1, a2, a3, a4⟩ := symmetrizeLoop_ok (t := t) h0 h1 G basis.strs [] [] hb
  have hcan : ∀ p ∈ new, CanonicalOn t n p.1 := fun p hp => hb _ (a2 p hp).1
  refine ⟨new.map Prod.snd, m, ?_, ?_, ?_, ?_⟩
  · intro N hN
    rw [symmetrizeBasis, g1 N hN]
    simp only [bind, Except.bind, a1, List.nil_append]
  · intro O hO
    obtain ⟨p, hp, rfl⟩ := List.mem_map.mp hO
    obtain ⟨-, -, hS⟩ := a2 p hp
    refine ⟨hS.on.wf, hS.on.type, hS.norm, fun σ hσ => ?_⟩
    rw [invariant_iff σ hS.on]
    intro s hs
    obtain ⟨c, -, hcoef⟩ := hS.coef
    rw [hcoef, hcoef, symCoef_left (translate_perm hGd hG hσ).1 (hcan p hp) hs]
    push_cast; ring
  · rw [List.pairwise_map]
    refine a3.imp_of_mem ?_
    intro p q hp hq hpq s hs hs'
    rw [(a2 p hp).2.2.mem] at hs
    rw [(a2 q hq).2.2.mem] at hs'
    obtain ⟨σ, hσ, e1⟩ := symCoef_support hs
    obtain ⟨τ, hτ, e2⟩ := symCoef_support hs'
    apply hpq (τ⁻¹ * σ) ((hG _).mpr (Subgroup.mul_mem _ (Subgroup.inv_mem _ ((hG τ).mp hτ)) ((hG σ).mp hσ)))
    rw [(act_mul (hcan p hp) _ _).1, e1, ← e2, (act_inv (hcan q hq) τ).1]
  · intro A hA hAt hAb hAi
    have hAon : A.On t (CanonicalOn t n) := ⟨hA, hAt, fun s hs => hb s (hAb s hs)⟩
    have hinv := InvCoef.generated (fun σ hσ => (invariant_iff σ hAon).mp (hAi σ hσ))
    have havg := average (G := G) hAon (fun σ hσ => hinv σ ((hG σ).mp hσ))
    have hne : (G.length : ℂ) ≠ 0 := by
      have := (g2.subset (List.mem_cons_self ..) : (1 : Equiv.Perm (Fin n)) ∈ G)
      exact Nat.cast_ne_zero.mpr (List.length_pos_of_mem this).ne'
    -- every symmetrized string of the basis is in the span
    have hspan : ∀ s ∈ basis.strs, (fun u => ((symCoef G s u : ℤ) : ℂ)) ∈ Submodule.span ℂ {f | ∃ O ∈ new.map Prod.snd, f = O.coef} := by
      have key : ∀ r, CanonicalOn t n r → ((∃ p ∈ new, p.1 = r) ∨ ∀ u, symCoef G r u = 0) →
          (fun u => ((symCoef G r u : ℤ) : ℂ)) ∈ Submodule.span ℂ {f | ∃ O ∈ new.map Prod.snd, f = O.coef} := by
        rintro r hr (⟨p, hp, rfl⟩ | hz)
        · obtain ⟨c, hcpos, hcoef⟩ := (a2 p hp).2.2.coef
          have : (fun u => ((symCoef G p.1 u : ℤ) : ℂ)) = ((c : ℂ)⁻¹) • p.2.coef := by
            funext u
            rw [Pi.smul_apply, hcoef, smul_eq_mul, inv_mul_cancel_left₀]
            exact_mod_cast hcpos.ne'
          rw [this]
          exact Submodule.smul_mem _ _ (Submodule.subset_span ⟨p.2, List.mem_map_of_mem hp, rfl⟩)
        · have : (fun u => ((symCoef G r u : ℤ) : ℂ)) = 0 := by funext u; simp [hz u]
          rw [this]; exact Submodule.zero_mem _
      intro s hs
      rcases a4 s hs with h | ⟨r, hr, h, h'⟩
      · simp at h
      · have hrc : CanonicalOn t n r := hb r hr
        have hk := key r hrc h'
        rcases h with rfl | ⟨σ, hσ, rfl⟩
        · exact hk
        · have : (fun u => ((symCoef G (relabelString (permMap σ) r) u : ℤ) : ℂ)) =
              ((relabelSign (permMap σ) r : ℤ) : ℂ) • (fun u => ((symCoef G r u : ℤ) : ℂ)) := by
            funext u
            rw [symCoef_right (translate_perm hGd hG ((hG σ).mp hσ)).2 hrc, Pi.smul_apply, smul_eq_mul]; push_cast; rfl
          rw [this]
          exact Submodule.smul_mem _ _ hk
    have hA' : A.coef = ((G.length : ℂ)⁻¹) • (A.terms.map (fun x => x.1 • (fun u => ((symCoef G x.2 u : ℤ) : ℂ)))).sum := by
      funext u
      have hsum : ∀ (l : List (ℂ × OpString)), (l.map (fun x => x.1 • (fun u => ((symCoef G x.2 u : ℤ) : ℂ)))).sum u =
          (l.map (fun x => x.1 * ((symCoef G x.2 u : ℤ) : ℂ))).sum := by
        intro l
        induction l with
        | nil => rfl
        | cons x l ih => simp only [List.map_cons, List.sum_cons, Pi.add_apply, ih, Pi.smul_apply, smul_eq_mul]
      rw [Pi.smul_apply, hsum, ← havg u, smul_eq_mul, inv_mul_cancel_left₀ hne]
    rw [hA']
    apply Submodule.smul_mem
    apply list_sum_mem
    intro f hf
    obtain ⟨x, hx, rfl⟩ := List.mem_map.mp hf
    exact Submodule.smul_mem _ _ (hspan x.2 (hAb _ (mem_terms hx)))

/-- The hypothesis on products of powers holds when each generator normalizes the group generated by the earlier ones. -/
theorem C42_normalizing {σs : List (Equiv.Perm (Fin n))} (h : ∀ (i : ℕ) (hi : i < σs.length), ∀ x ∈ generated (σs.take i),
      σs[i] * x * σs[i]⁻¹ ∈ generated (σs.take i)) :
    ∀ x ∈ generated σs, x ∈ powerProducts σs {y | y = 1 ∨ y ∈ σs} := by
  intro x hx
  have e : ∀ l : List (Equiv.Perm (Fin n)), Subgroup.closure (((⊥ : Subgroup (Equiv.Perm (Fin n))) : Set (Equiv.Perm (Fin n))) ∪ {σ | σ ∈ l}) = generated l := by
    intro l
    rw [Subgroup.closure_union, Subgroup.closure_eq, bot_sup_eq]; rfl
  refine closure_le_powerProducts σs ⊥ _ ?_ ?_ (by rw [e]; exact hx)
  · intro y hy
    left; exact hy
  · intro i hi y hy
    rw [e] at hy ⊢
    exact h i hi y hy

/-- in particular for commuting generators -/
theorem C42_commuting {σs : List (Equiv.Perm (Fin n))} (h : ∀ σ ∈ σs, ∀ τ ∈ σs, σ * τ = τ * σ) :
    ∀ x ∈ generated σs, x ∈ powerProducts σs {y | y = 1 ∨ y ∈ σs} := by
  apply C42_normalizing
  intro i hi x hx
  have : σs[i] * x = x * σs[i] := by
    refine Subgroup.closure_induction (p := fun x _ => σs[i] * x = x * σs[i]) ?_ ?_ ?_ ?_ hx
    · intro y hy
      exact h _ (List.getElem_mem hi) _ (List.mem_of_mem_take hy)
    · simp
    · intro y z _ _ h1 h2
      rw [← mul_assoc, h1, mul_assoc, h2, mul_assoc]
    · intro y _ h1
      rw [eq_inv_mul_iff_mul_eq, ← mul_assoc, ← h1, mul_assoc, mul_inv_cancel, mul_one]
  rw [this, mul_inv_cancel_right]
  exact hx

/-- **C42** for one generator (such as a translation, a rotation or a reflection): no other hypothesis is needed. -/
theorem C42_single_generator {σ : Equiv.Perm (Fin n)} (hσ : σ ≠ 1)
    {basis : Basis} (hb : ∀ s ∈ basis.strs, TypedString t (siteLabels n) s ∧ s.Canonical) {tol : ℚ} (h0 : 0 ≤ tol) (h1 : tol < 1) :
    ∃ ops m, (∀ N, m ≤ N → symmetrizeBasis basis [permArray σ] N tol = .ok (some ops)) ∧
      (∀ O ∈ ops, O.WF ∧ O.opType = t ∧ O.norm .l2 = 1 ∧ Invariant σ O) ∧
      ops.Pairwise (fun O O' => ∀ s ∈ O.basis.strs, s ∉ O'.basis.strs) ∧
      ∀ A : Operator ℂ, A.WF → A.opType = t → (∀ s ∈ A.basis.strs, s ∈ basis.strs) → Invariant σ A →
        A.coef ∈ Submodule.span ℂ {f | ∃ O ∈ ops, f = O.coef} := by
  obtain ⟨ops, m, k1, k2, k3, k4⟩ := C42_symmetrize_partial (σs := [σ]) (by simp) (by simpa using Ne.symm hσ)
    (C42_commuting (by simp)) hb h0 h1
  refine ⟨ops, m, k1, fun O hO => ⟨(k2 O hO).1, (k2 O hO).2.1, (k2 O hO).2.2.1, (k2 O hO).2.2.2 σ (Subgroup.subset_closure (by simp))⟩, k3, ?_⟩
  intro A a1 a2 a3 a4
  exact k4 A a1 a2 a3 (by simpa using a4)

end

/-! ### Refutations -/

theorem closeUnder_mono {gen : List ℕ} : ∀ {N M i : ℕ} {G G' : List (List ℕ)}, N ≤ M → closeUnder gen N i G = .ok (some G') →
    closeUnder gen M i G = .ok (some G')
  | 0, _, _, _, _, _, h => by simp [closeUnder] at h
  | N + 1, M, i, G, G', hM, h => by
    obtain ⟨M, rfl⟩ : ∃ k, M = k + 1 := ⟨M - 1, by omega⟩
    rw [closeUnder] at h ⊢
    cases hi : G[i]? with
    | none => rw [hi] at h; exact h
    | some g =>
      rw [hi] at h
      simp only [bind, Except.bind] at h ⊢
      cases hp : composePermutations g gen with
      | error e => rw [hp] at h; simp at h
      | ok p =>
        rw [hp] at h
        simp only at h ⊢
        split
        · rename_i hmem
          rw [if_pos hmem] at h
          exact closeUnder_mono (by omega) h
        · rename_i hmem
          rw [if_neg hmem] at h
          exact closeUnder_mono (by omega) h

theorem groupLoop_mono {N M : ℕ} (hM : N ≤ M) : ∀ {gens G G' : List (List ℕ)}, groupLoop N gens G = .ok (some G') →
    groupLoop M gens G = .ok (some G')
  | [], _, _, h => h
  | gen :: gens, G, G', h => by
    rw [groupLoop] at h ⊢
    simp only [bind, Except.bind] at h ⊢
    cases hc : closeUnder gen N 0 G with
    | error e => rw [hc] at h; simp at h
    | ok r =>
      cases r with
      | none => rw [hc] at h; simp at h
      | some H =>
        rw [hc] at h
        rw [closeUnder_mono hM hc]
        exact groupLoop_mono hM h

/-- symmetrizing a basis of one string -/
theorem symmetrize_one {n N : ℕ} {t : OpType} {gens arrays : List (List ℕ)} {G : List (Equiv.Perm (Fin n))} {s : OpString} (hG : G.map permArray = arrays)
    (hrun : symmetryGroup gens N = .ok (some arrays)) (hs : CanonicalOn t n s) (hz : ∃ u, symCoef G s u ≠ 0) :
    ∃ O, (∀ M, N ≤ M → symmetrizeBasis (Basis.ofList [s]) gens M = .ok (some [O])) ∧ Symmetrized t G s O := by
  obtain ⟨new, a1, a2, a3, a4⟩ := symmetrizeLoop_ok (t := t) (tol := 1 / 10 ^ 12) (by norm_num) (by norm_num) G [s] [] [] (by simpa using hs)
  have hmem : ∀ p ∈ new, p.1 = s := fun p hp => by simpa using (a2 p hp).1
  obtain ⟨p, hp⟩ : ∃ p, p ∈ new := by
    rcases a4 s (by simp) with h | ⟨r, hr, -, ⟨p, hp, -⟩ | h⟩
    · simp at h
    · exact ⟨p, hp⟩
    · obtain ⟨u, hu⟩ := hz
      simp only [List.mem_singleton] at hr
      exact absurd (hr ▸ h u) hu
  have hone : new = [p] := by
    match new, a1, a2, a3, hmem, hp with
    | [q], _, _, _, _, hp => simp at hp; rw [hp]
    | q :: q' :: rest, a1, a2, a3, hmem, hp =>
      exfalso
      -- only one string, so the loop adds at most one operator
      rw [hG] at a1
      rw [symmetrizeLoop, if_neg (by simp)] at a1
      simp only [bind, Except.bind] at a1
      cases h1 : (symmetrizeOpstring s arrays : Py (Operator ℂ)) with
      | error e => rw [h1] at a1; simp at a1
      | ok A =>
        rw [h1] at a1
        simp only at a1
        cases h2 : A.removeZeros with
        | error e => rw [h2] at a1; simp at a1
        | ok B =>
          rw [h2] at a1
          simp only at a1
          cases h3 : normalizeAbove (1 / 10 ^ 12) B with
          | none => rw [h3] at a1; simp [symmetrizeLoop] at a1
          | some C => rw [h3] at a1; simp [symmetrizeLoop] at a1
  subst hone
  refine ⟨p.2, ?_, ?_⟩
  · intro M hM
    have hrun' : symmetryGroup gens M = .ok (some arrays) := by
      cases gens with
      | nil => simp [symmetryGroup] at hrun
      | cons g gens => exact groupLoop_mono hM hrun
    rw [symmetrizeBasis, hrun', ← hG]
    simp only [bind, Except.bind]
    rw [show (Basis.ofList [s]).strs = [s] from rfl, a1]
    simp
  · have := (a2 p (by simp)).2.2
    rwa [hmem p (by simp)] at this

/-- the string `X 0` -/
def exX0 : OpString := ⟨[.X], [0], .pauli, .float1⟩
/-- the string `X 1` -/
def exX1 : OpString := ⟨[.X], [1], .pauli, .float1⟩

/-- **C42, refuted** (an identity or repeated generator is counted twice): symmetrizing `X 0` with the generators
`[1, 0]` and `[0, 1]` returns one Operator, which is not invariant under the swap (it is `(2 X_0 + X_1)/√5`). -/
theorem C42_refuted_identity : ∃ O, (∀ N, 10 ≤ N → symmetrizeBasis (Basis.ofList [exX0]) [[1, 0], [0, 1]] N = .ok (some [O])) ∧
    O.coef exX0 = 2 * O.coef exX1 ∧ O.coef exX1 ≠ 0 ∧ ¬ Invariant (Equiv.swap (0 : Fin 2) 1) O := by
  have hs : CanonicalOn .pauli 2 exX0 := ⟨Or.inl ⟨rfl, rfl, by decide, rfl, by decide, by unfold siteLabels; decide, by decide⟩, by decide, by decide⟩
  obtain ⟨O, h1, h2⟩ := symmetrize_one (n := 2) (N := 10) (t := .pauli) (gens := [[1, 0], [0, 1]]) (arrays := [[0, 1], [1, 0], [0, 1]])
    (G := [1, Equiv.swap 0 1, 1]) (s := exX0) (by decide +kernel) (by decide +kernel) hs ⟨exX1, by decide +kernel⟩
  obtain ⟨c, hc, hcoef⟩ := h2.coef
  have e0 : symCoef [1, Equiv.swap (0 : Fin 2) 1, 1] exX0 exX0 = 2 := by decide +kernel
  have e1 : symCoef [1, Equiv.swap (0 : Fin 2) 1, 1] exX0 exX1 = 1 := by decide +kernel
  have hc' : (c : ℂ) ≠ 0 := by exact_mod_cast hc.ne'
  refine ⟨O, h1, by rw [hcoef, hcoef, e0, e1]; push_cast; ring, by rw [hcoef, e1]; simpa using hc', ?_⟩
  rw [invariant_iff _ h2.on]
  intro h
  have := h exX0 hs
  rw [show relabelString (permMap (Equiv.swap (0 : Fin 2) 1)) exX0 = exX1 by decide +kernel,
    show relabelSign (permMap (Equiv.swap (0 : Fin 2) 1)) exX0 = 1 by decide +kernel, hcoef, hcoef, e0, e1] at this
  push_cast at this
  rw [one_mul, mul_one] at this
  have h2 : (c : ℂ) = 0 := by linear_combination -this
  exact hc' h2

/-- **C42, refuted** (the group is incomplete): for the transposition of the first two of four orbitals and the cyclic
shift, which generate all 24 permutations, the code uses 12 group elements; the Operator it makes from
`X 0 Y 1 Z 2` is not invariant under the transposition. -/
theorem C42_refuted_incomplete : ∃ O, (∀ N, 100 ≤ N → symmetrizeBasis (Basis.ofList [⟨[.X, .Y, .Z], [0, 1, 2], .pauli, .float1⟩])
      [[1, 0, 2, 3], [1, 2, 3, 0]] N = .ok (some [O])) ∧ ¬ Invariant (Equiv.swap (0 : Fin 4) 1) O := by
  set s : OpString := ⟨[.X, .Y, .Z], [0, 1, 2], .pauli, .float1⟩ with hsdef
  set arrays : List (List ℕ) := [[0, 1, 2, 3], [1, 0, 2, 3], [1, 2, 3, 0], [2, 1, 3, 0], [0, 2, 3, 1], [2, 3, 0, 1], [1, 3, 0, 2], [2, 3, 1, 0],
    [3, 0, 1, 2], [3, 0, 2, 1], [3, 1, 0, 2], [0, 2, 1, 3]] with harr
  have hs : CanonicalOn .pauli 4 s := ⟨Or.inl ⟨rfl, rfl, by decide, rfl, by decide, by unfold siteLabels; decide, by decide⟩, by decide, by decide⟩
  have hex : ∃ G : List (Equiv.Perm (Fin 4)), G.map permArray = arrays := by
    have : ∀ l : List (List ℕ), (∀ p ∈ l, IsPermArray p ∧ p.length = 4) → ∃ G : List (Equiv.Perm (Fin 4)), G.map permArray = l := by
      intro l
      induction l with
      | nil => intro _; exact ⟨[], rfl⟩
      | cons p l ih =>
        intro h
        obtain ⟨G, hG⟩ := ih (fun q hq => h q (List.mem_cons_of_mem _ hq))
        obtain ⟨h1, h2⟩ := h p (List.mem_cons_self ..)
        obtain ⟨σ, hσ⟩ := h1.exists_perm
        revert σ
        rw [h2]
        intro σ hσ
        exact ⟨σ :: G, by rw [List.map_cons, hG, hσ]⟩
    apply this
    intro p hp
    unfold IsPermArray
    revert p
    decide +kernel
  obtain ⟨G, hG⟩ := hex
  have hsym : ∀ u, symCoef G s u = (arrays.map (fun p => if relabelString (relabelMap (labelsOf p)) s = u then relabelSign (relabelMap (labelsOf p)) s else 0)).sum := by
    intro u
    rw [← hG, List.map_map]; rfl
  have e0 : symCoef G s ⟨[.X, .Z, .Y], [0, 1, 2], .pauli, .float1⟩ = 1 := by rw [hsym]; decide +kernel
  have e1 : symCoef G s ⟨[.Z, .X, .Y], [0, 1, 2], .pauli, .float1⟩ = 0 := by rw [hsym]; decide +kernel
  obtain ⟨O, h1, h2⟩ := symmetrize_one (n := 4) (N := 100) (t := .pauli) (gens := [[1, 0, 2, 3], [1, 2, 3, 0]]) (arrays := arrays)
    (G := G) (s := s) hG (by decide +kernel) hs ⟨_, by rw [e0]; decide⟩
  obtain ⟨c, hc, hcoef⟩ := h2.coef
  refine ⟨O, h1, ?_⟩
  rw [invariant_iff _ h2.on]
  intro h
  have hs' : CanonicalOn .pauli 4 ⟨[.X, .Z, .Y], [0, 1, 2], .pauli, .float1⟩ :=
    ⟨Or.inl ⟨rfl, rfl, by decide, rfl, by decide, by unfold siteLabels; decide, by decide⟩, by decide, by decide⟩
  have := h _ hs'
  rw [show relabelString (permMap (Equiv.swap (0 : Fin 4) 1)) ⟨[.X, .Z, .Y], [0, 1, 2], .pauli, .float1⟩ =
      ⟨[.Z, .X, .Y], [0, 1, 2], .pauli, .float1⟩ by decide +kernel,
    show relabelSign (permMap (Equiv.swap (0 : Fin 4) 1)) ⟨[.X, .Z, .Y], [0, 1, 2], .pauli, .float1⟩ = 1 by decide +kernel, hcoef, hcoef, e0, e1] at this
  push_cast at this
  rw [one_mul, mul_one, mul_zero] at this
  exact hc.ne' (by exact_mod_cast this.symm)

/-! ### The hypotheses are met by concrete generators -/

example : [Equiv.swap (0 : Fin 4) 1, finRotate 4].map permArray = [[1, 0, 2, 3], [1, 2, 3, 0]] := by decide +kernel
example : (Equiv.swap (0 : Fin 2) 1) ≠ 1 ∧ permArray (Equiv.swap (0 : Fin 2) 1) = [1, 0] := by decide +kernel

/-- the dihedral group of a chain of four sites: the shift and the reflection -/
example : (1 :: [finRotate 4, Fin.revPerm]).Nodup ∧ ∀ (i : ℕ) (hi : i < [finRotate 4, (Fin.revPerm : Equiv.Perm (Fin 4))].length),
    ∀ x ∈ generated ([finRotate 4, Fin.revPerm].take i),
      [finRotate 4, Fin.revPerm][i] * x * [finRotate 4, Fin.revPerm][i]⁻¹ ∈ generated ([finRotate 4, Fin.revPerm].take i) := by
  refine ⟨by decide +kernel, ?_⟩
  intro i hi x hx
  match i, hi with
  | 0, _ =>
    simp only [generated, List.take_zero, List.not_mem_nil, Set.setOf_false, Subgroup.closure_empty, Subgroup.mem_bot] at hx ⊢
    subst hx; simp
  | 1, _ =>
    refine Subgroup.closure_induction (p := fun x _ => [finRotate 4, Fin.revPerm][1] * x * [finRotate 4, Fin.revPerm][1]⁻¹ ∈
      generated ([finRotate 4, Fin.revPerm].take 1)) ?_ ?_ ?_ ?_ hx
    · intro y hy
      have hy : y = finRotate 4 := by simpa using hy
      subst hy
      have h : [finRotate 4, (Fin.revPerm : Equiv.Perm (Fin 4))][1] * finRotate 4 * [finRotate 4, (Fin.revPerm : Equiv.Perm (Fin 4))][1]⁻¹ = (finRotate 4)⁻¹ := by
        exact (by decide +kernel : (Fin.revPerm : Equiv.Perm (Fin 4)) * finRotate 4 * Fin.revPerm⁻¹ = (finRotate 4)⁻¹)
      rw [h]
      exact Subgroup.inv_mem _ (Subgroup.subset_closure (by simp))
    · rw [mul_one, mul_inv_cancel]; exact Subgroup.one_mem _
    · intro y z _ _ h1 h2
      have := Subgroup.mul_mem _ h1 h2
      simpa [mul_assoc] using this
    · intro y _ h1
      have := Subgroup.inv_mem _ h1
      simpa [mul_assoc] using this

end Qosy
