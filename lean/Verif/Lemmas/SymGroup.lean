import Verif.Spec.Symmetrization
import Verif.Props.Tools
import Mathlib.Data.Fintype.Perm
import Mathlib.Algebra.Group.Subgroup.Pointwise

/-! # The group elements `symmetrize_basis` computes -/

namespace Qosy

variable {n : ℕ}

theorem permArray_injective : Function.Injective (permArray (n := n)) := by
  intro σ τ h
  unfold permArray at h
  have := List.ofFn_injective h
  ext i
  exact congrFun this i

theorem permArray_mem {σ : Equiv.Perm (Fin n)} {L : List (Equiv.Perm (Fin n))} : permArray σ ∈ L.map permArray ↔ σ ∈ L := by
  rw [List.mem_map]
  exact ⟨fun ⟨τ, h1, h2⟩ => permArray_injective h2 ▸ h1, fun h => ⟨σ, h, rfl⟩⟩

theorem range_eq_permArray : List.range n = permArray (1 : Equiv.Perm (Fin n)) := by
  simp [permArray, List.ofFn_eq_map]

/-- the number of permutations missing from a list -/
def missing (L : List (Equiv.Perm (Fin n))) : ℕ := (Finset.univ.filter (· ∉ L)).card

theorem missing_append {L : List (Equiv.Perm (Fin n))} {x : Equiv.Perm (Fin n)} (h : x ∉ L) : missing (L ++ [x]) < missing L := by
  apply Finset.card_lt_card
  rw [Finset.ssubset_iff_of_subset]
  · exact ⟨x, by simp [h], by simp⟩
  · intro y; simp only [Finset.mem_filter, List.mem_append, not_or]; tauto

theorem closeUnder_ok (σ : Equiv.Perm (Fin n)) : ∀ (k : ℕ) (L : List (Equiv.Perm (Fin n))) (i : ℕ),
    (L.length - i) + missing L ≤ k → (∀ (j : ℕ) (h : j < L.length), j < i → L[j] * σ ∈ L) →
    ∃ L', L <+: L' ∧ (∀ x ∈ L', x * σ ∈ L') ∧ (∀ x ∈ L', ∃ y ∈ L, ∃ j : ℕ, x = y * σ ^ j) ∧ (L.Nodup → L'.Nodup) ∧
      ∀ N, k < N → closeUnder (permArray σ) N i (L.map permArray) = .ok (some (L'.map permArray)) := by
  intro k
  induction k with
  | zero =>
    intro L i hk hi
    have hi' : L.length ≤ i := by omega
    refine ⟨L, List.prefix_refl _, ?_, fun x hx => ⟨x, hx, 0, by simp⟩, id, ?_⟩
    · intro x hx
      obtain ⟨j, hj, rfl⟩ := List.getElem_of_mem hx
      exact hi j hj (by omega)
    · intro N hN
      obtain ⟨N, rfl⟩ : ∃ m, N = m + 1 := ⟨N - 1, by omega⟩
      rw [closeUnder, List.getElem?_eq_none (by simpa using hi')]
  | succ k ih =>
    intro L i hk hi
    by_cases hi' : L.length ≤ i
    · refine ⟨L, List.prefix_refl _, ?_, fun x hx => ⟨x, hx, 0, by simp⟩, id, ?_⟩
      · intro x hx
        obtain ⟨j, hj, rfl⟩ := List.getElem_of_mem hx
        exact hi j hj (by omega)
      · intro N hN
        obtain ⟨N, rfl⟩ : ∃ m, N = m + 1 := ⟨N - 1, by omega⟩
        rw [closeUnder, List.getElem?_eq_none (by simpa using hi')]
    · push Not at hi'
      by_cases hm : L[i] * σ ∈ L
      · obtain ⟨L', h1, h2, h3, h4, h5⟩ := ih L (i + 1) (by omega) (by
          intro j hj hji
          rcases Nat.lt_succ_iff_lt_or_eq.mp hji with h | rfl
          · exact hi j hj h
          · exact hm)
        refine ⟨L', h1, h2, h3, h4, ?_⟩
        intro N hN
        obtain ⟨N, rfl⟩ : ∃ m, N = m + 1 := ⟨N - 1, by omega⟩
        rw [closeUnder, List.getElem?_map, List.getElem?_eq_getElem hi']
        simp only [Option.map_some, C26_compose, bind, Except.bind]
        rw [if_pos (permArray_mem.mpr hm)]
        exact h5 N (by omega)
      · have hlt := missing_append hm
        obtain ⟨L', h1, h2, h3, h4, h5⟩ := ih (L ++ [L[i] * σ]) (i + 1) (by
            rw [List.length_append, List.length_singleton]; omega) (by
          intro j hj hji
          rw [List.length_append, List.length_singleton] at hj
          have hjL : j < L.length := by omega
          rw [List.getElem_append_left hjL]
          rcases Nat.lt_succ_iff_lt_or_eq.mp hji with h | rfl
          · exact List.mem_append_left _ (hi j hjL h)
          · simp)
        refine ⟨L', (List.prefix_append _ _).trans h1, h2, ?_, ?_, ?_⟩
        · intro x hx
          obtain ⟨y, hy, j, rfl⟩ := h3 x hx
          rcases List.mem_append.mp hy with hy | hy
          · exact ⟨y, hy, j, rfl⟩
          · rw [List.mem_singleton] at hy
            subst hy
            exact ⟨L[i], List.getElem_mem hi', j + 1, by rw [pow_succ', mul_assoc]⟩
        · intro hn
          exact h4 (List.nodup_append.mpr ⟨hn, by simp, by
            intro a ha b hb
            rw [List.mem_singleton] at hb
            rintro rfl; exact hm (hb ▸ ha)⟩)
        · intro N hN
          obtain ⟨N, rfl⟩ : ∃ m, N = m + 1 := ⟨N - 1, by omega⟩
          rw [closeUnder, List.getElem?_map, List.getElem?_eq_getElem hi']
          simp only [Option.map_some, C26_compose, bind, Except.bind]
          rw [if_neg (fun h => hm (permArray_mem.mp h))]
          have := h5 N (by omega)
          rwa [List.map_append, List.map_singleton] at this

theorem powerProducts_congr : ∀ (σs : List (Equiv.Perm (Fin n))) {A B : Set (Equiv.Perm (Fin n))}, A = B →
    powerProducts σs A = powerProducts σs B := by
  rintro σs A B rfl; rfl

theorem groupLoop_ok : ∀ (σs L : List (Equiv.Perm (Fin n))), ∃ L' m, L <+: L' ∧ (L.Nodup → L'.Nodup) ∧
    (∀ x, x ∈ L' ↔ x ∈ powerProducts σs {y | y ∈ L}) ∧
      ∀ N, m ≤ N → groupLoop N (σs.map permArray) (L.map permArray) = .ok (some (L'.map permArray))
  | [], L => ⟨L, 0, List.prefix_refl _, id, fun _ => Iff.rfl, fun _ _ => rfl⟩
  | σ :: σs, L => by
    obtain ⟨M, h1, h2, h3, h4, h5⟩ := closeUnder_ok σ _ L 0 le_rfl (by simp)
    obtain ⟨L', m, k1, k2, k3, k4⟩ := groupLoop_ok σs M
    have hset : {y | y ∈ M} = {x | ∃ y ∈ L, ∃ k : ℕ, x = y * σ ^ k} := by
      ext x
      refine ⟨fun hx => h3 x hx, ?_⟩
      rintro ⟨y, hy, k, rfl⟩
      induction k with
      | zero => simpa using h1.subset hy
      | succ k ih => rw [pow_succ, ← mul_assoc]; exact h2 _ ih
    refine ⟨L', max m (L.length - 0 + missing L + 1), h1.trans k1, k2 ∘ h4, fun x => by rw [k3, powerProducts, hset]; rfl, ?_⟩
    intro N hN
    rw [List.map_cons, groupLoop, h5 N (by omega)]
    simp only [bind, Except.bind]
    exact k4 N (by omega)

theorem symmetryGroup_ok {σs : List (Equiv.Perm (Fin n))} (h : σs ≠ []) : ∃ G m, ((1 :: σs).Nodup → G.Nodup) ∧ (1 :: σs) <+: G ∧
    (∀ x, x ∈ G ↔ x ∈ powerProducts σs {y | y ∈ 1 :: σs}) ∧
      ∀ N, m ≤ N → symmetryGroup (σs.map permArray) N = .ok (some (G.map permArray)) := by
  obtain ⟨G, m, h1, h2, h3, h4⟩ := groupLoop_ok σs (1 :: σs)
  refine ⟨G, m, h2, h1, h3, fun N hN => ?_⟩
  have := h4 N hN
  cases σs with
  | nil => exact absurd rfl h
  | cons σ σs =>
    rw [List.map_cons (f := permArray) (l := σ :: σs), ← range_eq_permArray] at this
    rw [List.map_cons, symmetryGroup, permArray_length]
    exact this

theorem powerProducts_subset : ∀ (σs : List (Equiv.Perm (Fin n))) (H : Subgroup (Equiv.Perm (Fin n))) (A : Set (Equiv.Perm (Fin n))),
    (∀ σ ∈ σs, σ ∈ H) → A ⊆ H → powerProducts σs A ⊆ H
  | [], _, _, _, hA => hA
  | σ :: σs, H, A, h, hA => by
    apply powerProducts_subset σs H _ (fun τ hτ => h τ (List.mem_cons_of_mem _ hτ))
    rintro x ⟨y, hy, k, rfl⟩
    exact H.mul_mem (hA hy) (H.pow_mem (h σ (List.mem_cons_self ..)) k)

/-- the elements found are in the group -/
theorem powerProducts_le_generated (σs : List (Equiv.Perm (Fin n))) : powerProducts σs {y | y ∈ 1 :: σs} ⊆ (generated σs : Set (Equiv.Perm (Fin n))) := by
  apply powerProducts_subset
  · intro σ hσ; exact Subgroup.subset_closure hσ
  · intro y hy
    rcases List.mem_cons.mp hy with rfl | hy
    · exact Subgroup.one_mem _
    · exact Subgroup.subset_closure hy

theorem powerProducts_mono : ∀ (σs : List (Equiv.Perm (Fin n))) {A B : Set (Equiv.Perm (Fin n))}, A ⊆ B → powerProducts σs A ⊆ powerProducts σs B
  | [], _, _, h => h
  | σ :: σs, A, B, h => powerProducts_mono σs (by rintro x ⟨y, hy, k, rfl⟩; exact ⟨y, h hy, k, rfl⟩)

/-- if every generator normalizes the group generated by the earlier ones, the products of powers are the whole group -/
theorem closure_le_powerProducts : ∀ (σs : List (Equiv.Perm (Fin n))) (H : Subgroup (Equiv.Perm (Fin n))) (A : Set (Equiv.Perm (Fin n))),
    (H : Set (Equiv.Perm (Fin n))) ⊆ A → (∀ (i : ℕ) (hi : i < σs.length), ∀ x, x ∈ Subgroup.closure ((H : Set (Equiv.Perm (Fin n))) ∪ {σ | σ ∈ σs.take i}) →
      σs[i] * x * σs[i]⁻¹ ∈ Subgroup.closure ((H : Set (Equiv.Perm (Fin n))) ∪ {σ | σ ∈ σs.take i})) →
    (Subgroup.closure ((H : Set (Equiv.Perm (Fin n))) ∪ {σ | σ ∈ σs}) : Set (Equiv.Perm (Fin n))) ⊆ powerProducts σs A
  | [], H, A, hA, _ => by
    simp only [List.not_mem_nil, Set.setOf_false, Set.union_empty, Subgroup.closure_eq]
    exact hA
  | σ :: σs, H, A, hA, hn => by
    have hn0 : ∀ x, x ∈ H → σ * x * σ⁻¹ ∈ H := by
      intro x hx
      have := hn 0 (by simp) x (by simpa using hx)
      simpa using this
    -- the group generated by H and σ
    have hfin : ∀ x ∈ Subgroup.closure ((H : Set (Equiv.Perm (Fin n))) ∪ {σ}), ∃ y ∈ H, ∃ k : ℕ, x = y * σ ^ k := by
      have hpow : ∀ (k : ℕ) (x : Equiv.Perm (Fin n)), x ∈ H → σ ^ k * x * (σ ^ k)⁻¹ ∈ H := by
        intro k
        induction k with
        | zero => intro x hx; simpa using hx
        | succ k ih =>
          intro x hx
          have := hn0 _ (ih x hx)
          rw [pow_succ']
          simpa [mul_assoc] using this
      intro x hx
      refine Subgroup.closure_induction (p := fun x _ => ∃ y ∈ H, ∃ k : ℕ, x = y * σ ^ k) ?_ ?_ ?_ ?_ hx
      · rintro x (hx | rfl)
        · exact ⟨x, hx, 0, by simp⟩
        · exact ⟨1, H.one_mem, 1, by simp⟩
      · exact ⟨1, H.one_mem, 0, by simp⟩
      · rintro x y _ _ ⟨a, ha, k, rfl⟩ ⟨b, hb, l, rfl⟩
        refine ⟨a * (σ ^ k * b * (σ ^ k)⁻¹), H.mul_mem ha (hpow k b hb), k + l, ?_⟩
        rw [pow_add]; group
      · rintro x _ ⟨a, ha, k, rfl⟩
        have ho : σ ^ (orderOf σ) = 1 := pow_orderOf_eq_one σ
        have hk : k ≤ orderOf σ * k := Nat.le_mul_of_pos_left k (orderOf_pos σ)
        have hinv : (σ ^ k)⁻¹ = σ ^ (orderOf σ * k - k) := by
          rw [inv_eq_iff_mul_eq_one, ← pow_add, Nat.add_sub_cancel' hk, pow_mul, ho, one_pow]
        refine ⟨σ ^ (orderOf σ * k - k) * a⁻¹ * (σ ^ (orderOf σ * k - k))⁻¹, hpow _ _ (H.inv_mem ha), orderOf σ * k - k, ?_⟩
        rw [mul_inv_rev, hinv]; group
    rw [powerProducts]
    have hrec := closure_le_powerProducts σs (Subgroup.closure ((H : Set (Equiv.Perm (Fin n))) ∪ {σ})) {x | ∃ y ∈ A, ∃ k : ℕ, x = y * σ ^ k} (by
        intro x hx
        obtain ⟨y, hy, k, rfl⟩ := hfin x hx
        exact ⟨y, hA hy, k, rfl⟩) (by
        intro i hi x hx
        have hset : ∀ (l : List (Equiv.Perm (Fin n))), Subgroup.closure ((Subgroup.closure ((H : Set (Equiv.Perm (Fin n))) ∪ {σ}) : Set (Equiv.Perm (Fin n))) ∪ {τ | τ ∈ l}) =
            Subgroup.closure ((H : Set (Equiv.Perm (Fin n))) ∪ {τ | τ ∈ σ :: l}) := by
          intro l
          rw [Subgroup.closure_union, Subgroup.closure_eq, ← Subgroup.closure_union]
          congr 1
          ext y; simp only [Set.mem_union, SetLike.mem_coe, Set.mem_singleton_iff, Set.mem_setOf_eq, List.mem_cons]; tauto
        have := hn (i + 1) (by simpa using hi) x (by rw [List.take_succ_cons, ← hset]; exact hx)
        rw [List.take_succ_cons, ← hset] at this
        simpa using this)
    have hset : Subgroup.closure ((Subgroup.closure ((H : Set (Equiv.Perm (Fin n))) ∪ {σ}) : Set (Equiv.Perm (Fin n))) ∪ {τ | τ ∈ σs}) =
            Subgroup.closure ((H : Set (Equiv.Perm (Fin n))) ∪ {τ | τ ∈ σ :: σs}) := by
      rw [Subgroup.closure_union, Subgroup.closure_eq, ← Subgroup.closure_union]
      congr 1
      ext y; simp only [Set.mem_union, SetLike.mem_coe, Set.mem_singleton_iff, Set.mem_setOf_eq, List.mem_cons]; tauto
    rw [← hset]
    exact hrec

end Qosy
