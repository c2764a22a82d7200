import Verif.Lemmas.LieOperators
import Verif.Lemmas.Liouvillian

/-! # The generated Lie algebra and the list of operators -/

namespace Qosy
open Coef
variable {𝔸 : Type} [Ring 𝔸] [Algebra ℂ 𝔸]

-- the Lie bracket of a ring is the commutator
attribute [local instance 100] LieRing.ofAssociativeRing

/-- what a function on a list of strings denotes -/
noncomputable def denOn (den : OpString → 𝔸) (l : List OpString) : (OpString → ℂ) →ₗ[ℂ] 𝔸 where
  toFun f := ∑ i : Fin l.length, f l[i] • den l[i]
  map_add' f g := by simp [add_smul, Finset.sum_add_distrib]
  map_smul' c f := by simp [mul_smul, Finset.smul_sum]

theorem denOn_coef (den : OpString → 𝔸) {l : List OpString} (hl : l.Nodup) {A : Operator ℂ} (h : ∀ s ∈ A.basis.strs, s ∈ l) :
    denOn den l A.coef = A.den den := by
  exact denT_eq_sum den hl A.terms fun t ht => h _ (mem_terms ht)

theorem denOn_span (den : OpString → 𝔸) {l : List OpString} (hl : l.Nodup) {r : List (Operator ℂ)} (h : ∀ A ∈ r, ∀ s ∈ A.basis.strs, s ∈ l) :
    (coefSpan r).map (denOn den l) = Submodule.span ℂ (operatorsOf den r) := by
  rw [coefSpan, Submodule.map_span]
  congr 1
  ext x
  constructor
  · rintro ⟨f, ⟨A, hA, rfl⟩, rfl⟩
    exact ⟨A, hA, denOn_coef den hl (h A hA)⟩
  · rintro ⟨A, hA, rfl⟩
    exact ⟨_, ⟨A, hA, rfl⟩, denOn_coef den hl (h A hA)⟩

/-- a list of strings that contains those of all members -/
theorem exists_strs (r : List (Operator ℂ)) (a : List OpString) : ∃ l : List OpString, l.Nodup ∧ (∀ A ∈ r, ∀ s ∈ A.basis.strs, s ∈ l) ∧ ∀ s ∈ a, s ∈ l :=
  ⟨(a ++ r.flatMap fun A => A.basis.strs).dedup, List.nodup_dedup _,
    fun A hA s hs => List.mem_dedup.mpr (List.mem_append_right _ (List.mem_flatMap.mpr ⟨A, hA, hs⟩)),
    fun s hs => List.mem_dedup.mpr (List.mem_append_left _ hs)⟩

theorem StrAlg.commutator_exact (R : StrAlg ℂ 𝔸) {A B : Operator ℂ} (hA : A.WF ∧ A.opType = R.type ∧ ∀ s ∈ A.basis.strs, R.Str s)
    (hB : B.WF ∧ B.opType = R.type ∧ ∀ s ∈ B.basis.strs, R.Str s)
    (h : ∀ ta ∈ A.terms, ∀ tb ∈ B.terms, ta.1 * tb.1 = 0 ∨ 1 / 10 ^ 16 ≤ ‖ta.1 * tb.1‖ * 2) {C : Operator ℂ} (hC : commutatorO A B = .ok C) :
    C.den R.den = ⁅A.den R.den, B.den R.den⁆ := by
  obtain ⟨C', h1, h2, h3, h4, h5, h6⟩ := R.bracketSpec .commutator (tol := 1 / 10 ^ 16) (by norm_num) hA.1 hB.1 hA.2.2 hB.2.2 hA.2.1 hB.2.1
  have e : C' = C := by
    have : (Except.ok C' : Py _) = .ok C := by rw [← h1]; exact hC
    simpa using this
  subst e
  rw [h6]
  · rfl
  · intro ta hta tb htb
    rcases h ta hta tb htb with h | h
    · exact Or.inl h
    · right
      have e1 : ‖toC (ta.1 * tb.1)‖ = ‖ta.1 * tb.1‖ := rfl
      rw [e1]
      simp only [bracketFactor]
      push_cast
      exact h

theorem Operator.den_of_smul {A C : Operator ℂ} (c : ℂ) (h : ∀ s, A.coef s = c * C.coef s) (den : OpString → 𝔸) : A.den den = c • C.den den :=
  denT_smul den c h

/-- every member of the list is in the Lie algebra generated -/
theorem StrAlg.lie_sound (R : StrAlg ℂ 𝔸) {V : List (Operator ℂ) → Submodule ℂ (OpString → ℂ)} {tol : ℝ} {gens r : List (Operator ℂ)}
    (hr : ∀ A ∈ r, A.WF ∧ A.opType = R.type ∧ ∀ s ∈ A.basis.strs, R.Str s) (h : LieClosure V tol gens r) (hd : NothingDropped r) :
    ∀ A ∈ r, A.den R.den ∈ generatedLieAlgebra R.den gens := by
  suffices hs : ∀ (k : ℕ) (D : Operator ℂ), r[k]? = some D → D.den R.den ∈ generatedLieAlgebra R.den gens by
    intro A hA
    obtain ⟨k, hk⟩ := List.getElem?_of_mem hA
    exact hs k A hk
  intro k
  induction k using Nat.strong_induction_on with
  | _ k ih =>
    intro D hD
    rcases Nat.lt_or_ge k gens.length with hk | hk
    · obtain ⟨t, rfl⟩ := h.start
      rw [List.getElem?_append_left hk] at hD
      exact LieSubalgebra.subset_lieSpan ⟨D, List.mem_of_getElem? hD, rfl⟩
    · obtain ⟨i, j, A, B, C, hi, hj, hA, hB, hC, -, c, -, hc⟩ := h.derived k D hk hD
      have mA := List.mem_of_getElem? hA
      have mB := List.mem_of_getElem? hB
      rw [Operator.den_of_smul (A := D) (C := C) (c * -Complex.I) (fun s => by rw [hc, mul_assoc]), R.commutator_exact (hr A mA) (hr B mB) (hd A mA B mB) hC]
      exact LieSubalgebra.smul_mem _ _ (LieSubalgebra.lie_mem _ (ih i hi A hA) (ih j hj B hB))

/-- the list spans the Lie algebra generated -/
theorem StrAlg.lie_exact (R : StrAlg ℂ 𝔸) {tol : ℝ} {gens r : List (Operator ℂ)}
    (hr : ∀ A ∈ r, A.WF ∧ A.opType = R.type ∧ ∀ s ∈ A.basis.strs, R.Str s) (h : LieClosure coefSpan tol gens r) (hd : NothingDropped r)
    (hs : ToleranceSeparates tol r) : Submodule.span ℂ (operatorsOf R.den r) = (generatedLieAlgebra R.den gens).toSubmodule := by
  apply le_antisymm
  · apply Submodule.span_le.mpr
    rintro x ⟨A, hA, rfl⟩
    exact R.lie_sound hr h hd A hA
  · have key : ∀ A ∈ r, ∀ B ∈ r, CommutatorWithin tol (coefSpan r) A B → ⁅A.den R.den, B.den R.den⁆ ∈ Submodule.span ℂ (operatorsOf R.den r) := by
      rintro A hA B hB ⟨C, hC, hw⟩
      obtain ⟨s1, s2⟩ := hs A hA B hB C hC
      rw [← R.commutator_exact (hr A hA) (hr B hB) (hd A hA B hB) hC]
      have hmem : C.coef ∈ coefSpan r := by
        rcases hw with hw | hw
        · have : C.coef = 0 := funext (s1 hw)
          rw [this]; exact Submodule.zero_mem _
        · exact s2 hw
      obtain ⟨l, l1, l2, l3⟩ := exists_strs r C.basis.strs
      rw [← denOn_coef R.den l1 l3, ← denOn_span R.den l1 l2]
      exact Submodule.mem_map_of_mem hmem
    have hlie : ∀ A ∈ r, ∀ B ∈ r, ⁅A.den R.den, B.den R.den⁆ ∈ Submodule.span ℂ (operatorsOf R.den r) := by
      intro A hA B hB
      obtain ⟨i, hi⟩ := List.getElem?_of_mem hA
      obtain ⟨j, hj⟩ := List.getElem?_of_mem hB
      by_cases hij : i = j
      · subst hij
        rw [hi] at hj
        rw [Option.some.inj hj, lie_self]
        exact Submodule.zero_mem _
      · rcases h.closed i j A B hij hi hj with h | h
        · exact key A hA B hB h
        · rw [← lie_skew]
          exact Submodule.neg_mem _ (key B hB A hA h)
    have hbr : ∀ x ∈ Submodule.span ℂ (operatorsOf R.den r), ∀ y ∈ Submodule.span ℂ (operatorsOf R.den r), ⁅x, y⁆ ∈ Submodule.span ℂ (operatorsOf R.den r) := by
      intro x hx y hy
      induction hx using Submodule.span_induction with
      | mem x hx =>
        obtain ⟨A, hA, rfl⟩ := hx
        induction hy using Submodule.span_induction with
        | mem y hy => obtain ⟨B, hB, rfl⟩ := hy; exact hlie A hA B hB
        | zero => rw [lie_zero]; exact Submodule.zero_mem _
        | add y z _ _ hy hz => rw [lie_add]; exact Submodule.add_mem _ hy hz
        | smul c y _ hy => rw [lie_smul]; exact Submodule.smul_mem _ _ hy
      | zero => rw [zero_lie]; exact Submodule.zero_mem _
      | add x z _ _ hx hz => rw [add_lie]; exact Submodule.add_mem _ hx hz
      | smul c x _ hx => rw [smul_lie]; exact Submodule.smul_mem _ _ hx
    let W : LieSubalgebra ℂ 𝔸 := { Submodule.span ℂ (operatorsOf R.den r) with lie_mem' := fun {x y} hx hy => hbr x hx y hy }
    have : generatedLieAlgebra R.den gens ≤ W := by
      apply LieSubalgebra.lieSpan_le.mpr
      rintro x ⟨A, hA, rfl⟩
      exact Submodule.subset_span ⟨A, h.start.subset hA, rfl⟩
    exact fun x hx => this hx

/-- with tolerance 0 it separates -/
theorem toleranceSeparates_zero {r : List (Operator ℂ)} (h : ∀ A ∈ r, ∀ B ∈ r, ∀ C, commutatorO A B = .ok C → C.WF) : ToleranceSeparates 0 r := by
  classical
  intro A hA B hB C hC
  have wC := h A hA B hB C hC
  constructor
  · intro hn s
    have e := Operator.norm_eq wC (T := C.basis.strs.toFinset) (by simp)
    rw [e] at hn
    have h0 : coefVec C.basis.strs.toFinset C.coef = 0 := norm_eq_zero.mp (le_antisymm hn (norm_nonneg _))
    have := coefVec_inj (T := C.basis.strs.toFinset) (f := C.coef) (fun s hs => wC.coef_supp s (by simpa using hs)) h0
    rw [this]; rfl
  · rintro ⟨g, hg, h⟩
    have : C.coef = g := by
      funext s
      have := h {s}
      simp only [Finset.sum_singleton, zero_mul] at this
      have h1 : ‖C.coef s - g s‖ = 0 := by
        have := le_antisymm this (by positivity)
        exact pow_eq_zero_iff (two_ne_zero) |>.mp this
      exact sub_eq_zero.mp (norm_eq_zero.mp h1)
    rw [this]; exact hg

/-- linearly independent operators, one at a time -/
theorem lie_independent {tol : ℝ} (h0 : 0 ≤ tol) {gens r : List (Operator ℂ)} (h : LieClosure coefSpan tol gens r)
    (hg : IndependentOperators gens) : IndependentOperators r := by
  suffices hs : ∀ k, gens.length ≤ k → k ≤ r.length → IndependentOperators (r.take k) by
    have := hs r.length h.start.length_le le_rfl
    rwa [List.take_length] at this
  intro k hk
  induction k, hk using Nat.le_induction with
  | base =>
    intro _
    obtain ⟨t, rfl⟩ := h.start
    rwa [List.take_left' rfl]
  | succ k hk ih =>
    intro hkr
    have hlt : k < r.length := by omega
    have ih := ih (by omega)
    have hD : r[k]? = some r[k] := List.getElem?_eq_getElem hlt
    have hf := h.fresh k _ hk hD
    rw [← List.take_concat_get' r k hlt, IndependentOperators]
    rw [IndependentOperators] at ih
    have hnot : r[k].coef ∉ coefSpan (r.take k) := fun hm => hf ⟨_, hm, fun F => by simpa using h0⟩
    have hsn := linearIndependent_fin_snoc (K := ℂ) (v := fun i : Fin (r.take k).length => (r.take k)[i].coef) (x := r[k].coef)
    have hrange : Set.range (fun i : Fin (r.take k).length => (r.take k)[i].coef) = {f | ∃ A ∈ r.take k, f = A.coef} := by
      ext f
      constructor
      · rintro ⟨i, rfl⟩; exact ⟨_, List.getElem_mem _, rfl⟩
      · rintro ⟨A, hA, rfl⟩
        obtain ⟨i, hi, rfl⟩ := List.getElem_of_mem hA
        exact ⟨⟨i, hi⟩, rfl⟩
    have := hsn.mpr ⟨ih, by rw [hrange]; exact hnot⟩
    have e : (r.take k ++ [r[k]]).length = (r.take k).length + 1 := List.length_append
    have h2 := (linearIndependent_equiv (finCongr e)).mpr this
    refine Eq.mp ?_ h2
    congr 1
    funext i
    symm
    simp only [Function.comp]
    rcases Nat.lt_or_ge i (r.take k).length with hi | hi
    · have e1 : finCongr e i = Fin.castSucc ⟨i, hi⟩ := rfl
      rw [e1, Fin.snoc_castSucc]
      simp only [Fin.getElem_fin]
      rw [List.getElem_append_left hi]
    · have hi' : (i : ℕ) = (r.take k).length := by have := i.2; simp only [e] at this; omega
      have e1 : finCongr e i = Fin.last _ := Fin.ext hi'
      rw [e1, Fin.snoc_last]
      simp only [Fin.getElem_fin]
      rw [List.getElem_append_right hi]
      simp [hi']

/-- equal operators have equal coefficients -/
theorem StrAlg.coef_unique [Nontrivial 𝔸] (R : StrAlg ℂ 𝔸) {l : List OpString} (hl : l.Nodup) (hs : ∀ s ∈ l, R.Str s ∧ s.Canonical)
    {f : OpString → ℂ} (hf : SuppOn l f) (h : denOn R.den l f = 0) : f = 0 := by
  funext s
  by_cases hm : s ∈ l
  · obtain ⟨i, hi, rfl⟩ := List.getElem_of_mem hm
    have := R.independent hl hs (w := fun i => f (l.getD i ⟨[], [], .pauli, .float1⟩)) (by
      rw [linComb]
      refine Eq.trans (Finset.sum_congr rfl fun i _ => ?_) h
      rw [List.getD_eq_getElem _ _ i.2]; rfl) i hi
    rw [List.getD_eq_getElem _ _ hi] at this
    exact this
  · exact hf s hm

theorem StrAlg.operator_unique [Nontrivial 𝔸] (R : StrAlg ℂ 𝔸) {A B : Operator ℂ} (hA : A.WF) (hB : B.WF)
    (hsA : ∀ s ∈ A.basis.strs, R.Str s ∧ s.Canonical) (hsB : ∀ s ∈ B.basis.strs, R.Str s ∧ s.Canonical) (h : A.den R.den = B.den R.den) :
    A.coef = B.coef := by
  have hl : (A.basis.strs ++ B.basis.strs).dedup.Nodup := List.nodup_dedup _
  have hmem : ∀ s, s ∈ (A.basis.strs ++ B.basis.strs).dedup ↔ s ∈ A.basis.strs ∨ s ∈ B.basis.strs := fun s => by simp
  have := R.coef_unique hl (fun s hs => ((hmem s).mp hs).elim (hsA s) (hsB s)) (f := A.coef - B.coef) (fun s hs => by
      rw [Pi.sub_apply, hA.coef_supp s (fun h => hs ((hmem s).mpr (Or.inl h))), hB.coef_supp s (fun h => hs ((hmem s).mpr (Or.inr h))), sub_zero]) (by
      rw [map_sub, denOn_coef R.den hl (fun s hs => (hmem s).mpr (Or.inl hs)), denOn_coef R.den hl (fun s hs => (hmem s).mpr (Or.inr hs)), h, sub_self])
  exact sub_eq_zero.mp this

/-- the operators themselves are linearly independent if the coefficients are -/
theorem StrAlg.den_independent [Nontrivial 𝔸] (R : StrAlg ℂ 𝔸) {r : List (Operator ℂ)} (hr : ∀ A ∈ r, A.WF ∧ ∀ s ∈ A.basis.strs, R.Str s ∧ s.Canonical)
    (h : IndependentOperators r) : LinearIndependent ℂ fun i : Fin r.length => r[i].den R.den := by
  set l := (r.flatMap fun A => A.basis.strs).dedup with hl
  have hn : l.Nodup := List.nodup_dedup _
  have hmem : ∀ s, s ∈ l ↔ ∃ A ∈ r, s ∈ A.basis.strs := fun s => by simp [hl]
  rw [IndependentOperators] at h
  rw [Fintype.linearIndependent_iff] at h ⊢
  intro g hg
  apply h
  apply R.coef_unique hn (fun s hs => by obtain ⟨A, hA, hs⟩ := (hmem s).mp hs; exact (hr A hA).2 s hs)
  · intro s hs
    rw [Finset.sum_apply]
    refine Finset.sum_eq_zero fun i _ => ?_
    rw [Pi.smul_apply, Fin.getElem_fin, (hr _ (List.getElem_mem i.2)).1.coef_supp s (fun h => hs ((hmem s).mpr ⟨_, List.getElem_mem i.2, h⟩)), smul_zero]
  · rw [map_sum, ← hg]
    refine Finset.sum_congr rfl fun i _ => ?_
    rw [map_smul, Fin.getElem_fin, denOn_coef R.den hn (fun s hs => (hmem s).mpr ⟨_, List.getElem_mem i.2, hs⟩)]

end Qosy
