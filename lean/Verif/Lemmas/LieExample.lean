import Verif.Props.LieOperators

/-! # Two lists of generators -/

namespace Qosy
open Coef

attribute [local instance 100] LieRing.ofAssociativeRing

/-- the list stops growing when the normalised commutators of its members are close to the space they span -/
theorem LieClosure.stop {V : List (Operator ℂ) → Submodule ℂ (OpString → ℂ)} {tol : ℝ} {gens r : List (Operator ℂ)} (h : LieClosure V tol gens r)
    {k : ℕ} (hk : gens.length ≤ k)
    (hs : ∀ A ∈ r.take k, ∀ B ∈ r.take k, ∀ C D, commutatorO A B = .ok C → D ∈ r → D.norm .l2 = 1 → (∃ c : ℂ, ∀ s, D.coef s = c * C.coef s) →
      WithinSq tol D.coef (V (r.take k))) : r.length ≤ k := by
  by_contra hlt
  rw [not_le] at hlt
  have hD : r[k]? = some r[k] := List.getElem?_eq_getElem hlt
  obtain ⟨i, j, A, B, C, hi, hj, hA, hB, hC, hn, c, -, hc⟩ := h.derived k _ hk hD
  refine h.fresh k _ hk hD (hs A ?_ B ?_ C _ hC (List.getElem_mem _) hn ⟨c * -Complex.I, fun s => by rw [hc, mul_assoc]⟩)
  · rw [← List.getElem?_take_of_lt hi] at hA; exact List.mem_of_getElem? hA
  · rw [← List.getElem?_take_of_lt hj] at hB; exact List.mem_of_getElem? hB

def lX : OpString := ⟨[.X], [1], .pauli, .float1⟩
def lY : OpString := ⟨[.Y], [1], .pauli, .float1⟩
def lZ : OpString := ⟨[.Z], [1], .pauli, .float1⟩
def lZ2 : OpString := ⟨[.Z], [2], .pauli, .float1⟩

/-- an operator with one term -/
def oneTerm (c : ℂ) (s : OpString) : Operator ℂ := ⟨[c], Basis.ofList [s], .pauli⟩

theorem oneTerm_wf (c : ℂ) {s : OpString} (h : s.opType = .pauli) : (oneTerm c s).WF := Operator.WF.mk' (by simp) rfl (by simp [h])

theorem oneTerm_coef (c : ℂ) (s s' : OpString) : (oneTerm c s).coef s' = if s = s' then c else 0 := by
  simp [oneTerm, Operator.coef, Operator.terms, Basis.ofList, coefT]

theorem valid_one {s : OpString} (h : s ∈ [lX, lY, lZ, lZ2]) : PauliString Set.univ s ∧ s.Canonical := by
  simp only [List.mem_cons, List.not_mem_nil, or_false] at h
  rcases h with rfl | rfl | rfl | rfl <;> exact ⟨⟨rfl, by decide, rfl, by decide, by simp, by decide⟩, ⟨by decide, by decide⟩⟩

/-- a normalised multiple of one string has a coefficient of modulus one -/
theorem norm_oneTerm {D : Operator ℂ} (hD : D.WF) (hn : D.norm .l2 = 1) {c : ℂ} {s : OpString} (h : ∀ s', D.coef s' = c * if s = s' then 1 else 0) :
    ‖c‖ = 1 := by
  classical
  have h1 := Operator.norm_eq hD (T := insert s D.basis.strs.toFinset) (by simp +contextual)
  have h2 := norm_coefVec_sq (insert s D.basis.strs.toFinset) D.coef
  rw [← h1, hn, Finset.sum_eq_single s] at h2
  · rw [h s, if_pos rfl, mul_one] at h2
    have := norm_nonneg c
    nlinarith
  · intro b _ hb
    rw [h b, if_neg (Ne.symm hb)]; simp
  · intro h; simp at h

section
variable {𝔸 : Type} [Ring 𝔸] [Algebra ℂ 𝔸] (R : PauliRep ℂ 𝔸 Set.univ)

theorem den_lX : R.den lX = R.X 1 := by simp [PauliRep.den, lX, Pref.val, wordProd, PauliRep.site]
theorem den_lY : R.den lY = R.Y 1 := by simp [PauliRep.den, lY, Pref.val, wordProd, PauliRep.site]
theorem den_lZ : R.den lZ = R.Z 1 := by simp [PauliRep.den, lZ, Pref.val, wordProd, PauliRep.site]
theorem den_lZ2 : R.den lZ2 = R.Z 2 := by simp [PauliRep.den, lZ2, Pref.val, wordProd, PauliRep.site]

theorem lie_xy : ⁅R.X 1, R.Y 1⁆ = (2 * Complex.I) • R.Z 1 := by
  have e : (CoefOps.I : ℂ) = Complex.I := rfl
  rw [Ring.lie_def, R.x_mul_y 1 trivial, R.y_mul_x 1 trivial, e]; module
theorem lie_yz : ⁅R.Y 1, R.Z 1⁆ = (2 * Complex.I) • R.X 1 := by
  have e : (CoefOps.I : ℂ) = Complex.I := rfl
  rw [Ring.lie_def, R.y_mul_z 1 trivial, R.z_mul_y 1 trivial, e]; module
theorem lie_zx : ⁅R.Z 1, R.X 1⁆ = (2 * Complex.I) • R.Y 1 := by
  have e : (CoefOps.I : ℂ) = Complex.I := rfl
  rw [Ring.lie_def, R.z_mul_x 1 trivial, R.x_mul_z 1 trivial, e]; module
theorem lie_xz2 : ⁅R.X 1, R.Z 2⁆ = 0 := by
  rw [Ring.lie_def, R.xz 1 trivial 2 trivial (by decide), sub_self]
theorem lie_yz2 : ⁅R.Y 1, R.Z 2⁆ = 0 := by
  rw [Ring.lie_def, R.yz 1 trivial 2 trivial (by decide), sub_self]

/-- the commutator of two operators when it is a multiple of one string -/
theorem commutator_oneTerm [Nontrivial 𝔸] {A B C : Operator ℂ} (hA : A.WF ∧ A.opType = .pauli ∧ ∀ s ∈ A.basis.strs, PauliString Set.univ s)
    (hB : B.WF ∧ B.opType = .pauli ∧ ∀ s ∈ B.basis.strs, PauliString Set.univ s)
    (h : ∀ ta ∈ A.terms, ∀ tb ∈ B.terms, ta.1 * tb.1 = 0 ∨ 1 / 10 ^ 16 ≤ ‖ta.1 * tb.1‖ * 2) (hC : commutatorO A B = .ok C)
    {c : ℂ} {s : OpString} (hs : s ∈ [lX, lY, lZ, lZ2]) (hd : ⁅A.den R.den, B.den R.den⁆ = c • R.den s) (s' : OpString) :
    C.coef s' = c * if s = s' then 1 else 0 := by
  have h1 := R.strAlg.commutator_exact hA hB h hC
  obtain ⟨C', D, k1, -, k2, -, -, -, k3, -⟩ := R.strAlg.lieBracket hA.1 hB.1 hA.2.2 hB.2.2 hA.2.1 hB.2.1
  rw [hC] at k1
  obtain rfl := Except.ok.inj k1
  have := R.strAlg.operator_unique k2 (oneTerm_wf c (valid_one hs).1.type) (fun s hs => ⟨(k3 s hs).1, (k3 s hs).2.1, (k3 s hs).2.2.2⟩)
    (by intro s1 hs1; rw [show s1 = s by simpa [oneTerm] using hs1]; exact valid_one hs)
    (by rw [h1, oneTerm, Operator.den_single]; exact hd)
  rw [this, oneTerm_coef]
  split <;> simp

end

/-! ### X, Y and Z1 + 1e-7 Z2 -/

/-- `Z 1 + 1e-7 Z 2` -/
noncomputable def gZ : Operator ℂ := ⟨[1, 1 / 10 ^ 7], Basis.ofList [lZ, lZ2], .pauli⟩

/-- three generators of a Lie algebra of dimension four -/
noncomputable def gensXYZ : List (Operator ℂ) := [oneTerm 1 lX, oneTerm 1 lY, gZ]

theorem gZ_wf : gZ.WF := Operator.WF.mk' (by decide) rfl (by decide)

theorem gZ_coef (s : OpString) : gZ.coef s = (if lZ = s then 1 else 0) + if lZ2 = s then 1 / 10 ^ 7 else 0 := by
  simp [gZ, Operator.coef, Operator.terms, Basis.ofList, coefT]

theorem gensXYZ_valid : ValidOps .pauli (PauliString Set.univ) gensXYZ := by
  refine ⟨by simp [gensXYZ], ?_⟩
  intro A hA
  simp only [gensXYZ, List.mem_cons, List.not_mem_nil, or_false] at hA
  rcases hA with rfl | rfl | rfl
  · exact ⟨oneTerm_wf _ rfl, rfl, by intro s hs; rw [show s = lX by simpa [oneTerm] using hs]; exact (valid_one (by simp)).1⟩
  · exact ⟨oneTerm_wf _ rfl, rfl, by intro s hs; rw [show s = lY by simpa [oneTerm] using hs]; exact (valid_one (by simp)).1⟩
  · refine ⟨gZ_wf, rfl, ?_⟩
    intro s hs
    have : s = lZ ∨ s = lZ2 := by simpa [gZ] using hs
    rcases this with rfl | rfl <;> exact (valid_one (by simp)).1

theorem gensXYZ_noSmall : NoSmallCoefficients (1 / 10 ^ 12) gensXYZ := by
  intro A hA s
  simp only [gensXYZ, List.mem_cons, List.not_mem_nil, or_false] at hA
  rcases hA with rfl | rfl | rfl
  · rw [oneTerm_coef]; split
    · right; norm_num
    · left; rfl
  · rw [oneTerm_coef]; split
    · right; norm_num
    · left; rfl
  · rw [gZ_coef]
    by_cases h1 : lZ = s
    · have h2 : lZ2 ≠ s := by rw [← h1]; decide
      right; rw [if_pos h1, if_neg h2]; norm_num
    · rw [if_neg h1]
      by_cases h2 : lZ2 = s
      · right; rw [if_pos h2]; norm_num
      · left; rw [if_neg h2]; simp

theorem gensXYZ_terms : ∀ A ∈ gensXYZ, ∀ t ∈ A.terms, t.1 = 1 ∨ t.1 = 1 / 10 ^ 7 := by
  intro A hA t ht
  simp only [gensXYZ, List.mem_cons, List.not_mem_nil, or_false] at hA
  rcases hA with rfl | rfl | rfl
  · left; simp [oneTerm, Operator.terms, Basis.ofList] at ht; rw [ht]
  · left; simp [oneTerm, Operator.terms, Basis.ofList] at ht; rw [ht]
  · simp [gZ, Operator.terms, Basis.ofList] at ht
    rcases ht with rfl | rfl
    · left; rfl
    · right; norm_num

theorem gensXYZ_nothingDropped : NothingDropped gensXYZ := by
  intro A hA B hB ta hta tb htb
  right
  rcases gensXYZ_terms A hA ta hta with h | h <;> rcases gensXYZ_terms B hB tb htb with h' | h' <;> rw [h, h'] <;> norm_num

section
variable {𝔸 : Type} [Ring 𝔸] [Algebra ℂ 𝔸] (R : PauliRep ℂ 𝔸 Set.univ)

theorem den_gZ : gZ.den R.den = R.Z 1 + (1 / 10 ^ 7 : ℂ) • R.Z 2 := by
  simp [gZ, Operator.den, Operator.terms, Basis.ofList, denT, den_lZ, den_lZ2]

theorem gensXYZ_den {A : Operator ℂ} (hA : A ∈ gensXYZ) : A.den R.den = R.X 1 ∨ A.den R.den = R.Y 1 ∨ A.den R.den = R.Z 1 + (1 / 10 ^ 7 : ℂ) • R.Z 2 := by
  simp only [gensXYZ, List.mem_cons, List.not_mem_nil, or_false] at hA
  rcases hA with rfl | rfl | rfl
  · left; rw [oneTerm, Operator.den_single, one_smul, den_lX]
  · right; left; rw [oneTerm, Operator.den_single, one_smul, den_lY]
  · right; right; exact den_gZ R

/-- all commutators of the generators are multiples of X, Y or Z -/
theorem gensXYZ_lie {A B : Operator ℂ} (hA : A ∈ gensXYZ) (hB : B ∈ gensXYZ) :
    ∃ (c : ℂ) (s : OpString), s ∈ [lX, lY, lZ] ∧ ⁅A.den R.den, B.den R.den⁆ = c • R.den s := by
  rcases gensXYZ_den R hA with h | h | h <;> rcases gensXYZ_den R hB with h' | h' | h' <;> rw [h, h']
  · exact ⟨0, lX, by simp, by simp⟩
  · exact ⟨_, lZ, by simp, by rw [lie_xy, den_lZ]⟩
  · refine ⟨-(2 * Complex.I), lY, by simp, ?_⟩
    rw [lie_add, lie_smul, lie_xz2, ← lie_skew, lie_zx, den_lY]; module
  · refine ⟨-(2 * Complex.I), lZ, by simp, ?_⟩
    rw [← lie_skew, lie_xy, den_lZ]; module
  · exact ⟨0, lX, by simp, by simp⟩
  · refine ⟨2 * Complex.I, lX, by simp, ?_⟩
    rw [lie_add, lie_smul, lie_yz2, lie_yz, den_lX]; module
  · refine ⟨2 * Complex.I, lY, by simp, ?_⟩
    rw [← lie_skew, lie_add, lie_smul, lie_xz2, ← lie_skew, lie_zx, den_lY]; module
  · refine ⟨-(2 * Complex.I), lX, by simp, ?_⟩
    rw [← lie_skew, lie_add, lie_smul, lie_yz2, lie_yz, den_lX]; module
  · exact ⟨0, lX, by simp, by rw [lie_self, zero_smul]⟩

theorem gensXYZ_returns [Nontrivial 𝔸] (R : PauliRep ℂ 𝔸 Set.univ) : LieOpsReturns gensXYZ (1 / 10 ^ 12) gensXYZ := by
  obtain ⟨r, h1, h2, -, -, h3⟩ := C77_pauli R (tol := 1 / 10 ^ 12) (by norm_num) gensXYZ_valid
  have h := h3 gensXYZ_noSmall
  have ht : r.take gensXYZ.length = gensXYZ := by
    obtain ⟨t, ht⟩ := h.start
    rw [← ht, List.take_left' rfl]
  have hlen : r.length ≤ gensXYZ.length := by
    refine h.stop le_rfl ?_
    rw [ht]
    rintro A hA B hB C D hC hDr hn ⟨c, hc⟩
    obtain ⟨c', s, hs, hd⟩ := gensXYZ_lie R hA hB
    have hC' := commutator_oneTerm R (gensXYZ_valid.2 A hA) (gensXYZ_valid.2 B hB) (gensXYZ_nothingDropped A hA B hB) hC
      (by simp only [List.mem_cons, List.not_mem_nil, or_false] at hs ⊢; tauto) hd
    have hD : ∀ s', D.coef s' = (c * c') * if s = s' then 1 else 0 := fun s' => by rw [hc, hC', mul_assoc]
    have hm := norm_oneTerm (h2.2 D hDr).1 hn hD
    have hX : (oneTerm 1 lX).coef ∈ coefSpan gensXYZ := Submodule.subset_span ⟨_, by simp [gensXYZ], rfl⟩
    have hY : (oneTerm 1 lY).coef ∈ coefSpan gensXYZ := Submodule.subset_span ⟨_, by simp [gensXYZ], rfl⟩
    have hZ : gZ.coef ∈ coefSpan gensXYZ := Submodule.subset_span ⟨_, by simp [gensXYZ], rfl⟩
    simp only [List.mem_cons, List.not_mem_nil, or_false] at hs
    rcases hs with rfl | rfl | rfl
    · refine ⟨_, Submodule.smul_mem _ (c * c') hX, fun F => ?_⟩
      have : ∀ s ∈ F, ‖D.coef s - ((c * c') • (oneTerm 1 lX).coef) s‖ ^ 2 = 0 := fun s _ => by
        rw [hD, Pi.smul_apply, oneTerm_coef, smul_eq_mul, sub_self]; simp
      rw [Finset.sum_eq_zero this]; norm_num
    · refine ⟨_, Submodule.smul_mem _ (c * c') hY, fun F => ?_⟩
      have : ∀ s ∈ F, ‖D.coef s - ((c * c') • (oneTerm 1 lY).coef) s‖ ^ 2 = 0 := fun s _ => by
        rw [hD, Pi.smul_apply, oneTerm_coef, smul_eq_mul, sub_self]; simp
      rw [Finset.sum_eq_zero this]; norm_num
    · refine ⟨_, Submodule.smul_mem _ (c * c') hZ, fun F => ?_⟩
      have : ∀ s ∈ F, ‖D.coef s - ((c * c') • gZ.coef) s‖ ^ 2 = if lZ2 = s then (1 / 10 ^ 14 : ℝ) else 0 := fun s _ => by
        rw [hD, Pi.smul_apply, gZ_coef, smul_eq_mul, ← mul_sub, norm_mul, hm, one_mul, sub_add_cancel_left, norm_neg]
        split <;> norm_num
      rw [Finset.sum_congr rfl this, Finset.sum_ite_eq]
      split <;> norm_num
  have : r = gensXYZ := by rw [← ht, List.take_of_length_le hlen]
  rw [this] at h1
  exact h1

/-- Z is in the Lie algebra but not in the space of the generators -/
theorem gensXYZ_missing [Nontrivial 𝔸] (R : PauliRep ℂ 𝔸 Set.univ) : R.Z 1 ∈ generatedLieAlgebra R.den gensXYZ ∧
    R.Z 1 ∉ Submodule.span ℂ (operatorsOf R.den gensXYZ) := by
  constructor
  · have hX : R.X 1 ∈ generatedLieAlgebra R.den gensXYZ := LieSubalgebra.subset_lieSpan
      ⟨oneTerm 1 lX, by simp [gensXYZ], by rw [oneTerm, Operator.den_single, one_smul, den_lX]⟩
    have hY : R.Y 1 ∈ generatedLieAlgebra R.den gensXYZ := LieSubalgebra.subset_lieSpan
      ⟨oneTerm 1 lY, by simp [gensXYZ], by rw [oneTerm, Operator.den_single, one_smul, den_lY]⟩
    have := LieSubalgebra.smul_mem _ (2 * Complex.I)⁻¹ (LieSubalgebra.lie_mem _ hX hY)
    rwa [lie_xy, smul_smul, inv_mul_cancel₀ (by simp), one_smul] at this
  · intro hmem
    have hop : operatorsOf R.den gensXYZ = {R.X 1, R.Y 1, R.Z 1 + (1 / 10 ^ 7 : ℂ) • R.Z 2} := by
      ext x
      simp only [operatorsOf, gensXYZ, List.mem_cons, List.not_mem_nil, or_false, exists_eq_or_imp, exists_eq_left, Set.mem_setOf_eq, Set.mem_insert_iff,
        Set.mem_singleton_iff, den_gZ, oneTerm, Operator.den_single, one_smul, den_lX, den_lY]
    rw [hop] at hmem
    obtain ⟨a, x, hx, h1⟩ := Submodule.mem_span_insert.mp hmem
    obtain ⟨b, y, hy, h2⟩ := Submodule.mem_span_insert.mp hx
    obtain ⟨c, h3⟩ := Submodule.mem_span_singleton.mp hy
    have h0 : linComb R.strAlg.den [lX, lY, lZ, lZ2] (fun i => [a, b, c - 1, c * (1 / 10 ^ 7)].getD i 0) = 0 := by
      have e : linComb R.strAlg.den [lX, lY, lZ, lZ2] (fun i => [a, b, c - 1, c * (1 / 10 ^ 7)].getD i 0) =
          a • R.X 1 + (b • R.Y 1 + ((c - 1) • R.Z 1 + (c * (1 / 10 ^ 7)) • R.Z 2)) := by
        rw [linComb]
        have : ∀ f : Fin 4 → 𝔸, ∑ i, f i = f 0 + (f 1 + (f 2 + f 3)) := fun f => by rw [Fin.sum_univ_four]; abel
        refine (this _).trans ?_
        change a • R.den lX + (b • R.den lY + ((c - 1) • R.den lZ + (c * (1 / 10 ^ 7)) • R.den lZ2)) = _
        rw [den_lX, den_lY, den_lZ, den_lZ2]
      rw [e]
      rw [← h3] at h2
      rw [h2] at h1
      have h4 : a • R.X 1 + (b • R.Y 1 + c • (R.Z 1 + (1 / 10 ^ 7 : ℂ) • R.Z 2)) - R.Z 1 = 0 := sub_eq_zero.mpr h1.symm
      rw [← h4]; module
    have hs : ∀ s ∈ [lX, lY, lZ, lZ2], R.strAlg.Str s ∧ s.Canonical := fun s hs => valid_one hs
    have i2 := R.strAlg.independent (by decide) hs h0 2 (by decide)
    have i3 := R.strAlg.independent (by decide) hs h0 3 (by decide)
    simp only [List.getD_cons_succ, List.getD_cons_zero] at i2 i3
    rw [sub_eq_zero.mp i2] at i3
    norm_num at i3

end

/-! ### X and Y -/

/-- two generators of the Lie algebra of the spin -/
noncomputable def gensXY : List (Operator ℂ) := [oneTerm 1 lX, oneTerm 1 lY]

theorem gensXY_valid : ValidOps .pauli (PauliString Set.univ) gensXY :=
  ⟨by simp [gensXY], fun A hA => gensXYZ_valid.2 A (by simp only [gensXY, gensXYZ, List.mem_cons, List.not_mem_nil, or_false] at hA ⊢; tauto)⟩

theorem gensXY_canonical : ∀ A ∈ gensXY, ∀ s ∈ A.basis.strs, s.Canonical := by
  intro A hA s hs
  simp only [gensXY, List.mem_cons, List.not_mem_nil, or_false] at hA
  rcases hA with rfl | rfl
  · rw [show s = lX by simpa [oneTerm] using hs]; exact (valid_one (by simp)).2
  · rw [show s = lY by simpa [oneTerm] using hs]; exact (valid_one (by simp)).2

theorem gensXY_independent : IndependentOperators gensXY := by
  rw [IndependentOperators, Fintype.linearIndependent_iff]
  intro g h
  have hsum : ∑ i : Fin 2, g i • gensXY[i].coef = 0 := h
  rw [Fin.sum_univ_two] at hsum
  have h0 := congrFun hsum lX
  have h1 := congrFun hsum lY
  have e : lX ≠ lY := by decide
  simp [gensXY, oneTerm_coef, e, e.symm] at h0 h1
  intro i
  have : ∀ j : Fin 2, g j = 0 := by intro j; fin_cases j <;> assumption
  exact this i

theorem Operator.WF.term_coef {A : Operator ℂ} (h : A.WF) {t : ℂ × OpString} (ht : t ∈ A.terms) : t.1 = A.coef t.2 := by
  obtain ⟨i, hi, rfl⟩ := List.getElem_of_mem ht
  have hi2 : i < A.basis.strs.length := by simp [Operator.terms] at hi; omega
  have := h.coef_getElem i hi2
  simp only [Operator.terms, List.getElem_zip]
  rw [this]

/-- a member that is a multiple of one string -/
def IsUnit1 (A : Operator ℂ) (s : OpString) : Prop := ∃ c : ℂ, ‖c‖ = 1 ∧ ∀ s', A.coef s' = c * if s = s' then 1 else 0

theorem isUnit1_one (s : OpString) : IsUnit1 (oneTerm 1 s) s := ⟨1, by simp, fun s' => by rw [oneTerm_coef]; simp⟩

theorem IsUnit1.terms {A : Operator ℂ} (hA : A.WF) {s : OpString} (h : IsUnit1 A s) {t : ℂ × OpString} (ht : t ∈ A.terms) : t.1 = 0 ∨ ‖t.1‖ = 1 := by
  obtain ⟨c, h1, h2⟩ := h
  rw [hA.term_coef ht, h2]
  split
  · right; simpa using h1
  · left; simp

theorem nothingDropped_units {A B : Operator ℂ} (hA : A.WF) (hB : B.WF) {s s' : OpString} (h : IsUnit1 A s) (h' : IsUnit1 B s') :
    ∀ ta ∈ A.terms, ∀ tb ∈ B.terms, ta.1 * tb.1 = 0 ∨ 1 / 10 ^ 16 ≤ ‖ta.1 * tb.1‖ * 2 := by
  intro ta hta tb htb
  rcases h.terms hA hta with h1 | h1
  · left; rw [h1, zero_mul]
  rcases h'.terms hB htb with h2 | h2
  · left; rw [h2, mul_zero]
  right; rw [norm_mul, h1, h2]; norm_num

theorem IsUnit1.den {𝔸 : Type} [Ring 𝔸] [Algebra ℂ 𝔸] (den : OpString → 𝔸) {A : Operator ℂ} {s : OpString} (h : IsUnit1 A s) : ∃ c : ℂ, A.den den = c • den s := by
  obtain ⟨c, -, h2⟩ := h
  refine ⟨c, ?_⟩
  have : A.den den = c • (oneTerm 1 s).den den := Operator.den_of_smul c (fun s' => by rw [h2, oneTerm_coef]) den
  rw [this, oneTerm, Operator.den_single, one_smul]

section
variable {𝔸 : Type} [Ring 𝔸] [Algebra ℂ 𝔸] (R : PauliRep ℂ 𝔸 Set.univ)

/-- the commutators of X, Y and Z -/
theorem lie_units {A B : Operator ℂ} {s s' : OpString} (hs : s ∈ [lX, lY, lZ]) (hs' : s' ∈ [lX, lY, lZ]) (hA : IsUnit1 A s) (hB : IsUnit1 B s') :
    ∃ (c : ℂ) (s : OpString), s ∈ [lX, lY, lZ] ∧ ⁅A.den R.den, B.den R.den⁆ = c • R.den s := by
  obtain ⟨a, ha⟩ := hA.den R.den
  obtain ⟨b, hb⟩ := hB.den R.den
  rw [ha, hb, smul_lie, lie_smul]
  suffices h : ∃ (c : ℂ) (s1 : OpString), s1 ∈ [lX, lY, lZ] ∧ ⁅R.den s, R.den s'⁆ = c • R.den s1 by
    obtain ⟨c, s1, h1, h2⟩ := h
    exact ⟨a * (b * c), s1, h1, by rw [h2, smul_smul, smul_smul, mul_assoc]⟩
  simp only [List.mem_cons, List.not_mem_nil, or_false] at hs hs'
  rcases hs with rfl | rfl | rfl <;> rcases hs' with rfl | rfl | rfl
  · exact ⟨0, lX, by simp, by simp⟩
  · exact ⟨_, lZ, by simp, by rw [den_lX, den_lY, lie_xy, den_lZ]⟩
  · exact ⟨-(2 * Complex.I), lY, by simp, by rw [den_lX, den_lZ, ← lie_skew, lie_zx, den_lY]; module⟩
  · exact ⟨-(2 * Complex.I), lZ, by simp, by rw [den_lX, den_lY, ← lie_skew, lie_xy, den_lZ]; module⟩
  · exact ⟨0, lX, by simp, by simp⟩
  · exact ⟨_, lX, by simp, by rw [den_lY, den_lZ, lie_yz, den_lX]⟩
  · exact ⟨_, lY, by simp, by rw [den_lX, den_lZ, lie_zx, den_lY]⟩
  · exact ⟨-(2 * Complex.I), lX, by simp, by rw [den_lY, den_lZ, ← lie_skew, lie_yz, den_lX]; module⟩
  · exact ⟨0, lX, by simp, by simp⟩

/-- the result has the third member Z -/
theorem gensXY_returns [Nontrivial 𝔸] (R : PauliRep ℂ 𝔸 Set.univ) : ∃ r, LieOpsReturns gensXY 0 r ∧ NothingDropped r ∧ r.length = 3 := by
  obtain ⟨r, h1, h2, -, -, h3⟩ := C77_pauli R (tol := 0) le_rfl gensXY_valid
  have h := h3 (noSmall_zero _)
  obtain ⟨t, ht⟩ := h.start
  -- members of the start
  have u0 : IsUnit1 (oneTerm 1 lX) lX := isUnit1_one _
  have u1 : IsUnit1 (oneTerm 1 lY) lY := isUnit1_one _
  have m0 : r[0]? = some (oneTerm 1 lX) := by rw [← ht]; rfl
  have m1 : r[1]? = some (oneTerm 1 lY) := by rw [← ht]; rfl
  have comm : ∀ A ∈ r, ∀ B ∈ r, ∀ s ∈ [lX, lY, lZ], ∀ s' ∈ [lX, lY, lZ], IsUnit1 A s → IsUnit1 B s' → ∀ C, commutatorO A B = .ok C →
      ∃ (c : ℂ) (s1 : OpString), s1 ∈ [lX, lY, lZ] ∧ ∀ s', C.coef s' = c * if s1 = s' then 1 else 0 := by
    intro A hA B hB s hs s' hs' uA uB C hC
    obtain ⟨c, s1, k1, k2⟩ := lie_units R hs hs' uA uB
    exact ⟨c, s1, k1, commutator_oneTerm R (h2.2 A hA) (h2.2 B hB) (nothingDropped_units (h2.2 A hA).1 (h2.2 B hB).1 uA uB) hC
      (by simp only [List.mem_cons, List.not_mem_nil, or_false] at k1 ⊢; tauto) k2⟩
  have hvanish : ∀ g ∈ coefSpan gensXY, g lZ = 0 := by
    intro g hg
    induction hg using Submodule.span_induction with
    | mem x hx =>
      obtain ⟨A, hA, rfl⟩ := hx
      simp only [gensXY, List.mem_cons, List.not_mem_nil, or_false] at hA
      rcases hA with rfl | rfl <;> rw [oneTerm_coef, if_neg (by decide)]
    | zero => rfl
    | add x y _ _ hx hy => rw [Pi.add_apply, hx, hy, add_zero]
    | smul c x _ hx => rw [Pi.smul_apply, hx, smul_zero]
  -- there is a third member
  have hZcomm : ∀ C, (commutatorO (oneTerm 1 lX) (oneTerm 1 lY) = .ok C ∨ commutatorO (oneTerm 1 lY) (oneTerm 1 lX) = .ok C) →
      ∃ c : ℂ, c ≠ 0 ∧ ∀ s', C.coef s' = c * if lZ = s' then 1 else 0 := by
    have vX := gensXY_valid.2 (oneTerm 1 lX) (by simp [gensXY])
    have vY := gensXY_valid.2 (oneTerm 1 lY) (by simp [gensXY])
    have dX : (oneTerm 1 lX).den R.den = R.X 1 := by rw [oneTerm, Operator.den_single, one_smul, den_lX]
    have dY : (oneTerm 1 lY).den R.den = R.Y 1 := by rw [oneTerm, Operator.den_single, one_smul, den_lY]
    rintro C (hC | hC)
    · exact ⟨2 * Complex.I, by simp, commutator_oneTerm R vX vY (nothingDropped_units vX.1 vY.1 u0 u1) hC (by simp) (by rw [dX, dY, lie_xy, den_lZ])⟩
    · exact ⟨-(2 * Complex.I), by simp, commutator_oneTerm R vY vX (nothingDropped_units vY.1 vX.1 u1 u0) hC (by simp) (by
        rw [dX, dY, ← lie_skew, lie_xy, den_lZ]; module)⟩
  have hlong : 2 < r.length := by
    by_contra hl
    have hr : r = gensXY := by
      have : t = [] := by
        have := congrArg List.length ht
        simp [gensXY] at this
        exact List.length_eq_zero_iff.mp (by omega)
      rw [← ht, this, List.append_nil]
    subst hr
    have hsep := R.strAlg.separates_zero h2
    have key : ∀ A ∈ gensXY, ∀ B ∈ gensXY, (∀ C, commutatorO A B = .ok C → ∃ c : ℂ, c ≠ 0 ∧ ∀ s', C.coef s' = c * if lZ = s' then 1 else 0) →
        ¬ CommutatorWithin 0 (coefSpan gensXY) A B := by
      rintro A hA B hB hC ⟨C, k1, k2⟩
      obtain ⟨c, c0, hc⟩ := hC C k1
      obtain ⟨s1, s2⟩ := hsep A hA B hB C k1
      have hz := hc lZ
      rw [if_pos rfl, mul_one] at hz
      rcases k2 with k2 | k2
      · exact c0 (by rw [← hz]; exact s1 k2 lZ)
      · exact c0 (by rw [← hz]; exact hvanish _ (s2 k2))
    rcases h.closed 0 1 _ _ (by decide) m0 m1 with hh | hh
    · exact key _ (by simp [gensXY]) _ (by simp [gensXY]) (fun C hC => hZcomm C (Or.inl hC)) hh
    · exact key _ (by simp [gensXY]) _ (by simp [gensXY]) (fun C hC => hZcomm C (Or.inr hC)) hh
  -- it is a multiple of Z
  have m2 : r[2]? = some r[2] := List.getElem?_eq_getElem hlong
  have u2 : IsUnit1 r[2] lZ := by
    obtain ⟨i, j, A, B, C, hi, hj, hA, hB, hC, hn, c, hc0, hc⟩ := h.derived 2 _ (by simp [gensXY]) m2
    have hnz : ∃ s, C.coef s ≠ 0 := by
      by_contra hno
      push Not at hno
      have hz : ∀ s, (r[2]).coef s = 0 * if lZ = s then 1 else 0 := fun s => by rw [hc, hno]; simp
      have := norm_oneTerm (h2.2 _ (List.getElem_mem hlong)).1 hn hz
      simp at this
    have hAB : ∃ c : ℂ, ∀ s', C.coef s' = c * if lZ = s' then 1 else 0 := by
      have self : ∀ (X : Operator ℂ) s, s ∈ [lX, lY, lZ] → X ∈ r → IsUnit1 X s → commutatorO X X = .ok C → ∃ c : ℂ, ∀ s', C.coef s' = c * if lZ = s' then 1 else 0 :=
        fun X s _ hX uX hXC => ⟨0, commutator_oneTerm R (h2.2 X hX) (h2.2 X hX) (nothingDropped_units (h2.2 X hX).1 (h2.2 X hX).1 uX uX) hXC (by simp) (by simp)⟩
      have hi' : i = 0 ∨ i = 1 := by omega
      have hj' : j = 0 ∨ j = 1 := by omega
      rcases hi' with rfl | rfl <;> rcases hj' with rfl | rfl
      · rw [m0] at hA hB; cases hA; cases hB
        exact self _ lX (by simp) (List.mem_of_getElem? m0) u0 hC
      · rw [m0] at hA; rw [m1] at hB; cases hA; cases hB
        obtain ⟨c, -, hc⟩ := hZcomm C (Or.inl hC); exact ⟨c, hc⟩
      · rw [m1] at hA; rw [m0] at hB; cases hA; cases hB
        obtain ⟨c, -, hc⟩ := hZcomm C (Or.inr hC); exact ⟨c, hc⟩
      · rw [m1] at hA hB; cases hA; cases hB
        exact self _ lY (by simp) (List.mem_of_getElem? m1) u1 hC
    obtain ⟨c', hc'⟩ := hAB
    have hD : ∀ s', (r[2]).coef s' = (c * (-Complex.I * c')) * if lZ = s' then 1 else 0 := fun s' => by rw [hc, hc']; ring
    exact ⟨_, norm_oneTerm (h2.2 _ (List.getElem_mem hlong)).1 hn hD, hD⟩
  have hunits : ∀ A ∈ r.take 3, ∃ s ∈ [lX, lY, lZ], IsUnit1 A s := by
    intro A hA
    obtain ⟨i, hi⟩ := List.getElem?_of_mem hA
    have hi3 : i < 3 := by
      have := (List.getElem?_eq_some_iff.mp hi).1
      rw [List.length_take] at this; omega
    rw [List.getElem?_take_of_lt hi3] at hi
    have hi' : i = 0 ∨ i = 1 ∨ i = 2 := by omega
    rcases hi' with rfl | rfl | rfl
    · rw [m0] at hi; cases hi; exact ⟨lX, by simp, u0⟩
    · rw [m1] at hi; cases hi; exact ⟨lY, by simp, u1⟩
    · rw [m2] at hi; cases hi; exact ⟨lZ, by simp, u2⟩
  have hlen : r.length ≤ 3 := by
    refine h.stop (by simp [gensXY]) ?_
    rintro A hA B hB C D hC hDr hn ⟨c, hc⟩
    obtain ⟨s, hs, uA⟩ := hunits A hA
    obtain ⟨s', hs', uB⟩ := hunits B hB
    obtain ⟨c', s1, k1, k2⟩ := comm A (List.take_subset _ _ hA) B (List.take_subset _ _ hB) s hs s' hs' uA uB C hC
    have hin : ∀ X ∈ r.take 3, IsUnit1 X s1 → D.coef ∈ coefSpan (r.take 3) := by
      rintro X hX ⟨d, d1, d2⟩
      have hd0 : d ≠ 0 := by rintro rfl; simp at d1
      have : D.coef = (c * c' * d⁻¹) • X.coef := by
        funext s'
        rw [Pi.smul_apply, smul_eq_mul, hc, k2, d2]
        field_simp
      rw [this]
      exact Submodule.smul_mem _ _ (Submodule.subset_span ⟨X, hX, rfl⟩)
    have hmem : D.coef ∈ coefSpan (r.take 3) := by
      have e : ∀ i (hi : i < 3) X, r[i]? = some X → X ∈ r.take 3 := fun i hi X hX => by
        rw [← List.getElem?_take_of_lt hi] at hX; exact List.mem_of_getElem? hX
      simp only [List.mem_cons, List.not_mem_nil, or_false] at k1
      rcases k1 with rfl | rfl | rfl
      · exact hin _ (e 0 (by decide) _ m0) u0
      · exact hin _ (e 1 (by decide) _ m1) u1
      · exact hin _ (e 2 (by decide) _ m2) u2
    exact ⟨_, hmem, fun F => by simp⟩
  refine ⟨r, h1, ?_, by omega⟩
  rw [List.take_of_length_le hlen] at hunits
  intro A hA B hB
  obtain ⟨s, -, uA⟩ := hunits A hA
  obtain ⟨s', -, uB⟩ := hunits B hB
  exact nothingDropped_units (h2.2 A hA).1 (h2.2 B hB).1 uA uB

end

end Qosy
