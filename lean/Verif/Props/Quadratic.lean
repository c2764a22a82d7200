import Verif.Lemmas.QuadraticModes
import Verif.Lemmas.QuadraticLadder
import Verif.Props.Conversion
import Verif.Spec.Concrete

/-! # C47, C48, C56, C57: quadratic Hamiltonians -/

namespace Qosy
open Coef
variable {K : Type} [Field K] [StarRing K] [Coef K] {n : ℕ}

/-! ### C47 -/

/-- **C47** (Majorana operators): the matrix `A` of `diagonalize_quadratic` is real and antisymmetric, and the operator is
`(i/4) Σ A_ij γ_i γ_j` with `γ = (a_0, b_0, a_1, b_1, …)`. -/
theorem C47_majorana {A : Operator K} (ht : A.opType = .majorana) (hs : ∀ s ∈ A.basis.strs, QuadraticMajorana n s) (hreal : ∀ c ∈ A.coeffs, star c = c) :
    ∃ M : Mat K, quadraticMatrix A n = .ok M ∧ M.nrows = 2 * n ∧ M.ncols = 2 * n ∧
      (∀ i j, M.get i j = -M.get j i) ∧ (∀ i j, star (M.get i j) = M.get i j) ∧
      ∀ {𝔸 : Type} [Ring 𝔸] [Algebra K 𝔸] (R : MajoranaRep K 𝔸 (siteLabels n)),
        A.den R.den = ∑ i ∈ Finset.range (2 * n), ∑ j ∈ Finset.range (2 * n), (I / 4 * M.get i j) • (R.γ i * R.γ j) := by
  obtain ⟨M, h1, h2⟩ := quadratic_majorana (n := n) (ts := A.terms) (fun t ht => hs _ (mem_terms ht)) (fun t ht => hreal _ (List.of_mem_zip ht).1)
  refine ⟨M, ?_, h2⟩
  rw [quadraticMatrix, ht]
  exact h1

/-- **C47** (Fermion operators): operators made of hopping and pairing strings are converted first.  The conversion drops a constant:
half the sum of the coefficients of the number operators.  Apart from it the matrix represents the operator. -/
theorem C47_fermion {A : Operator K} (hA : A.WF) (ht : A.opType = .fermion) (hs : ∀ s ∈ A.basis.strs, Hopping n s ∨ Pairing n s)
    (hreal : ∀ c ∈ A.coeffs, star c = c) :
    ∃ M : Mat K, quadraticMatrix A n = .ok M ∧ M.nrows = 2 * n ∧ M.ncols = 2 * n ∧
      (∀ i j, M.get i j = -M.get j i) ∧ (∀ i j, star (M.get i j) = M.get i j) ∧
      ∀ {𝔸 : Type} [Ring 𝔸] [Algebra K 𝔸] [StarRing 𝔸] [StarModule K 𝔸] (R : MajoranaRep K 𝔸 (siteLabels n)),
        (∀ i ∈ siteLabels n, star (R.a i) = R.a i ∧ star (R.b i) = R.b i) →
        A.den R.fden = ∑ i ∈ Finset.range (2 * n), ∑ j ∈ Finset.range (2 * n), (I / 4 * M.get i j) • (R.γ i * R.γ j) +
          (A.terms.map (fun t => t.1 * (if t.2.OwnConjugate then 1 / 2 else 0))).sum • 1 := by
  obtain ⟨C, c1, c2, c3, c4, c5, c6⟩ := convert_real (S := siteLabels n) hA hreal (tgt := .majorana) (QuadraticMajorana n) (fun s => if s.OwnConjugate then 1 / 2 else 0)
    (den₁ := @fun _ _ _ _ _ R => R.fden) (den₂ := @fun _ _ _ _ _ R => R.den) (fun s h => fermion_quadratic (hs s h))
  obtain ⟨M, h1, h2, h3, h4, h5, h6⟩ := quadratic_majorana (n := n) (ts := C.terms) (fun t ht => c4 _ (mem_terms ht)) (fun t ht => c5 _ (List.of_mem_zip ht).1)
  refine ⟨M, ?_, h2, h3, h4, h5, ?_⟩
  · rw [quadraticMatrix, ht]
    simp only [c1, bind, Except.bind]
    exact h1
  · intro 𝔸 _ _ _ _ R hR
    rw [c6 R hR, ← h6 R]
    rfl

/-- **C47** (errors): operators of other types raise ValueError, and so does a Majorana operator with a string that is not quadratic or
acts outside the orbitals. -/
theorem C47_errors (A : Operator K) :
    (A.opType ≠ .majorana → A.opType ≠ .fermion → quadraticMatrix A n = .error .valueError) ∧
    (A.opType = .majorana → A.coeffs.length = A.basis.strs.length → (∀ s ∈ A.basis.strs, MajoranaString Set.univ s) →
      (∃ s ∈ A.basis.strs, ¬ QuadraticMajorana n s) → quadraticMatrix A n = .error .valueError) := by
  constructor
  · intro h1 h2
    rw [quadraticMatrix]
    cases h : A.opType <;> simp_all <;> rfl
  · rintro ht hl hs ⟨s, hsm, hbad⟩
    have : s ∈ A.terms.map Prod.snd := by rw [Operator.terms, List.map_snd_zip (by omega)]; exact hsm
    obtain ⟨t, htm, rfl⟩ := List.mem_map.mp this
    rw [quadraticMatrix, ht]
    exact entries_error (fun t ht => (quadraticEntries_cases (n := n) t.1 (hs _ (mem_terms ht))).1) ⟨t, htm, (quadraticEntries_cases t.1 (hs _ hsm)).2 hbad⟩

/-! ### C48 -/

/-- **C48** (tight binding): the matrix of `diagonalize_quadratic_tightbinding` is Hermitian and the operator is `Σ h_ij c†_i c_j`. -/
theorem C48_tight_binding {A : Operator K} (hA : A.WF) (ht : A.opType = .fermion) (hs : ∀ s ∈ A.basis.strs, Hopping n s) (hreal : ∀ c ∈ A.coeffs, star c = c) :
    ∃ M : Mat K, tightBindingMatrix A n = .ok M ∧ M.nrows = n ∧ M.ncols = n ∧ (∀ i j, M.get i j = star (M.get j i)) ∧
      ∀ {𝔸 : Type} [Ring 𝔸] [Algebra K 𝔸] [StarRing 𝔸] [StarModule K 𝔸] (R : MajoranaRep K 𝔸 (siteLabels n)),
        (∀ i ∈ siteLabels n, star (R.a i) = R.a i ∧ star (R.b i) = R.b i) →
        A.den R.fden = ∑ i ∈ Finset.range n, ∑ j ∈ Finset.range n, M.get i j • (R.cdag i * R.c j) := by
  obtain ⟨C, c1, c2, c3, c4, c5, c6⟩ := convert_real (S := siteLabels n) hA hreal (tgt := .fermion) (Hopping n) (fun _ => 0)
    (den₁ := @fun _ _ _ _ _ R => R.fden) (den₂ := @fun _ _ _ _ _ R => R.fden) (fun s h => by
      refine ⟨⟨[1], Basis.ofList [s], .fermion⟩, ?_, rfl, Operator.WF.mk' (by simp) rfl (by simp [(hs s h).1.type]), ?_, by simp, ?_⟩
      · unfold convertString
        rw [if_pos (hs s h).1.type]
        exact mkOperator_none_ok (by simp) (by simp) (by simp [(hs s h).1.type])
      · intro M hM
        simp only [Basis.ofList, List.mem_singleton] at hM
        rw [hM]; exact hs s h
      · intro 𝔸 _ _ _ _ R hR
        rw [Operator.den_single]; simp)
  obtain ⟨M, h1, h2, h3, h4, h5⟩ := hopping_matrix (n := n) (ts := C.terms) (fun t ht => c4 _ (mem_terms ht)) (fun t ht => c5 _ (List.of_mem_zip ht).1)
  refine ⟨M, ?_, h2, h3, h4, ?_⟩
  · rw [tightBindingMatrix]
    simp only [c1, bind, Except.bind]
    exact h1
  · intro 𝔸 _ _ _ _ R hR
    rw [c6 R hR, ← h5 R hR]
    simp only [mul_zero, List.map_const', List.sum_replicate, smul_zero, zero_smul, add_zero]
    rfl

/-- **C48** (BdG): the matrix of `diagonalize_bdg` is Hermitian and particle-hole symmetric, and the operator is
`½ Σ H_ij Ψ†_i Ψ_j` plus half the trace of the hopping matrix, with `Ψ = (c_0, …, c†_0, …)`. -/
theorem C48_bdg {A : Operator K} (ht : A.opType = .fermion) (hs : ∀ s ∈ A.basis.strs, Hopping n s ∨ Pairing n s) (hreal : ∀ c ∈ A.coeffs, star c = c) :
    ∃ M : Mat K, bdgMatrix A n = .ok M ∧ M.nrows = 2 * n ∧ M.ncols = 2 * n ∧ (∀ i j, M.get i j = star (M.get j i)) ∧
      (∀ i j, i < 2 * n → j < 2 * n → M.get (halfSwap n i) (halfSwap n j) = -star (M.get i j)) ∧
      ∀ {𝔸 : Type} [Ring 𝔸] [Algebra K 𝔸] [StarRing 𝔸] [StarModule K 𝔸] (R : MajoranaRep K 𝔸 (siteLabels n)),
        (∀ i ∈ siteLabels n, star (R.a i) = R.a i ∧ star (R.b i) = R.b i) →
        A.den R.fden = (1 / 2 : K) • ∑ i ∈ Finset.range (2 * n), ∑ j ∈ Finset.range (2 * n), M.get i j • (R.nambuDag n i * R.nambu n j) +
          (1 / 2 * ∑ i ∈ Finset.range n, M.get i i) • 1 := by
  obtain ⟨M, h1, h2⟩ := bdg_matrix (n := n) (ts := A.terms) (fun t ht => hs _ (mem_terms ht)) (fun t ht => hreal _ (List.of_mem_zip ht).1)
  refine ⟨M, ?_, h2⟩
  rw [bdgMatrix, ht]
  exact h1

/-- **C48** (BdG of Majorana operators): they are converted first, which drops the sum of the coefficients of the strings `d_j`. -/
theorem C48_bdg_majorana {A : Operator K} (hA : A.WF) (ht : A.opType = .majorana) (hs : ∀ s ∈ A.basis.strs, QuadraticMajorana n s)
    (hreal : ∀ c ∈ A.coeffs, star c = c) :
    ∃ M : Mat K, bdgMatrix A n = .ok M ∧ M.nrows = 2 * n ∧ M.ncols = 2 * n ∧ (∀ i j, M.get i j = star (M.get j i)) ∧
      (∀ i j, i < 2 * n → j < 2 * n → M.get (halfSwap n i) (halfSwap n j) = -star (M.get i j)) ∧
      ∀ {𝔸 : Type} [Ring 𝔸] [Algebra K 𝔸] [StarRing 𝔸] [StarModule K 𝔸] (R : MajoranaRep K 𝔸 (siteLabels n)),
        (∀ i ∈ siteLabels n, star (R.a i) = R.a i ∧ star (R.b i) = R.b i) →
        A.den R.den = (1 / 2 : K) • ∑ i ∈ Finset.range (2 * n), ∑ j ∈ Finset.range (2 * n), M.get i j • (R.nambuDag n i * R.nambu n j) +
          (1 / 2 * ∑ i ∈ Finset.range n, M.get i i + (A.terms.map (fun t => t.1 * (if t.2.ops = [.D] then 1 else 0))).sum) • 1 := by
  obtain ⟨C, c1, c2, c3, c4, c5, c6⟩ := convert_real (S := siteLabels n) hA hreal (tgt := .fermion) (fun s => Hopping n s ∨ Pairing n s) (fun s => if s.ops = [.D] then 1 else 0)
    (den₁ := @fun _ _ _ _ _ R => R.den) (den₂ := @fun _ _ _ _ _ R => R.fden) (fun s h => majorana_quadratic (hs s h))
  obtain ⟨M, h1, h2, h3, h4, h5, h6⟩ := bdg_matrix (n := n) (ts := C.terms) (fun t ht => c4 _ (mem_terms ht)) (fun t ht => c5 _ (List.of_mem_zip ht).1)
  refine ⟨M, ?_, h2, h3, h4, h5, ?_⟩
  · rw [bdgMatrix, ht]
    simp only [c1, bind, Except.bind]
    exact h1
  · intro 𝔸 _ _ _ _ R hR
    have := h6 R hR
    rw [c6 R hR, add_smul, ← add_assoc, ← this]
    rfl

/-- **C48** (eigenvectors): an eigenvector of the tight-binding matrix gives an operator that lowers the energy by the eigenvalue. -/
theorem C48_tight_binding_modes {A : Operator K} (hA : A.WF) (ht : A.opType = .fermion) (hs : ∀ s ∈ A.basis.strs, Hopping n s) (hreal : ∀ c ∈ A.coeffs, star c = c) :
    ∃ M : Mat K, tightBindingMatrix A n = .ok M ∧ ∀ (x : ℕ → K) (E : K), star E = E → (∀ i < n, ∑ j ∈ Finset.range n, M.get i j * x j = E * x i) →
      ∀ {𝔸 : Type} [Ring 𝔸] [Algebra K 𝔸] [StarRing 𝔸] [StarModule K 𝔸] (R : MajoranaRep K 𝔸 (siteLabels n)),
        (∀ i ∈ siteLabels n, star (R.a i) = R.a i ∧ star (R.b i) = R.b i) →
        let D := ∑ k ∈ Finset.range n, star (x k) • R.c (k : ℤ)
        A.den R.fden * D - D * A.den R.fden = -(E • D) := by
  obtain ⟨M, h1, h2, h3, h4, h5⟩ := C48_tight_binding hA ht hs hreal
  refine ⟨M, h1, ?_⟩
  intro x E hE hx 𝔸 _ _ _ _ R hR
  have := ladder_of_comm (m := n) (fun k hk => hopping_comm R M hk) h4 hE hx
  rw [← h5 R hR] at this
  exact this

/-- **C48** (eigenvectors): an eigenvector of the BdG matrix gives an operator that lowers the energy by the eigenvalue. -/
theorem C48_bdg_modes {A : Operator K} (ht : A.opType = .fermion) (hs : ∀ s ∈ A.basis.strs, Hopping n s ∨ Pairing n s) (hreal : ∀ c ∈ A.coeffs, star c = c) :
    ∃ M : Mat K, bdgMatrix A n = .ok M ∧ ∀ (x : ℕ → K) (E : K), star E = E → (∀ i < 2 * n, ∑ j ∈ Finset.range (2 * n), M.get i j * x j = E * x i) →
      ∀ {𝔸 : Type} [Ring 𝔸] [Algebra K 𝔸] [StarRing 𝔸] [StarModule K 𝔸] (R : MajoranaRep K 𝔸 (siteLabels n)),
        (∀ i ∈ siteLabels n, star (R.a i) = R.a i ∧ star (R.b i) = R.b i) →
        let D := ∑ k ∈ Finset.range n, (star (x k) • R.c (k : ℤ) + star (x (n + k)) • R.cdag (k : ℤ))
        A.den R.fden * D - D * A.den R.fden = -(E • D) := by
  obtain ⟨M, h1, h2, h3, h4, h5, h6⟩ := C48_bdg ht hs hreal
  refine ⟨M, h1, ?_⟩
  intro x E hE hx 𝔸 _ _ _ _ R hR
  have := ladder_of_comm (m := 2 * n) (fun k hk => bdg_comm R h4 h5 hk) h4 hE hx
  have hD : ∑ k ∈ Finset.range (2 * n), star (x k) • R.nambu n k = ∑ k ∈ Finset.range n, (star (x k) • R.c (k : ℤ) + star (x (n + k)) • R.cdag (k : ℤ)) := by
    rw [two_mul, Finset.sum_range_add, ← Finset.sum_add_distrib]
    apply Finset.sum_congr rfl
    intro k hk
    have hk := Finset.mem_range.mp hk
    rw [MajoranaRep.nambu, MajoranaRep.nambu, if_pos hk, if_neg (by omega), show n + k - n = k by omega]
  rw [hD] at this
  simp only
  rw [h6 R hR, add_mul, mul_add, smul_one_mul, mul_smul_one, add_sub_add_right_eq_sub]
  exact this

/-- **C48** (errors): `diagonalize_bdg` raises ValueError for an operator that is neither Fermion nor Majorana, and for a Fermion operator
with a string that is not quadratic or acts outside the orbitals. -/
theorem C48_bdg_errors (A : Operator K) :
    (A.opType ≠ .majorana → A.opType ≠ .fermion → bdgMatrix A n = .error .valueError) ∧
    (A.opType = .fermion → A.coeffs.length = A.basis.strs.length → (∀ s ∈ A.basis.strs, FermionString Set.univ s) →
      (∃ s ∈ A.basis.strs, (s.ops ≠ [.CDag, .C] ∧ s.ops ≠ [.CDag, .CDag]) ∨ ∃ l ∈ s.labels, l ∉ siteLabels n) → bdgMatrix A n = .error .valueError) := by
  constructor
  · intro h1 h2
    rw [bdgMatrix]
    cases h : A.opType <;> simp_all <;> rfl
  · rintro ht hl hs ⟨s, hsm, hbad⟩
    have : s ∈ A.terms.map Prod.snd := by rw [Operator.terms, List.map_snd_zip (by omega)]; exact hsm
    obtain ⟨t, htm, rfl⟩ := List.mem_map.mp this
    rw [bdgMatrix, ht]
    exact entries_error (fun t ht => (bdgEntries_cases (n := n) t.1 (hs _ (mem_terms ht))).1) ⟨t, htm, (bdgEntries_cases t.1 (hs _ hsm)).2 hbad⟩

/-- **C48** (errors): `diagonalize_quadratic_tightbinding` raises ValueError for a Fermion operator with a string, with a nonzero
coefficient, that is not a hopping string or acts outside the orbitals. -/
theorem C48_tight_binding_errors {A : Operator K} (hA : A.WF) (ht : A.opType = .fermion) (hs : ∀ s ∈ A.basis.strs, FermionString Set.univ s)
    (hbad : ∃ s, A.coef s ≠ 0 ∧ (s.ops ≠ [.CDag, .C] ∨ ∃ l ∈ s.labels, l ∉ siteLabels n)) : tightBindingMatrix A n = .error .valueError := by
  obtain ⟨C, c1, c2, c3, c4, c5⟩ := convertOperator_ok hA (tgt := .fermion) (incl := false) (fun s => ⟨[1], Basis.ofList [s], .fermion⟩) (fun s h => by
      refine ⟨?_, Operator.WF.mk' (by simp) rfl (by simp [(hs s h).type]), rfl⟩
      unfold convertString
      rw [if_pos (hs s h).type]
      exact mkOperator_none_ok (by simp) (by simp) (by simp [(hs s h).type]))
  have hstr : ∀ s ∈ C.basis.strs, FermionString Set.univ s := by
    intro s h
    obtain ⟨t, h1, h2⟩ := c4 s h
    simp only [Basis.ofList, List.mem_singleton] at h2
    rw [h2]; exact hs t h1
  obtain ⟨s, h0, hbad⟩ := hbad
  have hcoef : C.coef s = A.coef s := by
    rw [c5, Operator.coef, coefT]
    congr 1
    apply List.map_congr_left
    intro t _
    change t.1 * coefT [(1, t.2)] s = _
    rw [coefT_cons, coefT_nil, add_zero, mul_ite, mul_one, mul_zero]
  have hsm : s ∈ C.basis.strs := by
    by_contra hcon
    rw [c2.coef_eq, if_neg hcon] at hcoef
    exact h0 hcoef.symm
  have : s ∈ C.terms.map Prod.snd := by rw [c2.terms_snd]; exact hsm
  obtain ⟨t, htm, rfl⟩ := List.mem_map.mp this
  rw [tightBindingMatrix, c1]
  exact entries_error (fun t ht => (tightBindingEntries_cases (n := n) t.1 (hstr _ (mem_terms ht))).1) ⟨t, htm, (tightBindingEntries_cases t.1 (hstr _ hsm)).2 hbad⟩

/-- the hypotheses of the theorems on Fermion operators are met: a Kitaev chain with two sites -/
example : ∃ A : Operator QI, A.WF ∧ A.opType = .fermion ∧ (∀ s ∈ A.basis.strs, Hopping 2 s ∨ Pairing 2 s) ∧ (∀ c ∈ A.coeffs, star c = c) ∧ A.coeffs = [3, -1, 2] := by
  refine ⟨⟨[3, -1, 2], Basis.ofList [⟨[.CDag, .C], [0, 0], .fermion, .float1⟩, ⟨[.CDag, .C], [0, 1], .fermion, .imag⟩, ⟨[.CDag, .CDag], [0, 1], .fermion, .float1⟩], .fermion⟩,
    Operator.WF.mk' (by decide) rfl (by decide), rfl, ?_, by decide +kernel, rfl⟩
  intro s hs
  simp only [Basis.ofList, List.mem_cons, List.not_mem_nil, or_false] at hs
  rcases hs with rfl | rfl | rfl
  · exact Or.inl ⟨⟨rfl, rfl, rfl, by decide, by decide, by intro l hl; fin_cases hl <;> (unfold siteLabels; decide)⟩, rfl, by decide⟩
  · exact Or.inl ⟨⟨rfl, rfl, rfl, by decide, by decide, by intro l hl; fin_cases hl <;> (unfold siteLabels; decide)⟩, rfl, by decide⟩
  · exact Or.inr ⟨⟨rfl, rfl, rfl, by decide, by decide, by intro l hl; fin_cases hl <;> (unfold siteLabels; decide)⟩, rfl⟩

/-- ... and the matrices of this chain: for hopping `3 c†_0 c_0 - (i c†_0 c_1 + h.c.)` and pairing `2 c†_0 c†_1 + h.c.` -/
example : (bdgMatrix (K := QI) ⟨[3, -1, 2], Basis.ofList [⟨[.CDag, .C], [0, 0], .fermion, .float1⟩, ⟨[.CDag, .C], [0, 1], .fermion, .imag⟩,
      ⟨[.CDag, .CDag], [0, 1], .fermion, .float1⟩], .fermion⟩ 2).map (fun M => (List.range 4).map (fun i => (List.range 4).map (fun j => M.get i j))) =
    (.ok [[3, ⟨0, -1⟩, 0, 2], [⟨0, 1⟩, 0, -2, 0], [0, -2, -3, ⟨0, -1⟩], [2, 0, ⟨0, 1⟩, 0]] : Py (List (List QI))) := by decide +kernel

/-- the hypotheses of the theorems on Majorana operators are met: `d_0 + 2 (i b_0 a_1)` -/
example : ∃ A : Operator QI, A.WF ∧ A.opType = .majorana ∧ (∀ s ∈ A.basis.strs, QuadraticMajorana 2 s) ∧ (∀ c ∈ A.coeffs, star c = c) ∧ A.coeffs = [1, 2] := by
  refine ⟨⟨[1, 2], Basis.ofList [⟨[.D], [0], .majorana, .float1⟩, ⟨[.B, .A], [0, 1], .majorana, .imag⟩], .majorana⟩,
    Operator.WF.mk' (by decide) rfl (by decide), rfl, ?_, by decide +kernel, rfl⟩
  intro s hs
  simp only [Basis.ofList, List.mem_cons, List.not_mem_nil, or_false] at hs
  rcases hs with rfl | rfl
  · exact ⟨⟨rfl, by decide, rfl, by decide, by intro l hl; fin_cases hl <;> (unfold siteLabels; decide), by decide⟩, Or.inl rfl⟩
  · exact ⟨⟨rfl, by decide, rfl, by decide, by intro l hl; fin_cases hl <;> (unfold siteLabels; decide), by decide⟩, Or.inr ⟨_, _, rfl, by decide, by decide⟩⟩

/-- the representations the theorems speak about exist: the Jordan-Wigner operators on `n` sites are Hermitian Majorana operators -/
example (n : ℕ) : ∃ R : MajoranaRep ℂ (Matrix (Cfg n) (Cfg n) ℂ) (siteLabels n), ∀ i ∈ siteLabels n, star (R.a i) = R.a i ∧ star (R.b i) = R.b i :=
  ⟨(matRep ℂ n).jordanWigner.relabel id Function.injective_id (fun _ h => siteLabels_jw h),
    fun i hi => jordanWigner_star (matRep ℂ n) (matRep_star ℂ n) i (siteLabels_jw hi)⟩

/-! ### C56 -/

section modes
variable {F : Type} [Field F] [LinearOrder F] [IsStrictOrderedRing F]

/-- **C56** (partial): if the blocks of the real Schur decomposition are aligned, then the energies and the columns of `eigvecs_Majorana`
diagonalize the operator: the modes are fermions, no energy is below `-threshold`, and the operator is `Σ ε_m f†_m f_m` plus the
constant shift.  Nothing is assumed about the order or the sign of the blocks. -/
theorem C56_modes_partial {A : Operator K} (ht : A.opType = .majorana) (hs : ∀ s ∈ A.basis.strs, QuadraticMajorana n s) (hreal : ∀ c ∈ A.coeffs, star c = c)
    (ι : F →+* K) (hι : ∀ x, star (ι x) = ι x) {thr : F} (hthr : 0 ≤ thr) :
    ∃ M : Mat K, quadraticMatrix A n = .ok M ∧ ∀ T Z : Dense F, IsSchur ι n M T Z →
      ∃ shift ε Z', quadraticModes thr n T Z = .ok (shift, ε, Z') ∧ ε.length = n ∧ (∀ e ∈ ε, -thr ≤ e) ∧
        ∀ {𝔸 : Type} [Ring 𝔸] [Algebra K 𝔸] [StarRing 𝔸] [StarModule K 𝔸] (R : MajoranaRep K 𝔸 (siteLabels n)),
          (∀ i ∈ siteLabels n, star (R.a i) = R.a i ∧ star (R.b i) = R.b i) →
          (∀ m < n, star (R.mode ι n Z' m) = R.modeDag ι n Z' m) ∧
          (∀ m < n, ∀ l < n, R.mode ι n Z' m * R.mode ι n Z' l + R.mode ι n Z' l * R.mode ι n Z' m = 0 ∧
            R.mode ι n Z' m * R.modeDag ι n Z' l + R.modeDag ι n Z' l * R.mode ι n Z' m = (if m = l then (1 : K) else 0) • 1) ∧
          A.den R.den = ∑ m ∈ Finset.range n, ι (ε.getD m 0) • (R.modeDag ι n Z' m * R.mode ι n Z' m) + ι shift • 1 := by
  obtain ⟨M, h1, -, -, h2, h3, h4⟩ := C47_majorana ht hs hreal
  refine ⟨M, h1, fun T Z hS => ?_⟩
  obtain ⟨ε, Z', q1, q2, q3, q4⟩ := quadraticModes_ok thr T Z n
  refine ⟨_, ε, Z', q1, q2, ?_, ?_⟩
  · obtain ⟨shift, ε', Z'', m1, m2, m3, -⟩ := modes_ok ((matRep K n).jordanWigner.relabel id Function.injective_id (fun _ h => siteLabels_jw h)) hS h2 hthr
    rw [q1] at m1
    simp only [Except.ok.injEq, Prod.mk.injEq] at m1
    rw [m1.2.1]; exact m3
  · intro 𝔸 _ _ _ _ R hR
    obtain ⟨shift, ε', Z'', m1, m2, m3, m4, m5, m6⟩ := modes_ok R hS h2 hthr
    rw [q1] at m1
    simp only [Except.ok.injEq, Prod.mk.injEq] at m1
    obtain ⟨r1, r2, r3⟩ := m1
    subst r2 r3
    have hy : ∀ k l, k < 2 * n → l < 2 * n → ((I : K) • R.combo ι n Z' k) * ((I : K) • R.combo ι n Z' l) + ((I : K) • R.combo ι n Z' l) * ((I : K) • R.combo ι n Z' k) =
        (-(if k = l then (2 : K) else 0)) • 1 := by
      intro k l hk hl
      rw [smul_mul_smul_comm, smul_mul_smul_comm, I_mul_I, ← smul_add, m5 k l hk hl, neg_one_smul, neg_smul]
    have hxy : ∀ k l, k < 2 * n → l < 2 * n → k ≠ l → R.combo ι n Z' k * ((I : K) • R.combo ι n Z' l) + ((I : K) • R.combo ι n Z' l) * R.combo ι n Z' k = 0 := by
      intro k l hk hl hkl
      rw [mul_smul_comm, smul_mul_assoc, ← smul_add, m5 k l hk hl, if_neg hkl, zero_smul, smul_zero]
    have hδ : ∀ m l : ℕ, (2 : K) * (if m = l then 1 else 0) = if m = l then 2 else 0 := by intro m l; split <;> simp
    have g1 : ∀ m < n, ∀ l < n, R.combo ι n Z' (2 * m) * R.combo ι n Z' (2 * l) + R.combo ι n Z' (2 * l) * R.combo ι n Z' (2 * m) =
        ((2 : K) * (if m = l then 1 else 0)) • 1 := by
      intro m hm l hl
      rw [m5 _ _ (by omega) (by omega), hδ]
      simp only [Nat.mul_left_cancel_iff (show 0 < 2 by omega)]
    have g2 : ∀ m < n, ∀ l < n, ((I : K) • R.combo ι n Z' (2 * m + 1)) * ((I : K) • R.combo ι n Z' (2 * l + 1)) +
        ((I : K) • R.combo ι n Z' (2 * l + 1)) * ((I : K) • R.combo ι n Z' (2 * m + 1)) = (-((2 : K) * (if m = l then 1 else 0))) • 1 := by
      intro m hm l hl
      rw [hy _ _ (by omega) (by omega), hδ]
      simp only [Nat.add_right_cancel_iff, Nat.mul_left_cancel_iff (show 0 < 2 by omega)]
    have g3 : ∀ m < n, ∀ l < n, R.combo ι n Z' (2 * m) * ((I : K) • R.combo ι n Z' (2 * l + 1)) + ((I : K) • R.combo ι n Z' (2 * l + 1)) * R.combo ι n Z' (2 * m) = 0 :=
      fun m hm l hl => hxy _ _ (by omega) (by omega) (by omega)
    have g4 : ∀ m < n, ∀ l < n, ((I : K) • R.combo ι n Z' (2 * m + 1)) * R.combo ι n Z' (2 * l) + R.combo ι n Z' (2 * l) * ((I : K) • R.combo ι n Z' (2 * m + 1)) = 0 := by
      intro m hm l hl
      rw [add_comm]; exact g3 l hl m hm
    refine ⟨?_, ?_, ?_⟩
    · intro m hm
      have hc : ∀ k, star (R.combo ι n Z' k) = R.combo ι n Z' k := by
        intro k
        rw [MajoranaRep.combo, star_sum]
        apply Finset.sum_congr rfl
        intro l hl
        have hl := Finset.mem_range.mp hl
        rw [star_smul, hι]
        congr 1
        rw [MajoranaRep.γ]
        split
        · exact (hR _ ⟨by omega, by omega⟩).1
        · exact (hR _ ⟨by omega, by omega⟩).2
      rw [MajoranaRep.mode, MajoranaRep.modeDag, star_smul, star_add, star_smul, hc, hc, star_I, neg_smul, ← sub_eq_add_neg]
      congr 1
      simp
    · intro m hm l hl
      exact ⟨mode_anti (g1 m hm l hl) (g2 m hm l hl) (g3 m hm l hl) (g4 m hm l hl),
        mode_canonical (g1 m hm l hl) (g2 m hm l hl) (g3 m hm l hl) (g4 m hm l hl)⟩
    · rw [h4 R, m6, r1]

end modes

/-- a Schur decomposition with aligned blocks, one of them of the wrong sign, and what becomes of it -/
example : ∃ (M : Mat QI) (T Z : Dense ℚ), quadraticMatrix (K := QI) ⟨[1, -2], Basis.ofList [⟨[.D], [0], .majorana, .float1⟩, ⟨[.D], [1], .majorana, .float1⟩], .majorana⟩ 2 = .ok M ∧
    IsSchur (Rat.castHom QI) 2 M T Z ∧ (quadraticModes (1 / 10 ^ 12) 2 T Z).map (fun r => (r.1, r.2.1)) = .ok (-3, [4, 2]) := by
  refine ⟨⟨4, 4, [(0, 1, -2), (1, 0, 2), (2, 3, 4), (3, 2, -4)]⟩,
    ⟨4, 4, fun i j => if i = 0 ∧ j = 1 then 4 else if i = 1 ∧ j = 0 then -4 else if i = 2 ∧ j = 3 then -2 else if i = 3 ∧ j = 2 then 2 else 0⟩,
    ⟨4, 4, fun i j => if i = (j + 2) % 4 then 1 else 0⟩, by decide +kernel, ⟨?_, ?_, ?_⟩, by decide +kernel⟩
  · have : ∀ k < 4, ∀ l < 4, ∑ i ∈ Finset.range (2 * 2), (if i = (k + 2) % 4 then 1 else 0 : ℚ) * (if i = (l + 2) % 4 then 1 else 0) = if k = l then 1 else 0 := by
      decide +kernel
    exact fun k l hk hl => this k hk l hl
  · intro i j hi hj
    interval_cases i <;> interval_cases j <;> decide +kernel
  · intro k l hk hl
    interval_cases k <;> interval_cases l <;> decide +kernel

/-- **C56** (refuted in general): for `H = i b_0 a_1` the matrix `A` is its own real Schur form, with a diagonal block in rows 1 and 2.  The
energies are then read off the wrong places: all energies and the shift are zero, although `H² = 1`. -/
theorem C56_refuted : ∃ (M : Mat QI) (T Z : Dense ℚ), quadraticMatrix (K := QI) ⟨[1], Basis.ofList [⟨[.B, .A], [0, 1], .majorana, .imag⟩], .majorana⟩ 2 = .ok M ∧
    IsRealSchur (Rat.castHom QI) 2 M T Z ∧ (quadraticModes (1 / 10 ^ 12) 2 T Z).map (fun r => (r.1, r.2.1)) = .ok (0, [0, 0]) ∧
    ∀ {𝔸 : Type} [Ring 𝔸] [Algebra QI 𝔸] (R : MajoranaRep QI 𝔸 (siteLabels 2)),
      let H := (⟨[1], Basis.ofList [⟨[.B, .A], [0, 1], .majorana, .imag⟩], .majorana⟩ : Operator QI).den R.den
      H * H = 1 := by
  refine ⟨⟨4, 4, [(1, 2, 2), (2, 1, -2)]⟩, ⟨4, 4, fun i j => if i = 1 ∧ j = 2 then 2 else if i = 2 ∧ j = 1 then -2 else 0⟩,
    ⟨4, 4, fun i j => if i = j then 1 else 0⟩, by decide +kernel, ⟨?_, ?_, ?_, ?_⟩, by decide +kernel, ?_⟩
  · have : ∀ k < 4, ∀ l < 4, ∑ i ∈ Finset.range (2 * 2), (if i = k then 1 else 0 : ℚ) * (if i = l then 1 else 0) = if k = l then 1 else 0 := by decide +kernel
    exact fun k l hk hl => this k hk l hl
  · intro i j hi hj
    interval_cases i <;> interval_cases j <;> decide +kernel
  · intro k l hk hl
    interval_cases k <;> interval_cases l <;> decide +kernel
  · intro k hk
    have hk : k < 2 := by omega
    interval_cases k <;> decide +kernel
  · intro 𝔸 _ _ R
    have h0 : (0 : ℤ) ∈ siteLabels 2 := by unfold siteLabels; decide
    have h1 : (1 : ℤ) ∈ siteLabels 2 := by unfold siteLabels; decide
    have e : (⟨[1], Basis.ofList [⟨[.B, .A], [0, 1], .majorana, .imag⟩], .majorana⟩ : Operator QI).den R.den = (I : QI) • (R.b 0 * R.a 1) := by
      rw [Operator.den_single, one_smul]
      change (I : QI) • (R.b 0 * (R.a 1 * 1)) = _
      rw [mul_one]
    simp only [e]
    rw [smul_mul_smul_comm, I_mul_I, mul_assoc, ← mul_assoc (R.a 1), R.ab 1 h1 0 h0, neg_mul, mul_assoc, R.a_sq 1 h1, mul_one, mul_neg, R.b_sq 0 h0]
    simp

/-! ### C57 -/

/-- **C57** (refuted): for two or more orbitals `eigvecs_Fermion` is never invertible, whatever the Schur decomposition: the row `2N - 2`
is never written. -/
theorem C57_refuted {N : ℕ} (hN : 2 ≤ N) (Z : Dense K) : ∃ E, fermionVectors Z N = .ok E ∧ E.nrows = 2 * N ∧ E.ncols = 2 * N ∧
    ∀ j, E.get (2 * N - 2) j = 0 := fermionVectors_row hN Z

/-- **C57** (one orbital): for one orbital and every real orthogonal matrix `Z`, `eigvecs_Fermion` is unitary. -/
theorem C57_one_partial {Z : Dense K} (hr : ∀ i j, star (Z.get i j) = Z.get i j)
    (hrow : ∀ i j, i < 2 → j < 2 → ∑ k ∈ Finset.range 2, Z.get i k * Z.get j k = if i = j then 1 else 0)
    (hcol : ∀ i j, i < 2 → j < 2 → ∑ k ∈ Finset.range 2, Z.get k i * Z.get k j = if i = j then 1 else 0) :
    ∃ E, fermionVectors Z 1 = .ok E ∧ E.nrows = 2 ∧ E.ncols = 2 ∧
      ∀ i j, i < 2 → j < 2 → ∑ k ∈ Finset.range 2, E.get i k * star (E.get j k) = if i = j then 1 else 0 := by
  refine ⟨_, rfl, rfl, rfl, ?_⟩
  have r00 := hrow 0 0 (by norm_num) (by norm_num)
  have r01 := hrow 0 1 (by norm_num) (by norm_num)
  have r11 := hrow 1 1 (by norm_num) (by norm_num)
  have c00 := hcol 0 0 (by norm_num) (by norm_num)
  have c01 := hcol 0 1 (by norm_num) (by norm_num)
  have c11 := hcol 1 1 (by norm_num) (by norm_num)
  have hI : (I : K) * I = -1 := I_mul_I
  have hs : star (I : K) = -I := star_I
  have hh : star (1 / 2 : K) = 1 / 2 := by simp
  simp only [Finset.sum_range_succ, Finset.sum_range_zero, zero_add, if_true, show ((0 : ℕ) = 1) = False by simp, if_false] at r00 r01 r11 c00 c01 c11
  intro i j hi hj
  interval_cases i <;> interval_cases j <;>
    simp [Finset.sum_range_succ, hr, hs, hh] <;>
    field_simp
  · linear_combination 2 * r00 + 2 * r11 - ((Z.get 0 1 - Z.get 1 0) ^ 2 + (Z.get 0 1 + Z.get 1 0) ^ 2) * hI
  · linear_combination 2 * r00 - 2 * c11 + 2 * I * (r01 + c01)
  · linear_combination 2 * r00 - 2 * c11 - 2 * I * (r01 + c01)
  · linear_combination 2 * r00 + 2 * r11 - ((Z.get 0 1 - Z.get 1 0) ^ 2 + (Z.get 0 1 + Z.get 1 0) ^ 2) * hI

/-- the rotation with cosine 3/5 and sine 4/5 -/
example : ∃ Z : Dense QI, (∀ i j, star (Z.get i j) = Z.get i j) ∧ (∀ i j, i < 2 → j < 2 → ∑ k ∈ Finset.range 2, Z.get i k * Z.get j k = if i = j then 1 else 0) ∧
    ∀ i j, i < 2 → j < 2 → ∑ k ∈ Finset.range 2, Z.get k i * Z.get k j = if i = j then 1 else 0 := by
  refine ⟨⟨2, 2, fun i j => if i = j then 3 / 5 else if i < j then -(4 / 5) else 4 / 5⟩, fun i j => ?_, fun i j hi hj => ?_, fun i j hi hj => ?_⟩
  · dsimp only
    split
    · decide +kernel
    · split <;> decide +kernel
  · interval_cases i <;> interval_cases j <;> decide +kernel
  · interval_cases i <;> interval_cases j <;> decide +kernel

end Qosy
