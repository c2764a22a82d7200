import Verif.Lemmas.LadderInverse

/-! # The vectors of `_inverse_ladder_operators` -/

namespace Qosy
open Coef RealOps
variable {K : Type} [Field K] [StarRing K] [Coef K] [RealCoef K]
variable {𝔸 : Type} [Ring 𝔸] [Algebra K 𝔸]

theorem inverseVector_ok [Nontrivial 𝔸] {R : StrAlg K 𝔸} {num : LadderNumerics K} (hnum : IsLadderNumerics num) {A : Basis}
    {O : Operator K} (hO : O.WF) (hOs : ∀ s ∈ O.basis.strs, R.Str s) (hne : O.basis.strs ≠ []) {L : Mat K} {ext : Basis}
    (h : LiouvilleOK R.den R.Str .commutator A.len (fun j => ((A.strs[j]?).map R.den).getD 0) (O.den R.den) L ext) (hin : ∀ s ∈ O.basis.strs, s ∈ ext.strs)
    {x : List K} (hop : inverseVector num L ext O = .ok x) :
    x.length = A.len ∧ (A.strs ≠ [] → ∑ j : Fin A.len, star (x.getD j 0) * x.getD j 0 = 1) ∧
      ((∃ (w : ℕ → K) (δ : K), δ ≠ 0 ∧ IsLadder (linComb R.den A.strs w) (O.den R.den) δ) → O.den R.den ≠ 0 →
        ∃ δ : K, IsReal δ ∧ 0 < toR δ ∧ IsLadder (linComb R.den A.strs (fun j => x.getD j 0)) (O.den R.den) δ) := by
  obtain ⟨v, v1, v2, v3⟩ := toVector_linComb R hO hOs hne h.ext_inv (fun s hs => (h.ext_str s hs).1) hin
  unfold inverseVector at hop
  rw [v1] at hop
  replace hop : (num.pinv L >>= _) = _ := hop
  obtain ⟨P, p1, hop⟩ := py_bind_ok hop
  have hP := hnum.pinv _ _ p1
  have hPc : P.ncols = v.length := by rw [hP.2.1, h.nrows, v2]
  obtain ⟨y, y1, y2, y3⟩ := dotVec_ok hPc
  have hyl : y.length = A.strs.length := by rw [y2, hP.1, h.ncols]; rfl
  rw [y1] at hop
  replace hop : (num.sqrt (innerL y y) >>= _) = _ := hop
  obtain ⟨N, n1, hop⟩ := py_bind_ok hop
  have hreal := innerL_self_real y
  obtain ⟨m1, m2, m3⟩ := hnum.sqrt _ _ hreal.1 hreal.2 n1
  split at hop
  · cases hop
  rename_i hz
  cases hop
  have hN : A.strs ≠ [] → N ≠ 0 := by
    rintro hA rfl
    apply hz
    have : y ≠ [] := by rintro rfl; exact hA (List.length_eq_zero_iff.mp hyl.symm)
    have : y.isEmpty = false := by simp [this]
    rw [this]
    simp [(reZero_iff m1).mpr rfl]
  have hg : ∀ j, (y.map (· / N)).getD j 0 = y.getD j 0 / N := by
    intro j
    rw [List.getD_eq_getElem?_getD, List.getD_eq_getElem?_getD, List.getElem?_map]
    cases y[j]? <;> simp
  refine ⟨by simp [hyl, Basis.len], fun hA => ?_, ?_⟩
  · have hs : ∑ j : Fin A.len, star (y.getD j 0) * y.getD j 0 = N ^ 2 := by
      rw [m3, innerL_eq hyl hyl]; rfl
    simp only [hg]
    have : ∀ j : Fin A.len, star (y.getD j 0 / N) * (y.getD j 0 / N) = (star (y.getD j 0) * y.getD j 0) / N ^ 2 := by
      intro j
      rw [star_div₀, show star N = N from m1, div_mul_div_comm, pow_two]
    rw [Finset.sum_congr rfl fun j _ => this j, ← Finset.sum_div, hs, div_self (pow_ne_zero 2 (hN hA))]
  · rintro ⟨w, δ, hδ, hw⟩ h0
    have hA : A.strs ≠ [] := by
      intro e
      rw [IsLadder, e] at hw
      have hz : linComb R.den [] w = 0 := by simp [linComb]
      rw [hz] at hw
      simp only [bracketOf, zero_mul, mul_zero, sub_zero] at hw
      have hw' : δ • O.den R.den = 0 := by rw [← hw]
      exact (smul_eq_zero.mp hw').elim hδ h0
    have hN0 := hN hA
    have hsol := pinv_solves h hP v3 hδ hw
    have hy : linComb R.den A.strs (P.mulVec (fun i => v.getD i 0)) = linComb R.den A.strs (fun j => y.getD j 0) :=
      linComb_congr' _ fun i hi => (y3 i (by rw [hP.1, h.ncols]; exact hi)).symm
    rw [hy] at hsol
    have hpos : 0 < toR N := lt_of_le_of_ne m2 fun e => hN0 (toR_inj m1 .zero (by rw [toR_zero, ← e]))
    refine ⟨N⁻¹, m1.inv, ?_, ?_⟩
    · rw [show N⁻¹ = 1 / N from (one_div N).symm, toR_div m1, show toR (1 : K) = 1 by simp [toR]]
      positivity
    · have e : linComb R.den A.strs (fun j => (y.map (· / N)).getD j 0) = N⁻¹ • linComb R.den A.strs (fun j => y.getD j 0) := by
        rw [← linComb_smul']
        exact linComb_congr' _ fun i _ => by rw [hg, div_eq_inv_mul]
      rw [IsLadder, e]
      conv_rhs => rw [← hsol]
      simp only [bracketOf, smul_mul_assoc, mul_smul_comm, smul_sub]

/-- the null vectors -/
theorem inverseVectors_null [Nontrivial 𝔸] (R : StrAlg K 𝔸) {num : LadderNumerics K} (hnum : IsLadderNumerics num) {A : Basis} (hs : ∀ s ∈ A.strs, R.Str s)
    {O : Operator K} (hO : O.coeffs.length = O.basis.strs.length) (hOs : ∀ s ∈ O.basis.strs, R.Str s) {sp : Bool} {tol : ℚ} (htol : 0 < tol) {L : Mat K} {ext : Basis}
    (h1 : liouvillianStrings A O .commutator = .ok (L, ext)) {nulls : List (List K)} (h2 : inverseNull num L sp tol = .ok nulls) :
    (∀ v ∈ nulls, v.length = A.len ∧ ∑ j : Fin A.len, star (v.getD j 0) * v.getD j 0 = 1 ∧
      IsSmall K (fun s => R.Str s ∧ s.Canonical) R.den tol (bracketOf .commutator (linComb R.den A.strs (fun j => v.getD j 0)) (O.den R.den))) ∧
    (sp = false → nulls.Pairwise (fun v w => ∑ j : Fin A.len, star (v.getD j 0) * w.getD j 0 = 0)) ∧
    ∀ T : List OpString, T.Nodup → (∀ t ∈ T, Reached R.Str R.den A.strs O none t) → A.len ≤ T.length →
      ∀ w : ℕ → K, bracketOf .commutator (linComb R.den A.strs w) (O.den R.den) = 0 →
        linComb R.den A.strs w ∈ Submodule.span K {b | ∃ v ∈ nulls, b = linComb R.den A.strs (fun j => v.getD j 0)} := by
  obtain ⟨L', ext', h1', hL⟩ := R.liouvillianStrings_ok .commutator hs hOs
  rw [h1] at h1'
  cases h1'
  obtain ⟨r, hr, n1, n2, n3⟩ := inverseNull_ok hnum h2
  have hnc : L.ncols = A.len := hL.ncols
  rw [hnc] at n1 n2
  refine ⟨?_, ?_, ?_⟩
  · intro v hv
    obtain ⟨v1, v2, v3⟩ := n1 v hv
    exact ⟨v1, v2, null_small hL hr htol v1 v2 v3⟩
  · intro hsp
    have ho : OrthonormalVectors A.len nulls := by
      rw [n3 hsp, ← hnc]; exact nullVectors_ortho hr.ortho
    exact ho.orthogonal
  · intro T hT hTr hle w hw
    have hsub : T.length ≤ ext.strs.length := by
      have : T ⊆ ext.strs := fun t ht => (R.liouvillianStrings_reached hO hs hOs h1 t).mpr (hTr t ht)
      exact (List.subperm_of_subset hT this).length_le
    have hrow : L.nrows = ext.strs.length := hL.nrows
    rw [hL.vecOp] at hw
    obtain ⟨c, hc⟩ := null_complete hr (by rw [hrow, hnc]; exact hle.trans hsub) htol (v := w) (fun i hi => R.independent hL.ext_inv.2 hL.ext_str hw i (hrow ▸ hi))
    have e1 : linComb R.den A.strs w = ∑ k : Fin (nullVectors tol r).length, c k • vecOp R.den A (nullVectors tol r)[k] := by
      have := vecOp_combination R.den A (w := (List.range A.len).map w) (l := nullVectors tol r) (c := c) (fun i hi => by
        rw [ofFn_getD _ _ hi, hc i (by rw [hnc]; exact hi)])
      rw [← this]
      exact linComb_congr' _ fun i hi => (ofFn_getD A.len w hi).symm
    rw [e1]
    refine Submodule.sum_mem _ fun k _ => Submodule.smul_mem _ _ ?_
    obtain ⟨d, hd⟩ := n2 _ (List.getElem_mem (l := nullVectors tol r) k.2)
    have e2 : vecOp R.den A (nullVectors tol r)[k] = ∑ m : Fin nulls.length, d m • vecOp R.den A nulls[m] := vecOp_combination R.den A hd
    rw [e2]
    refine Submodule.sum_mem _ fun m _ => Submodule.smul_mem _ _ (Submodule.subset_span ?_)
    exact ⟨nulls[m], List.getElem_mem _, rfl⟩

/-- the result of `_inverse_ladder_operators` with `return_operators=False` -/
theorem inverseVectors_result [Nontrivial 𝔸] (R : StrAlg K 𝔸) {num : LadderNumerics K} (hnum : IsLadderNumerics num) {A : Basis} (hs : ∀ s ∈ A.strs, R.Str s)
    {O : Operator K} (hO : O.WF) (hOs : ∀ s ∈ O.basis.strs, R.Str s ∧ s.Canonical) (hne : O.basis.strs ≠ []) {sp : Bool} {tol : ℚ} (htol : 0 < tol)
    {x : Option (List K)} {nulls : List (List K)} (h : inverseLadderVectors num A O sp tol = .ok (x, nulls)) :
    (∀ u ∈ x, u.length = A.len ∧ (A.strs ≠ [] → ∑ j : Fin A.len, star (u.getD j 0) * u.getD j 0 = 1) ∧
      ((∃ (w : ℕ → K) (δ : K), δ ≠ 0 ∧ IsLadder (linComb R.den A.strs w) (O.den R.den) δ) → O.den R.den ≠ 0 →
        ∃ δ : K, IsReal δ ∧ 0 < toR δ ∧ IsLadder (linComb R.den A.strs (fun j => u.getD j 0)) (O.den R.den) δ)) ∧
    (x = none → (∀ a ∈ O.coeffs, a ≠ 0) → ¬ ∃ (w : ℕ → K) (δ : K), δ ≠ 0 ∧ IsLadder (linComb R.den A.strs w) (O.den R.den) δ) ∧
    (∀ v ∈ nulls, v.length = A.len ∧ ∑ j : Fin A.len, star (v.getD j 0) * v.getD j 0 = 1 ∧
      IsSmall K (fun s => R.Str s ∧ s.Canonical) R.den tol (bracketOf .commutator (linComb R.den A.strs (fun j => v.getD j 0)) (O.den R.den))) ∧
    (sp = false → nulls.Pairwise (fun v w => ∑ j : Fin A.len, star (v.getD j 0) * w.getD j 0 = 0)) ∧
    ∀ T : List OpString, T.Nodup → (∀ t ∈ T, Reached R.Str R.den A.strs O none t) → A.len ≤ T.length →
      ∀ w : ℕ → K, bracketOf .commutator (linComb R.den A.strs w) (O.den R.den) = 0 →
        linComb R.den A.strs w ∈ Submodule.span K {b | ∃ v ∈ nulls, b = linComb R.den A.strs (fun j => v.getD j 0)} := by
  have hOs' : ∀ s ∈ O.basis.strs, R.Str s := fun s h => (hOs s h).1
  obtain ⟨L, ext, h1, hL⟩ := R.liouvillianStrings_ok .commutator hs hOs'
  unfold inverseLadderVectors at h
  rw [h1] at h
  replace h : (inverseNull num L sp tol >>= _) = _ := h
  obtain ⟨null, h2, h⟩ := py_bind_ok h
  split at h
  · rename_i hall
    obtain ⟨y, h3, h⟩ := py_bind_ok h
    cases h
    have hin : ∀ s ∈ O.basis.strs, s ∈ ext.strs := by
      intro s hs'
      rw [← hO.terms_snd] at hs'
      obtain ⟨t, ht, rfl⟩ := List.mem_map.mp hs'
      have := List.all_eq_true.mp hall t ht
      rw [hL.ext_inv.1, Basis.contains_ofList] at this
      exact of_decide_eq_true this
    refine ⟨?_, by simp, inverseVectors_null R hnum hs hO.len hOs' htol h1 h2⟩
    rintro u ⟨⟩
    exact inverseVector_ok hnum hO hOs' hne hL hin h3
  · rename_i hall
    cases h
    refine ⟨by simp, fun _ => ?_, inverseVectors_null R hnum hs hO.len hOs' htol h1 h2⟩
    refine (inverse_missing R hnum hs hO hOs htol (sp := sp) (nulls := nulls) ?_).1
    unfold inverseLadderOperators
    rw [h1]
    show (inverseNull num L sp tol >>= _) = _
    rw [h2]
    show (if _ then _ else _) = _
    rw [if_neg hall]

end Qosy
