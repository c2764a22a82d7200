import Verif.Lemmas.Covariance
import Verif.Lemmas.CommutingOperators
import Verif.Props.Core

/-! # Symmetries of an operator act on the operators that commute with it (C102) -/

namespace Qosy
open Coef Matrix
open scoped ComplexOrder

section
variable {K : Type} [Field K] [StarRing K] [Coef K] [RealCoef K] {n : ℕ} {t : OpType}

private theorem invariant_den {𝔸 : Type} [Ring 𝔸] [Algebra K 𝔸] {R : StrAlg K 𝔸} {mode : Mode} {T : Transformation K} {η : K} {ε : OpString → K}
    {f : OpString → OpString} (h : Covariant R mode T η ε f) {H : Operator K} (hH : H.On R.type R.Can) (hinv : InvariantUpToSign T H) :
    ∃ σ : K, (σ = 1 ∨ σ = -1) ∧ H.den (fun s => ε s • R.den (f s)) = σ • H.den R.den := by
  obtain ⟨H', σ, h1, h2, h3⟩ := hinv
  obtain ⟨B, b1, -, b3⟩ := h.apply hH
  obtain rfl : H' = B := Except.ok.inj (h1.symm.trans b1)
  exact ⟨σ, h2, by rw [← b3]; exact denT_smul R.den σ h3⟩

/-- **C102** (commutant matrix): if the Operator `H` has a symmetry, up to a sign, then `commutant_matrix(basis, H)` commutes with
`symmetry_matrix(basis, T)`, for every basis that the symmetry maps to itself, in both operation modes. -/
theorem C102_commutant (ht : t = .pauli ∨ t = .majorana) {mode : Mode} (hm : mode ≠ .product) {T : Transformation K} {r : Bool}
    (hT : StringSymmetry n t T r) {b : Basis} (hb : b.Inv) (hs : ∀ s ∈ b.strs, TypedString t (siteLabels n) s ∧ s.Canonical)
    (hcl : ∀ s ∈ b.strs, ∀ O, T s = .ok O → ∀ s' ∈ O.basis.strs, s' ∈ b.strs)
    {H : Operator K} (hH : H.On t (fun s => TypedString t (siteLabels n) s ∧ s.Canonical)) (hinv : InvariantUpToSign T H) {tol : ℚ} (htol : tol < 1) :
    ∃ S C ext, symmetryMatrix b T tol = .ok S ∧ commutantMatrix (.strings b) H mode = .ok (C, ext) ∧
      S.rect b.strs.length b.strs.length * C.rect b.strs.length b.strs.length = C.rect b.strs.length b.strs.length * S.rect b.strs.length b.strs.length := by
  obtain ⟨R, ε, f, rfl, hR, h⟩ := hT.covariant ht hm
  have hCan : R.Can = fun s => TypedString R.type (siteLabels n) s ∧ s.Canonical := by funext s; rw [StrAlg.Can, hR]
  rw [← hCan] at hH
  have hs' : ∀ s ∈ b.strs, R.Can s := fun s hm => by rw [hCan]; exact hs s hm
  obtain ⟨σ, s1, s2⟩ := invariant_den h hH hinv
  obtain ⟨S, C, ext, a1, a2, -, -, a3⟩ := h.commutant (bracketSign_cases mode r) hb hs' (fun s hm => hcl s hm _ (h.rule.sends s (hs' s hm)) _ (by simp [Basis.ofList])) hH s1 s2 htol
  exact ⟨S, C, ext, a1, a2, a3⟩

/-- **C102** (brackets): a symmetry of strings carries the commutator (anticommutator) of two Operators to the commutator (anticommutator) of their
images, up to the sign of the time reversals, as long as no term is below the tolerance. -/
theorem C102_bracket (ht : t = .pauli ∨ t = .majorana) {mode : Mode} (hm : mode ≠ .product) {T : Transformation K} {r : Bool}
    (hT : StringSymmetry n t T r) {A B : Operator K} (hA : A.On t (fun s => TypedString t (siteLabels n) s ∧ s.Canonical))
    (hB : B.On t (fun s => TypedString t (siteLabels n) s ∧ s.Canonical)) (hc : NothingCut mode A B) :
    ∃ A' B' X X' Y, T.apply A = .ok A' ∧ T.apply B = .ok B' ∧ operationOperator mode A B = .ok X ∧ T.apply X = .ok X' ∧
      operationOperator mode A' B' = .ok Y ∧ ∀ s, Y.coef s = bracketSign mode r * X'.coef s := by
  obtain ⟨R, ε, f, rfl, hR, h⟩ := hT.covariant ht hm
  have hCan : R.Can = fun s => TypedString R.type (siteLabels n) s ∧ s.Canonical := by funext s; rw [StrAlg.Can, hR]
  rw [← hCan] at hA hB
  exact h.operation hA hB hc

/-- **C102** (Pauli strings): the image of an operator that commutes (anticommutes) with `H` commutes (anticommutes) with `H`. -/
theorem C102_image_pauli {𝔸 : Type} [Ring 𝔸] [Algebra K 𝔸] [Nontrivial 𝔸] (R : PauliRep K 𝔸 (siteLabels n)) {mode : Mode} (hm : mode ≠ .product)
    {T : Transformation K} {r : Bool} (hT : StringSymmetry n .pauli T r) {H A : Operator K}
    (hH : H.On .pauli (fun s => PauliString (siteLabels n) s ∧ s.Canonical)) (hA : A.On .pauli (fun s => PauliString (siteLabels n) s ∧ s.Canonical))
    (hinv : InvariantUpToSign T H) (hc : bracketOf mode (A.den R.den) (H.den R.den) = 0) :
    ∃ B, T.apply A = .ok B ∧ bracketOf mode (B.den R.den) (H.den R.den) = 0 := by
  obtain ⟨ε, f, h⟩ := hT.pauli R hm
  obtain ⟨σ, s1, s2⟩ := invariant_den h hH hinv
  exact h.commutes hH hA s1 s2 hc

/-- **C102** (Majorana strings): the image of an operator that commutes (anticommutes) with `H` commutes (anticommutes) with `H`. -/
theorem C102_image_majorana {𝔸 : Type} [Ring 𝔸] [Algebra K 𝔸] [Nontrivial 𝔸] (R : MajoranaRep K 𝔸 (siteLabels n)) {mode : Mode} (hm : mode ≠ .product)
    {T : Transformation K} {r : Bool} (hT : StringSymmetry n .majorana T r) {H A : Operator K}
    (hH : H.On .majorana (fun s => MajoranaString (siteLabels n) s ∧ s.Canonical)) (hA : A.On .majorana (fun s => MajoranaString (siteLabels n) s ∧ s.Canonical))
    (hinv : InvariantUpToSign T H) (hc : bracketOf mode (A.den R.den) (H.den R.den) = 0) :
    ∃ B, T.apply A = .ok B ∧ bracketOf mode (B.den R.den) (H.den R.den) = 0 := by
  obtain ⟨ε, f, h⟩ := hT.majorana R hm
  obtain ⟨σ, s1, s2⟩ := invariant_den h hH hinv
  exact h.commutes hH hA s1 s2 hc

private def zz : Basis := Basis.ofList [⟨[.X], [0], .pauli, .float1⟩, ⟨[.X], [1], .pauli, .float1⟩]
private def hZ : Operator QI := ⟨[1, 1], Basis.ofList [⟨[.Z], [0], .pauli, .float1⟩, ⟨[.Z], [1], .pauli, .float1⟩], .pauli⟩
private def swapReverse : Transformation QI := (labelPermutation (labelsOf [1, 0])).mul timeReversal

private theorem typed_one {c : Op} {i : ℤ} (hc : c = .X ∨ c = .Z) (hi : i = 0 ∨ i = 1) :
    TypedString .pauli (siteLabels 2) ⟨[c], [i], .pauli, .float1⟩ ∧ (⟨[c], [i], .pauli, .float1⟩ : OpString).Canonical := by
  refine ⟨Or.inl ⟨rfl, ?_⟩, ?_⟩
  · rcases hc with rfl | rfl <;> rcases hi with rfl | rfl <;> exact ⟨rfl, by simp, rfl, by simp, by simp [siteLabels], by simp⟩
  · rcases hc with rfl | rfl <;> rcases hi with rfl | rfl <;> simp [OpString.Canonical]

private theorem swapReverse_symmetry : StringSymmetry 2 .pauli swapReverse true :=
  .mul (a := false) (b := true) (.permutation (p := [1, 0]) (by unfold IsPermArray; decide) rfl) .timeReversal

private theorem hZ_on : hZ.On .pauli (fun s => TypedString .pauli (siteLabels 2) s ∧ s.Canonical) := by
  refine ⟨Operator.WF.mk' (by decide) rfl (by decide), rfl, fun s hs => ?_⟩
  simp only [hZ, Basis.ofList, List.mem_cons, List.not_mem_nil, or_false] at hs
  rcases hs with rfl | rfl
  · exact typed_one (Or.inr rfl) (Or.inl rfl)
  · exact typed_one (Or.inr rfl) (Or.inr rfl)

private theorem hZ_invariant : InvariantUpToSign swapReverse hZ := by
  refine ⟨⟨[-1, -1], Basis.ofList [⟨[.Z], [1], .pauli, .float1⟩, ⟨[.Z], [0], .pauli, .float1⟩], .pauli⟩, -1, by decide +kernel, Or.inr rfl, fun s => ?_⟩
  simp only [hZ, Operator.coef, Operator.terms, Basis.ofList, coefT, List.zip_cons_cons, List.zip_nil_left, List.map_cons, List.map_nil, List.sum_cons, List.sum_nil]
  split_ifs <;> ring

-- swapping two sites and reversing time maps `Z_0 + Z_1` to minus itself, and `commutant_matrix` of `[X_0, X_1]` is not zero
example : ∃ S C ext, symmetryMatrix zz swapReverse = .ok S ∧ commutantMatrix (.strings zz) hZ .commutator = .ok (C, ext) ∧
    S.rect 2 2 * C.rect 2 2 = C.rect 2 2 * S.rect 2 2 :=
  C102_commutant (Or.inl rfl) (by decide) swapReverse_symmetry (b := zz) (Basis.Inv.ofList (by decide)) (fun s hs => by
      simp only [zz, Basis.ofList, List.mem_cons, List.not_mem_nil, or_false] at hs
      rcases hs with rfl | rfl
      · exact typed_one (Or.inl rfl) (Or.inl rfl)
      · exact typed_one (Or.inl rfl) (Or.inr rfl))
    (fun s hs O hO s' hs' => by
      simp only [zz, Basis.ofList, List.mem_cons, List.not_mem_nil, or_false] at hs
      rcases hs with rfl | rfl
      · obtain rfl : O = ⟨[-1], Basis.ofList [⟨[.X], [1], .pauli, .float1⟩], .pauli⟩ := Except.ok.inj (hO.symm.trans (by decide +kernel))
        simp [Basis.ofList] at hs'; simp [zz, Basis.ofList, hs']
      · obtain rfl : O = ⟨[-1], Basis.ofList [⟨[.X], [0], .pauli, .float1⟩], .pauli⟩ := Except.ok.inj (hO.symm.trans (by decide +kernel))
        simp [Basis.ofList] at hs'; simp [zz, Basis.ofList, hs']) hZ_on hZ_invariant (by norm_num [tolTransformation])
example : (commutantMatrix (.strings zz) hZ .commutator).map (fun x => (x.1.get 0 0, x.1.get 0 1)) = .ok ((4 : QI), 0) := by decide +kernel

-- without the symmetry of `H` the matrices need not commute
example : (do
    let S ← symmetryMatrix zz (labelPermutation (labelsOf [1, 0]) : Transformation QI)
    let (C, _) ← commutantMatrix (.strings zz) (⟨[1], Basis.ofList [⟨[.Z], [0], .pauli, .float1⟩], .pauli⟩ : Operator QI) .commutator
    let A ← S.dot C
    let B ← C.dot S
    pure (A.get 0 1, B.get 0 1)) = .ok ((0 : QI), 4) := by decide +kernel

example : ∃ A' B' X X' Y, swapReverse.apply hZ = .ok A' ∧ swapReverse.apply hZ = .ok B' ∧ operationOperator .anticommutator hZ hZ = .ok X ∧
    swapReverse.apply X = .ok X' ∧ operationOperator .anticommutator A' B' = .ok Y ∧ ∀ s, Y.coef s = bracketSign .anticommutator true * X'.coef s :=
  C102_bracket (Or.inl rfl) (by decide) swapReverse_symmetry hZ_on hZ_on (fun ta hta tb htb => Or.inr (by
    simp only [hZ, Operator.terms, Basis.ofList, List.zip_cons_cons, List.zip_nil_left, List.mem_cons, List.not_mem_nil, or_false] at hta htb
    rcases hta with rfl | rfl <;> rcases htb with rfl | rfl <;> simp [bracketFactor] <;> norm_num))

end

private theorem select_invariant {m : ℕ} {D S : Matrix (Fin m) (Fin m) ℂ} {r : EighResult (Fin m) m} (h : IsEigh D r) (hc : S * D = D * S) {σ tol : ℝ}
    {v : Fin m → ℂ} (hv : v ∈ colSpan (selectColumns r σ tol)) : S *ᵥ v ∈ colSpan (selectColumns r σ tol) := by
  rw [mem_colSpan_select h] at hv ⊢
  intro k hk
  set X := r.evecsᴴ * S * r.evecs with hX
  have hXD : X * diagonal (fun j => (r.evals j : ℂ)) = diagonal (fun j => (r.evals j : ℂ)) * X := by
    have e1 : r.evecsᴴ * D = diagonal (fun j => (r.evals j : ℂ)) * r.evecsᴴ := by
      have := congrArg (fun M => r.evecsᴴ * M * r.evecsᴴ) h.eigen
      rw [Matrix.mul_assoc, Matrix.mul_assoc D, h.complete, Matrix.mul_one, ← Matrix.mul_assoc (r.evecsᴴ) r.evecs, h.orthonormal, Matrix.one_mul] at this
      exact this
    rw [hX, Matrix.mul_assoc, ← h.eigen, ← Matrix.mul_assoc (r.evecsᴴ * S), Matrix.mul_assoc (r.evecsᴴ) S D, hc, ← Matrix.mul_assoc, e1]
    simp only [Matrix.mul_assoc]
  have e : r.evecsᴴ *ᵥ (S *ᵥ v) = X *ᵥ (r.evecsᴴ *ᵥ v) := by
    rw [hX, Matrix.mulVec_mulVec, Matrix.mulVec_mulVec, Matrix.mul_assoc, h.complete, Matrix.mul_one]
  rw [e, Matrix.mulVec, dotProduct]
  refine Finset.sum_eq_zero fun j _ => ?_
  have hkj := congrFun (congrFun hXD k) j
  rw [mul_diagonal, diagonal_mul] at hkj
  by_cases hj : |r.evals j - σ| < tol
  · have hne : (r.evals j : ℂ) - r.evals k ≠ 0 := fun e0 => hk (by
      have : r.evals j = r.evals k := by exact_mod_cast sub_eq_zero.mp e0
      rwa [this] at hj)
    have : X k j = 0 := by
      have h0 : X k j * ((r.evals j : ℂ) - r.evals k) = 0 := by linear_combination hkj
      exact (mul_eq_zero.mp h0).resolve_right hne
    rw [this, zero_mul]
  · rw [hv j hj, mul_zero]

/-- **C102** (`commuting_operators`): the space of operators that `commuting_operators(basis, H)` returns is mapped to itself by `symmetry_matrix(basis, T)`
for every symmetry `T` of `H`, for every tolerance. -/
theorem C102_commuting_operators {n : ℕ} {t : OpType} (ht : t = .pauli ∨ t = .majorana) {mode : Mode} (hm : mode ≠ .product) {T : Transformation ℂ} {r : Bool}
    (hT : StringSymmetry n t T r) {b : Basis} (hb : b.Inv) (hs : ∀ s ∈ b.strs, TypedString t (siteLabels n) s ∧ s.Canonical)
    (hcl : ∀ s ∈ b.strs, ∀ O, T s = .ok O → ∀ s' ∈ O.basis.strs, s' ∈ b.strs)
    {H : Operator ℂ} (hH : H.On t (fun s => TypedString t (siteLabels n) s ∧ s.Canonical)) (hinv : InvariantUpToSign T H) {tol : ℚ} (htol : tol < 1)
    {eigh : Eigh} (he : ExactEigh eigh) (tol' : ℝ) :
    ∃ S res, symmetryMatrix b T tol = .ok S ∧ commutingOperators eigh (.strings b) H mode tol' = .ok res ∧ res.dim = b.strs.length ∧
      ∀ v ∈ colSpan res.vecs, S.rect res.dim res.dim *ᵥ v ∈ colSpan res.vecs := by
  obtain ⟨R, ε, f, rfl, hR, h⟩ := hT.covariant ht hm
  have hCan : R.Can = fun s => TypedString R.type (siteLabels n) s ∧ s.Canonical := by funext s; rw [StrAlg.Can, hR]
  rw [← hCan] at hH
  have hs' : ∀ s ∈ b.strs, R.Can s := fun s hm => by rw [hCan]; exact hs s hm
  obtain ⟨σ, s1, s2⟩ := invariant_den h hH hinv
  obtain ⟨S, C, ext, a1, a2, a3, a4, a5⟩ := h.commutant (bracketSign_cases mode r) hb hs' (fun s hm => hcl s hm _ (h.rule.sends s (hs' s hm)) _ (by simp [Basis.ofList])) hH s1 s2 htol
  refine ⟨S, _, a1, commutingOperators_eq a2, a3, fun v hv => ?_⟩
  rw [← a3] at a4 a5
  exact select_invariant (he _ _ a4.isHermitian) a5 hv

private noncomputable def cZ : Operator ℂ := ⟨[1, 1], Basis.ofList [⟨[.Z], [0], .pauli, .float1⟩, ⟨[.Z], [1], .pauli, .float1⟩], .pauli⟩

-- time reversal and the Operator `Z_0 + Z_1`, which it maps to minus itself
example (eigh : Eigh) (he : ExactEigh eigh) : ∃ S res, symmetryMatrix zz (timeReversal : Transformation ℂ) = .ok S ∧
    commutingOperators eigh (.strings zz) cZ .commutator (1 / 10 ^ 10) = .ok res ∧ res.dim = 2 ∧
    ∀ v ∈ colSpan res.vecs, S.rect res.dim res.dim *ᵥ v ∈ colSpan res.vecs := by
  have rule := timeReversal_signRule (K := ℂ) .pauli (siteLabels 2)
  have hon : cZ.On .pauli (fun s => TypedString .pauli (siteLabels 2) s ∧ s.Canonical) := by
    refine ⟨Operator.WF.mk' (by simp) rfl (by simp), rfl, fun s hs => ?_⟩
    simp only [cZ, Basis.ofList, List.mem_cons, List.not_mem_nil, or_false] at hs
    rcases hs with rfl | rfl
    · exact typed_one (Or.inr rfl) (Or.inl rfl)
    · exact typed_one (Or.inr rfl) (Or.inr rfl)
  have hzz : ∀ s ∈ zz.strs, TypedString .pauli (siteLabels 2) s ∧ s.Canonical := fun s hs => by
    simp only [zz, Basis.ofList, List.mem_cons, List.not_mem_nil, or_false] at hs
    rcases hs with rfl | rfl
    · exact typed_one (Or.inl rfl) (Or.inl rfl)
    · exact typed_one (Or.inl rfl) (Or.inr rfl)
  refine C102_commuting_operators (Or.inl rfl) (by decide) .timeReversal (b := zz) (Basis.Inv.ofList (by decide)) hzz (fun s hs O hO s' hs' => ?_) hon ?_
    (by norm_num [tolTransformation]) he _
  · obtain rfl := Except.ok.inj (hO.symm.trans (rule.sends s (hzz s hs).1))
    simp only [Basis.ofList, List.mem_singleton] at hs'
    rw [hs']; exact hs
  · obtain ⟨C, h1, -, h3⟩ := apply_ok rule.maps (A := cZ) ⟨hon.wf, rfl, fun s hs => (hon.mem s hs).1⟩
    refine ⟨C, -1, h1, Or.inr rfl, fun s => ?_⟩
    have e (i : ℤ) (hi : i = 0 ∨ i = 1) := Sends.entry (rule.sends _ (typed_one (c := .Z) (Or.inr rfl) hi).1) s
    rw [h3]
    simp only [cZ, Operator.coef, Operator.terms, Basis.ofList, coefT, List.zip_cons_cons, List.zip_nil_left, List.map_cons, List.map_nil, List.sum_cons, List.sum_nil,
      e 0 (Or.inl rfl), e 1 (Or.inr rfl), id, trSign]
    split_ifs <;> first | (exfalso; assumption) | simp

end Qosy
