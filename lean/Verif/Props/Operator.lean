import Verif.Lemmas.StrAlgInst
import Verif.Lemmas.Vector

/-!
# Properties C06, C07, C10-C13: arithmetic of `Operator`s

`A.coef s` is the coefficient of the string `s` in `A` and `A.den den` the linear combination `A` stands for
(`Spec/Linear.lean`).  `A.WF` is the class invariant of `Operator`; every operation below preserves it.
-/

namespace Qosy
open Coef

section arithmetic
variable {K : Type} [Field K] [StarRing K] [Coef K]

/-! ### C07 -/

/-- the strings of the sum: those of `A` in their order, then the new ones of `B` in their order -/
def mergedStrings (a b : List OpString) : List OpString := a ++ b.filter (fun s => decide (s ∉ a))

/-- **C07** (addition): `A + B` has the sums of the coefficients; `A += B` gives the same value. -/
theorem C07_add {A B : Operator K} (hA : A.WF) (hB : B.WF) (ht : A.opType = B.opType) :
    ∃ C, A.add B = .ok C ∧ A.iadd B = .ok C ∧ C.WF ∧ C.opType = A.opType ∧
      C.basis.strs = mergedStrings A.basis.strs B.basis.strs ∧ ∀ s, C.coef s = A.coef s + B.coef s := by
  obtain ⟨C, h1, h2, h3, h4, h5⟩ := Operator.iadd_ok hA hB ht
  exact ⟨C, by rw [Operator.add_eq_iadd hA, h1], h1, h2, h3, by rw [h4, unionList_eq_filter _ hB.basis.2]; rfl, h5⟩

/-- **C07** (scalars): `A * x`, `x * A` and `-A`. -/
theorem C07_smul {A : Operator K} (hA : A.WF) (x : K) :
    ∃ C, A.smul x = .ok C ∧ C.WF ∧ C.opType = A.opType ∧ C.basis.strs = A.basis.strs ∧ ∀ s, C.coef s = x * A.coef s :=
  Operator.smul_ok hA x

theorem C07_neg {A : Operator K} (hA : A.WF) :
    ∃ C, A.neg = .ok C ∧ C.WF ∧ C.opType = A.opType ∧ C.basis.strs = A.basis.strs ∧ ∀ s, C.coef s = -A.coef s := by
  obtain ⟨C, h1, h2, h3, h4, h5⟩ := Operator.smul_ok hA (-1)
  exact ⟨C, h1, h2, h3, h4, fun s => by rw [h5]; ring⟩

/-- **C07** (subtraction): `A - B` has the differences of the coefficients; `A -= B` gives the same value. -/
theorem C07_sub {A B : Operator K} (hA : A.WF) (hB : B.WF) (ht : A.opType = B.opType) :
    ∃ C, A.sub B = .ok C ∧ A.isub B = .ok C ∧ C.WF ∧ C.opType = A.opType ∧
      C.basis.strs = mergedStrings A.basis.strs B.basis.strs ∧ ∀ s, C.coef s = A.coef s - B.coef s := by
  obtain ⟨N, h1, h2, h3, h4, h5⟩ := Operator.smul_ok hB (-1)
  obtain ⟨C, k1, k2, k3, k4, k5, k6⟩ := C07_add hA h2 (ht.trans h3.symm)
  refine ⟨C, ?_, ?_, k3, k4, by rw [k5, h4], fun s => by rw [k6, h5]; ring⟩
  · rw [Operator.sub, h1]; exact k1
  · rw [Operator.isub, h1]; exact k2

/-- **C07** (errors): operators of different types cannot be added or subtracted. -/
theorem C07_type_mismatch {A B : Operator K} (hB : B.WF) (ht : A.opType ≠ B.opType) :
    A.add B = .error .valueError ∧ A.iadd B = .error .valueError ∧
    A.sub B = .error .valueError ∧ A.isub B = .error .valueError := by
  obtain ⟨N, h1, _, h3, _, _⟩ := Operator.smul_ok hB (-1)
  refine ⟨if_pos ht, if_pos ht, ?_, ?_⟩
  · rw [Operator.sub, h1]; exact if_pos (by rw [h3]; exact ht)
  · rw [Operator.isub, h1]; exact if_pos (by rw [h3]; exact ht)

/-- **C07** (constructor): `Operator(coeffs, strings)` with distinct strings of one type and equally many
coefficients is well-formed, and lists exactly the given terms. -/
theorem C07_constructor {cs : List K} {strs : List OpString} (hn : strs.Nodup) (hl : cs.length = strs.length)
    {t : OpType} (ht : ∀ s ∈ strs, s.opType = t) :
    ∃ A, mkOperator cs strs (some t) = .ok A ∧ A.WF ∧ A.opType = t ∧ A.terms = cs.zip strs :=
  ⟨_, mkOperator_ok hn ht, Operator.WF.mk' hn hl ht, rfl, rfl⟩

/-- Sums, differences and multiples denote sums, differences and multiples, whatever the strings denote. -/
theorem C07_den {M : Type} [AddCommGroup M] [Module K M] (den : OpString → M) {A B C D N : Operator K} (x : K)
    (hA : A.WF) (hB : B.WF) (hC : A.add B = .ok C) (hD : A.sub B = .ok D) (hN : A.smul x = .ok N) :
    C.den den = A.den den + B.den den ∧ D.den den = A.den den - B.den den ∧ N.den den = x • A.den den := by
  have ht : A.opType = B.opType := by
    by_contra h
    rw [(C07_type_mismatch hB h).1] at hC; simp at hC
  obtain ⟨C', h1, _, _, _, _, h2⟩ := C07_add hA hB ht
  obtain ⟨D', k1, _, _, _, _, k2⟩ := C07_sub hA hB ht
  obtain ⟨N', l1, _, _, _, l2⟩ := C07_smul hA x
  rw [hC] at h1; rw [hD] at k1; rw [hN] at l1
  simp only [Except.ok.injEq] at h1 k1 l1
  subst h1 k1 l1
  refine ⟨denT_add den h2, ?_, denT_smul den x l2⟩
  rw [eq_sub_iff_add_eq]
  exact (denT_add den (fun s => by rw [show coefT D.terms s = D.coef s from rfl, k2]; unfold Operator.coef; ring)).symm

/-! ### C10: `Basis` addition -/

/-- **C10**: `a + b` and `a += b` contain the strings of `a` at their old positions, then the new strings of `b` in
their order; members are exactly the strings of either operand. -/
theorem C10_union {a b : Basis} (ha : a.Inv) (hb : b.Inv) :
    ∃ c, a.add b = .ok c ∧ a.iadd b = c ∧ c.Inv ∧ c.strs = mergedStrings a.strs b.strs ∧
      (∀ s, s ∈ c.strs ↔ s ∈ a.strs ∨ s ∈ b.strs) ∧ (∀ i (h : i < a.strs.length), c.strs[i]? = some a.strs[i]) := by
  refine ⟨Basis.ofList (unionList a.strs b.strs), ?_, ?_, Basis.Inv.ofList (unionList_nodup ha.2 _), ?_,
    fun s => mem_unionList, ?_⟩
  · conv_lhs => rw [ha.1, hb.1]
    exact Basis.add_ofList ha.2 hb.2
  · conv_lhs => rw [ha.1]
    exact Basis.iadd_ofList ha.2 b
  · exact unionList_eq_filter _ hb.2
  · intro i h
    obtain ⟨t, ht⟩ := unionList_prefix a.strs b.strs
    rw [Basis.ofList_strs, ht, List.getElem?_append_left h, List.getElem?_eq_getElem h]

/-- **C10** (single string): `a + s` and `a += s` append `s` unless it is already there. -/
theorem C10_string {a : Basis} (ha : a.Inv) (s : OpString) :
    ∃ c, a.addString s = .ok c ∧ a.iaddString s = c ∧ c.Inv ∧
      c.strs = if s ∈ a.strs then a.strs else a.strs ++ [s] := by
  refine ⟨Basis.ofList (unionList a.strs [s]), ?_, ?_, Basis.Inv.ofList (unionList_nodup ha.2 _), rfl⟩
  · conv_lhs => rw [ha.1]
    exact Basis.addString_ofList ha.2 s
  · conv_lhs => rw [ha.1]
    exact Basis.iaddString_ofList s

/-- **C10** (algebra of union): idempotent with absorbed operands, associative even as an ordered operation, and
commutative as a set. -/
theorem C10_laws {a b c : Basis} (ha : a.Inv) (hb : b.Inv) (hc : c.Inv) :
    a.iadd a = a ∧ (a.iadd b).iadd b = a.iadd b ∧ (a.iadd b).iadd c = a.iadd (b.iadd c) ∧
      ∀ s, s ∈ (a.iadd b).strs ↔ s ∈ (b.iadd a).strs := by
  have key : ∀ {x y : Basis}, x.Inv → x.iadd y = Basis.ofList (unionList x.strs y.strs) := by
    intro x y hx
    conv_lhs => rw [hx.1]
    exact Basis.iadd_ofList hx.2 y
  have hab : (a.iadd b).Inv := by rw [key ha]; exact Basis.Inv.ofList (unionList_nodup ha.2 _)
  refine ⟨?_, ?_, ?_, ?_⟩
  · rw [key ha, unionList_eq_filter _ ha.2, List.filter_eq_nil_iff.mpr (by simp), List.append_nil, ← ha.1]
  · rw [key hab, unionList_eq_filter _ hb.2, List.filter_eq_nil_iff.mpr, List.append_nil, ← hab.1]
    intro s hs
    rw [key ha]
    simp [mem_unionList, hs]
  · rw [key hab, key ha, key ha, key hb]
    simp only [Basis.ofList_strs]
    congr 1
    rw [unionList_eq_filter _ hc.2, unionList_eq_filter _ hb.2, unionList_eq_filter _ (unionList_nodup hb.2 _),
      unionList_eq_filter _ hc.2, List.filter_append, List.append_assoc, List.filter_filter]
    congr 2
    apply List.filter_congr
    intro s _
    by_cases h1 : s ∈ a.strs <;> by_cases h2 : s ∈ b.strs <;> simp [h1, h2]
  · intro s
    rw [key ha, key hb]
    simp only [Basis.ofList_strs, mem_unionList]
    exact or_comm

/-! ### C11: `to_vector` -/

/-- **C11**: the entries of `A.to_vector(b)` are the coefficients of the basis strings, in both output formats. -/
theorem C11_to_vector {A : Operator K} (hA : A.WF) {b : Basis} (hb : b.Inv) (h : ∀ s ∈ A.basis.strs, s ∈ b.strs) :
    ∃ v, A.toVector b = .ok v ∧ A.toVectorCsc b = .ok v ∧ v.length = b.len ∧
      ∀ i (hi : i < b.strs.length), v[i]? = some (A.coef b.strs[i]) := by
  obtain ⟨v, h1, h2, h3⟩ := Operator.toVector_ok hA hb h
  refine ⟨v, h1, by rw [Operator.toVectorCsc_eq hA hb, h1], h2, ?_⟩
  intro i hi
  have := h3 _ (List.getElem_mem hi)
  rw [hb.2.idxOf_getElem i hi, List.getD_eq_getElem?_getD] at this
  rw [← this, List.getElem?_eq_getElem (by rw [h2]; exact hi)]; rfl

/-- **C11** (error): KeyError exactly when a string of `A` is missing from the basis. -/
theorem C11_key_error {A : Operator K} (hA : A.WF) {b : Basis} (hb : b.Inv) :
    (A.toVector b = .error .keyError ↔ ∃ s ∈ A.basis.strs, s ∉ b.strs) ∧ A.toVectorCsc b = A.toVector b := by
  refine ⟨⟨?_, ?_⟩, Operator.toVectorCsc_eq hA hb⟩
  · intro h
    by_contra hc
    push Not at hc
    obtain ⟨v, h1, _⟩ := Operator.toVector_ok hA hb hc
    rw [h1] at h; simp at h
  · rintro ⟨s, hs, hsb⟩
    rw [← hA.terms_snd] at hs
    obtain ⟨t, ht, rfl⟩ := List.mem_map.mp hs
    rw [Operator.toVector, hb.1]
    exact toVectorLoop_err _ _ ⟨t, ht, hsb⟩

/-- **C11** (inverse): building an Operator from the vector over the basis gives back the same linear combination. -/
theorem C11_inverse {A : Operator K} (hA : A.WF) {b : Basis} (hb : b.Inv) (h : ∀ s ∈ A.basis.strs, s ∈ b.strs)
    (ht : ∀ s ∈ b.strs, s.opType = A.opType) :
    ∃ v B, A.toVector b = .ok v ∧ mkOperatorB v b (some A.opType) = .ok B ∧ B.WF ∧ (∀ s, B.coef s = A.coef s) ∧
      ∀ {M : Type} [AddCommGroup M] [Module K M] (den : OpString → M), B.den den = A.den den := by
  obtain ⟨v, h1, h2, h3⟩ := Operator.toVector_ok hA hb h
  have hw : (⟨v, b, A.opType⟩ : Operator K).WF := ⟨hb, h2, ht⟩
  have hc : ∀ s, (⟨v, b, A.opType⟩ : Operator K).coef s = A.coef s := by
    intro s
    rw [hw.coef_eq]
    by_cases hs : s ∈ b.strs
    · rw [if_pos hs]; exact h3 s hs
    · rw [if_neg hs, hA.coef_eq, if_neg (fun h' => hs (h s h'))]
  exact ⟨v, _, h1, mkOperatorB_ok ht, hw, hc, fun den => denT_congr den hc⟩

/-! ### C12: `remove_zeros` -/

/-- **C12**: `remove_zeros(tol)` keeps exactly the terms with `|coeff| > tol`, unchanged and in order. -/
theorem C12_remove_zeros {A : Operator K} (hA : A.WF) (tol : ℚ) :
    ∃ C, A.removeZeros tol = .ok C ∧ C.WF ∧ C.opType = A.opType ∧ C.terms.Sublist A.terms ∧
      ∀ t, t ∈ C.terms ↔ t ∈ A.terms ∧ (tol : ℝ) < ‖toC t.1‖ := by
  obtain ⟨C, h1, h2, h3, h4⟩ := Operator.removeZeros_ok hA tol
  refine ⟨C, h1, h2, h3, by rw [h4]; exact List.filter_sublist, ?_⟩
  intro t
  rw [h4, List.mem_filter, absGt_iff]

/-- **C12**: with tolerance 0 nothing but zeros is removed, so the operator denotes the same. -/
theorem C12_tol_zero {A : Operator K} (hA : A.WF) : ∃ C, A.removeZeros 0 = .ok C ∧ ∀ s, C.coef s = A.coef s := by
  obtain ⟨C, h1, _, _, h4⟩ := Operator.removeZeros_ok hA 0
  refine ⟨C, h1, ?_⟩
  intro s
  rw [Operator.coef, h4, Operator.coef]
  generalize A.terms = ts
  induction ts with
  | nil => rfl
  | cons t ts ih =>
    rw [List.filter_cons]
    by_cases h : absGt t.1 0 = true
    · rw [if_pos h, coefT_cons, coefT_cons, ih]
    · rw [if_neg h, ih, coefT_cons]
      have : t.1 = 0 := by
        rw [absGt_iff] at h
        simp only [Rat.cast_zero, norm_pos_iff, not_not] at h
        apply toC_inj; rw [h, map_zero]
      simp [this]

end arithmetic

/-! ### C13: `normalize` -/

theorem C13_norm_smul (A : Operator ℂ) (order : NormOrder) {r : ℝ} (hr : 0 ≤ r) :
    ({ A with coeffs := A.coeffs.map (· * (r : ℂ)) } : Operator ℂ).norm order = A.norm order * r := by
  cases order with
  | l2 =>
    have : ∀ cs : List ℂ, ((cs.map (· * (r : ℂ))).map (fun c => ‖c‖ ^ 2)).sum = (cs.map (fun c => ‖c‖ ^ 2)).sum * r ^ 2 := by
      intro cs
      induction cs with
      | nil => simp
      | cons c cs ih =>
        simp only [List.map_cons, List.sum_cons, ih, norm_mul, Complex.norm_real, Real.norm_eq_abs, mul_pow, sq_abs]; ring
    simp only [Operator.norm, this]
    rw [Real.sqrt_mul' _ (sq_nonneg r), Real.sqrt_sq hr]
  | inf =>
    have : ∀ cs : List ℂ, ((cs.map (· * (r : ℂ))).map (fun c => ‖c‖)).foldr max 0 = (cs.map (fun c => ‖c‖)).foldr max 0 * r := by
      intro cs
      induction cs with
      | nil => simp
      | cons c cs ih =>
        simp only [List.map_cons, List.foldr_cons, ih, norm_mul, Complex.norm_real, Real.norm_eq_abs, abs_of_nonneg hr]
        rw [max_mul_of_nonneg _ _ hr]
    simp only [Operator.norm, this]

theorem C13_norm_pos {A : Operator ℂ} {c : ℂ} (hc : c ∈ A.coeffs) (h0 : c ≠ 0) (order : NormOrder) : 0 < A.norm order := by
  cases order with
  | l2 =>
    refine Real.sqrt_pos.mpr (lt_of_lt_of_le (pow_pos (norm_pos_iff.mpr h0) 2) ?_)
    apply List.single_le_sum
    · intro x hx
      obtain ⟨y, _, rfl⟩ := List.mem_map.mp hx
      positivity
    · exact List.mem_map_of_mem hc
  | inf =>
    have : ∀ cs : List ℂ, c ∈ cs → ‖c‖ ≤ (cs.map (fun c => ‖c‖)).foldr max 0 := by
      intro cs
      induction cs with
      | nil => simp
      | cons x cs ih =>
        intro h
        rcases List.mem_cons.mp h with rfl | h
        · exact le_max_left ..
        · exact le_trans (ih h) (le_max_right ..)
    exact lt_of_lt_of_le (norm_pos_iff.mpr h0) (this _ hc)

/-- **C13**: `normalize` keeps the strings, multiplies all coefficients by one positive real number, makes the norm 1,
and is idempotent; for the Euclidean and the maximum norm. -/
theorem C13_normalize (A : Operator ℂ) (order : NormOrder) (h : ∃ c ∈ A.coeffs, c ≠ 0) :
    ∃ B r, A.normalize order = some B ∧ 0 < r ∧ B.coeffs = A.coeffs.map (· * ((r : ℝ) : ℂ)) ∧ B.basis = A.basis ∧
      B.opType = A.opType ∧ B.norm order = 1 ∧ B.normalize order = some B := by
  obtain ⟨c, hc, h0⟩ := h
  have hp := C13_norm_pos hc h0 order
  have e : A.coeffs.map (· / (A.norm order : ℂ)) = A.coeffs.map (· * (((A.norm order)⁻¹ : ℝ) : ℂ)) := by
    apply List.map_congr_left; intro x _; simp [div_eq_mul_inv]
  have hn : ({ A with coeffs := A.coeffs.map (· / (A.norm order : ℂ)) } : Operator ℂ).norm order = 1 := by
    rw [e, C13_norm_smul _ _ (by positivity), mul_inv_cancel₀ hp.ne']
  refine ⟨{ A with coeffs := A.coeffs.map (· / (A.norm order : ℂ)) }, (A.norm order)⁻¹, ?_, inv_pos.mpr hp, e, rfl, rfl, hn, ?_⟩
  · rw [Operator.normalize, if_neg (fun h => hp.ne' h.1)]
  · rw [Operator.normalize, hn, if_neg (by simp)]
    simp

/-! ### C06: products and brackets of Operators -/

section brackets
variable {K : Type} [Field K] [StarRing K] [Coef K]
variable {𝔸 : Type} [Ring 𝔸] [Algebra K 𝔸] {S : Set ℤ}

open Classical in
/-- The sum of the brackets of all pairs of terms, leaving out the pairs whose coefficient is below the tolerance
(for the commutator and anticommutator of strings the coefficient carries a factor 2). -/
noncomputable def truncatedBracket (mode : Mode) (tol : ℚ) (den : OpString → 𝔸) (tas tbs : List (K × OpString)) : 𝔸 :=
  (tas.map (fun ta => (tbs.map (fun tb =>
    if ‖toC (ta.1 * tb.1)‖ * bracketFactor mode < tol then 0
    else (ta.1 * tb.1) • bracketOf mode (den ta.2) (den tb.2))).sum)).sum

/-- **C06** for one family of strings: the result exists, is well-formed (distinct strings, one coefficient each), its strings are valid, in normal
form and supported on the labels of the operands; it denotes the truncated sum of brackets; and it is the exact bracket
when no non-zero coefficient is below the tolerance. -/
def BracketSpec (mode : Mode) (tol : ℚ) (den : OpString → 𝔸) (Str : OpString → Prop) (t : OpType) (A B : Operator K) : Prop :=
  ∃ C, operationOperator mode A B tol = .ok C ∧ C.WF ∧ C.opType = t ∧
    (∀ s ∈ C.basis.strs, Str s ∧ s.labels.Pairwise (· < ·) ∧ ∀ l ∈ s.labels, l ∈ A.labelSet ∪ B.labelSet) ∧
    C.den den = truncatedBracket mode tol den A.terms B.terms ∧
    ((∀ ta ∈ A.terms, ∀ tb ∈ B.terms, ta.1 * tb.1 = 0 ∨ (tol : ℝ) ≤ ‖toC (ta.1 * tb.1)‖ * bracketFactor mode) →
      C.den den = bracketOf mode (A.den den) (B.den den))

theorem StrAlg.bracketSpec (R : StrAlg K 𝔸) (mode : Mode) {tol : ℚ} (htol : 0 < tol) {A B : Operator K}
    (hA : A.WF) (hB : B.WF) (hsA : ∀ s ∈ A.basis.strs, R.Str s) (hsB : ∀ s ∈ B.basis.strs, R.Str s)
    (ht : A.opType = R.type) (ht' : B.opType = R.type) : BracketSpec mode tol R.den R.Str R.type A B := by
  obtain ⟨C, h1, h2, h3, h4, h5⟩ := R.operator mode htol hA hB hsA hsB ht ht'
  exact ⟨C, h1, h2, h3, fun s hs => ⟨(h4 s hs).1, (h4 s hs).2.1, (h4 s hs).2.2.1⟩, h5, fun h => by
    rw [h5, R.kept_exact mode h]; rfl⟩

/-- **C06** (Pauli): `product`, `commutator` and `anticommutator` of Operators of Pauli strings. -/
theorem C06_pauli (R : PauliRep K 𝔸 S) (mode : Mode) {tol : ℚ} (htol : 0 < tol) {A B : Operator K}
    (hA : A.WF) (hB : B.WF) (hsA : ∀ s ∈ A.basis.strs, PauliString S s) (hsB : ∀ s ∈ B.basis.strs, PauliString S s)
    (ht : A.opType = .pauli) (ht' : B.opType = .pauli) : BracketSpec mode tol R.den (PauliString S) .pauli A B :=
  R.strAlg.bracketSpec mode htol hA hB hsA hsB ht ht'

/-- **C06** (Majorana) -/
theorem C06_majorana (R : MajoranaRep K 𝔸 S) (mode : Mode) {tol : ℚ} (htol : 0 < tol) {A B : Operator K}
    (hA : A.WF) (hB : B.WF) (hsA : ∀ s ∈ A.basis.strs, MajoranaString S s)
    (hsB : ∀ s ∈ B.basis.strs, MajoranaString S s)
    (ht : A.opType = .majorana) (ht' : B.opType = .majorana) :
    BracketSpec mode tol R.den (MajoranaString S) .majorana A B :=
  R.strAlg.bracketSpec mode htol hA hB hsA hsB ht ht'

/-- **C06** (public functions): they are the three modes with tolerance `1e-16`. -/
theorem C06_public (A B : Operator K) :
    productO A B = operationOperator .product A B (1 / 10 ^ 16) ∧
    commutatorO A B = operationOperator .commutator A B (1 / 10 ^ 16) ∧
    anticommutatorO A B = operationOperator .anticommutator A B (1 / 10 ^ 16) := ⟨rfl, rfl, rfl⟩

/-- **C06** (errors): operators of different types are rejected; products of Fermion operators are not implemented. -/
theorem C06_errors (mode : Mode) (tol : ℚ) {A B : Operator K} :
    (A.opType ≠ B.opType → operationOperator mode A B tol = .error .valueError) ∧
    (A.WF → A.opType = .fermion → B.opType = .fermion → A.terms ≠ [] → B.terms ≠ [] →
      operationOperator mode A B tol = .error .notImplemented) := by
  refine ⟨fun h => if_pos h, ?_⟩
  intro hA h1 h2 h3 h4
  obtain ⟨ta, tas, hta⟩ := List.exists_cons_of_ne_nil h3
  obtain ⟨tb, tbs, htb⟩ := List.exists_cons_of_ne_nil h4
  have hty : ta.2.opType = .fermion := by
    rw [← h1]; apply hA.type; apply mem_terms (A := A) (t := ta); rw [hta]; exact List.mem_cons_self ..
  have hop : (operationOpString mode ta.2 tb.2 : Py (K × _)) = .error .notImplemented := by
    rw [operationOpString, if_pos (by rw [hty]; simp)]
  rw [operationOperator, if_neg (by rw [h1, h2]; simp), hta, List.foldlM_cons, htb, List.foldlM_cons, operatorStep, hop]
  rfl

end brackets

/-! ### Non-vacuity -/

/-- 2 'X 1 Y 3 Z 7' - i 'Z 3 Z 1' -/
def exO1 : Operator QI := ⟨[⟨2, 0⟩, ⟨0, -1⟩], Basis.ofList [exP1, exP2], .pauli⟩
/-- (1/3) 'Z 3 Z 1' -/
def exO2 : Operator QI := ⟨[⟨1 / 3, 0⟩], Basis.ofList [exP2], .pauli⟩
/-- 5 'A 2 D 3 B 5' + (1+i) 'B 3 B 2 A -1' -/
def exO3 : Operator QI := ⟨[⟨5, 0⟩, ⟨1, 1⟩], Basis.ofList [exM1, exM2], .majorana⟩

theorem exO1_wf : exO1.WF := Operator.WF.mk' (by decide) rfl (by decide)
theorem exO2_wf : exO2.WF := Operator.WF.mk' (by decide) rfl (by decide)
theorem exO3_wf : exO3.WF := Operator.WF.mk' (by decide) rfl (by decide)

example : ∃ C, exO1.add exO2 = .ok C ∧ C.coef exP2 = exO1.coef exP2 + exO2.coef exP2 :=
  let ⟨C, h, _, _, _, _, h'⟩ := C07_add exO1_wf exO2_wf rfl
  ⟨C, h, h' exP2⟩

example : BracketSpec .commutator (1 / 10 ^ 16) (waveRep QI).den (PauliString Set.univ) .pauli exO1 exO2 :=
  C06_pauli (waveRep QI) .commutator (by norm_num) exO1_wf exO2_wf
    (by intro s hs; simp [exO1] at hs; rcases hs with rfl | rfl; exacts [exP1_valid, exP2_valid])
    (by intro s hs; simp [exO2] at hs; subst hs; exact exP2_valid) rfl rfl

example : BracketSpec .product (1 / 10 ^ 16) (waveMajorana QI).den (MajoranaString Set.univ) .majorana exO3 exO3 :=
  C06_majorana (waveMajorana QI) .product (by norm_num) exO3_wf exO3_wf
    (by intro s hs; simp [exO3] at hs; rcases hs with rfl | rfl; exacts [exM1_valid, exM2_valid])
    (by intro s hs; simp [exO3] at hs; rcases hs with rfl | rfl; exacts [exM1_valid, exM2_valid]) rfl rfl

example : ∃ v, exO2.toVector exO1.basis = .ok v ∧ v.length = 2 :=
  let ⟨v, h, _, h', _⟩ := C11_to_vector exO2_wf exO1_wf.basis (by decide)
  ⟨v, h, h'⟩

example : exO1.toVector exO2.basis = .error .keyError :=
  (C11_key_error exO1_wf exO2_wf.basis).1.mpr ⟨exP1, by decide, by decide⟩

end Qosy
