import Verif.Props.BasisChange
import Verif.Spec.CommutantAlgebra

/-! # C107: the operators found by `commuting_operators` form an algebra -/

namespace Qosy
open Coef
variable {t : OpType} {S : Set ℤ}

theorem coordinates_den {𝔸 : Type} [Ring 𝔸] [Algebra ℂ 𝔸] (d : OpString → 𝔸) {b : Basis} (hn : b.strs.Nodup) {A : Operator ℂ}
    (hA : ∀ s ∈ A.basis.strs, s ∈ b.strs) {n : ℕ} (hl : n = b.strs.length) :
    ∑ j : Fin n, coordinates b n A j • (((BasisArg.strings b : BasisArg ℂ).den d)[(j : ℕ)]?).getD 0 = A.den d := by
  subst hl
  rw [show A.den d = denT d A.terms from rfl, ← denT_eq_sum d hn A.terms (fun u hu => hA _ (mem_terms hu))]
  refine Finset.sum_congr rfl fun j _ => ?_
  simp only [coordinates, BasisArg.den, List.getElem?_map, List.getElem?_eq_getElem j.2, Option.map_some, Option.getD_some]
  rfl

private theorem bracket_zero_iff {𝔸 : Type} [Ring 𝔸] {m : Mode} (hm : m ≠ .product) (x o : 𝔸) :
    bracketOf m x o = 0 ↔ x * o = (if m = .commutator then 1 else -1) * (o * x) := by
  cases m with
  | commutator => simp [bracketOf, sub_eq_zero]
  | anticommutator => simp [bracketOf, add_eq_zero_iff_eq_neg]
  | product => exact absurd rfl hm

private theorem sign_product {𝔸 : Type} [Ring 𝔸] {m₁ m₂ : Mode} (h₁ : m₁ ≠ .product) (h₂ : m₂ ≠ .product) {x y o : 𝔸}
    (hx : x * o = (if m₁ = .commutator then 1 else -1) * (o * x)) (hy : y * o = (if m₂ = .commutator then 1 else -1) * (o * y)) :
    (x * y) * o = (if signMode m₁ m₂ = .commutator then 1 else -1) * (o * (x * y)) := by
  have key : ∀ a b : ℤ, (a = 1 ∨ a = -1) → x * o = a • (o * x) → y * o = b • (o * y) → (x * y) * o = (a * b) • (o * (x * y)) := by
    intro a b _ ha hb
    rw [mul_assoc, hb, mul_smul_comm, ← mul_assoc, ha, smul_mul_assoc, smul_smul, mul_assoc, mul_comm b a]
  cases m₁ <;> cases m₂ <;> simp only [reduceCtorEq, if_true, if_false, one_mul, neg_mul, ne_eq, not_true_eq_false, signMode] at *
  · simpa using key 1 1 (Or.inl rfl) (by simpa using hx) (by simpa using hy)
  · simpa using key 1 (-1) (Or.inl rfl) (by simpa using hx) (by simpa using hy)
  · simpa using key (-1) 1 (Or.inr rfl) (by simpa using hx) (by simpa using hy)
  · simpa using key (-1) (-1) (Or.inr rfl) (by simpa using hx) (by simpa using hy)

/-- **C107** (products and brackets): let `A` be found by `commuting_operators` in the mode `m₁` and `B` in the mode `m₂`.  Then their product, commutator
and anticommutator are found in the mode `commutator` if `m₁ = m₂` and in the mode `anticommutator` otherwise, if their strings are in the basis and
nothing is below the tolerance of the product.  This holds for all tolerances of `commuting_operators` below a positive bound. -/
theorem C107_algebra (ht : t = .pauli ∨ t = .majorana) {b : Basis} (hb : ∀ s ∈ b.strs, TypedString t S s) (hn : b.strs.Nodup) {O : Operator ℂ}
    (hO : ∀ s ∈ O.basis.strs, TypedString t S s) {eigh : Eigh} (he : ExactEigh eigh) {m₁ m₂ : Mode} (h₁ : m₁ ≠ .product) (h₂ : m₂ ≠ .product) :
    ∃ δ > 0, ∀ tol, 0 < tol → tol ≤ δ → ∃ r₁ r₂ r, commutingOperators eigh (.strings b) O m₁ tol = .ok r₁ ∧
      commutingOperators eigh (.strings b) O m₂ tol = .ok r₂ ∧ commutingOperators eigh (.strings b) O (signMode m₁ m₂) tol = .ok r ∧
      ∀ A B : Operator ℂ, A.On t (· ∈ b.strs) → B.On t (· ∈ b.strs) → coordinates b _ A ∈ colSpan r₁.vecs → coordinates b _ B ∈ colSpan r₂.vecs →
        ∀ op, NothingCut op A B → ∃ C, operationOperator op A B = .ok C ∧ ((∀ s ∈ C.basis.strs, s ∈ b.strs) → coordinates b _ C ∈ colSpan r.vecs) := by
  obtain ⟨R, hR, hS, -, -, H⟩ := commuting_exact (S := S) ht
  have size : (BasisArg.strings b : BasisArg ℂ).size = b.strs.length := by simp [BasisArg.size, BasisArg.elementTerms]
  obtain ⟨δ₁, p1, q1⟩ := H m₁ O hO (.strings b) hb (by simp) eigh he
  obtain ⟨δ₂, p2, q2⟩ := H m₂ O hO (.strings b) hb (by simp) eigh he
  obtain ⟨δ, p3, q3⟩ := H (signMode m₁ m₂) O hO (.strings b) hb (by simp) eigh he
  refine ⟨min δ (min δ₁ δ₂), lt_min p3 (lt_min p1 p2), fun tol h0 h1 => ?_⟩
  obtain ⟨r₁, a1, a2, -, a4⟩ := q1 tol h0 (h1.trans ((min_le_right _ _).trans (min_le_left _ _)))
  obtain ⟨r₂, b1, b2, -, b4⟩ := q2 tol h0 (h1.trans ((min_le_right _ _).trans (min_le_right _ _)))
  obtain ⟨r, c1, c2, -, c4⟩ := q3 tol h0 (h1.trans (min_le_left _ _))
  refine ⟨r₁, r₂, r, a1, b1, c1, fun A B hA hB fA fB op hc => ?_⟩
  rw [a4, coordinates_den R.den hn hA.mem (a2.trans size), bracket_zero_iff h₁] at fA
  rw [b4, coordinates_den R.den hn hB.mem (b2.trans size), bracket_zero_iff h₂] at fB
  obtain ⟨C, d1, -, -, -, d5⟩ := R.operator op (tol := 1 / 10 ^ 16) (by norm_num) hA.wf hB.wf (fun s hs => hS s (hb s (hA.mem s hs)))
    (fun s hs => hS s (hb s (hB.mem s hs))) (hA.type.trans hR.symm) (hB.type.trans hR.symm)
  refine ⟨C, d1, fun hC => ?_⟩
  have e : C.den R.den = bracketOf op (A.den R.den) (B.den R.den) := by
    rw [d5]
    exact R.kept_exact op fun ta hta tb htb => by simpa using hc ta hta tb htb
  have hm : signMode m₁ m₂ ≠ .product := by unfold signMode; split <;> simp
  rw [c4, coordinates_den R.den hn hC (c2.trans size), bracket_zero_iff hm, e]
  generalize A.den R.den = x at fA ⊢
  generalize B.den R.den = y at fB ⊢
  generalize O.den R.den = o at fA fB ⊢
  have e1 := sign_product h₁ h₂ fA fB
  have e2 := sign_product h₂ h₁ fB fA
  rw [show signMode m₂ m₁ = signMode m₁ m₂ by simp only [signMode, eq_comm]] at e2
  cases op with
  | product => exact e1
  | commutator => simp only [bracketOf, sub_mul, mul_sub, e1, e2]
  | anticommutator => simp only [bracketOf, add_mul, mul_add, e1, e2]

/-- **C107** (the operator itself and the identity): `O` and the identity are found, if their strings are in the basis. -/
theorem C107_unit (ht : t = .pauli ∨ t = .majorana) {b : Basis} (hb : ∀ s ∈ b.strs, TypedString t S s) (hn : b.strs.Nodup) {O : Operator ℂ}
    (hO : ∀ s ∈ O.basis.strs, TypedString t S s) {eigh : Eigh} (he : ExactEigh eigh) :
    ∃ δ > 0, ∀ tol, 0 < tol → tol ≤ δ → ∃ r, commutingOperators eigh (.strings b) O .commutator tol = .ok r ∧
      ((∀ s ∈ O.basis.strs, s ∈ b.strs) → coordinates b _ O ∈ colSpan r.vecs) ∧
      (identityString t ∈ b.strs → coordinates b _ ⟨[1], Basis.ofList [identityString t], t⟩ ∈ colSpan r.vecs) := by
  obtain ⟨R, hR, hS, hI, -, H⟩ := commuting_exact (S := S) ht
  have size : (BasisArg.strings b : BasisArg ℂ).size = b.strs.length := by simp [BasisArg.size, BasisArg.elementTerms]
  obtain ⟨δ, p, q⟩ := H .commutator O hO (.strings b) hb (by simp) eigh he
  refine ⟨δ, p, fun tol h0 h1 => ?_⟩
  obtain ⟨r, a1, a2, -, a4⟩ := q tol h0 h1
  refine ⟨r, a1, fun h => ?_, fun h => ?_⟩
  · rw [a4, coordinates_den R.den hn h (a2.trans size)]
    simp [bracketOf]
  · rw [a4, coordinates_den R.den hn (by simpa [Basis.ofList] using h) (a2.trans size)]
    simp [bracketOf, Operator.den, Operator.terms, Basis.ofList, denT, hI]

private theorem mulVec_star {L : Mat ℂ} {c : ℕ} (h : ∀ j < L.ncols, star (L.get c j) = -L.get c j) (w : ℕ → ℂ) :
    L.mulVec (fun j => star (w j)) c = -star (L.mulVec w c) := by
  simp only [Mat.mulVec, star_sum]
  rw [← Finset.sum_neg_distrib]
  refine Finset.sum_congr rfl fun j _ => ?_
  rw [star_mul', h j j.2]; ring

private theorem liouvillian_imaginary {𝔸 : Type} [Ring 𝔸] [Algebra ℂ 𝔸] [Nontrivial 𝔸] (R : StrAlg ℂ 𝔸) {b : Basis}
    (hb : ∀ s ∈ b.strs, R.Str s ∧ s.Canonical) {O : Operator ℂ} (hO : ∀ s ∈ O.basis.strs, R.Str s) (hr : ∀ x ∈ O.coeffs, star x = x)
    {L : Mat ℂ} {ext : Basis} {n : ℕ} (l2 : LiouvilleOK R.den R.Str .commutator n (fun j => (((BasisArg.strings b : BasisArg ℂ).den R.den)[j]?).getD 0) (O.den R.den) L ext)
    (hn : n = b.strs.length) {c : ℕ} (hc : c < ext.strs.length) : ∀ j < L.ncols, star (L.get c j) = -L.get c j := by
  subst hn
  intro j hj
  rw [l2.ncols] at hj
  have hcol := l2.col j hj
  simp only [BasisArg.den, List.getElem?_map, List.getElem?_eq_getElem hj, Option.map_some, Option.getD_some] at hcol
  have e := R.coefAt_eq (hb _ (List.getElem_mem hj)).1 hO l2.ext_inv.2 l2.ext_str hcol ext.strs[c]
  rw [Mat.coefAt, if_pos (List.getElem_mem hc), l2.ext_inv.2.idxOf_getElem] at e
  rw [e, star_list_sum, List.sum_neg]
  simp only [List.map_map]
  refine congrArg _ (List.map_congr_left fun u hu => ?_)
  have hx : star u.1 = u.1 := hr _ (List.of_mem_zip hu).1
  have k := (R.scEntry_star (K := ℂ) (hb _ (List.getElem_mem hj)) (hO _ (mem_terms hu)) (l2.ext_str _ (List.getElem_mem hc))).1
  simp only [Function.comp]
  rw [star_mul', hx, k]; ring

private theorem kernel_star {𝔸 : Type} [Ring 𝔸] [Algebra ℂ 𝔸] [Nontrivial 𝔸] (R : StrAlg ℂ 𝔸) {b : Basis}
    (hb : ∀ s ∈ b.strs, R.Str s ∧ s.Canonical) {O : Operator ℂ} (hO : ∀ s ∈ O.basis.strs, R.Str s) (hr : ∀ x ∈ O.coeffs, star x = x) {n : ℕ}
    (hn : n = b.strs.length) {v : Fin n → ℂ}
    (h : bracketOf .commutator (∑ j, v j • (((BasisArg.strings b : BasisArg ℂ).den R.den)[(j : ℕ)]?).getD 0) (O.den R.den) = 0) :
    bracketOf .commutator (∑ j, star (v j) • (((BasisArg.strings b : BasisArg ℂ).den R.den)[(j : ℕ)]?).getD 0) (O.den R.den) = 0 := by
  have dl : ((BasisArg.strings b : BasisArg ℂ).den R.den).length = b.strs.length := by simp [BasisArg.den]
  obtain ⟨L, ext, -, l2⟩ := R.liouvillian_ok .commutator (x := .strings b) (O := O) (fun s hs => (hb s hs).1) (by simp) hO
  rw [dl, ← hn] at l2
  obtain ⟨w, hw⟩ : ∃ w : ℕ → ℂ, ∀ j : Fin n, w j = v j := ⟨fun j => if h : j < n then v ⟨j, h⟩ else 0, fun j => by simp⟩
  simp only [← hw] at h ⊢
  have e := l2.mulVec w
  have e' := l2.mulVec (fun j => star (w j))
  rw [h] at e
  rw [← e']
  refine Finset.sum_eq_zero fun c _ => ?_
  rw [mulVec_star (liouvillian_imaginary R hb hO hr l2 hn c.2), R.independent l2.ext_inv.2 l2.ext_str e c c.2]
  simp

/-- **C107** (Hermitian conjugation): if the coefficients of `O` are real, then with every operator found its Hermitian conjugate, which has the
conjugated coefficients, is found. -/
theorem C107_conjugate (ht : t = .pauli ∨ t = .majorana) {b : Basis} (hb : ∀ s ∈ b.strs, TypedString t S s ∧ s.Canonical) {O : Operator ℂ}
    (hO : ∀ s ∈ O.basis.strs, TypedString t S s) (hr : ∀ x ∈ O.coeffs, star x = x) {eigh : Eigh} (he : ExactEigh eigh) :
    ∃ δ > 0, ∀ tol, 0 < tol → tol ≤ δ → ∃ r, commutingOperators eigh (.strings b) O .commutator tol = .ok r ∧
      ∀ v ∈ colSpan r.vecs, (fun k => star (v k)) ∈ colSpan r.vecs := by
  obtain ⟨R, hR, hS, -, -, H⟩ := commuting_exact (S := S) ht
  obtain ⟨δ, p, q⟩ := H .commutator O hO (.strings b) (fun s hs => (hb s hs).1) (by simp) eigh he
  refine ⟨δ, p, fun tol h0 h1 => ?_⟩
  obtain ⟨r, a1, a2, -, a4⟩ := q tol h0 h1
  refine ⟨r, a1, fun v hv => (a4 _).mpr ?_⟩
  exact kernel_star R (fun s hs => ⟨hS s (hb s hs).1, (hb s hs).2⟩) (fun s hs => hS s (hO s hs)) hr
    (a2.trans (by simp [BasisArg.size, BasisArg.elementTerms])) ((a4 v).mp hv)

/-! ### the hypotheses are met: the basis `I, X, Y, Z` on one site and the operator `X` -/

private def oneSite : Basis := Basis.ofList [identityString .pauli, ⟨[.X], [0], .pauli, .float1⟩, ⟨[.Y], [0], .pauli, .float1⟩, ⟨[.Z], [0], .pauli, .float1⟩]

example : (∀ s ∈ oneSite.strs, TypedString .pauli (siteLabels 1) s ∧ s.Canonical) ∧ oneSite.strs.Nodup ∧ identityString .pauli ∈ oneSite.strs := by
  refine ⟨fun s hs => ?_, by decide, by decide⟩
  simp only [oneSite, Basis.ofList, identityString, List.mem_cons, List.not_mem_nil, or_false] at hs
  rcases hs with rfl | rfl | rfl | rfl <;> exact ⟨Or.inl ⟨rfl, rfl, by simp, rfl, by simp, by simp [siteLabels], by simp⟩, by simp [OpString.Canonical]⟩

/-- `Y` and `Z` anticommute with `X`; their product is a multiple of `X`, which commutes with it -/
example : signMode .anticommutator .anticommutator = .commutator ∧
    (operationOperator .product (⟨[1], Basis.ofList [⟨[.Y], [0], .pauli, .float1⟩], .pauli⟩ : Operator QI) ⟨[1], Basis.ofList [⟨[.Z], [0], .pauli, .float1⟩], .pauli⟩).map
      (fun C => (C.coeffs, C.basis.strs)) = .ok ([⟨0, 1⟩], [⟨[.X], [0], .pauli, .float1⟩]) ∧
    (commutantMatrix (.strings oneSite) (⟨[1], Basis.ofList [⟨[.X], [0], .pauli, .float1⟩], .pauli⟩ : Operator QI) .commutator).map
      (fun M => (List.range 4).map fun i => M.1.get i i) = .ok [0, 0, 4, 4] := ⟨rfl, by decide +kernel, by decide +kernel⟩

end Qosy
