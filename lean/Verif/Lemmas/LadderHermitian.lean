import Verif.Lemmas.Liouvillian
import Verif.Lemmas.JordanWigner
import Verif.Spec.Ladder

/-! # The Liouvillian matrix of a real operator is Hermitian and purely imaginary -/

namespace Qosy
open Coef RealOps
variable {K : Type} [Field K] [StarRing K] [Coef K]
variable {𝔸 : Type} [Ring 𝔸] [Algebra K 𝔸]

/-- the entries of a Liouvillian matrix -/
theorem StrAlg.liouvillianStrings_entry (R : StrAlg K 𝔸) (mode : Mode) {A : Basis} {O : Operator K}
    (hA : ∀ s ∈ A.strs, R.Str s) (hO : ∀ s ∈ O.basis.strs, R.Str s) {L : Mat K} {ext : Basis} (h : liouvillianStrings A O mode = .ok (L, ext)) :
    ∀ (c j : ℕ) (hc : c < ext.strs.length) (hj : j < A.strs.length),
      L.get c j = (O.terms.map (fun t => t.1 * scEntry K mode A.strs[j] t.2 ext.strs[c])).sum := by
  obtain ⟨sc, strs, h1, h2, h3, h4, h5⟩ := R.structureConstants_ok mode (tol := 1 / 10 ^ 16) (by norm_num) (by norm_num) hA hO
  have hf : ∀ t ∈ O.terms, ∃ M : Mat K, sc.lookup t.2 = .ok M ∧ M.nrows = strs.length ∧ M.ncols = A.len ∧ M.WF ∧
      ScInv mode t.2 A.strs strs M.data := by
    intro t ht
    obtain ⟨D, g1, g2⟩ := h3 t.2 (mem_terms ht)
    exact ⟨⟨strs.length, A.len, D⟩, by rw [Dict.lookup, g1], rfl, rfl, g2.range, g2⟩
  obtain ⟨L', k1, k2, k3, k4, k5⟩ := matSum_ok (fun t : K × OpString => t.1) (fun t => sc.lookup t.2) O.terms
    (Mat.zero strs.length A.len) rfl rfl (by intro e he; simp [Mat.zero] at he)
    (fun t ht => by obtain ⟨M, g1, g2, g3, g4, _⟩ := hf t ht; exact ⟨M, g1, g2, g3, g4⟩)
  have hL : liouvillianStrings A O mode = .ok (L', Basis.ofList strs) := by
    simp only [liouvillianStrings, h1, bind, Except.bind, Basis.ofList_len]
    simp only [bind, Except.bind] at k1
    rw [k1]
  rw [hL] at h
  simp only [Except.ok.injEq, Prod.mk.injEq] at h
  obtain ⟨rfl, rfl⟩ := h
  intro c j hc hj
  have e0 : (Mat.zero strs.length A.len : Mat K).get c j = 0 := rfl
  rw [k5, e0, zero_add]
  apply congrArg List.sum
  apply List.map_congr_left
  intro t ht
  obtain ⟨M, g1, _, _, _, g5⟩ := hf t ht
  have hc' : c < strs.length := hc
  rw [g1]
  show t.1 * M.get c j = _
  rw [Mat.get_eq, g5.entry, List.getElem?_eq_getElem hc', List.getElem?_eq_getElem hj]
  rfl

/-- the strings of the extended basis are reached by commutators -/
theorem StrAlg.liouvillianStrings_mem (R : StrAlg K 𝔸) {A : Basis} {O : Operator K} (hlen : O.coeffs.length = O.basis.len)
    (hA : ∀ s ∈ A.strs, R.Str s) (hO : ∀ s ∈ O.basis.strs, R.Str s) {L : Mat K} {ext : Basis} (h : liouvillianStrings A O .commutator = .ok (L, ext)) :
    ∀ t ∈ ext.strs, Reached R.Str R.den A.strs O none t := by
  obtain ⟨sc, strs, h1, h2, h3, h4, h5⟩ := R.structureConstants_ok .commutator (tol := 1 / 10 ^ 16) (by norm_num) (by norm_num) hA hO
  have he : ext = Basis.ofList strs := by
    unfold liouvillianStrings at h
    simp only [h1, bind, Except.bind] at h
    split at h
    · cases h
    · simp only [Except.ok.injEq, Prod.mk.injEq] at h; exact h.2.symm
  subst he
  intro t ht
  obtain ⟨sA, hsA, sB, hsB, c, hc⟩ := h5 t ht
  refine ⟨R.scProd_res hA hO (h5 t ht), sA, hsA, sB, ?_, by simp, ?_⟩
  · rw [Operator.termStrs, Operator.terms, List.map_snd_zip (le_of_eq hlen.symm)]
    exact hsB
  · rcases R.op_string .commutator (hA sA hsA) (hO sB hsB) with ⟨g1, _⟩ | ⟨c', C', g1, g2, g3, g4, _⟩
    · rw [g1] at hc; simp at hc
    · rw [g1] at hc
      simp only [Except.ok.injEq, Prod.mk.injEq, Option.some.injEq] at hc
      obtain ⟨rfl, rfl⟩ := hc
      refine ⟨c', ?_, g3⟩
      rintro rfl
      simp [bracketFactor] at g4

/-- a non-zero commutator can be inverted -/
theorem StrAlg.scEntry_back [Nontrivial 𝔸] (R : StrAlg K 𝔸) {a o b : OpString} (ha : R.Str a ∧ a.Canonical) (ho : R.Str o) (hb : R.Str b ∧ b.Canonical)
    (h : scEntry K .commutator a o b ≠ 0) : scEntry K .commutator a o b ^ 2 = -4 ∧ scEntry K .commutator b o a = -scEntry K .commutator a o b := by
  obtain ⟨c, c', C, hc⟩ := R.core a o ha.1 ho
  have hop : (operationOpString .commutator a o : Py (K × Option OpString)) = commutatorS a o := rfl
  rcases hc.brackets with ⟨-, h3, -⟩ | ⟨hcc, h3, -⟩
  · exact absurd (by simp [scEntry, hop, h3]) h
  have hCb : C = b := by
    by_contra e
    exact h (by simp [scEntry, hop, h3, e])
  subst hCb
  have he : scEntry K .commutator a o C = c * 2 := by simp [scEntry, hop, h3]
  have hab := hc.ab
  have hba := hc.ba
  rw [hcc] at hba
  -- c² = -1
  have hC := R.sq C hc.str
  have hcs : c * c = -1 := by
    have e1 : (c • R.den C) * (c • R.den C) = (c * c) • (1 : 𝔸) := by rw [smul_mul_smul_comm, hC]
    have e2 : (R.den a * R.den o) * (R.den a * R.den o) = -1 := by
      have : R.den o * R.den a = -(R.den a * R.den o) := by rw [hba, hab, neg_smul]
      calc (R.den a * R.den o) * (R.den a * R.den o) = R.den a * (R.den o * R.den a) * R.den o := by simp only [mul_assoc]
        _ = -(R.den a * R.den a * (R.den o * R.den o)) := by rw [this]; simp only [mul_neg, neg_mul, mul_assoc]
        _ = -1 := by rw [R.sq _ ha.1, R.sq _ ho, mul_one]
    rw [← hab, e2] at e1
    have e3 : (c * c + 1) • (1 : 𝔸) = 0 := by rw [add_smul, ← e1, one_smul]; simp
    rcases smul_eq_zero.mp e3 with e | e
    · linear_combination e
    · exact absurd e one_ne_zero
  have hc0 : c ≠ 0 := by rintro rfl; simp at hcs
  refine ⟨by rw [he]; linear_combination 4 * hcs, ?_⟩
  -- [b, o] = -2c a
  have hbo : R.den C * R.den o = (-c) • R.den a := by
    have : (c • R.den C) * R.den o = R.den a := by rw [← hab, mul_assoc, R.sq _ ho, mul_one]
    rw [smul_mul_assoc] at this
    rw [← this, smul_smul, show -c * c = 1 by rw [neg_mul, hcs, neg_neg], one_smul]
  have hob : R.den o * R.den C = c • R.den a := by
    have : R.den o * (-c • R.den C) = R.den a := by rw [← hba, ← mul_assoc, R.sq _ ho, one_mul]
    rw [mul_smul_comm] at this
    rw [← this, smul_smul, show c * -c = 1 by rw [mul_neg, hcs, neg_neg], one_smul]
  have hbr : bracketOf .commutator (R.den C) (R.den o) = (-(c * 2)) • R.den a := by
    show R.den C * R.den o - R.den o * R.den C = _
    rw [hbo, hob, ← sub_smul]; congr 1; ring
  have h20 : (2 : K) ≠ 0 := by
    intro e
    have := congrArg toC e
    simp at this
  have hne : -(c * 2) ≠ 0 := by
    rw [neg_ne_zero]; exact mul_ne_zero hc0 h20
  rw [he]
  rcases R.op_string .commutator hb.1 ho with ⟨g1, g2⟩ | ⟨d, D, g1, g2, g3, _, g5, _, g7⟩
  · rw [g2] at hbr
    rcases smul_eq_zero.mp hbr.symm with e | e
    · exact absurd e hne
    · have := R.sq _ ha.1; rw [e] at this; simp at this
  · rw [g3] at hbr
    have hd : R.den a = (d / -(c * 2)) • R.den D := by
      have e : (-(c * 2))⁻¹ • (d • R.den D) = (-(c * 2))⁻¹ • (-(c * 2)) • R.den a := by rw [hbr]
      rw [smul_smul (-(c*2))⁻¹ (-(c*2)), inv_mul_cancel₀ hne, one_smul, smul_smul] at e
      rw [← e]; congr 1; rw [div_eq_inv_mul]
    obtain ⟨e1, e2⟩ := R.same_string ha.1 g2 ha.2 ⟨g5, g7⟩ hd
    subst e1
    rw [div_eq_one_iff_eq hne] at e2
    simp [scEntry, g1, e2]

/-- the matrix of commutators with a string is Hermitian and imaginary -/
theorem StrAlg.scEntry_star [Nontrivial 𝔸] (R : StrAlg K 𝔸) {a o b : OpString} (ha : R.Str a ∧ a.Canonical) (ho : R.Str o) (hb : R.Str b ∧ b.Canonical) :
    star (scEntry K .commutator a o b) = -scEntry K .commutator a o b ∧ scEntry K .commutator b o a = -scEntry K .commutator a o b := by
  by_cases h : scEntry K .commutator a o b = 0
  · rw [h]
    refine ⟨by simp, ?_⟩
    by_contra h'
    rw [neg_zero] at h'
    have := (R.scEntry_back hb ho ha h').2
    rw [h] at this
    exact h' (neg_eq_zero.mp this.symm)
  · obtain ⟨h1, h2⟩ := R.scEntry_back ha ho hb h
    refine ⟨?_, h2⟩
    have : (scEntry K .commutator a o b - 2 * I) * (scEntry K .commutator a o b + 2 * I) = 0 := by
      have := I_mul_I (K := K)
      linear_combination h1 - 4 * this
    rcases mul_eq_zero.mp this with e | e
    · rw [sub_eq_zero] at e; rw [e]; simp
    · rw [add_eq_zero_iff_eq_neg] at e; rw [e]; simp

omit [Coef K] in
theorem star_list_sum {α : Type} (f : α → K) (l : List α) : star ((l.map f).sum) = (l.map (fun x => star (f x))).sum := by
  induction l with
  | nil => simp
  | cons x l ih => simp [ih]

/-- the Liouvillian matrix of a real operator between strings that are in both bases -/
theorem StrAlg.liouvillian_hermitian [Nontrivial 𝔸] (R : StrAlg K 𝔸) {A : Basis} {O : Operator K}
    (hA : ∀ s ∈ A.strs, R.Str s) (hO : ∀ s ∈ O.basis.strs, R.Str s) (hr : ∀ x ∈ O.coeffs, star x = x) {L : Mat K} {ext : Basis}
    (h : liouvillianStrings A O .commutator = .ok (L, ext)) (hext : ∀ s ∈ ext.strs, R.Str s ∧ s.Canonical)
    {c d i j : ℕ} (hc : c < ext.strs.length) (hd : d < ext.strs.length) (hi : i < A.strs.length) (hj : j < A.strs.length)
    (hci : ext.strs[c] = A.strs[i]) (hdj : ext.strs[d] = A.strs[j]) :
    star (L.get c j) = -L.get c j ∧ L.get d i = star (L.get c j) := by
  have e1 := R.liouvillianStrings_entry .commutator hA hO h c j hc hj
  have e2 := R.liouvillianStrings_entry .commutator hA hO h d i hd hi
  have key : ∀ t ∈ O.terms, star (t.1 * scEntry K .commutator A.strs[j] t.2 ext.strs[c]) = -(t.1 * scEntry K .commutator A.strs[j] t.2 ext.strs[c]) ∧
      t.1 * scEntry K .commutator A.strs[i] t.2 ext.strs[d] = star (t.1 * scEntry K .commutator A.strs[j] t.2 ext.strs[c]) := by
    intro t ht
    have ho := hO _ (mem_terms ht)
    have hx : star t.1 = t.1 := hr _ (List.of_mem_zip ht).1
    rw [← hdj, ← hci]
    obtain ⟨k1, k2⟩ := R.scEntry_star (K := K) (hext _ (List.getElem_mem hd)) ho (hext _ (List.getElem_mem hc))
    rw [star_mul', hx, k1, k2]
    exact ⟨by ring, rfl⟩
  rw [e1, e2, star_list_sum]
  constructor
  · rw [List.map_congr_left (fun t ht => (key t ht).1)]
    induction O.terms with
    | nil => simp
    | cons t l ih => simp only [List.map_cons, List.sum_cons, ih, neg_add]
  · exact congrArg _ (List.map_congr_left fun t ht => (key t ht).2)

end Qosy
