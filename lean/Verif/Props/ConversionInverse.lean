import Verif.Props.Conversion
import Verif.Lemmas.StrAlgInst
import Verif.Lemmas.PauliTrace
import Verif.Lemmas.Liouvillian
import Mathlib.LinearAlgebra.Matrix.NonsingularInverse
import Mathlib.LinearAlgebra.Matrix.Rank

/-! # Properties of conversion.py: the matrices of the two directions are inverse to each other (C97) -/

namespace Qosy
open Coef
variable {K : Type} [Field K] [StarRing K] [Coef K] {S : Set ℤ}

/-- the arguments of `conversion_matrix`: a nonempty basis of strings of one of the three types on the labels `0, …, n-1`,
whose conversion to another type does not fail -/
structure ConvertibleBasis (n : ℕ) (t : OpType) (b : Basis) : Prop where
  inv : b.Inv
  nonempty : b.strs ≠ []
  kind : t = .pauli ∨ t = .majorana ∨ t = .fermion
  type : ∀ s ∈ b.strs, s.opType = t
  valid : ∀ s ∈ b.strs, ValidString (siteLabels n) s
  conv : t = .fermion → ∀ s ∈ b.strs, FermionConvertible s false

private theorem ValidString.jw {n : ℕ} {s : OpString} (h : ValidString (siteLabels n) s) : ValidString (jwLabels (siteLabels n)) s := by
  have : jwLabels (siteLabels n) = siteLabels n := Set.Subset.antisymm (fun i h => h.2 i h.1 le_rfl) (fun i h => siteLabels_jw h)
  rw [this]; exact h

private theorem den_coords {𝔸 : Type} [Ring 𝔸] [Algebra K 𝔸] {O : Operator K} (h : O.coeffs.length = O.basis.len) (den : OpString → 𝔸) :
    O.den den = linComb den O.basis.strs (fun j => O.coeffs.getD j 0) := by
  show (List.map _ (O.coeffs.zip O.basis.strs)).sum = _
  rw [← Fin.sum_univ_fun_getElem]
  have hl : (O.coeffs.zip O.basis.strs).length = O.basis.strs.length := by
    rw [List.length_zip, h]; exact min_self _
  rw [linComb, ← Fin.sum_congr' _ hl]
  refine Finset.sum_congr rfl fun i _ => ?_
  have hi : (i : ℕ) < O.coeffs.length := by rw [h]; exact i.2.trans_eq hl
  simp [List.getElem?_eq_getElem hi]

private theorem linComb_snoc {𝔸 : Type} [Ring 𝔸] [Algebra K 𝔸] (den : OpString → 𝔸) (l : List OpString) (x : OpString) (w : ℕ → K) :
    linComb den (l ++ [x]) w = linComb den l w + w l.length • den x := by
  have hl : l.length + 1 = (l ++ [x]).length := by simp
  rw [linComb, ← Fin.sum_congr' _ hl, Fin.sum_univ_castSucc, linComb]
  congr 1
  · refine Finset.sum_congr rfl fun i _ => ?_
    simp
  · simp

private theorem conversion_step {n : ℕ} {fr tgt : Basis} {t t' : OpType} (hfr : ConvertibleBasis n t fr) (htg : ConvertibleBasis n t' tgt)
    {M : Mat K} (hM : conversionMatrix fr tgt = .ok M) :
    M.nrows = tgt.len ∧ M.ncols = fr.len ∧ ∀ g : ℕ → K, ∃ k : K,
      ∀ {𝔸 : Type} [Ring 𝔸] [Algebra K 𝔸] [StarRing 𝔸] [StarModule K 𝔸] (R : PauliRep K 𝔸 (siteLabels n)), R.Hermitian →
        linComb R.anyDen fr.strs g = linComb R.anyDen tgt.strs (M.mulVec g) + k • 1 := by
  have hv : ∀ s ∈ fr.strs, ValidString (jwLabels (siteLabels n)) s := fun s hs => (hfr.valid s hs).jw
  have hf : ∀ s ∈ fr.strs, s.opType = .fermion → t' ≠ .fermion → FermionConvertible s false :=
    fun s hs h _ => hfr.conv ((hfr.type s hs).symm.trans h) s hs
  have hmem : ∀ s ∈ fr.strs, ∀ O : Operator K, convertString s t' false = .ok O → ∀ u ∈ O.basis.strs, u ∈ tgt.strs := by
    intro s hs O hO u hu
    by_contra hn
    have := C32_missing (K := K) htg.inv htg.nonempty htg.type htg.kind hv hf ⟨s, hs, O, hO, u, hu, hn⟩
    rw [hM] at this
    exact absurd this (by simp)
  obtain ⟨M', m1, m2, m3, m4⟩ := C32_matrix (K := K) hfr.inv htg.inv hfr.nonempty htg.nonempty htg.type hfr.type htg.kind hv hf hmem
  rw [hM] at m1
  simp only [Except.ok.injEq] at m1
  subst m1
  refine ⟨m2, m3, fun g => ?_⟩
  set gl := (List.range fr.len).map g with hgl
  have hll : gl.length = fr.len := by simp [hgl]
  have hgd : ∀ j, j < fr.len → gl.getD j 0 = g j := fun j hj => by simp [hgl, List.getD, hj]
  have hA : (⟨gl, fr, t⟩ : Operator K).WF := ⟨hfr.inv, hll, hfr.type⟩
  obtain ⟨C, c1, c2, c3⟩ := m4 gl hll
  obtain ⟨C', k, d1, d2, d3, d4, -, d5⟩ := C32_operator (K := K) hA hv htg.kind false hf
  rw [c1] at d1
  simp only [Except.ok.injEq] at d1
  subst d1
  refine ⟨k, fun R hR => ?_⟩
  have e1 : linComb R.anyDen fr.strs g = (⟨gl, fr, t⟩ : Operator K).den R.anyDen := by
    rw [den_coords hll]
    refine Finset.sum_congr rfl fun i _ => ?_
    show _ = gl.getD i 0 • _
    rw [hgd i i.2]
  have e2 : linComb R.anyDen tgt.strs (M.mulVec g) = C.den R.anyDen := by
    rw [Operator.den, ← denT_eq_sum R.anyDen htg.inv.2 C.terms (fun u hu => c2 _ (List.of_mem_zip hu).2)]
    refine Finset.sum_congr rfl fun i _ => ?_
    congr 1
    have := c3 i i.2
    rw [Operator.coef] at this
    rw [show C.terms = C.terms from rfl, Fin.getElem_fin, this]
    refine Finset.sum_congr rfl fun j _ => ?_
    show _ = _ * gl.getD j 0
    rw [hgd j (m3 ▸ j.2)]
  rw [e1, e2, d5 R hR]

/-- **C97** (left inverse): let A be a basis of distinct Pauli or Majorana strings other than the identity in normal form, and B
a basis of strings of any type.  If both conversion matrices exist, `conversion_matrix(B, A)` times `conversion_matrix(A, B)` is
the identity matrix. -/
theorem C97_left_inverse {n : ℕ} {A B : Basis} {t t' : OpType} (hA : ConvertibleBasis n t A) (hB : ConvertibleBasis n t' B) (ht : t ≠ .fermion)
    (hid : ∀ s ∈ A.strs, s.ops ≠ [] ∧ s.Canonical) {M N : Mat K} (hM : conversionMatrix A B = .ok M) (hN : conversionMatrix B A = .ok N) :
    N.rect A.len B.len * M.rect B.len A.len = 1 := by
  obtain ⟨m1, m2, m3⟩ := conversion_step hA hB hM
  obtain ⟨n1, n2, n3⟩ := conversion_step hB hA hN
  have hR : (matRep K n).Hermitian := fun i hi => matRep_star K n i hi
  obtain ⟨L, l1, l2, l3, l4⟩ : ∃ L : StrAlg K (Matrix (Cfg n) (Cfg n) K), (∀ s ∈ A.strs, L.Str s) ∧ L.Str (identityString t) ∧
      (∀ s, s.opType = t → L.den s = (matRep K n).anyDen s) ∧ L.den (identityString t) = 1 := by
    rcases hA.kind with rfl | rfl | rfl
    · refine ⟨(matRep K n).strAlg, fun s hs => ?_, (identity_pauli _).1, fun s hs => by rw [PauliRep.anyDen, hs]; rfl, PauliRep.den_identity _⟩
      rcases hA.valid s hs with h | h | h
      · exact h
      · exact absurd (h.type.symm.trans (hA.type s hs)) (by decide)
      · exact absurd (h.type.symm.trans (hA.type s hs)) (by decide)
    · refine ⟨(matRep K n).jordanWigner.strAlg, fun s hs => ?_, ?_, fun s hs => by rw [PauliRep.anyDen, hs]; rfl, ?_⟩
      · rcases (hA.valid s hs).jw with h | h | h
        · exact absurd (h.type.symm.trans (hA.type s hs)) (by decide)
        · exact h
        · exact absurd (h.type.symm.trans (hA.type s hs)) (by decide)
      · exact ⟨rfl, by simp [identityString], rfl, by simp [identityString], by simp [identityString], by simp [identityString]⟩
      · show MajoranaRep.den _ _ = 1
        simp [MajoranaRep.den, identityString, wordProd, Pref.val]
    · exact absurd rfl ht
  have hanyid : (matRep K n).anyDen (identityString t) = 1 := by rw [← l3 _ rfl, l4]
  have hcol : ∀ (g : ℕ → K) (i : ℕ), i < A.len → N.mulVec (M.mulVec g) i = g i := by
    intro g i hi
    obtain ⟨k, hk⟩ := m3 g
    obtain ⟨k', hk'⟩ := n3 (M.mulVec g)
    have h0 := hk _ hR
    rw [hk' _ hR] at h0
    have hw := L.independent (strs := A.strs ++ [identityString t])
      (w := fun i => if i < A.len then g i - N.mulVec (M.mulVec g) i else -(k + k')) ?_ ?_ ?_ i (by simp; unfold Basis.len at hi; omega)
    · simp only [hi, if_true] at hw
      exact (sub_eq_zero.mp hw).symm
    · refine List.nodup_append.mpr ⟨hA.inv.2, by simp, ?_⟩
      rintro a ha b hb rfl
      rw [List.mem_singleton] at hb
      exact (hid a ha).1 (by rw [hb]; rfl)
    · intro s hs
      rcases List.mem_append.mp hs with h | h
      · exact ⟨l1 s h, (hid s h).2⟩
      · rw [List.mem_singleton.mp h]
        exact ⟨l2, by simp [identityString], Or.inr rfl⟩
    · rw [linComb_snoc, l4]
      have : linComb L.den A.strs (fun i => if i < A.len then g i - N.mulVec (M.mulVec g) i else -(k + k')) =
          linComb (matRep K n).anyDen A.strs g - linComb (matRep K n).anyDen A.strs (N.mulVec (M.mulVec g)) := by
        rw [linComb, linComb, linComb, ← Finset.sum_sub_distrib]
        refine Finset.sum_congr rfl fun j _ => ?_
        rw [if_pos (show (j : ℕ) < A.len from j.2), sub_smul, l3 A.strs[j] (hA.type _ (List.getElem_mem j.2))]
      rw [this, h0, if_neg (show ¬ A.strs.length < A.len from lt_irrefl _), neg_smul, add_smul]
      abel
  ext i j
  have := hcol (fun l => if l = j then 1 else 0) i i.2
  rw [Matrix.mul_apply, Matrix.one_apply]
  rw [Mat.mulVec, n2] at this
  have e : (if i = j then (1 : K) else 0) = if (i : ℕ) = j then 1 else 0 := by simp only [Fin.ext_iff]
  rw [e, ← this]
  refine Finset.sum_congr rfl fun l _ => ?_
  rw [Mat.mulVec, m2]
  simp only [Mat.rect]
  congr 1
  rw [Finset.sum_eq_single j (fun x _ hx => by rw [if_neg (fun h => hx (Fin.ext h)), mul_zero]) (fun h => absurd (Finset.mem_univ _) h)]
  simp

/-- **C97** (inverse): if moreover the bases have the same size, the two matrices are inverse to each other, as documented. -/
theorem C97_inverse {n : ℕ} {A B : Basis} {t t' : OpType} (hA : ConvertibleBasis n t A) (hB : ConvertibleBasis n t' B) (ht : t ≠ .fermion)
    (hid : ∀ s ∈ A.strs, s.ops ≠ [] ∧ s.Canonical) (hlen : A.len = B.len)
    {M N : Mat K} (hM : conversionMatrix A B = .ok M) (hN : conversionMatrix B A = .ok N) :
    N.rect A.len A.len * M.rect A.len A.len = 1 ∧ M.rect A.len A.len * N.rect A.len A.len = 1 := by
  have h := C97_left_inverse hA hB ht hid hM hN
  have h' : N.rect A.len A.len * M.rect A.len A.len = 1 := by
    rw [← hlen] at h
    exact h
  exact ⟨h', mul_eq_one_comm.mp h'⟩

/-- **C97** (sizes): both matrices can exist only if B is at least as large as A. -/
theorem C97_size {n : ℕ} {A B : Basis} {t t' : OpType} (hA : ConvertibleBasis n t A) (hB : ConvertibleBasis n t' B) (ht : t ≠ .fermion)
    (hid : ∀ s ∈ A.strs, s.ops ≠ [] ∧ s.Canonical) {M N : Mat K} (hM : conversionMatrix A B = .ok M) (hN : conversionMatrix B A = .ok N) :
    A.len ≤ B.len := by
  have h := C97_left_inverse hA hB ht hid hM hN
  have h1 : (1 : Matrix (Fin A.len) (Fin A.len) K).rank ≤ (M.rect B.len A.len).rank := by rw [← h]; exact Matrix.rank_mul_le_right _ _
  rw [Matrix.rank_one, Fintype.card_fin] at h1
  exact h1.trans ((Matrix.rank_le_card_height _).trans (by simp))

/-! ### Non-vacuity: the Majorana and the Fermion strings of one orbital -/

private def exM : Basis := Basis.ofList [⟨[.A], [1], .majorana, .float1⟩, ⟨[.B], [1], .majorana, .float1⟩, ⟨[.D], [1], .majorana, .float1⟩]
private def exF : Basis := Basis.ofList [⟨[.CDag, .C], [1, 1], .fermion, .float1⟩, ⟨[.CDag], [1], .fermion, .float1⟩, ⟨[.CDag], [1], .fermion, .imag⟩]

private theorem exM_ok : ConvertibleBasis 2 .majorana exM where
  inv := Basis.Inv.ofList (by decide)
  nonempty := by decide
  kind := Or.inr (Or.inl rfl)
  type := by decide
  valid s hs := by
    refine Or.inr (Or.inl ?_)
    simp only [exM, Basis.ofList, List.mem_cons, List.not_mem_nil, or_false] at hs
    rcases hs with rfl | rfl | rfl <;> exact ⟨rfl, by decide, rfl, by decide, by simp [siteLabels], by decide⟩
  conv h := absurd h (by decide)

private theorem exF_ok : ConvertibleBasis 2 .fermion exF where
  inv := Basis.Inv.ofList (by decide)
  nonempty := by decide
  kind := Or.inr (Or.inr rfl)
  type := by decide
  valid s hs := by
    refine Or.inr (Or.inr ?_)
    simp only [exF, Basis.ofList, List.mem_cons, List.not_mem_nil, or_false] at hs
    rcases hs with rfl | rfl | rfl <;> exact ⟨rfl, rfl, by decide, by decide, by decide, by simp [siteLabels]⟩
  conv _ s hs := by
    simp only [exF, Basis.ofList, List.mem_cons, List.not_mem_nil, or_false] at hs
    rcases hs with rfl | rfl | rfl
    · exact ⟨by decide, Or.inl (by decide), Or.inl (by decide)⟩
    · exact ⟨by decide, Or.inl (by decide), Or.inr (Or.inl (by decide))⟩
    · exact ⟨by decide, Or.inl (by decide), Or.inr (Or.inr ⟨1, by decide⟩)⟩

example : ∃ M N : Mat QI, clusterBasis (.int 1) [1] .majorana = .ok exM ∧ clusterBasis (.int 1) [1] .fermion = .ok exF ∧
    conversionMatrix exM exF = .ok M ∧ conversionMatrix exF exM = .ok N ∧
    N.rect 3 3 * M.rect 3 3 = 1 ∧ M.rect 3 3 * N.rect 3 3 = 1 ∧ M.get 0 2 = ⟨-2, 0⟩ ∧ N.get 2 0 = ⟨-1 / 2, 0⟩ := by
  obtain ⟨M, hM, m0⟩ : ∃ M : Mat QI, conversionMatrix exM exF = .ok M ∧ M.get 0 2 = ⟨-2, 0⟩ :=
    ⟨⟨3, 3, [(1, 0, 1), (2, 1, 1), (0, 2, ⟨-2, 0⟩)]⟩, by decide +kernel, by decide +kernel⟩
  obtain ⟨N, hN, n0⟩ : ∃ N : Mat QI, conversionMatrix exF exM = .ok N ∧ N.get 2 0 = ⟨-1 / 2, 0⟩ :=
    ⟨⟨3, 3, [(2, 0, ⟨-1 / 2, 0⟩), (0, 1, 1), (1, 2, 1)]⟩, by decide +kernel, by decide +kernel⟩
  obtain ⟨h1, h2⟩ := C97_inverse exM_ok exF_ok (by decide) (by
    intro s hs
    simp only [exM, Basis.ofList, List.mem_cons, List.not_mem_nil, or_false] at hs
    rcases hs with rfl | rfl | rfl <;> simp [OpString.Canonical]) rfl hM hN
  exact ⟨M, N, by decide +kernel, by decide +kernel, hM, hN, h1, h2, m0, n0⟩

/-- **C97**, the boundary: with an empty source basis `conversion_matrix` raises TypeError instead of returning an empty matrix. -/
theorem C97_empty {A : Basis} (hA : A.strs = []) (B : Basis) : conversionMatrix A B = (.error .typeError : Py (Mat K)) := by
  rw [conversionMatrix, if_pos (by rw [Basis.len, hA]; rfl)]

end Qosy
