import Verif.Lemmas.Core
import Verif.Lemmas.SymmetryMatrix
import Verif.Lemmas.Sends
import Verif.Lemmas.MatOf
import Verif.Props.Transformation
import Verif.Lemmas.Liouvillian
import Verif.Spec.Core

/-! # `invariant_operators` -/

namespace Qosy
open Matrix Coef
variable {t : OpType} {V : OpString → Prop}

/-! ### compressions of contractions -/

section
variable {m n : ℕ} {W : Matrix (Fin m) (Fin n) ℂ} {S : Matrix (Fin m) (Fin m) ℂ}

theorem isometry_vnorm (hW : Wᴴ * W = 1) (v : Fin n → ℂ) : vnorm (W *ᵥ v) = vnorm v := by
  have h : vnorm (W *ᵥ v) ^ 2 = vnorm v ^ 2 := by rw [vnorm_sq_re, vnorm_sq_re, vdot_isometry hW]
  have h1 := vnorm_nonneg (W *ᵥ v)
  have h2 := vnorm_nonneg v
  nlinarith

theorem isometry_adjoint (hW : Wᴴ * W = 1) (u : Fin m → ℂ) : vnorm (Wᴴ *ᵥ u) ≤ vnorm u := by
  have h0 := sq_nonneg (vnorm (u - ((1 : ℝ) : ℂ) • (W *ᵥ (Wᴴ *ᵥ u))))
  rw [vnorm_sub_smul_sq, vdot_mulVec_left, ← vnorm_sq_re, isometry_vnorm hW] at h0
  have h3 : vnorm (Wᴴ *ᵥ u) ^ 2 ≤ vnorm u ^ 2 := by linarith
  exact contraction_adjoint.le_of_sq_le_sq h3 (vnorm_nonneg _)

theorem compression_contraction (hW : Wᴴ * W = 1) (hS : ∀ u, vnorm (S *ᵥ u) ≤ vnorm u) (v : Fin n → ℂ) :
    vnorm ((Wᴴ * S * W) *ᵥ v) ≤ vnorm v := by
  rw [← Matrix.mulVec_mulVec, ← Matrix.mulVec_mulVec]
  exact ((isometry_adjoint hW _).trans (hS _)).trans (isometry_vnorm hW v).le

theorem compression_form (v : Fin n → ℂ) : vdot v ((Wᴴ * S * W) *ᵥ v) = vdot (W *ᵥ v) (S *ᵥ (W *ᵥ v)) := by
  rw [← Matrix.mulVec_mulVec, ← Matrix.mulVec_mulVec, vdot_mulVec_right, conjTranspose_conjTranspose]

theorem compression_near (hW : Wᴴ * W = 1) (hS : ∀ u, vnorm (S *ᵥ u) ≤ vnorm u) {σ : ℝ} (hσ : σ ^ 2 = 1) {δ : ℝ} {v : Fin n → ℂ}
    (h : ‖vdot v (hermitianPart (Wᴴ * S * W) *ᵥ v) - σ * vdot v v‖ ≤ δ) : vnorm (S *ᵥ (W *ᵥ v) - (σ : ℂ) • (W *ᵥ v)) ^ 2 ≤ 2 * δ := by
  apply contraction_near hS hσ
  rw [hermitianPart_form, vdot_isometry hW, ← compression_form, ← hermitianPart_form]
  exact h

theorem compression_eigen (hW : Wᴴ * W = 1) (hS : ∀ u, vnorm (S *ᵥ u) ≤ vnorm u) {σ : ℝ} (hσ : σ ^ 2 = 1) (v : Fin n → ℂ) :
    (Wᴴ * S * W) *ᵥ v = (σ : ℂ) • v ↔ S *ᵥ (W *ᵥ v) = (σ : ℂ) • (W *ᵥ v) := by
  constructor
  · intro h
    have hn : hermitianPart (Wᴴ * S * W) *ᵥ v = (σ : ℂ) • v := (contraction_eigen (compression_contraction hW hS) hσ v).mpr h
    have := compression_near hW hS hσ (δ := 0) (v := v) (by rw [hn, vdot_smul, sub_self, norm_zero])
    rw [← sub_eq_zero, ← vnorm_eq_zero]
    nlinarith [vnorm_nonneg (S *ᵥ (W *ᵥ v) - (σ : ℂ) • (W *ᵥ v))]
  · intro h
    rw [← Matrix.mulVec_mulVec, ← Matrix.mulVec_mulVec, h, mulVec_smul, Matrix.mulVec_mulVec, hW, Matrix.one_mulVec]

end

/-! ### the matrix of a transformation that permutes strings up to signs -/

section
variable {T : Transformation ℂ} {ε : OpString → ℂ} {f : OpString → OpString}

/-- the matrix of a transformation on a list of strings -/
noncomputable def entryMatrix (T : Transformation ℂ) (l : List OpString) : Matrix (Fin l.length) (Fin l.length) ℂ := fun i j => T.entry l[i] l[j]

theorem entryMatrix_gram (h : SignRule T t V ε f) (hinj : Set.InjOn f {s | V s}) {l : List OpString} (hn : l.Nodup) (hl : ∀ s ∈ l, V s) :
    (entryMatrix T l)ᴴ * entryMatrix T l = Matrix.diagonal (fun j => if f l[j] ∈ l then 1 else 0) := by
  have he : ∀ i j : Fin l.length, entryMatrix T l i j = if f l[j] = l[i] then ε l[j] else 0 :=
    fun i j => Sends.entry (h.sends _ (hl _ (List.getElem_mem j.2))) _
  ext j k
  rw [Matrix.mul_apply, Matrix.diagonal_apply]
  simp only [conjTranspose_apply, he]
  by_cases hm : f l[j] ∈ l
  · obtain ⟨m, hm1, hm2⟩ := List.getElem_of_mem hm
    rw [Finset.sum_eq_single (⟨m, hm1⟩ : Fin l.length)]
    · simp only [Fin.getElem_fin] at hm2 hm ⊢
      rw [if_pos hm2.symm, if_pos hm, sign_star (h.sign _ (hl _ (List.getElem_mem j.2)))]
      by_cases hjk : j = k
      · subst hjk
        rw [if_pos hm2.symm, if_pos rfl, sign_mul_self (h.sign _ (hl _ (List.getElem_mem j.2)))]
      · rw [if_neg hjk, if_neg, mul_zero]
        intro he'
        rw [hm2] at he'
        have := hinj (hl _ (List.getElem_mem k.2)) (hl _ (List.getElem_mem j.2)) he'
        exact hjk (Fin.ext ((hn.getElem_inj_iff).mp this).symm)
    · intro i _ hi
      rw [if_neg, star_zero, zero_mul]
      intro he'
      apply hi
      simp only [Fin.getElem_fin] at he' hm2
      rw [← hm2] at he'
      exact Fin.ext ((hn.getElem_inj_iff).mp he').symm
    · simp
  · rw [if_neg hm]
    rw [Finset.sum_eq_zero, ite_self]
    intro i _
    rw [if_neg, star_zero, zero_mul]
    intro he'; exact hm (he' ▸ List.getElem_mem i.2)

theorem entryMatrix_contraction (h : SignRule T t V ε f) (hinj : Set.InjOn f {s | V s}) {l : List OpString} (hn : l.Nodup) (hl : ∀ s ∈ l, V s)
    (u : Fin l.length → ℂ) : vnorm (entryMatrix T l *ᵥ u) ≤ vnorm u := by
  apply contraction_adjoint.le_of_sq_le_sq _ (vnorm_nonneg _)
  rw [vnorm_sq_re, vdot_mulVec_left, Matrix.mulVec_mulVec, entryMatrix_gram h hinj hn hl, vnorm_sq_re]
  simp only [vdot, Matrix.mulVec_diagonal, Complex.re_sum]
  refine Finset.sum_le_sum (fun j _ => ?_)
  have e : ∀ z : ℂ, (star z * z).re = Complex.normSq z := by
    intro z
    have := Complex.normSq_eq_conj_mul_self (z := z)
    rw [show star z * z = (starRingEnd ℂ) z * z from rfl, ← this, Complex.ofReal_re]
  split
  · rw [one_mul]
  · rw [zero_mul, mul_zero, e, Complex.zero_re]; exact Complex.normSq_nonneg _

/-- the matrix applied to coefficients gives the coefficients of the transformed operator -/
theorem entryMatrix_apply (hT : T.Maps t V) {l : List OpString} (hn : l.Nodup) {A B : Operator ℂ} (hA : A.On t V) (hAl : ∀ s ∈ A.basis.strs, s ∈ l)
    (hB : T.apply A = .ok B) (i : Fin l.length) : B.coef l[i] = (entryMatrix T l *ᵥ (fun j => A.coef l[j])) i := by
  obtain ⟨B', h1, h2, h3⟩ := apply_ok hT hA
  rw [hB] at h1
  obtain rfl : B = B' := by simpa using h1
  rw [h3, sum_terms_basis hn hAl (fun s => T.entry l[i] s)]
  simp only [Matrix.mulVec, dotProduct, entryMatrix]
  exact Finset.sum_congr rfl (fun j _ => mul_comm _ _)

end

theorem sum_fin_toFinset {M : Type} [AddCommMonoid M] {l : List OpString} (hn : l.Nodup) (g : OpString → M) :
    ∑ i : Fin l.length, g l[i] = ∑ s ∈ l.toFinset, g s := by
  rw [List.sum_toFinset _ hn]
  simpa using Fin.sum_univ_fun_getElem l g

theorem coef_zero_of_not_mem {A : Operator ℂ} {s : OpString} (h : s ∉ A.basis.strs) : A.coef s = 0 := by
  apply coefT_of_not_mem
  intro hm
  obtain ⟨y, hy, rfl⟩ := List.mem_map.mp hm
  exact h (mem_terms hy)

/-! ### the main lemma -/

/-- `M` is the compression of `T` to the orthonormal vectors `cf`, supported on the strings `l` -/
structure Compression (T : Transformation ℂ) (l : List OpString) {n : ℕ} (cf : Fin n → OpString → ℂ) (M : Matrix (Fin n) (Fin n) ℂ) : Prop where
  support : ∀ j s, s ∉ l → cf j s = 0
  ortho : ∀ i j, ∑ s ∈ l.toFinset, star (cf i s) * cf j s = if i = j then 1 else 0
  entries : ∀ c a, M c a = ∑ s ∈ l.toFinset, ∑ s' ∈ l.toFinset, star (cf c s) * T.entry s s' * cf a s'

/-- coefficient vectors as columns -/
def coefColumns {n : ℕ} (l : List OpString) (cf : Fin n → OpString → ℂ) : Matrix (Fin l.length) (Fin n) ℂ := fun i j => cf j l[i]

section
variable {T : Transformation ℂ} {l l' : List OpString} {n : ℕ} {cf : Fin n → OpString → ℂ} {M : Matrix (Fin n) (Fin n) ℂ}

theorem Compression.mono (h : Compression T l cf M) (hs : ∀ s ∈ l, s ∈ l') : Compression T l' cf M := by
  have hsub : l.toFinset ⊆ l'.toFinset := by
    intro s hs'
    rw [List.mem_toFinset] at hs' ⊢
    exact hs s hs'
  refine ⟨fun j s hsl => h.support j s (fun hm => hsl (hs s hm)), ?_, ?_⟩
  · intro i j
    rw [← h.ortho i j]
    symm
    apply Finset.sum_subset hsub
    intro s _ hsl
    rw [h.support j s (by simpa using hsl), mul_zero]
  · intro c a
    rw [h.entries c a]
    rw [Finset.sum_subset hsub]
    · refine Finset.sum_congr rfl (fun s _ => Finset.sum_subset hsub ?_)
      intro s' _ hsl
      rw [h.support a s' (by simpa using hsl), mul_zero]
    · intro s _ hsl
      apply Finset.sum_eq_zero
      intro s' _
      rw [h.support c s (by simpa using hsl), star_zero, zero_mul, zero_mul]

theorem Compression.isometry (h : Compression T l cf M) (hn : l.Nodup) : (coefColumns l cf)ᴴ * coefColumns l cf = 1 := by
  ext i j
  rw [Matrix.mul_apply, Matrix.one_apply, ← h.ortho i j, ← sum_fin_toFinset hn (fun s => star (cf i s) * cf j s)]
  rfl

theorem Compression.eq (h : Compression T l cf M) (hn : l.Nodup) : M = (coefColumns l cf)ᴴ * entryMatrix T l * coefColumns l cf := by
  ext c a
  rw [h.entries, Matrix.mul_apply, ← sum_fin_toFinset hn (fun s => ∑ s' ∈ l.toFinset, star (cf c s) * T.entry s s' * cf a s')]
  simp only [Matrix.mul_apply, Finset.sum_mul]
  rw [Finset.sum_comm (f := fun j i => (coefColumns l cf)ᴴ c i * entryMatrix T l i j * coefColumns l cf j a)]
  refine Finset.sum_congr rfl (fun i _ => ?_)
  rw [← sum_fin_toFinset hn (fun s' => star (cf c l[i]) * T.entry l[i] s' * cf a s')]
  rfl

end

section
variable {T : Transformation ℂ} {ε : OpString → ℂ} {f : OpString → OpString} {l : List OpString} {n : ℕ} {cf : Fin n → OpString → ℂ}
  {M : Matrix (Fin n) (Fin n) ℂ}

/-- a list with all strings of the basis, of an operator and of its image -/
theorem big_list (h : SignRule T t V ε f) (hn : l.Nodup) (hl : ∀ s ∈ l, V s) {A B : Operator ℂ} (hA : A.On t V) (hB : T.apply A = .ok B) :
    ∃ l' : List OpString, l'.Nodup ∧ (∀ s ∈ l', V s) ∧ (∀ s ∈ l, s ∈ l') ∧ (∀ s ∈ A.basis.strs, s ∈ l') ∧ ∀ s ∈ B.basis.strs, s ∈ l' := by
  obtain ⟨B', h1, h2, -⟩ := apply_ok h.maps hA
  rw [hB] at h1
  obtain rfl : B = B' := by simpa using h1
  refine ⟨unionList (unionList l A.basis.strs) B.basis.strs, unionList_nodup (unionList_nodup hn _) _, ?_, ?_, ?_, ?_⟩
  · intro s hs
    rcases mem_unionList.mp hs with hs | hs
    · rcases mem_unionList.mp hs with hs | hs
      · exact hl s hs
      · exact hA.mem s hs
    · exact h2.mem s hs
  · intro s hs; exact mem_unionList.mpr (Or.inl (mem_unionList.mpr (Or.inl hs)))
  · intro s hs; exact mem_unionList.mpr (Or.inl (mem_unionList.mpr (Or.inr hs)))
  · intro s hs; exact mem_unionList.mpr (Or.inr hs)

theorem Compression.contraction (hM : Compression T l cf M) (h : SignRule T t V ε f) (hinj : Set.InjOn f {s | V s}) (hn : l.Nodup)
    (hl : ∀ s ∈ l, V s) (v : Fin n → ℂ) : vnorm (M *ᵥ v) ≤ vnorm v := by
  rw [hM.eq hn]
  exact compression_contraction (hM.isometry hn) (entryMatrix_contraction h hinj hn hl) v

theorem coefColumns_mulVec {A : Operator ℂ} {v : Fin n → ℂ} (hv : ∀ s, A.coef s = ∑ j, v j * cf j s) :
    coefColumns l cf *ᵥ v = fun i => A.coef l[i] := by
  funext i
  rw [hv, Matrix.mulVec, dotProduct]
  exact Finset.sum_congr rfl (fun j _ => mul_comm (cf j l[i]) (v j))

theorem Compression.near (hM : Compression T l cf M) (h : SignRule T t V ε f) (hinj : Set.InjOn f {s | V s}) (hn : l.Nodup)
    (hl : ∀ s ∈ l, V s) {σ : ℤ} (hσ : σ ^ 2 = 1) {δ : ℝ} {v : Fin n → ℂ}
    (hδ : ‖vdot v (hermitianPart M *ᵥ v) - ((σ : ℝ) : ℂ) * vdot v v‖ ≤ δ) {A B : Operator ℂ} (hA : A.On t V)
    (hv : ∀ s, A.coef s = ∑ j, v j * cf j s) (hB : T.apply A = .ok B) (F : Finset OpString) :
    ∑ s ∈ F, ‖B.coef s - σ * A.coef s‖ ^ 2 ≤ 2 * δ := by
  obtain ⟨l', b1, b2, b3, b4, b5⟩ := big_list h hn hl hA hB
  have hM' := hM.mono b3
  rw [hM'.eq b1] at hδ
  have hσ' : ((σ : ℝ)) ^ 2 = 1 := by exact_mod_cast hσ
  have key := compression_near (hM'.isometry b1) (entryMatrix_contraction h hinj b1 b2) hσ' hδ
  rw [coefColumns_mulVec hv, vnorm, Real.sq_sqrt (Finset.sum_nonneg (fun i _ => by positivity))] at key
  have e : ∀ i : Fin l'.length, (entryMatrix T l' *ᵥ (fun i => A.coef l'[i]) - (((σ : ℝ)) : ℂ) • (fun i => A.coef l'[i] : Fin l'.length → ℂ) : Fin l'.length → ℂ) i = B.coef l'[i] - σ * A.coef l'[i] := by
    intro i
    rw [Pi.sub_apply, ← entryMatrix_apply h.maps b1 hA b4 hB]
    simp
  simp only [e] at key
  rw [sum_fin_toFinset b1 (fun s => ‖B.coef s - σ * A.coef s‖ ^ 2)] at key
  refine le_trans ?_ key
  calc ∑ s ∈ F, ‖B.coef s - σ * A.coef s‖ ^ 2 ≤ ∑ s ∈ F ∪ l'.toFinset, ‖B.coef s - σ * A.coef s‖ ^ 2 :=
        Finset.sum_le_sum_of_subset_of_nonneg Finset.subset_union_left (fun _ _ _ => by positivity)
    _ = ∑ s ∈ l'.toFinset, ‖B.coef s - σ * A.coef s‖ ^ 2 := by
        symm
        apply Finset.sum_subset Finset.subset_union_right
        intro s _ hs
        have hs' : s ∉ l' := by simpa using hs
        rw [coef_zero_of_not_mem (fun hm => hs' (b4 s hm)), coef_zero_of_not_mem (fun hm => hs' (b5 s hm))]
        simp

theorem Compression.eigen_iff (hM : Compression T l cf M) (h : SignRule T t V ε f) (hinj : Set.InjOn f {s | V s}) (hn : l.Nodup)
    (hl : ∀ s ∈ l, V s) {σ : ℤ} (hσ : σ ^ 2 = 1) {v : Fin n → ℂ} {A B : Operator ℂ} (hA : A.On t V)
    (hv : ∀ s, A.coef s = ∑ j, v j * cf j s) (hB : T.apply A = .ok B) :
    hermitianPart M *ᵥ v = ((σ : ℝ) : ℂ) • v ↔ ∀ s, B.coef s = σ * A.coef s := by
  have hσ' : ((σ : ℝ)) ^ 2 = 1 := by exact_mod_cast hσ
  constructor
  · intro he s
    have := hM.near h hinj hn hl hσ (δ := 0) (v := v) (by rw [he, vdot_smul, sub_self, norm_zero]) hA hv hB {s}
    rw [Finset.sum_singleton] at this
    have h0 : ‖B.coef s - σ * A.coef s‖ = 0 := by nlinarith [norm_nonneg (B.coef s - σ * A.coef s)]
    exact sub_eq_zero.mp (norm_eq_zero.mp h0)
  · intro hs
    obtain ⟨l', b1, b2, b3, b4, b5⟩ := big_list h hn hl hA hB
    have hM' := hM.mono b3
    rw [contraction_eigen (hM.contraction h hinj hn hl) hσ', hM'.eq b1,
      compression_eigen (hM'.isometry b1) (entryMatrix_contraction h hinj b1 b2) hσ', coefColumns_mulVec hv]
    funext i
    rw [← entryMatrix_apply h.maps b1 hA b4 hB, hs]
    simp

end

/-! ### the symmetry matrix is a compression -/

section
variable {T : Transformation ℂ} {ε : OpString → ℂ} {f : OpString → OpString}

theorem SignRule.entry_cut (h : SignRule T t V ε f) {tol : ℚ} (htol : tol < 1) {s : OpString} (hs : V s) (s' : OpString) :
    dropSmall tol (T.entry s' s) = T.entry s' s := by
  apply dropSmall_eq
  rw [Sends.entry (h.sends s hs)]
  split
  · right
    rw [absGt_iff]
    rcases h.sign s hs with h' | h' <;> rw [h'] <;> simp <;> exact_mod_cast htol
  · left; rfl

theorem SignRule.images (h : SignRule T t V ε f) {l : List OpString} (hl : ∀ s ∈ l, V s) : ∀ s ∈ l, ∃ O, T s = .ok O ∧ O.WF := by
  intro s hs
  obtain ⟨O, o1, o2, -⟩ := h.maps.ok s (hl s hs)
  exact ⟨O, o1, o2⟩

/-- an inverse on the left from the Penrose equations -/
theorem pinv_isometry {m n : ℕ} {C : Matrix (Fin m) (Fin n) ℂ} {P : Matrix (Fin n) (Fin m) ℂ} (hC : Cᴴ * C = 1) (h1 : C * P * C = C)
    (h2 : (C * P)ᴴ = C * P) : P = Cᴴ := by
  have h3 : P * C = 1 := by
    have := congrArg (fun X => Cᴴ * X) h1
    simp only [← Matrix.mul_assoc] at this
    rw [hC, Matrix.one_mul] at this
    exact this
  have h4 : P = Cᴴ * (C * P) := by rw [← Matrix.mul_assoc, hC, Matrix.one_mul]
  rw [h4, ← h2, conjTranspose_mul, ← Matrix.mul_assoc, ← conjTranspose_mul, h3, conjTranspose_one, Matrix.one_mul]

theorem symmetryMatrixOf_compression (h : SignRule T t V ε f) {pinv : Mat ℂ → Py (Mat ℂ)} (hp : IsPinv pinv) {x : BasisArg ℂ}
    (hx : x.Orthonormal t V) (hne : x ≠ .operators []) : ∃ (M : Mat ℂ) (l : List OpString), symmetryMatrixOf pinv x T = .ok M ∧ M.ncols = x.len ∧ l.Nodup ∧
      (∀ s ∈ l, V s) ∧ Compression T l x.coef (fun i j => M.get i j) := by
  have htol : tolTransformation < 1 := by rw [tolTransformation]; norm_num
  match x, hx, hne with
  | .strings b, hx, _ =>
    obtain ⟨hb, hV⟩ := hx
    obtain ⟨M, h1, h2, h3, h4, h5⟩ := symmetryMatrix_ok (tol := tolTransformation) hb.2 (h.images hV)
    rw [← hb.1] at h1
    refine ⟨M, b.strs, h1, h3, hb.2, hV, ?_, ?_, ?_⟩
    · intro j s hs
      show (if b.strs[(j : ℕ)]'j.2 = s then (1 : ℂ) else 0) = 0
      rw [if_neg]
      rintro rfl; exact hs (List.getElem_mem _)
    · intro i j
      show ∑ s ∈ b.strs.toFinset, star (if b.strs[(i : ℕ)]'i.2 = s then (1 : ℂ) else 0) * (if b.strs[(j : ℕ)]'j.2 = s then (1 : ℂ) else 0) = _
      rw [Finset.sum_eq_single (b.strs[(i : ℕ)]'i.2)]
      · rw [if_pos rfl, star_one, one_mul]
        by_cases hij : i = j
        · subst hij; simp
        · rw [if_neg hij, if_neg]
          intro he
          exact hij (Fin.ext ((hb.2.getElem_inj_iff).mp he).symm)
      · intro s _ hs
        rw [if_neg (fun he => hs he.symm), star_zero, zero_mul]
      · intro hs; exact absurd (List.mem_toFinset.mpr (List.getElem_mem _)) hs
    · intro (c : Fin b.strs.length) (a : Fin b.strs.length)
      show M.get c a = ∑ s ∈ b.strs.toFinset, ∑ s' ∈ b.strs.toFinset, star (if b.strs[(c : ℕ)]'c.2 = s then (1 : ℂ) else 0) * T.entry s s' *
        (if b.strs[(a : ℕ)]'a.2 = s' then (1 : ℂ) else 0)
      rw [Finset.sum_eq_single (b.strs[(c : ℕ)]'c.2), Finset.sum_eq_single (b.strs[(a : ℕ)]'a.2)]
      · rw [if_pos rfl, if_pos rfl, star_one, one_mul, mul_one, h5 c a c.2 a.2, h.entry_cut htol (hV _ (List.getElem_mem _))]
      · intro s' _ hs
        rw [if_neg (show ¬ b.strs[(a : ℕ)]'a.2 = s' from fun he => hs he.symm), mul_zero]
      · intro hs; exact absurd (List.mem_toFinset.mpr (List.getElem_mem _)) hs
      · intro s _ hs
        apply Finset.sum_eq_zero
        intro s' _
        rw [if_neg (fun he => hs he.symm), star_zero, zero_mul, zero_mul]
      · intro hs; exact absurd (List.mem_toFinset.mpr (List.getElem_mem _)) hs
  | .operators ops, hx, hne =>
    obtain ⟨hops, horth⟩ := hx
    obtain ⟨l, b1, b2, b3⟩ := foldl_iadd_ofList ops [] (by simp)
    have b1' : ops.foldl (fun b op => b.iadd op.basis) emptyBasis = Basis.ofList l := b1
    have hl : ∀ s ∈ l, V s := by
      intro s hs
      rcases (b3 s).mp hs with h | ⟨o, ho, h⟩
      · simp at h
      · exact (hops o ho).mem s h
    have hin : ∀ o ∈ ops, ∀ s ∈ o.basis.strs, s ∈ l := fun o ho s hs => (b3 s).mpr (Or.inr ⟨o, ho, hs⟩)
    obtain ⟨D, d1, d2, d3⟩ := operatorsData_ok b2 ops 0 [] hin
    have hC : (⟨l.length, ops.length, D⟩ : Mat ℂ).WF := fun e he => by have := d2 e he; exact ⟨this.1, by simpa using this.2.2⟩
    have hCg : ∀ (i : ℕ) (hi : i < l.length) (j : ℕ) (hj : j < ops.length), (⟨l.length, ops.length, D⟩ : Mat ℂ).get i j = ops[j].coef l[i] := by
      intro i hi j hj
      rw [Mat.get_eq]
      have := d3 i hi j hj
      rw [Nat.zero_add] at this
      exact this
    obtain ⟨P, p1, p2, p3, p4, p5, p6⟩ := hp _ hC
    obtain ⟨S, s1, s2, s3, s4, s5⟩ := symmetryMatrix_ok (T := T) (tol := tolTransformation) b2 (h.images hl)
    obtain ⟨SC, c1, c2, c3, c4, c5⟩ := Mat.dot_ok s4 hC s3
    obtain ⟨M, m1, m2, m3, m4, m5⟩ := Mat.dot_ok p2 c4 (by rw [p4, c2, s2])
    have hsupp : ∀ (j : Fin ops.length) s, s ∉ l → (BasisArg.operators ops).coef j s = 0 := by
      intro j s hs
      exact coef_zero_of_not_mem (fun hm => hs (hin _ (List.getElem_mem j.2) s hm))
    have hort : ∀ i j : Fin ops.length, ∑ s ∈ l.toFinset, star ((BasisArg.operators ops).coef i s) * (BasisArg.operators ops).coef j s = if i = j then 1 else 0 := by
      intro i j
      have := horth i j i.2 j.2
      simp only [Fin.val_inj] at this
      rw [← this]
      symm
      apply Finset.sum_subset
      · intro s hs
        rw [List.mem_toFinset] at hs ⊢
        exact hin _ (List.getElem_mem i.2) s hs
      · intro s _ hs
        have : ops[(i : ℕ)].coef s = 0 := coef_zero_of_not_mem (by simpa using hs)
        rw [this, star_zero, zero_mul]
    -- the columns of `C` are orthonormal, so `P` is the conjugate transpose
    have hCC : (⟨l.length, ops.length, D⟩ : Mat ℂ).toMatrixᴴ * (⟨l.length, ops.length, D⟩ : Mat ℂ).toMatrix = 1 := by
      ext i j
      rw [Matrix.mul_apply, Matrix.one_apply]
      rw [← hort i j, ← sum_fin_toFinset b2 (fun s => star ((BasisArg.operators ops).coef i s) * (BasisArg.operators ops).coef j s)]
      refine Finset.sum_congr rfl (fun k _ => ?_)
      rw [conjTranspose_apply]
      show star ((⟨l.length, ops.length, D⟩ : Mat ℂ).get k i) * (⟨l.length, ops.length, D⟩ : Mat ℂ).get k j = _
      rw [hCg k k.2 i i.2, hCg k k.2 j j.2]; rfl
    have hP := pinv_isometry hCC p5 p6
    refine ⟨M, l, ?_, by rw [m3, c3]; rfl, b2, hl, hsupp, hort, ?_⟩
    · obtain ⟨o, os, rfl⟩ := List.exists_cons_of_ne_nil (fun e => hne (congrArg _ e))
      show symmetryMatrixOperators pinv (o :: os) T _ = _
      have hod : operatorsData (Basis.ofList l) (o :: os) = .ok D := by
        rw [operatorsData]; simpa using d1
      unfold symmetryMatrixOperators
      simp only [b1', hod, bind, Except.bind, show (Basis.ofList l).len = l.length from rfl, mkCsr_ok hC, p1, s1, c1, m1]
    · intro c a
      show M.get c a = _
      rw [m5, p4, ← sum_fin_toFinset b2 (fun s => ∑ s' ∈ l.toFinset, star ((BasisArg.operators ops).coef c s) * T.entry s s' *
        (BasisArg.operators ops).coef a s')]
      refine Finset.sum_congr rfl (fun k _ => ?_)
      rw [← sum_fin_toFinset b2 (fun s' => star ((BasisArg.operators ops).coef c l[k]) * T.entry l[k] s' * (BasisArg.operators ops).coef a s')]
      have e1 : P.get c k = star (ops[(c : ℕ)].coef l[k]) := by
        have h0 : P.get c k = star ((⟨l.length, ops.length, D⟩ : Mat ℂ).get k c) := congrFun (congrFun hP c) k
        exact h0.trans (congrArg star (hCg k k.2 c c.2))
      rw [e1, c5, s3, Finset.mul_sum]
      refine Finset.sum_congr rfl (fun j _ => ?_)
      rw [s5 k j k.2 j.2, h.entry_cut htol (hl _ (List.getElem_mem _)), hCg j j.2 a a.2, ← mul_assoc]; rfl

/-! ### `invariant_operators` -/

theorem superoperator_mulVec {n : ℕ} {H : Matrix (Fin n) (Fin n) ℂ} {σ : ℤ} (hσ : σ ^ 2 = 1) (z : Fin n → ℂ) (μ : ℝ) :
    (1 - (σ : ℂ) • H) *ᵥ z = (μ : ℂ) • z ↔ H *ᵥ z = ((σ * (1 - μ) : ℝ) : ℂ) • z := by
  have hs : (σ : ℂ) * σ = 1 := by exact_mod_cast (by rw [← sq]; exact hσ : σ * σ = 1)
  rw [sub_mulVec, one_mulVec, smul_mulVec]
  constructor
  · intro h
    have h' : (σ : ℂ) • (H *ᵥ z) = (1 - (μ : ℂ)) • z := by
      rw [sub_smul, one_smul, ← h]; abel
    have := congrArg (fun w => (σ : ℂ) • w) h'
    simp only [smul_smul, hs, one_smul] at this
    rw [this]; push_cast; rfl
  · intro h
    rw [h, smul_smul]
    push_cast
    rw [← mul_assoc, hs, one_mul, sub_smul, one_smul]; abel

theorem invariantOperators_ok (h : SignRule T t V ε f) (hinj : Set.InjOn f {s | V s}) {pinv : Mat ℂ → Py (Mat ℂ)} (hp : IsPinv pinv) {x : BasisArg ℂ}
    (hx : x.Orthonormal t V) (hne : x ≠ .operators []) {eigh : Eigh} (he : ExactEigh eigh) {mode : String} {sign : ℤ}
    (hs : symmetrySign mode = .ok sign) {tol : ℝ} (ht : 0 < tol) :
    ∃ vecs M evals evecs, invariantOperators eigh pinv x T mode tol = .ok ⟨x.len, vecs, M, evals, evecs⟩ ∧
      InvariantBasis T t V sign x.coef tol vecs M ∧
      (∃ S, symmetryMatrixOf pinv x T = .ok S ∧ M = 1 - (sign : ℂ) • hermitianPart (fun i j => S.get i j)) ∧ IsEigh M ⟨evals, evecs⟩ := by
  obtain ⟨S, l, h1, h2, h3, h4, h5⟩ := symmetryMatrixOf_compression h hp hx hne
  have hσ : sign ^ 2 = 1 := by
    unfold symmetrySign at hs
    split at hs
    · simp only [Except.ok.injEq] at hs; subst hs; norm_num
    · split at hs
      · simp only [Except.ok.injEq] at hs; subst hs; norm_num
      · simp at hs
  have hsr : (sign : ℝ) * sign = 1 := by exact_mod_cast (by rw [← sq]; exact hσ : sign * sign = 1)
  have hq : invariantOperators eigh pinv x T mode tol = .ok ⟨S.ncols, selectColumns (eigh S.ncols (hermitianPart S.toarray)) sign tol,
      1 - (sign : ℂ) • hermitianPart S.toarray, fun k => 1 - sign * (eigh S.ncols (hermitianPart S.toarray)).evals k,
      (eigh S.ncols (hermitianPart S.toarray)).evecs⟩ := by
    unfold invariantOperators
    simp only [h1, hs, bind, Except.bind]
    rfl
  have hMC : ∀ (m : ℕ) (hm : S.ncols = m), (⟨S.ncols, selectColumns (eigh S.ncols (hermitianPart S.toarray)) sign tol,
      1 - (sign : ℂ) • hermitianPart S.toarray, fun k => 1 - sign * (eigh S.ncols (hermitianPart S.toarray)).evals k,
      (eigh S.ncols (hermitianPart S.toarray)).evecs⟩ : Generated) =
      ⟨m, selectColumns (eigh m (hermitianPart (fun i j => S.get i j))) sign tol,
        1 - (sign : ℂ) • hermitianPart (fun i j => S.get i j), fun k => 1 - sign * (eigh m (hermitianPart (fun i j => S.get i j))).evals k,
        (eigh m (hermitianPart (fun i j => S.get i j))).evecs⟩ := by
    rintro m rfl
    rfl
  have hE := he _ _ (hermitianPart_isHermitian (fun i j => S.get i j : Matrix (Fin x.len) (Fin x.len) ℂ))
  refine ⟨_, _, _, _, hq.trans (congrArg _ (hMC _ h2)), ⟨select_orthonormal hE, ?_, ?_, ?_, ?_⟩, ⟨S, h1, rfl⟩, ?_⟩
  · intro A hA
    obtain ⟨B, hB, -⟩ := apply_ok h.maps hA
    exact ⟨B, hB⟩
  · intro v A B hA hv hB hinv
    exact select_of_eigen hE ht ((h5.eigen_iff h hinj h3 h4 hσ hA hv hB).mpr hinv)
  · intro v hvm A B hA hv hB F
    have := h5.near h hinj h3 h4 hσ (select_form hE ht hvm) hA hv hB F
    rw [vnorm, Real.sq_sqrt (Finset.sum_nonneg (fun i _ => by positivity))] at this
    rw [mul_assoc]; exact this
  · intro hgap v A B hA hv hB
    rw [← h5.eigen_iff h hinj h3 h4 hσ hA hv hB]
    apply mem_select_iff hE ht
    intro μ z hz hz' hμ
    have h6 := hgap (1 - sign * μ) z hz ((superoperator_mulVec hσ z _).mpr (by
      rw [hz']; congr 1; push_cast
      have : (sign : ℂ) * sign = 1 := by exact_mod_cast hsr
      linear_combination (-(μ : ℂ)) * this)) (by
      have e : (1 - sign * μ - 0 : ℝ) = -(sign * (μ - sign)) := by rw [mul_sub, hsr]; ring
      have hab : |(sign : ℝ)| = 1 := by
        have : |(sign : ℝ)| * |(sign : ℝ)| = 1 := by rw [abs_mul_abs_self, hsr]
        nlinarith [abs_nonneg (sign : ℝ)]
      rw [e, abs_neg, abs_mul, hab, one_mul]; exact hμ)
    have h7 : (sign : ℝ) * μ = 1 := by linarith
    calc μ = (sign * sign) * μ := by rw [hsr, one_mul]
      _ = sign := by rw [mul_assoc, h7, mul_one]
  · refine ⟨hE.orthonormal, hE.complete, ?_⟩
    rw [Matrix.sub_mul, Matrix.one_mul, Matrix.smul_mul, hE.eigen]
    ext i j
    simp only [Matrix.sub_apply, Matrix.smul_apply, Matrix.mul_diagonal, smul_eq_mul]
    push_cast; ring

end

end Qosy
