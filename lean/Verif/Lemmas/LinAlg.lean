import Verif.Spec.LinAlg

/-! # Inner products of complex vectors, and the steps of Gram-Schmidt -/

namespace Qosy
variable {n : ℕ}

theorem vdot_add (x y z : Fin n → ℂ) : vdot x (y + z) = vdot x y + vdot x z := by
  simp [vdot, mul_add, Finset.sum_add_distrib]

theorem vdot_sub (x y z : Fin n → ℂ) : vdot x (y - z) = vdot x y - vdot x z := by
  simp [vdot, mul_sub, Finset.sum_sub_distrib]

theorem vdot_smul (x y : Fin n → ℂ) (c : ℂ) : vdot x (c • y) = c * vdot x y := by
  simp only [vdot, Pi.smul_apply, smul_eq_mul, Finset.mul_sum]
  exact Finset.sum_congr rfl (fun i _ => by ring)

theorem vdot_star (x y : Fin n → ℂ) : star (vdot x y) = vdot y x := by
  simp [vdot, mul_comm]

theorem vdot_smul_left (x y : Fin n → ℂ) (c : ℂ) : vdot (c • x) y = star c * vdot x y := by
  rw [← vdot_star, vdot_smul, star_mul, vdot_star, mul_comm]

theorem vnorm_sq (x : Fin n → ℂ) : ((vnorm x ^ 2 : ℝ) : ℂ) = vdot x x := by
  rw [vnorm, Real.sq_sqrt (Finset.sum_nonneg (fun i _ => by positivity)), vdot]
  push_cast
  apply Finset.sum_congr rfl
  intro i _
  rw [← Complex.ofReal_pow, ← Complex.normSq_eq_norm_sq, Complex.normSq_eq_conj_mul_self]; rfl

theorem vnorm_nonneg (x : Fin n → ℂ) : 0 ≤ vnorm x := Real.sqrt_nonneg _

theorem vnorm_eq_zero {x : Fin n → ℂ} : vnorm x = 0 ↔ x = 0 := by
  rw [vnorm, Real.sqrt_eq_zero (Finset.sum_nonneg (fun i _ => by positivity)),
    Finset.sum_eq_zero_iff_of_nonneg (fun i _ => by positivity)]
  constructor
  · intro h
    funext i
    have := h i (Finset.mem_univ i)
    simpa using this
  · rintro rfl i _; simp

theorem vdiv_eq (x : Fin n → ℂ) (r : ℝ) : vdiv x r = ((r : ℂ)⁻¹) • x := by
  funext i; simp [vdiv, div_eq_inv_mul]

theorem vdiv_unit {x : Fin n → ℂ} (h : vnorm x ≠ 0) : vdot (vdiv x (vnorm x)) (vdiv x (vnorm x)) = 1 := by
  have hc : (vnorm x : ℂ) ≠ 0 := by exact_mod_cast h
  rw [vdiv_eq, vdot_smul, vdot_smul_left, ← vnorm_sq]
  have : star ((vnorm x : ℂ)⁻¹) = (vnorm x : ℂ)⁻¹ := by simp
  rw [this]; push_cast; field_simp

theorem gsProject_cons (e : Fin n → ℂ) (es : List (Fin n → ℂ)) (v : Fin n → ℂ) :
    gsProject (e :: es) v = gsProject es (v - vdot e v • e) := rfl

/-- projecting against orthonormal vectors -/
theorem gsProject_spec : ∀ (es : List (Fin n → ℂ)) (v : Fin n → ℂ), (∀ e ∈ es, vdot e e = 1) → es.Pairwise (fun a b => vdot a b = 0) →
    (∀ e ∈ es, vdot e (gsProject es v) = 0) ∧
    (∀ d, vdot d v = 0 → (∀ e ∈ es, vdot d e = 0) → vdot d (gsProject es v) = 0) ∧
    v - gsProject es v ∈ colSpan es
  | [], v, _, _ => ⟨by simp, fun d h _ => h, by simp [gsProject]⟩
  | e :: es, v, h1, h2 => by
    rw [List.pairwise_cons] at h2
    obtain ⟨a, b, c⟩ := gsProject_spec es (v - vdot e v • e) (fun x hx => h1 x (List.mem_cons_of_mem _ hx)) h2.2
    have he : vdot e (v - vdot e v • e) = 0 := by
      rw [vdot_sub, vdot_smul, h1 e (List.mem_cons_self ..)]; ring
    rw [gsProject_cons]
    refine ⟨?_, ?_, ?_⟩
    · intro x hx
      rcases List.mem_cons.mp hx with rfl | hx
      · exact b x he h2.1
      · exact a x hx
    · intro d hd hde
      apply b d
      · rw [vdot_sub, vdot_smul, hd, hde e (List.mem_cons_self ..)]; ring
      · exact fun x hx => hde x (List.mem_cons_of_mem _ hx)
    · have : v - gsProject es (v - vdot e v • e) = vdot e v • e + (v - vdot e v • e - gsProject es (v - vdot e v • e)) := by abel
      rw [this]
      apply Submodule.add_mem
      · exact Submodule.smul_mem _ _ (Submodule.subset_span (List.mem_cons_self ..))
      · exact Submodule.span_mono (fun x hx => List.mem_cons_of_mem _ hx) c

/-- orthonormality, in the form used in the induction -/
def Ortho (q : List (Fin n → ℂ)) : Prop := (∀ e ∈ q, vdot e e = 1) ∧ q.Pairwise (fun a b => vdot a b = 0)

theorem Ortho.columns {q : List (Fin n → ℂ)} (h : Ortho q) : OrthonormalColumns q := by
  intro i j hi hj
  change vdot q[i] q[j] = _
  rcases lt_trichotomy i j with hij | rfl | hij
  · rw [if_neg hij.ne]; exact List.pairwise_iff_getElem.mp h.2 i j hi hj hij
  · rw [if_pos rfl]; exact h.1 _ (List.getElem_mem hi)
  · rw [if_neg hij.ne', ← vdot_star, List.pairwise_iff_getElem.mp h.2 j i hj hi hij, star_zero]

theorem Ortho.concat {q : List (Fin n → ℂ)} (h : Ortho q) {v : Fin n → ℂ} (hv : vdot v v = 1) (hq : ∀ e ∈ q, vdot e v = 0) : Ortho (q ++ [v]) := by
  constructor
  · intro e he
    rcases List.mem_append.mp he with he | he
    · exact h.1 e he
    · rw [List.mem_singleton.mp he]; exact hv
  · rw [List.pairwise_append]
    exact ⟨h.2, List.pairwise_singleton _ _, fun a ha b hb => by rw [List.mem_singleton.mp hb]; exact hq a ha⟩

theorem colSpan_mono {p q : List (Fin n → ℂ)} (h : ∀ x ∈ p, x ∈ q) : colSpan p ≤ colSpan q := Submodule.span_mono h

theorem colSpan_append (p q : List (Fin n → ℂ)) : colSpan (p ++ q) = colSpan p ⊔ colSpan q := by
  rw [colSpan, colSpan, colSpan, ← Submodule.span_union]
  congr 1; ext x; simp

theorem gsLoop_spec {tol : ℝ} (ht : 0 ≤ tol) : ∀ (cols found : List (Fin n → ℂ)), Ortho found →
    Ortho (gsLoop tol cols found) ∧ found <+: gsLoop tol cols found ∧ colSpan (gsLoop tol cols found) ≤ colSpan (found ++ cols) ∧
      ∀ c ∈ cols, ∃ w ∈ colSpan (gsLoop tol cols found), vnorm (c - w) ≤ tol
  | [], found, h => ⟨h, List.prefix_refl _, by simp [gsLoop], by simp⟩
  | c :: cols, found, h => by
    obtain ⟨p1, p2, p3⟩ := gsProject_spec found c h.1 h.2
    rw [gsLoop]
    by_cases hc : tol < vnorm (gsProject found c)
    · rw [if_pos hc]
      have hne : vnorm (gsProject found c) ≠ 0 := by linarith
      have hmem : gsProject found c ∈ colSpan (found ++ [c]) := by
        have : gsProject found c = c - (c - gsProject found c) := by abel
        rw [this]
        exact Submodule.sub_mem _ (Submodule.subset_span (by simp)) (colSpan_mono (fun x hx => List.mem_append_left _ hx) p3)
      obtain ⟨a, b, d, e⟩ := gsLoop_spec ht cols (found ++ [vdiv (gsProject found c) (vnorm (gsProject found c))])
        (h.concat (vdiv_unit hne) (fun x hx => by rw [vdiv_eq, vdot_smul, p1 x hx, mul_zero]))
      refine ⟨a, (List.prefix_append _ _).trans b, d.trans ?_, ?_⟩
      · apply Submodule.span_le.mpr
        intro x hx
        simp only [List.append_assoc, Set.mem_ofPred_eq, List.mem_append, List.mem_singleton] at hx
        rcases hx with hx | rfl | hx
        · exact Submodule.subset_span (by simp [hx])
        · rw [vdiv_eq]
          refine Submodule.smul_mem _ _ (colSpan_mono ?_ hmem)
          intro y hy
          rcases List.mem_append.mp hy with hy | hy
          · simp [hy]
          · simp [List.mem_singleton.mp hy]
        · exact Submodule.subset_span (by simp [hx])
      · intro x hx
        rcases List.mem_cons.mp hx with rfl | hx
        · refine ⟨x, ?_, by rw [sub_self, vnorm_eq_zero.mpr rfl]; exact ht⟩
          refine colSpan_mono (fun y hy => b.subset hy) ?_
          have : x = (x - gsProject found x) + (vnorm (gsProject found x) : ℂ) • vdiv (gsProject found x) (vnorm (gsProject found x)) := by
            rw [vdiv_eq, smul_smul, mul_inv_cancel₀ (by exact_mod_cast hne), one_smul]; abel
          rw [this]
          refine Submodule.add_mem _ ?_ (Submodule.smul_mem _ _ (Submodule.subset_span ?_))
          · rw [← this]
            exact colSpan_mono (fun y hy => List.mem_append_left _ hy) p3
          · rw [← this]; simp
        · exact e x hx
    · rw [if_neg hc]
      obtain ⟨a, b, d, e⟩ := gsLoop_spec ht cols found h
      refine ⟨a, b, d.trans (colSpan_mono (fun x hx => ?_)), ?_⟩
      · rcases List.mem_append.mp hx with hx | hx
        · exact List.mem_append_left _ hx
        · exact List.mem_append_right _ (List.mem_cons_of_mem _ hx)
      · intro x hx
        rcases List.mem_cons.mp hx with rfl | hx
        · refine ⟨x - gsProject found x, colSpan_mono (fun y hy => b.subset hy) p3, ?_⟩
          rw [sub_sub_cancel]
          exact not_lt.mp hc
        · exact e x hx

theorem gsLoop_append {tol : ℝ} : ∀ (cols cols' found : List (Fin n → ℂ)), gsLoop tol (cols ++ cols') found = gsLoop tol cols' (gsLoop tol cols found)
  | [], _, _ => rfl
  | c :: cols, cols', found => by
    rw [List.cons_append, gsLoop, gsLoop]
    split
    · exact gsLoop_append cols cols' _
    · exact gsLoop_append cols cols' _

end Qosy

namespace Qosy
open Matrix
variable {n p q k : ℕ}

/-- the matrix `np.hstack((A, -B))` -/
def hstackNeg (A : Matrix (Fin n) (Fin p) ℂ) (B : Matrix (Fin n) (Fin q) ℂ) : Matrix (Fin n) (Fin p ⊕ Fin q) ℂ := Matrix.fromCols A (-B)

theorem vdot_eq (x y : Fin n → ℂ) : vdot x y = star x ⬝ᵥ y := rfl

theorem vdot_isometry {A : Matrix (Fin n) (Fin p) ℂ} (hA : Aᴴ * A = 1) (x y : Fin p → ℂ) : vdot (A *ᵥ x) (A *ᵥ y) = vdot x y := by
  rw [vdot_eq, vdot_eq, Matrix.star_mulVec, Matrix.dotProduct_mulVec, Matrix.vecMul_vecMul, hA, Matrix.vecMul_one]

theorem hstackNeg_mulVec (A : Matrix (Fin n) (Fin p) ℂ) (B : Matrix (Fin n) (Fin q) ℂ) (z : Fin p ⊕ Fin q → ℂ) :
    hstackNeg A B *ᵥ z = A *ᵥ (fun j => z (Sum.inl j)) - B *ᵥ (fun j => z (Sum.inr j)) := by
  rw [hstackNeg, Matrix.fromCols_mulVec, Matrix.neg_mulVec, sub_eq_add_neg]; rfl

theorem IsEigh.column {ι : Type} [Fintype ι] [DecidableEq ι] {D : Matrix ι ι ℂ} {r : EighResult ι k} (h : IsEigh D r) (j : Fin k) :
    D *ᵥ (fun i => r.evecs i j) = (r.evals j : ℂ) • (fun i => r.evecs i j) := by
  funext i
  have := congrFun (congrFun h.eigen i) j
  rw [Matrix.mul_diagonal] at this
  rw [Pi.smul_apply, smul_eq_mul, mul_comm, ← this]; rfl

theorem IsEigh.inner {ι : Type} [Fintype ι] [DecidableEq ι] {D : Matrix ι ι ℂ} {r : EighResult ι k} (h : IsEigh D r) (j l : Fin k) :
    ∑ i, star (r.evecs i j) * r.evecs i l = if j = l then 1 else 0 := by
  have := congrFun (congrFun h.orthonormal j) l
  rw [Matrix.one_apply] at this
  rw [← this]; rfl

/-- expansion of a null vector in the eigenvectors with eigenvalue 0 -/
theorem IsEigh.null {ι : Type} [Fintype ι] [DecidableEq ι] {D : Matrix ι ι ℂ} {r : EighResult ι k} (h : IsEigh D r) {z : ι → ℂ} (hz : D *ᵥ z = 0) :
    ∃ c : Fin k → ℂ, (∀ j, r.evals j ≠ 0 → c j = 0) ∧ ∀ i, z i = ∑ j, c j * r.evecs i j := by
  refine ⟨r.evecsᴴ *ᵥ z, ?_, ?_⟩
  · intro j hj
    have h1 : r.evecs *ᵥ (r.evecsᴴ *ᵥ z) = z := by rw [Matrix.mulVec_mulVec, h.complete, Matrix.one_mulVec]
    have h2 : D *ᵥ (r.evecs *ᵥ (r.evecsᴴ *ᵥ z)) = 0 := by rw [h1, hz]
    rw [Matrix.mulVec_mulVec, h.eigen, ← Matrix.mulVec_mulVec] at h2
    have h3 : Matrix.diagonal (fun j => (r.evals j : ℂ)) *ᵥ (r.evecsᴴ *ᵥ z) = 0 := by
      have := congrArg (fun v => r.evecsᴴ *ᵥ v) h2
      simp only [Matrix.mulVec_mulVec, Matrix.mulVec_zero] at this
      rw [← Matrix.mul_assoc, ← Matrix.mul_assoc, h.orthonormal, Matrix.one_mul, ← Matrix.mulVec_mulVec] at this
      exact this
    have h4 := congrFun h3 j
    rw [Matrix.mulVec_diagonal] at h4
    rcases mul_eq_zero.mp h4 with h5 | h5
    · exact absurd (by exact_mod_cast h5) hj
    · exact h5
  · intro i
    have h1 : r.evecs *ᵥ (r.evecsᴴ *ᵥ z) = z := by rw [Matrix.mulVec_mulVec, h.complete, Matrix.one_mulVec]
    conv_lhs => rw [← h1]
    rw [Matrix.mulVec, dotProduct]
    exact Finset.sum_congr rfl (fun j _ => mul_comm _ _)

section
variable {n p q : ℕ} {A : Matrix (Fin n) (Fin p) ℂ} {B : Matrix (Fin n) (Fin q) ℂ}

/-- the first and second part of an eigenvector -/
theorem IsEigh.parts {r : EighResult (Fin p ⊕ Fin q) (p + q)} (h : IsEigh ((hstackNeg A B)ᴴ * hstackNeg A B) r)
    (k l : Fin (p + q)) :
    vdot (fun j => r.evecs (Sum.inl j) k) (fun j => r.evecs (Sum.inl j) l) + vdot (fun j => r.evecs (Sum.inr j) k) (fun j => r.evecs (Sum.inr j) l) =
      (if k = l then 1 else 0) ∧
    vdot (A *ᵥ (fun j => r.evecs (Sum.inl j) k) - B *ᵥ (fun j => r.evecs (Sum.inr j) k)) (A *ᵥ (fun j => r.evecs (Sum.inl j) l) - B *ᵥ (fun j => r.evecs (Sum.inr j) l)) =
      if k = l then (r.evals l : ℂ) else 0 := by
  have h1 := h.inner k l
  rw [Fintype.sum_sum_type] at h1
  refine ⟨h1, ?_⟩
  rw [← hstackNeg_mulVec A B (fun i => r.evecs i k), ← hstackNeg_mulVec A B (fun i => r.evecs i l), vdot_eq, Matrix.star_mulVec, Matrix.dotProduct_mulVec, Matrix.vecMul_vecMul,
    ← Matrix.dotProduct_mulVec, h.column l, dotProduct_smul]
  have : (star fun i => r.evecs i k) ⬝ᵥ (fun i => r.evecs i l) = if k = l then 1 else 0 := h.inner k l
  rw [this]
  split <;> simp

/-- the columns `intersection` returns when it does not divide by zero -/
theorem intersection_ok {eigh : Matrix (Fin p ⊕ Fin q) (Fin p ⊕ Fin q) ℂ → EighResult (Fin p ⊕ Fin q) (p + q)} {tol : ℝ}
    {r : EighResult (Fin p ⊕ Fin q) (p + q)} (hr : eigh ((hstackNeg A B)ᴴ * hstackNeg A B) = r)
    (h : ∀ k, |r.evals k| < tol → vnorm (A *ᵥ (fun j => r.evecs (Sum.inl j) k)) ≠ 0) :
    ∃ inds : List (Fin (p + q)), inds.Nodup ∧ (∀ k, k ∈ inds ↔ |r.evals k| < tol) ∧
      intersection eigh A B tol = .ok ((inds.map (fun k => vdiv (A *ᵥ (fun j => r.evecs (Sum.inl j) k))
        (vnorm (A *ᵥ (fun j => r.evecs (Sum.inl j) k))))).map some) := by
  classical
  refine ⟨(List.finRange (p + q)).filter (fun k => |r.evals k| < tol), (List.nodup_finRange _).filter _, by simp, ?_⟩
  rw [intersection, dif_pos rfl]
  have e : (B.submatrix (Fin.cast (rfl : n = n)) id) = B := rfl
  simp only [e]
  have e2 : (Matrix.fromCols A (-B))ᴴ * Matrix.fromCols A (-B) = (hstackNeg A B)ᴴ * hstackNeg A B := rfl
  rw [e2, hr, List.map_map]
  congr 1
  have hd : (fun k => @decide (|r.evals k| < tol) (Classical.propDecidable _)) = fun k => decide (|r.evals k| < tol) := by
    funext k; congr
  rw [hd]
  apply List.map_congr_left
  intro k hk
  have hk' : |r.evals k| < tol := by simpa using hk
  simp only [Function.comp, normalizeColumn]
  rw [if_neg (h k hk')]

end

end Qosy
