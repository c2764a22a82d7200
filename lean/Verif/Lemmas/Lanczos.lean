import Verif.Lemmas.CommutingOperators
import Verif.Lemmas.InvariantOperators
import Verif.Spec.Lanczos

/-! # Selecting from a few eigenvectors -/

namespace Qosy
open Matrix Coef
open scoped ComplexOrder
variable {𝔸 : Type} [Ring 𝔸] [Algebra ℂ 𝔸]

section
variable {n k : ℕ} {D : Matrix (Fin n) (Fin n) ℂ} {r : EighResult (Fin n) k} {σ target tol : ℝ}

theorem mem_selectVecs {v : Fin n → ℂ} : v ∈ selectVecs r target tol ↔ ∃ j, |r.evals j - target| < tol ∧ (fun i => r.evecs i j) = v := by
  classical
  simp only [selectVecs, List.mem_map, List.mem_filter, List.mem_finRange, true_and, decide_eq_true_eq]

theorem IsEigsh.inner (h : IsEigsh D σ r) (j l : Fin k) : ∑ i, star (r.evecs i j) * r.evecs i l = if j = l then 1 else 0 := by
  have := congrFun (congrFun h.orthonormal j) l
  rw [Matrix.mul_apply] at this
  simp only [conjTranspose_apply] at this
  rw [this, Matrix.one_apply]

theorem selectVecs_orthonormal (h : IsEigsh D σ r) : OrthonormalColumns (selectVecs r target tol) := by
  classical
  intro i j hi hj
  have hn : ((List.finRange k).filter (fun k => |r.evals k - target| < tol)).Nodup := (List.nodup_finRange k).filter _
  have hi' : i < ((List.finRange k).filter (fun k => |r.evals k - target| < tol)).length := by
    rw [selectVecs, List.length_map] at hi; convert hi
  have hj' : j < ((List.finRange k).filter (fun k => |r.evals k - target| < tol)).length := by
    rw [selectVecs, List.length_map] at hj; convert hj
  have g : ∀ (i : ℕ) (hi : i < (selectVecs r target tol).length) (hi' : i < ((List.finRange k).filter (fun k => |r.evals k - target| < tol)).length),
      (selectVecs r target tol)[i] = fun x => r.evecs x (((List.finRange k).filter (fun k => |r.evals k - target| < tol))[i]) := by
    intro i hi hi'
    refine Eq.trans ?_ (List.getElem_map (l := (List.finRange k).filter (fun k => |r.evals k - target| < tol)) (fun k i => r.evecs i k) (h := by rw [List.length_map]; exact hi'))
    congr 1
  rw [g i hi hi', g j hj hj']
  refine (h.inner _ _).trans ?_
  by_cases hij : i = j
  · subst hij; simp
  · rw [if_neg hij, if_neg]
    intro he
    exact hij ((hn.getElem_inj_iff).mp he)

theorem selectVecs_length : (selectVecs r target tol).length ≤ k := by
  classical
  rw [selectVecs, List.length_map]
  refine (List.length_filter_le _ _).trans ?_
  rw [List.length_finRange]

theorem selectVecs_all (h : ∀ j, |r.evals j - target| < tol) : (selectVecs r target tol).length = k := by
  classical
  rw [selectVecs, List.length_map, List.filter_eq_self.mpr (fun j _ => decide_eq_true (h j)), List.length_finRange]

/-- a vector in the span of the selected vectors has coordinates only at them -/
theorem mem_span_selectVecs (h : IsEigsh D σ r) {v : Fin n → ℂ} (hv : v ∈ colSpan (selectVecs r target tol)) :
    v = r.evecs *ᵥ (r.evecsᴴ *ᵥ v) ∧ ∀ j, ¬ |r.evals j - target| < tol → (r.evecsᴴ *ᵥ v) j = 0 := by
  induction hv using Submodule.span_induction with
  | mem x hx =>
    obtain ⟨l, hl, rfl⟩ := mem_selectVecs.mp hx
    have he : ∀ j, (r.evecsᴴ *ᵥ fun i => r.evecs i l) j = if j = l then 1 else 0 := fun j => h.inner j l
    refine ⟨?_, fun j hj => ?_⟩
    · funext i
      rw [Matrix.mulVec, dotProduct]
      simp only [he]
      simp
    · rw [he, if_neg (by rintro rfl; exact hj hl)]
  | zero => exact ⟨by simp, fun j _ => by simp⟩
  | add x y _ _ hx hy =>
    refine ⟨?_, fun j hj => ?_⟩
    · rw [mulVec_add, mulVec_add, ← hx.1, ← hy.1]
    · rw [mulVec_add, Pi.add_apply, hx.2 j hj, hy.2 j hj, add_zero]
  | smul a x _ hx =>
    refine ⟨?_, fun j hj => ?_⟩
    · rw [mulVec_smul, mulVec_smul, ← hx.1]
    · rw [mulVec_smul, Pi.smul_apply, hx.2 j hj, smul_zero]

theorem span_selectVecs_of_coords {c : Fin k → ℂ} (hc : ∀ j, ¬ |r.evals j - target| < tol → c j = 0) :
    r.evecs *ᵥ c ∈ colSpan (selectVecs r target tol) := by
  have h2 : r.evecs *ᵥ c = ∑ j, c j • (fun i => r.evecs i j) := by
    funext i
    rw [Matrix.mulVec, dotProduct, Finset.sum_apply]
    exact Finset.sum_congr rfl (fun k _ => mul_comm _ _)
  rw [h2]
  refine Submodule.sum_mem _ (fun j _ => ?_)
  by_cases hj : |r.evals j - target| < tol
  · exact Submodule.smul_mem _ _ (Submodule.subset_span (mem_selectVecs.mpr ⟨j, hj, rfl⟩))
  · rw [hc j hj, zero_smul]; exact Submodule.zero_mem _

theorem IsEigsh.mulVec_evecs (h : IsEigsh D σ r) (c : Fin k → ℂ) : D *ᵥ (r.evecs *ᵥ c) = r.evecs *ᵥ (fun j => r.evals j * c j) := by
  rw [Matrix.mulVec_mulVec, h.eigen, ← Matrix.mulVec_mulVec]
  congr 1
  funext j
  rw [Matrix.mulVec_diagonal]

theorem IsEigsh.column (h : IsEigsh D σ r) (j : Fin k) : D *ᵥ (fun i => r.evecs i j) = (r.evals j : ℂ) • (fun i => r.evecs i j) := by
  have := congrArg (fun M : Matrix (Fin n) (Fin k) ℂ => fun i => M i j) h.eigen
  funext i
  have := congrFun this i
  simp only [Matrix.mul_diagonal] at this
  rw [Pi.smul_apply, smul_eq_mul, mul_comm, ← this]
  rfl

theorem IsEigsh.column_ne (h : IsEigsh D σ r) (j : Fin k) : (fun i => r.evecs i j) ≠ 0 := by
  intro h0
  have := h.inner j j
  have h1 : ∀ i, r.evecs i j = 0 := fun i => congrFun h0 i
  simp [h1] at this

theorem selectVecs_form (h : IsEigsh D σ r) {v : Fin n → ℂ} (hv : v ∈ colSpan (selectVecs r target tol)) :
    ‖vdot v (D *ᵥ v) - target * vdot v v‖ ≤ tol * vnorm v ^ 2 := by
  obtain ⟨h1, h2⟩ := mem_span_selectVecs h hv
  set c := r.evecsᴴ *ᵥ v with hc
  have hn : vnorm v ^ 2 = ∑ j, ‖c j‖ ^ 2 := by
    have h3 : ((vnorm v ^ 2 : ℝ) : ℂ) = ((vnorm c ^ 2 : ℝ) : ℂ) := by
      rw [vnorm_sq, vnorm_sq, h1, vdot_isometry h.orthonormal]
    have h4 : vnorm v ^ 2 = vnorm c ^ 2 := by exact_mod_cast h3
    rw [h4, vnorm, Real.sq_sqrt (Finset.sum_nonneg (fun i _ => by positivity))]
  have he : vdot v (D *ᵥ v) - target * vdot v v = ∑ j, (((r.evals j - target : ℝ) : ℂ) * (star (c j) * c j)) := by
    rw [h1, h.mulVec_evecs, vdot_isometry h.orthonormal, vdot_isometry h.orthonormal]
    simp only [vdot, Finset.mul_sum]
    rw [← Finset.sum_sub_distrib]
    refine Finset.sum_congr rfl (fun j _ => ?_)
    push_cast; ring
  rw [he, hn, Finset.mul_sum]
  refine le_trans (norm_sum_le _ _) (Finset.sum_le_sum (fun j _ => ?_))
  have e1 : ‖((r.evals j - target : ℝ) : ℂ) * (star (c j) * c j)‖ = |r.evals j - target| * ‖c j‖ ^ 2 := by
    rw [norm_mul, norm_mul, norm_star, Complex.norm_real, Real.norm_eq_abs]; ring
  rw [e1]
  by_cases hj : |r.evals j - target| < tol
  · exact mul_le_mul_of_nonneg_right hj.le (by positivity)
  · rw [h2 j hj]; simp

theorem selectVecs_exact (h : IsEigsh D σ r) (hgap : SpectralGap D target tol) {v : Fin n → ℂ} (hv : v ∈ colSpan (selectVecs r target tol)) :
    D *ᵥ v = (target : ℂ) • v := by
  obtain ⟨h1, h2⟩ := mem_span_selectVecs h hv
  set c := r.evecsᴴ *ᵥ v with hc
  rw [h1, h.mulVec_evecs, ← mulVec_smul]
  congr 1
  funext j
  rw [Pi.smul_apply, smul_eq_mul]
  by_cases hj : |r.evals j - target| < tol
  · rw [hgap _ _ (h.column_ne j) (h.column j) hj]
  · rw [h2 j hj, mul_zero, mul_zero]

/-- if not all vectors are selected, the selected ones span the eigenspace -/
theorem selectVecs_complete (hD : D.IsHermitian) (h : IsEigsh D σ r) (ht : 0 < tol) (hlen : (selectVecs r target tol).length ≠ k)
    (hnear : (∀ j, |r.evals j - σ| ≤ |target - σ|) → ∀ j, r.evals j = target) {v : Fin n → ℂ} (hv : D *ᵥ v = (target : ℂ) • v) :
    v ∈ colSpan (selectVecs r target tol) := by
  set c := r.evecsᴴ *ᵥ v with hc
  have hstar : D = Dᴴ := hD.symm
  have hcomm : r.evecsᴴ * D = Matrix.diagonal (fun j => (r.evals j : ℂ)) * r.evecsᴴ := by
    have := congrArg Matrix.conjTranspose h.eigen
    rw [conjTranspose_mul, conjTranspose_mul, ← hstar, diagonal_conjTranspose] at this
    rw [this]
    congr 2
    funext j
    simp
  have hcoord : ∀ j, (target : ℂ) * c j = r.evals j * c j := by
    intro j
    have h1 : r.evecsᴴ *ᵥ (D *ᵥ v) = fun j => (r.evals j : ℂ) * c j := by
      rw [Matrix.mulVec_mulVec, hcomm, ← Matrix.mulVec_mulVec]
      funext j
      rw [Matrix.mulVec_diagonal]
    rw [hv, mulVec_smul] at h1
    exact congrFun h1 j
  have hP : r.evecs *ᵥ c ∈ colSpan (selectVecs r target tol) := by
    apply span_selectVecs_of_coords
    intro j hj
    by_contra h0
    apply hj
    have e : (target : ℂ) = r.evals j := mul_right_cancel₀ h0 (hcoord j)
    have e' : target = r.evals j := by exact_mod_cast e
    rw [e']; simpa using ht
  have hDP : D *ᵥ (r.evecs *ᵥ c) = (target : ℂ) • (r.evecs *ᵥ c) := by
    rw [h.mulVec_evecs, ← mulVec_smul]
    congr 1
    funext j
    rw [Pi.smul_apply, smul_eq_mul, hcoord]
  by_cases hw : v - r.evecs *ᵥ c = 0
  · rw [sub_eq_zero.mp hw]; exact hP
  · exfalso
    have h1 : D *ᵥ (v - r.evecs *ᵥ c) = (target : ℂ) • (v - r.evecs *ᵥ c) := by rw [mulVec_sub, hv, hDP, smul_sub]
    have h2 : r.evecsᴴ *ᵥ (v - r.evecs *ᵥ c) = 0 := by
      rw [mulVec_sub, Matrix.mulVec_mulVec, h.orthonormal, one_mulVec, sub_self]
    have h3 := hnear (h.nearest target _ hw h1 h2)
    exact hlen (selectVecs_all (fun j => by rw [h3 j, sub_self, abs_zero]; exact ht))

end

/-- the eigenvalues of a positive semidefinite matrix -/
theorem eigenvalue_nonneg {n : ℕ} {D : Matrix (Fin n) (Fin n) ℂ} (hD : D.PosSemidef) {μ : ℝ} {z : Fin n → ℂ} (hz : z ≠ 0)
    (h : D *ᵥ z = (μ : ℂ) • z) : 0 ≤ μ := by
  have h1 := hD.dotProduct_mulVec_nonneg z
  have h2 : star z ⬝ᵥ (D *ᵥ z) = ((μ * vnorm z ^ 2 : ℝ) : ℂ) := by
    rw [← vdot_eq, h, vdot_smul, ← vnorm_sq]; push_cast; ring
  rw [h2] at h1
  have h3 : 0 ≤ μ * vnorm z ^ 2 := by exact_mod_cast h1
  have h4 : 0 < vnorm z ^ 2 := by
    have : vnorm z ≠ 0 := fun e => hz (vnorm_eq_zero.mp e)
    positivity
  exact nonneg_of_mul_nonneg_left h3 h4

theorem commutingOperatorsVecs_eq {eigsh : Eigsh} {x : BasisArg ℂ} {O : Operator ℂ} {mode : Mode} {tol : ℝ} {k : ℕ} {C : Mat ℂ} {ext : Basis}
    (h : commutantMatrix x O mode = .ok (C, ext)) : commutingOperatorsVecs eigsh x O k mode tol =
      (eigsh C.ncols C.toarray k (-(1 / 10 ^ 6))).map (fun r => ⟨C.ncols, selectVecs r 0 tol, C.toarray, r.evals, r.evecs, decide ((selectVecs r 0 tol).length = k)⟩) := by
  unfold commutantMatrix at h
  unfold commutingOperatorsVecs
  cases hL : liouvillianMatrix x O mode with
  | error e => rw [hL] at h; simp [bind, Except.bind] at h
  | ok Le =>
    obtain ⟨L, e⟩ := Le
    rw [hL] at h
    simp only [bind, Except.bind] at h ⊢
    cases hD : L.getH.dot L with
    | error e => rw [hD] at h; simp at h
    | ok D =>
      rw [hD] at h
      simp only [Except.ok.injEq, Prod.mk.injEq] at h
      obtain ⟨rfl, -⟩ := h
      simp only
      cases eigsh D.ncols D.toarray k (-(1 / 10 ^ 6)) <;> rfl

theorem StrAlg.commutingOperatorsVecs_ok (R : StrAlg ℂ 𝔸) [Nontrivial 𝔸] (mode : Mode) {x : BasisArg ℂ} {O : Operator ℂ} (hx : x.All R.Str)
    (hne : x ≠ .operators []) (hO : ∀ s ∈ O.basis.strs, R.Str s) {eigsh : Eigsh} (he : ExactEigsh eigsh) {tol : ℝ} (ht : 0 < tol) {k : ℕ}
    (hk : 0 < k) (hkn : k + 1 < (x.den R.den).length) :
    ∃ vecs M evals evecs warned, commutingOperatorsVecs eigsh x O k mode tol = .ok ⟨(x.den R.den).length, vecs, M, evals, evecs, warned⟩ ∧
      CommutingVecs R.den mode (x.den R.den) (O.den R.den) tol k vecs M warned ∧
      (∃ C ext, commutantMatrix x O mode = .ok (C, ext) ∧ M = C.square _) ∧ IsEigsh M (-(1 / 10 ^ 6)) (⟨evals, evecs⟩ : EighResult _ k) := by
  have hfacts := fun y => R.commutant_facts mode hx hne hO (y := y)
  generalize x.den R.den = y at *
  obtain ⟨C, ext, h2, h5, hps, hkern, hform⟩ := hfacts y rfl
  have hq := commutingOperatorsVecs_eq (eigsh := eigsh) (tol := tol) (k := k) h2
  have hMC : ∀ (m : ℕ) (hm : C.ncols = m), (eigsh C.ncols C.toarray k (-(1 / 10 ^ 6))).map (fun r => (⟨C.ncols, selectVecs r 0 tol, C.toarray, r.evals, r.evecs,
        decide ((selectVecs r 0 tol).length = k)⟩ : GeneratedVecs k)) =
      (eigsh m (C.square m) k (-(1 / 10 ^ 6))).map (fun r => ⟨m, selectVecs r 0 tol, C.square m, r.evals, r.evecs, decide ((selectVecs r 0 tol).length = k)⟩) := by
    rintro m rfl
    rfl
  have hnot : ¬ IsEigenvalue (C.square y.length) (-(1 / 10 ^ 6)) := by
    rintro ⟨z, hz, h⟩
    have := eigenvalue_nonneg hps hz h
    norm_num at this
  obtain ⟨r, hr⟩ := he.returns _ _ k _ hps.isHermitian hk hkn hnot
  have hE := he.correct _ _ _ _ _ hps.isHermitian hr
  have hev : ∀ j, 0 ≤ r.evals j := fun j => eigenvalue_nonneg hps (hE.column_ne j) (hE.column j)
  refine ⟨_, _, _, _, _, (hq.trans (hMC _ h5)).trans (by rw [hr]; rfl), ⟨selectVecs_orthonormal hE, selectVecs_length, by simp, ?_, ?_, ?_⟩, ⟨C, ext, h2, rfl⟩, hE⟩
  · intro hw v hv
    refine selectVecs_complete hps.isHermitian hE ht (by simpa using hw) ?_ ((hkern v).mpr hv)
    intro hn j
    have h1 := hn j
    have h2 := hev j
    rw [abs_of_nonneg (by norm_num; linarith), abs_of_nonneg (by norm_num)] at h1
    linarith
  · intro v hv
    obtain ⟨strs, w, k1, k2, k3, k4⟩ := hform v
    refine ⟨strs, w, k1, k2, k3, ?_⟩
    have h := selectVecs_form hE hv
    rw [Complex.ofReal_zero, zero_mul, sub_zero, k4, Complex.norm_real, Real.norm_eq_abs, abs_of_nonneg (Finset.sum_nonneg (fun i _ => by positivity)), vnorm,
      Real.sq_sqrt (Finset.sum_nonneg (fun i _ => by positivity))] at h
    exact h
  · intro hgap v hv
    exact (hkern v).mp (selectVecs_exact hE hgap hv)

section
variable {t : OpType} {V : OpString → Prop} {T : Transformation ℂ} {ε : OpString → ℂ} {f : OpString → OpString}

theorem symmetrySign_sq {mode : String} {sign : ℤ} (hs : symmetrySign mode = .ok sign) : sign ^ 2 = 1 := by
  unfold symmetrySign at hs
  split at hs
  · simp only [Except.ok.injEq] at hs; subst hs; norm_num
  · split at hs
    · simp only [Except.ok.injEq] at hs; subst hs; norm_num
    · simp at hs

theorem invariantOperatorsVecs_eq {eigsh : Eigsh} {pinv : Mat ℂ → Py (Mat ℂ)} {x : BasisArg ℂ} {mode : String} {sign : ℤ} {tol : ℝ} {k n : ℕ} {S : Mat ℂ}
    (h : symmetryMatrixOf pinv x T = .ok S) (hs : symmetrySign mode = .ok sign) (hn : S.ncols = n) : invariantOperatorsVecs eigsh pinv x T k mode tol =
      (eigsh n (hermitianPart (fun i j => S.get i j)) k sign).map (fun r => ⟨n, selectVecs r sign tol,
        1 - (sign : ℂ) • hermitianPart (fun i j => S.get i j), fun j => 1 - sign * r.evals j, r.evecs, decide ((selectVecs r sign tol).length = k)⟩) := by
  subst hn
  unfold invariantOperatorsVecs
  simp only [h, hs, bind, Except.bind]
  have e : (fun i j => S.get i j : Matrix (Fin S.ncols) (Fin S.ncols) ℂ) = S.toarray := rfl
  rw [e, hermitianPart]
  cases eigsh S.ncols ((1 / 2 : ℂ) • (S.toarray + S.toarray.conjTranspose)) k sign <;> rfl

/-- an operator with the symmetry makes the shifted matrix singular -/
theorem invariantOperatorsVecs_singular (h : SignRule T t V ε f) (hinj : Set.InjOn f {s | V s}) {pinv : Mat ℂ → Py (Mat ℂ)} (hp : IsPinv pinv) {x : BasisArg ℂ}
    (hx : x.Orthonormal t V) (hne : x ≠ .operators []) {eigsh : Eigsh} (he : ExactEigsh eigsh) {mode : String} {sign : ℤ}
    (hs : symmetrySign mode = .ok sign) {tol : ℝ} {k : ℕ} {v : Fin x.len → ℂ} (hv0 : v ≠ 0) {A B : Operator ℂ} (hA : A.On t V)
    (hv : ∀ s, A.coef s = ∑ j, v j * x.coef j s) (hB : T.apply A = .ok B) (hinv : ∀ s, B.coef s = sign * A.coef s) :
    ∃ e, invariantOperatorsVecs eigsh pinv x T k mode tol = .error e := by
  obtain ⟨S, l, h1, h2, h3, h4, h5⟩ := symmetryMatrixOf_compression h hp hx hne
  have hσ := symmetrySign_sq hs
  obtain ⟨e, hE⟩ := he.singular _ _ k sign (hermitianPart_isHermitian (fun i j => S.get i j : Matrix (Fin x.len) (Fin x.len) ℂ))
    ⟨v, hv0, (h5.eigen_iff h hinj h3 h4 hσ hA hv hB).mpr hinv⟩
  refine ⟨e, ?_⟩
  rw [invariantOperatorsVecs_eq h1 hs h2, hE]
  rfl

/-- without such an operator there is a result, which consists of approximately symmetric operators -/
theorem invariantOperatorsVecs_ok (h : SignRule T t V ε f) (hinj : Set.InjOn f {s | V s}) {pinv : Mat ℂ → Py (Mat ℂ)} (hp : IsPinv pinv) {x : BasisArg ℂ}
    (hx : x.Orthonormal t V) (hne : x ≠ .operators []) {eigsh : Eigsh} (he : ExactEigsh eigsh) {mode : String} {sign : ℤ}
    (hs : symmetrySign mode = .ok sign) {tol : ℝ} {k : ℕ} (hk : 0 < k) (hkn : k + 1 < x.len)
    (hno : ∀ (v : Fin x.len → ℂ) (A B : Operator ℂ), A.On t V → (∀ s, A.coef s = ∑ j, v j * x.coef j s) → T.apply A = .ok B →
      (∀ s, B.coef s = sign * A.coef s) → v = 0) (hex : ∀ v : Fin x.len → ℂ, ∃ A : Operator ℂ, A.On t V ∧ ∀ s, A.coef s = ∑ j, v j * x.coef j s) :
    ∃ vecs M evals evecs warned, invariantOperatorsVecs eigsh pinv x T k mode tol = .ok ⟨x.len, vecs, M, evals, evecs, warned⟩ ∧
      OrthonormalColumns vecs ∧ vecs.length ≤ k ∧ (warned = true ↔ vecs.length = k) ∧
      ∀ v ∈ colSpan vecs, ∀ A B : Operator ℂ, A.On t V → (∀ s, A.coef s = ∑ j, v j * x.coef j s) → T.apply A = .ok B →
        ∀ F : Finset OpString, ∑ s ∈ F, ‖B.coef s - sign * A.coef s‖ ^ 2 ≤ 2 * tol * ∑ j, ‖v j‖ ^ 2 := by
  obtain ⟨S, l, h1, h2, h3, h4, h5⟩ := symmetryMatrixOf_compression h hp hx hne
  have hσ := symmetrySign_sq hs
  have hH := hermitianPart_isHermitian (fun i j => S.get i j : Matrix (Fin x.len) (Fin x.len) ℂ)
  obtain ⟨r, hr⟩ := he.returns _ _ k sign hH hk hkn (by
    rintro ⟨z, hz, hz'⟩
    obtain ⟨A, hA, hv⟩ := hex z
    obtain ⟨B, hB, -⟩ := apply_ok h.maps hA
    exact hz (hno z A B hA hv hB ((h5.eigen_iff h hinj h3 h4 hσ hA hv hB).mp hz')))
  have hE := he.correct _ _ _ _ _ hH hr
  refine ⟨_, _, _, _, _, (invariantOperatorsVecs_eq h1 hs h2).trans (by rw [hr]; rfl), selectVecs_orthonormal hE, selectVecs_length, by simp, ?_⟩
  intro v hvm A B hA hv hB F
  have := h5.near h hinj h3 h4 hσ (selectVecs_form hE hvm) hA hv hB F
  rw [vnorm, Real.sq_sqrt (Finset.sum_nonneg (fun i _ => by positivity))] at this
  rw [mul_assoc]; exact this

end

end Qosy
