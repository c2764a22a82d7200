import Verif.Lemmas.Core
import Verif.Lemmas.Liouvillian
import Verif.Spec.Core

/-! # `commuting_operators` -/

namespace Qosy
open Matrix Coef
open scoped ComplexOrder
variable {𝔸 : Type} [Ring 𝔸] [Algebra ℂ 𝔸]

theorem commutingOperators_eq {eigh : Eigh} {x : BasisArg ℂ} {O : Operator ℂ} {mode : Mode} {tol : ℝ} {C : Mat ℂ} {ext : Basis}
    (h : commutantMatrix x O mode = .ok (C, ext)) : commutingOperators eigh x O mode tol = .ok ⟨C.ncols, selectColumns (eigh C.ncols C.toarray) 0 tol,
      C.toarray, (eigh C.ncols C.toarray).evals, (eigh C.ncols C.toarray).evecs⟩ := by
  unfold commutantMatrix at h
  unfold commutingOperators
  cases hL : liouvillianMatrix x O mode with
  | error e => rw [hL] at h; simp [bind, Except.bind] at h
  | ok Le =>
    obtain ⟨L, e⟩ := Le
    rw [hL] at h
    simp only [bind, Except.bind] at h ⊢
    cases hD : L.getH.dot L with
    | error e => rw [hD] at h; simp at h
    | ok D =>
      rw [hD] at h
      simp only [Except.ok.injEq, Prod.mk.injEq] at h
      obtain ⟨rfl, -⟩ := h
      rfl

/-- extension of a vector by zero -/
def extend {n : ℕ} (v : Fin n → ℂ) : ℕ → ℂ := fun j => if h : j < n then v ⟨j, h⟩ else 0

theorem extend_fin {n : ℕ} (v : Fin n → ℂ) (j : Fin n) : extend v j = v j := by simp [extend]

/-- the commutant matrix: its null space and its quadratic form -/
theorem StrAlg.commutant_facts (R : StrAlg ℂ 𝔸) [Nontrivial 𝔸] (mode : Mode) {x : BasisArg ℂ} {O : Operator ℂ} (hx : x.All R.Str)
    (hne : x ≠ .operators []) (hO : ∀ s ∈ O.basis.strs, R.Str s) {y : List 𝔸} (hy : x.den R.den = y) :
    ∃ C ext, commutantMatrix x O mode = .ok (C, ext) ∧ C.ncols = y.length ∧ (C.square y.length).PosSemidef ∧
      (∀ v : Fin y.length → ℂ, C.square y.length *ᵥ v = ((0 : ℝ) : ℂ) • v ↔
        bracketOf mode (∑ j, v j • y[j]) (O.den R.den) = 0) ∧
      ∀ v : Fin y.length → ℂ, ∃ (strs : List OpString) (w : ℕ → ℂ), strs.Nodup ∧ (∀ s ∈ strs, s.Canonical) ∧
        bracketOf mode (∑ j, v j • y[j]) (O.den R.den) = linComb R.den strs w ∧
        vdot v (C.square y.length *ᵥ v) = ((∑ c : Fin strs.length, ‖w c‖ ^ 2 : ℝ) : ℂ) := by
  obtain ⟨L, C, ext, h1, h2, h3, h4, h5, h6⟩ := R.commutant_ok mode hx hne hO
  rw [hy] at h3 h4 h5
  have hform := fun v : ℕ → ℂ => square_form h6 v
  have hker := R.commutant_kernel h3 h6 h5
  have hrep := h3.isLiouvillian.represents
  have hps := square_posSemidef (n := y.length) h6
  have hnc := h3.ncols
  rw [hnc] at hform
  have hmul : ∀ (v : Fin y.length → ℂ) (i : Fin y.length), (C.square y.length *ᵥ v) i = C.mulVec (extend v) i := by
    intro v i
    simp only [Mat.mulVec, Matrix.mulVec, dotProduct, Mat.square]
    have : ∀ (m : ℕ) (hm : m = y.length), ∑ j : Fin m, C.get i j * extend v j = ∑ j : Fin y.length, C.get i j * extend v j := by rintro m rfl; rfl
    rw [this _ h5]
    exact Finset.sum_congr rfl (fun j _ => by rw [extend_fin]; rfl)
  have hsum : ∀ v : Fin y.length → ℂ, ∑ j : Fin y.length, extend v j • y[j] = ∑ j, v j • y[j] :=
    fun v => Finset.sum_congr rfl (fun j _ => by rw [extend_fin])
  refine ⟨C, ext, h2, h5, hps, ?_, ?_⟩
  · intro v
    rw [← hsum, ← hker, Complex.ofReal_zero, zero_smul]
    constructor
    · intro h i; rw [← hmul, h]; rfl
    · intro h; funext i; rw [hmul, h i]; rfl
  · intro v
    refine ⟨ext.strs, L.mulVec (extend v), h3.ext_inv.2, fun s hs => (h3.ext_str s hs).2, ?_, ?_⟩
    · rw [← hsum]; exact hrep _
    · have := hform (extend v)
      have e : ∀ (m : ℕ) (hm : L.nrows = m), ∑ k : Fin L.nrows, star (L.mulVec (extend v) k) * L.mulVec (extend v) k =
          ∑ k : Fin m, star (L.mulVec (extend v) k) * L.mulVec (extend v) k := by rintro m rfl; rfl
      rw [e _ h3.nrows] at this
      rw [vdot]
      simp only [hmul, Mat.mulVec, Finset.mul_sum]
      have e' : ∀ (m : ℕ) (hm : m = y.length) (i : Fin y.length), ∑ j : Fin m, star (v i) * (C.get i j * extend v j) =
          ∑ j : Fin y.length, star (v i) * (C.get i j * extend v j) := by rintro m rfl i; rfl
      simp only [e' _ h5]
      simp only [extend_fin, mul_assoc] at this ⊢
      rw [this]
      push_cast
      refine Finset.sum_congr rfl (fun k _ => ?_)
      rw [← Complex.ofReal_pow, ← Complex.normSq_eq_norm_sq, Complex.normSq_eq_conj_mul_self]; rfl

theorem StrAlg.commutingOperators_ok (R : StrAlg ℂ 𝔸) [Nontrivial 𝔸] (mode : Mode) {x : BasisArg ℂ} {O : Operator ℂ} (hx : x.All R.Str)
    (hne : x ≠ .operators []) (hO : ∀ s ∈ O.basis.strs, R.Str s) {eigh : Eigh} (he : ExactEigh eigh) {tol : ℝ} (ht : 0 < tol) :
    ∃ vecs M evals evecs, commutingOperators eigh x O mode tol = .ok ⟨(x.den R.den).length, vecs, M, evals, evecs⟩ ∧
      CommutingBasis R.den mode (x.den R.den) (O.den R.den) tol vecs M ∧
      (∃ C ext, commutantMatrix x O mode = .ok (C, ext) ∧ M = C.square _) ∧ IsEigh M ⟨evals, evecs⟩ := by
  have hfacts := fun y => R.commutant_facts mode hx hne hO (y := y)
  generalize x.den R.den = y at *
  obtain ⟨C, ext, h2, h5, hps, hkern, hform⟩ := hfacts y rfl
  have hq := commutingOperators_eq (eigh := eigh) (tol := tol) h2
  have hMC : ∀ (m : ℕ) (hm : C.ncols = m), (⟨C.ncols, selectColumns (eigh C.ncols C.toarray) 0 tol,
      C.toarray, (eigh C.ncols C.toarray).evals, (eigh C.ncols C.toarray).evecs⟩ : Generated) =
      ⟨m, selectColumns (eigh m (C.square m)) 0 tol, C.square m, (eigh m (C.square m)).evals, (eigh m (C.square m)).evecs⟩ := by
    rintro m rfl
    rfl
  have hE := he _ _ hps.isHermitian
  refine ⟨_, _, _, _, hq.trans (congrArg _ (hMC _ h5)), ⟨select_orthonormal hE, ?_, ?_, ?_⟩, ⟨C, ext, h2, rfl⟩, hE⟩
  · intro v hv
    exact select_of_eigen hE ht ((hkern v).mpr hv)
  · intro v hv
    obtain ⟨strs, w, k1, k2, k3, k4⟩ := hform v
    refine ⟨strs, w, k1, k2, k3, ?_⟩
    have h := select_form hE ht hv
    rw [Complex.ofReal_zero, zero_mul, sub_zero, k4, Complex.norm_real, Real.norm_eq_abs, abs_of_nonneg (Finset.sum_nonneg (fun i _ => by positivity)), vnorm,
      Real.sq_sqrt (Finset.sum_nonneg (fun i _ => by positivity))] at h
    exact h
  · intro hgap v
    rw [mem_select_iff hE ht hgap, hkern]

end Qosy
