import Verif.Spec.LadderOriginal
import Verif.Lemmas.LadderOps
import Verif.Lemmas.Adjoint
import Verif.Lemmas.LadderInverse

/-! # `_ladder_operators_original` on a closed basis -/

namespace Qosy
open Coef RealOps Matrix
variable {K : Type} [Field K] [StarRing K] [Coef K] [RealCoef K]
variable {𝔸 : Type} [Ring 𝔸] [Algebra K 𝔸]

/-! ### matrices of columns -/

/-- the matrix with the given columns -/
def colMat (n m : ℕ) (l : List (List K)) : Matrix (Fin n) (Fin m) K := fun i k => (l.getD k []).getD i 0

/-- the square matrix with the entries of `M` -/
def Mat.sq (M : Mat K) (n : ℕ) : Matrix (Fin n) (Fin n) K := fun i j => M.get i j

omit [StarRing K] [Coef K] [RealCoef K] in
theorem colMat_get {n m : ℕ} {l : List (List K)} (i : Fin n) (k : Fin m) (hk : (k : ℕ) < l.length) : colMat n m l i k = l[(k : ℕ)].getD i 0 := by
  rw [colMat, List.getD_eq_getElem l _ hk]

omit [StarRing K] [Coef K] [RealCoef K] in
theorem colMat_map {α : Type} {n m : ℕ} {l : List α} (f : α → List K) (i : Fin n) (k : Fin m) (hk : (k : ℕ) < l.length) : colMat n m (l.map f) i k = (f l[(k : ℕ)]).getD i 0 := by
  rw [colMat_get i k (by simpa using hk), List.getElem_map]

theorem colMat_ortho {n m : ℕ} {l : List (List K)} (h : OrthonormalVectors n l) (hl : l.length = m) : (colMat n m l)ᴴ * colMat n m l = 1 := by
  subst hl
  ext a b
  rw [Matrix.mul_apply, Matrix.one_apply, ← h.gram a b, ip]
  refine Finset.sum_congr rfl fun j _ => ?_
  rw [conjTranspose_apply, colMat, colMat, List.getD_eq_getElem _ _ a.2, List.getD_eq_getElem _ _ b.2]; rfl

theorem ortho_of_colMat {n m : ℕ} {l : List (List K)} (hl : l.length = m) (hd : ∀ v ∈ l, v.length = n) (h : (colMat n m l)ᴴ * colMat n m l = 1) : OrthonormalVectors n l := by
  subst hl
  have key : ∀ a b : Fin l.length, ∑ j : Fin n, star (l[a].getD j 0) * l[b].getD j 0 = if a = b then 1 else 0 := by
    intro a b
    have := congrFun (congrFun h a) b
    rw [Matrix.mul_apply, Matrix.one_apply] at this
    rw [← this]
    refine Finset.sum_congr rfl fun j _ => ?_
    rw [conjTranspose_apply, colMat, colMat, List.getD_eq_getElem _ _ a.2, List.getD_eq_getElem _ _ b.2]; rfl
  refine ⟨hd, fun v hv => ?_, ?_⟩
  · obtain ⟨i, hi, rfl⟩ := List.getElem_of_mem hv
    have := key ⟨i, hi⟩ ⟨i, hi⟩
    rwa [if_pos rfl] at this
  · rw [List.pairwise_iff_getElem]
    intro i j hi hj hij
    have := key ⟨i, hi⟩ ⟨j, hj⟩
    rwa [if_neg (by simp [Fin.ext_iff]; omega)] at this

theorem combine_mulVec {n m : ℕ} {vs : List (List K)} (hm : vs.length = m) (u : List K) (i : Fin n) :
    (combineColumns n vs u).getD i 0 = ∑ k : Fin m, colMat n m vs i k * u.getD k 0 := by
  subst hm
  rw [combineColumns_get vs u i.2]
  refine Finset.sum_congr rfl fun k _ => ?_
  rw [colMat, List.getD_eq_getElem _ _ k.2]; rfl

theorem colMat_combine {n m p : ℕ} {vs us : List (List K)} (hm : vs.length = m) (hp : us.length = p) :
    colMat n p (us.map (combineColumns n vs)) = colMat n m vs * colMat m p us := by
  subst hp
  ext i k
  rw [Matrix.mul_apply, colMat_map _ _ _ k.2, combine_mulVec hm]
  refine Finset.sum_congr rfl fun j _ => ?_
  rw [colMat_get _ _ k.2]

/-- eigenvector equations as a matrix equation -/
theorem eig_matrix {M : Mat K} {n m : ℕ} {l : List (K × List K)} (hm : l.length = m) (h : ∀ e ∈ l, ∀ i, i < n → ∑ j : Fin n, M.get i j * e.2.getD j 0 = e.1 * e.2.getD i 0) :
    M.sq n * colMat n m (l.map (·.2)) = colMat n m (l.map (·.2)) * diagonal (fun k : Fin m => (l.map (·.1)).getD k 0) := by
  subst hm
  ext i k
  rw [Matrix.mul_diagonal, Matrix.mul_apply]
  have := h _ (List.getElem_mem k.2) i i.2
  have e : ∀ i : Fin n, colMat n l.length (l.map (·.2)) i k = l[(k : ℕ)].2.getD i 0 := fun i => colMat_map _ _ _ k.2
  simp only [e, Mat.sq]
  rw [show (l.map (·.1)).getD k 0 = l[(k : ℕ)].1 by rw [List.getD_eq_getElem _ _ (by simp), List.getElem_map], mul_comm]
  exact this

/-- eigenvectors of the matrix compressed to invariant orthonormal columns -/
theorem compressed_eig {n m : ℕ} {L : Matrix (Fin n) (Fin n) K} {V : Matrix (Fin n) (Fin m) K} {D : Fin m → K} {U E : Matrix (Fin m) (Fin m) K} {Δ : Fin m → K}
    (hV : Vᴴ * V = 1) (hL : L * V = V * diagonal D) (hU : Uᴴ * U = 1) (hE : Eᴴ * E = 1) (hP : (V * U)ᴴ * (L * (V * U)) * E = E * diagonal Δ) :
    (V * U * E)ᴴ * (V * U * E) = 1 ∧ L * (V * U * E) = V * U * E * diagonal Δ ∧ V * U * E * (V * U * E)ᴴ = V * Vᴴ ∧
      ∀ k, Δ k = ∑ j, star ((U * E) j k) * (U * E) j k * D j := by
  have hU' : U * Uᴴ = 1 := mul_eq_one_comm.mp hU
  have hE' : E * Eᴴ = 1 := mul_eq_one_comm.mp hE
  have hP1 : (V * U)ᴴ * (L * (V * U)) = Uᴴ * (diagonal D * U) := by
    rw [conjTranspose_mul, ← Matrix.mul_assoc L, hL]
    calc _ = Uᴴ * ((Vᴴ * V) * (diagonal D * U)) := by simp only [Matrix.mul_assoc]
      _ = _ := by rw [hV, Matrix.one_mul]
  have hLW : L * (V * U) = V * U * (Uᴴ * (diagonal D * U)) := by
    rw [← Matrix.mul_assoc L, hL]
    calc _ = V * (1 * (diagonal D * U)) := by rw [Matrix.one_mul, Matrix.mul_assoc]
      _ = _ := by rw [← hU']; simp only [Matrix.mul_assoc]
  rw [hP1] at hP
  refine ⟨?_, ?_, ?_, fun k => ?_⟩
  · rw [conjTranspose_mul, conjTranspose_mul]
    calc _ = Eᴴ * (Uᴴ * (Vᴴ * V) * U) * E := by simp only [Matrix.mul_assoc]
      _ = 1 := by rw [hV, Matrix.mul_one, hU, Matrix.mul_one, hE]
  · rw [← Matrix.mul_assoc L, hLW, Matrix.mul_assoc (V * U), hP, ← Matrix.mul_assoc]
  · rw [conjTranspose_mul, conjTranspose_mul]
    calc _ = V * (U * (E * Eᴴ) * Uᴴ) * Vᴴ := by simp only [Matrix.mul_assoc]
      _ = _ := by rw [hE', Matrix.mul_one, hU', Matrix.mul_one]
  · have h1 : (U * E)ᴴ * (diagonal D * (U * E)) = diagonal Δ := by
      rw [conjTranspose_mul]
      calc _ = Eᴴ * (Uᴴ * (diagonal D * U) * E) := by simp only [Matrix.mul_assoc]
        _ = _ := by rw [hP, ← Matrix.mul_assoc, hE, Matrix.one_mul]
    have h2 := congrFun (congrFun h1 k) k
    rw [diagonal_apply_eq, Matrix.mul_apply] at h2
    rw [← h2]
    refine Finset.sum_congr rfl fun j _ => ?_
    rw [conjTranspose_apply, diagonal_mul]; ring

/-! ### the steps -/

theorem toR_ratCast (t : ℚ) : toR (t : K) = t := by
  rw [toR, map_ratCast]; simp

theorem normalize_unit {num : LadderNumerics K} (hnum : IsLadderNumerics num) {n : ℕ} {v w : List K} (hv : v.length = n) (hu : ∑ j : Fin n, star (v.getD j 0) * v.getD j 0 = 1)
    (h : originalNormalize num v = .ok w) : w = v := by
  rw [originalNormalize, innerL_eq hv hv, hu] at h
  obtain ⟨y, h1, h2⟩ := py_bind_ok h
  obtain ⟨g1, g2, g3⟩ := hnum.sqrt 1 y (by simp [IsReal]) (by rw [toR_one]; norm_num) h1
  have e : y = 1 := by
    refine toR_inj g1 (by simp [IsReal]) ?_
    have := congrArg toR g3
    rw [pow_two, toR_mul g1, toR_one] at this
    rw [toR_one]; nlinarith
  subst e
  split at h2
  · cases h2
  · cases h2; simp

theorem normalize_all {num : LadderNumerics K} (hnum : IsLadderNumerics num) {n : ℕ} {vs ws : List (List K)} (hv : OrthonormalVectors n vs)
    (h : vs.mapM (originalNormalize num) = .ok ws) : ws = vs := by
  have := mapM_ok_inv h
  have hd := hv.dim
  have hu := hv.unit
  clear h hv
  induction this with
  | nil => rfl
  | cons h1 _ ih =>
    rw [ih (fun v hv => hd v (by simp [hv])) (fun v hv => hu v (by simp [hv])), normalize_unit hnum (hd _ (by simp)) (hu _ (by simp)) h1]

/-- the eigenvectors of a zero matrix -/
theorem null_all {n : ℕ} {M : Mat K} (hz : ∀ i j, i < n → j < n → M.get i j = 0) {r : List K × List (List K)} (h : IsEigenpairs M n r) {tol : ℚ} (ht : 0 < tol) :
    nullVectors tol r = r.2 := by
  rw [nullVectors, List.filter_eq_self.mpr, map_snd_zip_of_length h.len]
  intro e he
  have hv := (List.of_mem_zip he).2
  have : e.1 = 0 := by
    by_contra h0
    have hu := h.unit e.2 hv
    rw [Finset.sum_eq_zero] at hu
    · exact zero_ne_one hu
    · intro j _
      have := h.eigen e he j j.2
      rw [Finset.sum_eq_zero fun i _ => by rw [hz j i j.2 i.2, zero_mul]] at this
      rcases mul_eq_zero.mp this.symm with e' | e'
      · exact absurd e' h0
      · rw [e', mul_zero]
  rw [absLt_iff, this, map_zero, norm_zero]
  exact_mod_cast ht

theorem innerL_nil (v : List K) : innerL ([] : List K) v = 0 := by simp [innerL]

/-- eigenvalues of Hermitian matrices are real -/
theorem hermitian_real {M : Mat K} {n : ℕ} (hM : M.IsHermitian n) {v : List K} {x : K} (hu : ∑ j : Fin n, star (v.getD j 0) * v.getD j 0 = 1)
    (hv : ∀ i, i < n → ∑ j : Fin n, M.get i j * v.getD j 0 = x * v.getD i 0) : IsReal x := by
  have e : x = ∑ i : Fin n, ∑ j : Fin n, star (v.getD i 0) * M.get i j * v.getD j 0 := by
    calc x = x * ∑ i : Fin n, star (v.getD i 0) * v.getD i 0 := by rw [hu, mul_one]
      _ = ∑ i : Fin n, star (v.getD i 0) * (x * v.getD i 0) := by rw [Finset.mul_sum]; exact Finset.sum_congr rfl fun i _ => by ring
      _ = _ := Finset.sum_congr rfl fun i _ => by rw [← hv i i.2, Finset.mul_sum]; exact Finset.sum_congr rfl fun j _ => by ring
  show star x = x
  conv_rhs => rw [e]
  rw [e, star_sum, Finset.sum_comm]
  refine Finset.sum_congr rfl fun i _ => ?_
  rw [star_sum]
  refine Finset.sum_congr rfl fun j _ => ?_
  rw [star_mul', star_mul', star_star, hM.2.2 j i j.2 i.2, star_star]; ring

/-- averages of real numbers above the tolerance -/
theorem weighted_real {m : ℕ} {x D : Fin m → K} {tol : ℚ} {y : K} (hD : ∀ j, IsReal (D j) ∧ (tol : ℝ) < toR (D j)) (hx : ∑ j, star (x j) * x j = 1)
    (hy : y = ∑ j, star (x j) * x j * D j) : IsReal y ∧ (tol : ℝ) < toR y := by
  have hxx : ∀ j, IsReal (star (x j) * x j) := fun j => by rw [IsReal, star_mul', star_star, mul_comm]
  constructor
  · rw [hy, IsReal, star_sum]
    exact Finset.sum_congr rfl fun j _ => by rw [star_mul', hxx j, (hD j).1]
  · have h1 := congrArg toR hx
    rw [toR_sum, toR_one] at h1
    simp only [toR_norm_sq] at h1
    rw [hy, toR_sum]
    have h2 : ∀ j, toR (star (x j) * x j * D j) = ‖toC (x j)‖ ^ 2 * toR (D j) := fun j => by rw [toR_mul (hxx j), toR_norm_sq]
    simp only [h2]
    have h3 : (tol : ℝ) = ∑ j, ‖toC (x j)‖ ^ 2 * (tol : ℝ) := by rw [← Finset.sum_mul, h1, one_mul]
    rw [h3]
    refine Finset.sum_lt_sum (fun j _ => mul_le_mul_of_nonneg_left (hD j).2.le (by positivity)) ?_
    have : ∃ j, ‖toC (x j)‖ ^ 2 ≠ 0 := by
      by_contra hn
      push Not at hn
      rw [Finset.sum_eq_zero fun j _ => hn j] at h1
      exact zero_ne_one h1
    obtain ⟨j, hj⟩ := this
    exact ⟨j, Finset.mem_univ _, mul_lt_mul_of_pos_left (hD j).2 (lt_of_le_of_ne (by positivity) hj.symm)⟩

/-- what is known about the eigenvalues and vectors -/
structure OriginalPairs (L : Mat K) (n : ℕ) (tol : ℚ) (l : List (K × List K)) : Prop where
  ortho : OrthonormalVectors n (l.map (·.2))
  real : ∀ e ∈ l, IsReal e.1 ∧ (tol : ℝ) < toR e.1
  eigen : ∀ e ∈ l, ∀ i, i < n → ∑ j : Fin n, L.get i j * e.2.getD j 0 = e.1 * e.2.getD i 0
  complete : ∀ (x : ℕ → K) (δ : K), IsReal δ → (tol : ℝ) < toR δ → (∀ i, i < n → ∑ j : Fin n, L.get i j * x j = δ * x i) →
    ∀ i, i < n → x i = (l.map fun e => (∑ j : Fin n, star (e.2.getD j 0) * x j) * e.2.getD i 0).sum

theorem expand_matrix {n m : ℕ} {l : List (K × List K)} (hm : l.length = m) (x : ℕ → K) (i : Fin n) :
    (l.map fun e => (∑ j : Fin n, star (e.2.getD j 0) * x j) * e.2.getD i 0).sum =
      ((colMat n m (l.map (·.2)) * (colMat n m (l.map (·.2)))ᴴ) *ᵥ fun j : Fin n => x j) i := by
  subst hm
  rw [← Fin.sum_univ_fun_getElem l fun e => (∑ j : Fin n, star (e.2.getD j 0) * x j) * e.2.getD i 0, ← Matrix.mulVec_mulVec]
  simp only [Matrix.mulVec, dotProduct]
  refine Finset.sum_congr rfl fun k _ => ?_
  have e : ∀ i : Fin n, colMat n l.length (l.map (·.2)) i k = l[(k : ℕ)].2.getD i 0 := fun i => colMat_map _ _ _ k.2
  rw [e, mul_comm]
  congr 1
  refine Finset.sum_congr rfl fun j _ => ?_
  rw [conjTranspose_apply, e]

/-- the pairs that `eig` returns for a Hermitian matrix, restricted to the positive eigenvalues -/
theorem positive_pairs {L : Mat K} {n : ℕ} (hL : L.IsHermitian n) {r : List K × List (List K)} (hr : IsEig L r)
    (ho : r.2.Pairwise (fun v w => ∑ j : Fin n, star (v.getD j 0) * w.getD j 0 = 0)) {tol : ℚ} (ht : 0 < tol) :
    OriginalPairs L n tol ((r.1.zip r.2).filter (fun e => reLt (-(I * e.1)) (tol : K) && reLt (tol : K) e.1)) := by
  obtain ⟨h1, h2, h3, h4, h5, -⟩ := hr
  rw [hL.1] at h1 h2 h3 h4 h5
  have hlen : r.1.length = r.2.length := by rw [h1, h2]
  have hreal : ∀ e ∈ r.1.zip r.2, IsReal e.1 := fun e he => hermitian_real hL (h4 _ (List.of_mem_zip he).2) (h5 e he)
  have hmem : ∀ e, e ∈ (r.1.zip r.2).filter (fun e => reLt (-(I * e.1)) (tol : K) && reLt (tol : K) e.1) ↔ e ∈ r.1.zip r.2 ∧ (tol : ℝ) < toR e.1 := by
    intro e
    rw [List.mem_filter, Bool.and_eq_true, reLt_iff', reLt_iff', toR_ratCast]
    refine and_congr_right fun he => ⟨fun h => h.2, fun h => ⟨?_, h⟩⟩
    have : toR (-(I * e.1)) = 0 := by
      rw [toR, map_neg, map_mul, toC_I, (hreal e he).toC_eq]; simp
    rw [this]; exact_mod_cast ht
  have hort : OrthonormalVectors n r.2 := ⟨h3, h4, ho⟩
  refine ⟨?_, fun e he => ⟨hreal e ((hmem e).mp he).1, ((hmem e).mp he).2⟩, fun e he => h5 e ((hmem e).mp he).1, fun x δ hδ hδt hx => ?_⟩
  · have : (((r.1.zip r.2).filter (fun e => reLt (-(I * e.1)) (tol : K) && reLt (tol : K) e.1)).map (·.2)).Sublist ((r.1.zip r.2).map (·.2)) := List.filter_sublist.map _
    rw [map_snd_zip_of_length hlen] at this
    exact hort.sublist this
  · intro i hi
    have e1 := hort.expand h2 x hi
    rw [e1]
    refine (Fin.sum_univ_fun_getElem r.2 fun v => (∑ j : Fin n, star (v.getD j 0) * x j) * v.getD i 0).trans ?_
    conv_lhs => rw [← map_snd_zip_of_length hlen, List.map_map]
    have hz : ∀ e ∈ r.1.zip r.2, ¬ (tol : ℝ) < toR e.1 → (∑ j : Fin n, star (e.2.getD j 0) * x j) * e.2.getD i 0 = 0 := by
      intro e he hne
      rw [hermitian_orthogonal hL (v := fun j => e.2.getD j 0) (hreal e he) (h5 e he) hx (by rintro rfl; exact hne hδt), zero_mul]
    have : ∀ l : List (K × List K), (∀ e ∈ l, e ∈ r.1.zip r.2) → (l.map ((fun v => (∑ j : Fin n, star (v.getD j 0) * x j) * v.getD i 0) ∘ fun e => e.2)).sum =
        ((l.filter (fun e => reLt (-(I * e.1)) (tol : K) && reLt (tol : K) e.1)).map fun e => (∑ j : Fin n, star (e.2.getD j 0) * x j) * e.2.getD i 0).sum := by
      intro l hl
      induction l with
      | nil => rfl
      | cons e l ih =>
        have he := hl e (by simp)
        rw [List.map_cons, List.sum_cons, ih fun e he => hl e (by simp [he]), List.filter_cons]
        split
        · rw [List.map_cons, List.sum_cons]; rfl
        · rename_i hn
          have : ¬ (tol : ℝ) < toR e.1 := fun h => hn (List.mem_filter.mp ((hmem e).mpr ⟨he, h⟩)).2
          rw [Function.comp_apply, hz e he this, zero_add]
    exact this _ fun e he => he

/-- the null vectors of the overlaps of a closed basis, and the combined columns -/
theorem null_combined {num : OriginalNumerics K} (hnum : IsOriginalNumerics num) {n : ℕ} {vs : List (List K)} (ho : OrthonormalVectors n vs) {tol : ℚ} (ht : 0 < tol)
    {ov : List K × List (List K)} (e2 : num.eigh (overlapMat (vs.map (List.drop n))) = .ok ov) :
    nullVectors tol ov = ov.2 ∧ ov.2.length = vs.length ∧ (colMat vs.length vs.length ov.2)ᴴ * colMat vs.length vs.length ov.2 = 1 ∧
      OrthonormalVectors n (ov.2.map (combineColumns n vs)) := by
  have hz : ∀ i j, i < vs.length → j < vs.length → (overlapMat (vs.map (List.drop n))).get i j = 0 := by
    intro i j hi hj
    rw [overlapMat, Mat.ofFn_get _ _ _ (by simpa using hi) (by simpa using hj), List.getD_eq_getElem _ _ (by simpa using hi), List.getElem_map,
      List.drop_eq_nil_of_le (le_of_eq (ho.dim _ (List.getElem_mem hi))), innerL_nil]
  have hnr : (overlapMat (vs.map (List.drop n))).nrows = vs.length := by simp [overlapMat, Mat.ofFn]
  have hnc : (overlapMat (vs.map (List.drop n))).ncols = vs.length := by simp [overlapMat, Mat.ofFn]
  obtain ⟨k1, k2⟩ := hnum.ladder.eigh _ _ (by rw [hnr]; exact ⟨hnr, hnc, fun i j hi hj => by rw [hz i j hi hj, hz j i hj hi, star_zero]⟩) e2
  rw [hnr] at k1 k2
  have hlen : ov.2.length = vs.length := by rw [← k1.len, k2]
  have hV := colMat_ortho ho rfl
  have hU := colMat_ortho k1.orthonormal hlen
  refine ⟨null_all hz k1 ht, hlen, hU, ?_⟩
  refine ortho_of_colMat (m := vs.length) (by simp [hlen]) (fun v hv => ?_) ?_
  · obtain ⟨u, -, rfl⟩ := List.mem_map.mp hv
    exact combineColumns_length _ _ _
  · rw [colMat_combine rfl hlen, conjTranspose_mul]
    calc _ = (colMat vs.length vs.length ov.2)ᴴ * (((colMat n vs.length vs)ᴴ * colMat n vs.length vs) * colMat vs.length vs.length ov.2) := by simp only [Matrix.mul_assoc]
      _ = 1 := by rw [hV, Matrix.one_mul, hU]

/-- the pairs of `_ladder_operators_original` before sparsification -/
theorem originalVectors_pairs {num : OriginalNumerics K} (hnum : IsOriginalNumerics num) (horth : OrthogonalEig num) {L : Mat K} {n : ℕ} (hL : L.IsHermitian n) {sp : Bool} {tol : ℚ}
    (ht : 0 < tol) {l : List (K × List K)} (h : originalVectors num L n n sp tol = .ok l) :
    ∃ pairs, OriginalPairs L n tol pairs ∧ (l = pairs ∧ (sp = false ∨ pairs = []) ∨
      sp = true ∧ ∃ sorted, ladderSort num.toLadderNumerics pairs = .ok sorted ∧ ladderSparsify num.toLadderNumerics sorted.length sorted = .ok l) := by
  unfold originalVectors at h
  obtain ⟨r, e1, h⟩ := py_bind_ok h
  obtain ⟨ov, e2, h⟩ := py_bind_ok h
  have hLn : L.ncols = L.nrows := by rw [hL.1, hL.2.1]
  have hE := hnum.eig L r hLn e1
  have hO := horth L r (by rw [hL.1]; exact hL) e1
  rw [hL.1] at hO
  have hp := positive_pairs hL hE hO ht
  have hpv : positiveVectors tol r = ((r.1.zip r.2).filter (fun e => reLt (-(I * e.1)) (tol : K) && reLt (tol : K) e.1)).map (·.2) := rfl
  generalize (r.1.zip r.2).filter (fun e => reLt (-(I * e.1)) (tol : K) && reLt (tol : K) e.1) = pp at hp hpv
  rw [hpv] at h e2
  set vs := pp.map (·.2) with hvs
  obtain ⟨hnull, hlen, hU, hW⟩ := null_combined hnum hp.ortho ht e2
  rw [hnull] at h
  have hppl : pp.length = vs.length := by simp [hvs]
  by_cases hemp : ov.2.isEmpty = true
  · rw [if_pos hemp] at h
    cases h
    have : pp = [] := by
      rw [List.isEmpty_iff] at hemp
      rw [hemp] at hlen
      exact List.length_eq_zero_iff.mp (by rw [hppl, ← hlen]; rfl)
    rw [this] at hp
    exact ⟨[], hp, .inl ⟨rfl, .inr rfl⟩⟩
  · rw [if_neg hemp] at h
    have hV := colMat_ortho hp.ortho rfl
    rw [← hvs] at hV
    obtain ⟨ws, e3, h⟩ := py_bind_ok h
    obtain rfl := normalize_all hnum.ladder hW e3
    obtain ⟨P, e4, hPh, hPg⟩ := project_ok hL hW.dim
    rw [e4] at h
    simp only [bind, Except.bind] at h
    split at h
    swap
    · cases h
    obtain ⟨r2, e5, h⟩ := py_bind_ok (x := num.eig P) h
    have hwl : (ov.2.map (combineColumns n vs)).length = vs.length := by rw [List.length_map, hlen]
    have hPh' : P.IsHermitian P.nrows := by rw [hPh.1]; exact hPh
    have hE2 := hnum.eig P r2 (by rw [hPh.1, hPh.2.1]) e5
    have hO2 := horth P r2 hPh' e5
    rw [hPh.1, hwl] at hO2
    have hE2' : OrthonormalVectors vs.length r2.2 := ⟨by have := hE2.dim; rwa [hPh.1, hwl] at this, by have := hE2.unit; rwa [hPh.1, hwl] at this, hO2⟩
    have hr1 : r2.1.length = vs.length := by rw [hE2.len, hPh.1, hwl]
    have hr2 : r2.2.length = vs.length := by rw [hE2.lenV, hPh.1, hwl]
    have hzl : (r2.1.zip r2.2).length = vs.length := by rw [List.length_zip, hr1, hr2, min_self]
    have hE3 := colMat_ortho hE2' hr2
    have hPm : (colMat n vs.length vs * colMat vs.length vs.length ov.2)ᴴ * (L.sq n * (colMat n vs.length vs * colMat vs.length vs.length ov.2)) = P.sq vs.length := by
      rw [← colMat_combine rfl hlen]
      ext a b
      have := hPg ⟨a, by rw [hwl]; exact a.2⟩ ⟨b, by rw [hwl]; exact b.2⟩
      rw [Mat.sq, this, Matrix.mul_apply]
      refine Finset.sum_congr rfl fun i _ => ?_
      rw [Matrix.mul_apply, Finset.mul_sum]
      refine Finset.sum_congr rfl fun j _ => ?_
      rw [conjTranspose_apply, colMat_get _ _ (by rw [hwl]; exact a.2), colMat_get _ _ (by rw [hwl]; exact b.2), Mat.sq, mul_assoc]
      rfl
    have hPE := eig_matrix (M := P) (n := vs.length) hzl (by have := hE2.eigen; rwa [hPh.1, hwl] at this)
    rw [map_snd_zip_of_length (by rw [hr1, hr2]), ← hPm] at hPE
    have hLV := eig_matrix hppl hp.eigen
    obtain ⟨c1, c2, c3, c4⟩ := compressed_eig hV hLV hU hE3 hPE
    have hmap2 : ((r2.1.zip r2.2).map fun e => (e.1, combineColumns n (ov.2.map (combineColumns n vs)) e.2)).map (·.2) =
        r2.2.map (combineColumns n (ov.2.map (combineColumns n vs))) := by
      conv_rhs => rw [← map_snd_zip_of_length (a := r2.1) (b := r2.2) (by rw [hr1, hr2]), List.map_map]
      rw [List.map_map]; rfl
    have hmap1 : ((r2.1.zip r2.2).map fun e => (e.1, combineColumns n (ov.2.map (combineColumns n vs)) e.2)).map (·.1) = (r2.1.zip r2.2).map (·.1) := by
      rw [List.map_map]; rfl
    have hQ : colMat n vs.length (((r2.1.zip r2.2).map fun e => (e.1, combineColumns n (ov.2.map (combineColumns n vs)) e.2)).map (·.2)) =
        colMat n vs.length vs * colMat vs.length vs.length ov.2 * colMat vs.length vs.length r2.2 := by
      rw [hmap2, colMat_combine hwl hr2, colMat_combine rfl hlen]
    have hpl : ((r2.1.zip r2.2).map fun e => (e.1, combineColumns n (ov.2.map (combineColumns n vs)) e.2)).length = vs.length := by rw [List.length_map, hzl]
    generalize (r2.1.zip r2.2).map (fun e => (e.1, combineColumns n (ov.2.map (combineColumns n vs)) e.2)) = pairs at *
    have hfin : OriginalPairs L n tol pairs := by
      refine ⟨ortho_of_colMat (m := vs.length) (by rw [List.length_map, hpl]) ?_ (by rw [hQ]; exact c1), ?_, ?_, ?_⟩
      · intro v hv
        rw [hmap2] at hv
        obtain ⟨u, -, rfl⟩ := List.mem_map.mp hv
        exact combineColumns_length _ _ _
      · intro e he
        obtain ⟨k, hk, rfl⟩ := List.getElem_of_mem he
        have hk' : k < vs.length := hpl ▸ hk
        have e1 : pairs[k].1 = ((r2.1.zip r2.2).map (·.1)).getD k 0 := by rw [← hmap1, List.getD_eq_getElem (pairs.map _) _ (by simpa using hk), List.getElem_map]
        have e2 := c4 ⟨k, hk'⟩
        rw [← e1] at e2
        have hX : (colMat vs.length vs.length ov.2 * colMat vs.length vs.length r2.2)ᴴ * (colMat vs.length vs.length ov.2 * colMat vs.length vs.length r2.2) = 1 := by
          rw [conjTranspose_mul, Matrix.mul_assoc, ← Matrix.mul_assoc _ (colMat vs.length vs.length ov.2), hU, Matrix.one_mul, hE3]
        have e3 := congrFun (congrFun hX ⟨k, hk'⟩) ⟨k, hk'⟩
        rw [Matrix.mul_apply, Matrix.one_apply_eq] at e3
        simp only [conjTranspose_apply] at e3
        refine weighted_real (fun j => ?_) e3 e2
        have hj : (j : ℕ) < pp.length := by rw [hppl]; exact j.2
        rw [List.getD_eq_getElem _ _ (by simpa using hj), List.getElem_map]
        exact hp.real _ (List.getElem_mem hj)
      · intro e he i hi
        obtain ⟨k, hk, rfl⟩ := List.getElem_of_mem he
        have hk' : k < vs.length := hpl ▸ hk
        have e1 := congrFun (congrFun c2 ⟨i, hi⟩) ⟨k, hk'⟩
        rw [← hQ, Matrix.mul_diagonal, Matrix.mul_apply] at e1
        have e2 : ∀ i : Fin n, colMat n vs.length (pairs.map (·.2)) i ⟨k, hk'⟩ = pairs[k].2.getD i 0 := fun i => colMat_map _ _ ⟨k, hk'⟩ hk
        simp only [e2] at e1
        rw [← hmap1, List.getD_eq_getElem (pairs.map _) _ (by simpa using hk), List.getElem_map, mul_comm] at e1
        exact e1
      · intro x δ d1 d2 d3 i hi
        have g1 := hp.complete x δ d1 d2 d3 i hi
        rw [g1, expand_matrix hppl x ⟨i, hi⟩, expand_matrix hpl x ⟨i, hi⟩, hQ, c3]
    refine ⟨pairs, hfin, ?_⟩
    cases sp with
    | false =>
      simp only [Bool.false_eq_true, if_false, Except.ok.injEq] at h
      exact .inl ⟨h.symm, .inl rfl⟩
    | true =>
      rw [if_pos rfl] at h
      obtain ⟨sorted, f1, f2⟩ := py_bind_ok h
      exact .inr ⟨rfl, sorted, f1, f2⟩

/-- the exception `e` is one of a numerical routine -/
def OriginalFails (num : OriginalNumerics K) (e : PyErr) : Prop :=
  (∃ M, num.eig M = .error e) ∨ (∃ M, num.eigh M = .error e) ∨ (∃ x, num.sqrt x = .error e) ∨ ∃ l, num.sparsify l = .error e

theorem normalize_all_err {num : LadderNumerics K} (hnum : IsLadderNumerics num) {n : ℕ} {vs : List (List K)} (hd : ∀ v ∈ vs, v.length = n)
    (hu : ∀ v ∈ vs, ∑ j : Fin n, star (v.getD j 0) * v.getD j 0 = 1) {e : PyErr} (h : vs.mapM (originalNormalize num) = .error e) : ∃ x, num.sqrt x = .error e := by
  induction vs with
  | nil => cases h
  | cons v vs ih =>
    rw [List.mapM_cons] at h
    cases hn : originalNormalize num v with
    | error e' =>
      rw [hn] at h
      cases h
      rw [originalNormalize, innerL_eq (hd v (by simp)) (hd v (by simp)), hu v (by simp)] at hn
      cases hy : num.sqrt (1 : K) with
      | error e' => rw [hy] at hn; cases hn; exact ⟨1, hy⟩
      | ok y =>
        obtain ⟨g1, g2, g3⟩ := hnum.sqrt 1 y (by simp [IsReal]) (by rw [toR_one]; norm_num) hy
        have e : y = 1 := by
          refine toR_inj g1 (by simp [IsReal]) ?_
          have := congrArg toR g3
          rw [pow_two, toR_mul g1, toR_one] at this
          rw [toR_one]; nlinarith
        subst e
        rw [hy] at hn
        have : reZero (1 : K) = false := by
          rw [reZero]
          have : reLt (0 : K) 1 = true := by rw [reLt_iff', toR_zero, toR_one]; norm_num
          simp [this]
        simp [bind, Except.bind, this] at hn
    | ok w =>
      rw [hn] at h
      cases hm : vs.mapM (originalNormalize num) with
      | error e' =>
        rw [hm] at h
        cases h
        exact ih (fun v hv => hd v (by simp [hv])) (fun v hv => hu v (by simp [hv])) hm
      | ok ws => rw [hm] at h; cases h

theorem originalVectors_err {num : OriginalNumerics K} (hnum : IsOriginalNumerics num) (horth : OrthogonalEig num) {L : Mat K} {n : ℕ} (hL : L.IsHermitian n) {sp : Bool} {tol : ℚ}
    (ht : 0 < tol) {e : PyErr} (h : originalVectors num L n n sp tol = .error e) : OriginalFails num e := by
  unfold originalVectors at h
  cases e1 : num.eig L with
  | error e' => rw [e1] at h; cases h; exact .inl ⟨_, e1⟩
  | ok r =>
  rw [e1] at h
  have hLn : L.ncols = L.nrows := by rw [hL.1, hL.2.1]
  have hE := hnum.eig L r hLn e1
  have hO := horth L r (by rw [hL.1]; exact hL) e1
  rw [hL.1] at hO
  have hp : OrthonormalVectors n (positiveVectors tol r) := (positive_pairs hL hE hO ht).ortho
  simp only [bind, Except.bind] at h
  generalize positiveVectors tol r = vs at hp h
  cases e2 : num.eigh (overlapMat (vs.map (List.drop n))) with
  | error e' => rw [e2] at h; cases h; exact .inr (.inl ⟨_, e2⟩)
  | ok ov =>
  obtain ⟨hnull, hlen, hU, hW⟩ := null_combined hnum hp ht e2
  rw [e2] at h
  simp only [hnull] at h
  by_cases hemp : ov.2.isEmpty = true
  · rw [if_pos hemp] at h; cases h
  rw [if_neg hemp] at h
  cases e3 : (ov.2.map (combineColumns n vs)).mapM (originalNormalize num.toLadderNumerics) with
  | error e' => rw [e3] at h; cases h; exact .inr (.inr (.inl (normalize_all_err hnum.ladder hW.dim hW.unit e3)))
  | ok ws =>
  rw [e3] at h
  obtain rfl := normalize_all hnum.ladder hW e3
  obtain ⟨P, e4, hPh, -⟩ := project_ok hL hW.dim
  simp only [e4] at h
  have hall : num.allclose P P.adjoint = true := by
    rw [hnum.allclose P P.adjoint (by show P.nrows = P.ncols; rw [hPh.1, hPh.2.1]) (by show P.ncols = P.nrows; rw [hPh.1, hPh.2.1])]
    intro i j hi hj
    have hi' := hPh.1 ▸ hi
    have hj' := hPh.2.1 ▸ hj
    rw [Mat.adjoint, Mat.ofFn_get _ _ _ (by rw [hPh.2.1]; exact hi') (by rw [hPh.1]; exact hj'), hPh.2.2 i j hi' hj', star_star, sub_self, map_zero, norm_zero]
    positivity
  rw [if_pos hall] at h
  cases e5 : num.eig P with
  | error e' => rw [e5] at h; cases h; exact .inl ⟨_, e5⟩
  | ok r2 =>
  rw [e5] at h
  cases sp with
  | false => simp at h
  | true =>
    simp only [if_true] at h
    obtain ⟨sorted, hsort⟩ := ladderSort_total (num := num.toLadderNumerics) hnum.ladder.argsort ((r2.1.zip r2.2).map fun e => (e.1, combineColumns n (ov.2.map (combineColumns n vs)) e.2))
    rw [hsort] at h
    exact .inr (.inr (.inr (ladderSparsify_err _ _ _ h)))

/-! ### the square matrix -/

private def noString : OpString := ⟨[], [], .pauli, .float1⟩

theorem projectRows_ok {L : Mat K} {ext A : Basis} (hA : A.Inv) (hn : ext.strs.Nodup) (hwf : L.WF) (hr : L.nrows = ext.strs.length) (hc : L.ncols = A.len) :
    ∃ P, projectRows L ext A = .ok P ∧ P.nrows = A.len ∧ P.ncols = A.len ∧ ∀ i (hi : i < A.strs.length) j, P.get i j = L.coefAt ext j A.strs[i] := by
  obtain ⟨a1, a2⟩ := hA
  have hcon : ∀ s, A.contains s = decide (s ∈ A.strs) := fun s => by
    have := Basis.contains_ofList A.strs s
    rwa [← a1] at this
  have hidx : ∀ s ∈ A.strs, A.index s = .ok (A.strs.idxOf s) := fun s hs => by
    have := Basis.index_ofList A.strs s
    rw [← a1, if_pos hs] at this
    exact this
  have hf : ∀ e ∈ L.data.filter (fun e => (ext.strs[e.1]?).any A.contains), (do
      let s ← pyGet ext.strs e.1
      let i ← A.index s
      .ok (i, e.2.1, e.2.2) : Py (ℕ × ℕ × K)) = .ok (A.strs.idxOf (ext.strs.getD e.1 noString), e.2.1, e.2.2) := by
    intro e he
    obtain ⟨h1, h2⟩ := List.mem_filter.mp he
    have h3 : e.1 < ext.strs.length := hr ▸ (hwf e h1).1
    rw [List.getElem?_eq_getElem h3, Option.any_some, hcon, decide_eq_true_iff] at h2
    rw [pyGet_lt h3]
    show (A.index ext.strs[e.1] >>= _) = _
    rw [hidx _ h2, List.getD_eq_getElem _ _ h3]; rfl
  have hcsr : ∀ e ∈ (L.data.filter (fun e => (ext.strs[e.1]?).any A.contains)).map (fun e => (A.strs.idxOf (ext.strs.getD e.1 noString), e.2.1, e.2.2)),
      e.1 < A.len ∧ e.2.1 < A.len := by
    intro e he
    obtain ⟨e, he', rfl⟩ := List.mem_map.mp he
    obtain ⟨h1, h2⟩ := List.mem_filter.mp he'
    have h3 : e.1 < ext.strs.length := hr ▸ (hwf e h1).1
    rw [List.getElem?_eq_getElem h3, Option.any_some, hcon, decide_eq_true_iff] at h2
    refine ⟨?_, hc ▸ (hwf e h1).2⟩
    show A.strs.idxOf (ext.strs.getD e.1 noString) < A.strs.length
    rw [List.getD_eq_getElem _ _ h3]
    exact List.idxOf_lt_length_iff.mpr h2
  refine ⟨_, by rw [projectRows, mapM_ok hf]; exact mkCsr_ok hcsr, rfl, rfl, fun i hi j => ?_⟩
  rw [Mat.get, Mat.coefAt, Mat.get]
  simp only [List.map_map, Function.comp_def]
  have key : ∀ D : List (ℕ × ℕ × K), (∀ e ∈ D, e.1 < ext.strs.length) →
      ((D.filter (fun e => (ext.strs[e.1]?).any A.contains)).map (fun e => if A.strs.idxOf (ext.strs.getD e.1 noString) = i ∧ e.2.1 = j then e.2.2 else 0)).sum =
        if A.strs[i] ∈ ext.strs then (D.map (fun e => if e.1 = ext.strs.idxOf A.strs[i] ∧ e.2.1 = j then e.2.2 else 0)).sum else 0 := by
    intro D hD
    induction D with
    | nil => simp
    | cons e D ih =>
      have h3 := hD e (by simp)
      have ih := ih fun e he => hD e (by simp [he])
      rw [List.filter_cons, List.map_cons, List.sum_cons, List.getElem?_eq_getElem h3, Option.any_some, hcon]
      by_cases hm : ext.strs[e.1] ∈ A.strs
      · rw [if_pos (by simpa using hm), List.map_cons, List.sum_cons, ih, List.getD_eq_getElem _ _ h3]
        have e1 : A.strs.idxOf ext.strs[e.1] = i ↔ ext.strs[e.1] = A.strs[i] := by
          constructor
          · rintro rfl; exact (List.getElem_idxOf _).symm
          · intro h; rw [h]; exact List.Nodup.idxOf_getElem a2 i hi
        by_cases hx : A.strs[i] ∈ ext.strs
        · rw [if_pos hx, if_pos hx]
          have e2 : e.1 = ext.strs.idxOf A.strs[i] ↔ ext.strs[e.1] = A.strs[i] := by
            constructor
            · intro h; simp only [h, List.getElem_idxOf]
            · intro h; rw [← h]; exact (List.Nodup.idxOf_getElem hn e.1 h3).symm
          simp only [e1, e2]
        · rw [if_neg hx, if_neg hx, if_neg, add_zero]
          rintro ⟨h, -⟩
          exact hx (e1.mp h ▸ List.getElem_mem h3)
      · rw [if_neg (by simpa using hm), ih]
        by_cases hx : A.strs[i] ∈ ext.strs
        · rw [if_pos hx, if_pos hx, if_neg, zero_add]
          rintro ⟨h, -⟩
          exact hm (by simp only [h, List.getElem_idxOf]; exact List.getElem_mem hi)
        · rw [if_neg hx, if_neg hx]
  exact key L.data fun e he => hr ▸ (hwf e he).1

/-- a combination of some of the strings as a combination of all of them -/
theorem linComb_extend (den : OpString → 𝔸) {l m : List OpString} (hl : l.Nodup) (hm : m.Nodup) (h : ∀ s ∈ l, s ∈ m) (y : ℕ → K) :
    linComb den l y = linComb den m (fun i => if (m.getD i noString) ∈ l then y (l.idxOf (m.getD i noString)) else 0) := by
  classical
  have e1 : linComb den l y = ∑ s ∈ l.toFinset, y (l.idxOf s) • den s := by
    rw [List.sum_toFinset _ hl, ← Fin.sum_univ_fun_getElem l fun s => y (l.idxOf s) • den s]
    refine Finset.sum_congr rfl fun k _ => ?_
    rw [List.Nodup.idxOf_getElem hl k k.2]; rfl
  have e2 : linComb den m (fun i => if (m.getD i noString) ∈ l then y (l.idxOf (m.getD i noString)) else 0) = ∑ s ∈ m.toFinset, (if s ∈ l then y (l.idxOf s) else 0) • den s := by
    rw [List.sum_toFinset _ hm, ← Fin.sum_univ_fun_getElem m fun s => (if s ∈ l then y (l.idxOf s) else 0) • den s]
    refine Finset.sum_congr rfl fun k _ => ?_
    beta_reduce
    rw [List.getD_eq_getElem _ _ k.2]; rfl
  rw [e1, e2]
  have hsub : l.toFinset ⊆ m.toFinset := fun s hs => by simpa using h s (by simpa using hs)
  rw [← Finset.sum_subset hsub (f := fun s => (if s ∈ l then y (l.idxOf s) else 0) • den s)]
  · exact Finset.sum_congr rfl fun s hs => by rw [if_pos (by simpa using hs)]
  · intro s _ hs
    rw [if_neg (by simpa using hs), zero_smul]

/-- the matrix of the commutator with an operator on a basis -/
def originalMatrix (A : Basis) (O : Operator K) : Py (Mat K) := do
  let minus ← O.neg
  let (L, last) ← liouvillianStrings A minus .commutator
  projectRows L last A

/-- running the function on a closed basis -/
theorem original_closed [Nontrivial 𝔸] (R : StrAlg K 𝔸) {num : OriginalNumerics K} {A : Basis} (hA : A.Inv) (hs : ∀ s ∈ A.strs, R.Str s ∧ s.Canonical) {O : Operator K} (hO : O.WF)
    (hOs : ∀ s ∈ O.basis.strs, R.Str s) (hr : ∀ x ∈ O.coeffs, IsReal x) (hcl : ClosedUnder R.Str R.den A.strs O) {sp : Bool} {tol : ℚ} :
    ∃ L : Mat K, L.IsHermitian A.len ∧ (∀ w : ℕ → K, bracketOf .commutator (O.den R.den) (linComb R.den A.strs w) = linComb R.den A.strs (fun i => ∑ j : Fin A.len, L.get i j * w j)) ∧
      ladderOperatorsOriginal num A O sp tol = (do
        let l ← originalVectors num L A.len A.len sp tol
        let ops ← l.mapM (fun e => mkOperator e.2 A.strs none)
        .ok (ops, l.map (·.1))) ∧ originalMatrix A O = .ok L := by
  obtain ⟨m, L, B, inA, h1, h2, -, h3⟩ := ladderSetup_ok R hA hs hO hOs hr
  obtain ⟨m', g1, g2, g3, g4, g5⟩ := Operator.neg_ok (𝔸 := 𝔸) hO
  rw [h1] at g1
  obtain rfl := Except.ok.inj g1
  have hms : ∀ s ∈ m.basis.strs, R.Str s := by rw [g3]; exact hOs
  have hmr : ∀ x ∈ m.coeffs, star x = x := by
    rw [g4]
    intro x hx
    obtain ⟨y, hy, rfl⟩ := List.mem_map.mp hx
    rw [star_mul', hr y hy, star_neg, star_one]
  obtain ⟨L', B', k1, k2⟩ := R.liouvillianStrings_ok .commutator (fun s h => (hs s h).1) hms
  rw [h2] at k1
  simp only [Except.ok.injEq, Prod.mk.injEq] at k1
  obtain ⟨rfl, rfl⟩ := k1
  have hBA : ∀ t ∈ B.strs, t ∈ A.strs := fun t ht => hcl t (h3.reached t ht)
  have hcon : ∀ s, A.contains s = decide (s ∈ A.strs) := fun s => by
    have := Basis.contains_ofList A.strs s
    rwa [← hA.1] at this
  have hcomb : originalBasis A B = .ok A := by
    rw [originalBasis, List.filter_eq_nil_iff.mpr, List.append_nil, mkBasis_ok hA.2, ← hA.1]
    intro s hs
    rw [hcon]; simpa using hBA s hs
  obtain ⟨P, p1, p2, p3, p4⟩ := projectRows_ok hA k2.ext_inv.2 k2.wf k2.nrows k2.ncols
  have hcol : ∀ j (hj : j < A.strs.length), ∑ c : Fin B.strs.length, L.get c j • R.den B.strs[c] = bracketOf .commutator (R.den A.strs[j]) (m.den R.den) := by
    intro j hj
    rw [k2.col j hj, List.getElem?_eq_getElem hj]; rfl
  have hco : ∀ j (hj : j < A.strs.length) s, L.coefAt B j s = (m.terms.map fun t => t.1 * scEntry K .commutator A.strs[j] t.2 s).sum := fun j hj s =>
    R.coefAt_eq (hs _ (List.getElem_mem hj)).1 hms k2.ext_inv.2 k2.ext_str (hcol j hj) s
  refine ⟨P, ⟨p2, p3, fun i j hi hj => ?_⟩, fun w => ?_, ?_, ?_⟩
  · have hi' : i < A.strs.length := hi
    have hj' : j < A.strs.length := hj
    rw [p4 j hj' i, p4 i hi' j, hco i hi', hco j hj', star_list_sum]
    refine congrArg _ (List.map_congr_left fun t ht => ?_)
    have hx : star t.1 = t.1 := hmr _ (List.of_mem_zip ht).1
    obtain ⟨q1, q2⟩ := R.scEntry_star (K := K) (hs _ (List.getElem_mem hj')) (hms _ (mem_terms ht)) (hs _ (List.getElem_mem hi'))
    rw [star_mul', hx, q1, q2]
  · have e0 : bracketOf .commutator (O.den R.den) (linComb R.den A.strs w) = linComb R.den B.strs (fun c => ∑ j : Fin A.len, L.get c j * w j) := by
      have := h3.act ((List.range A.len).map w)
      have e1 : ∀ j, j < A.len → ((List.range A.len).map w).getD j 0 = w j := fun j hj => by rw [List.getD_eq_getElem _ _ (by simpa using hj)]; simp
      rw [vecOp, linComb_congr' (v := fun j => ((List.range A.len).map w).getD j 0) (w := w) R.den (fun j hj => e1 j hj)] at this
      rw [this]
      exact linComb_congr' _ fun c _ => Finset.sum_congr rfl fun j _ => by rw [e1 j j.2]
    rw [e0, linComb_extend R.den k2.ext_inv.2 hA.2 hBA]
    refine linComb_congr' _ fun i hi => ?_
    rw [List.getD_eq_getElem _ _ hi]
    have e2 : ∀ j : Fin A.len, P.get i j * w j = if A.strs[i] ∈ B.strs then L.get (B.strs.idxOf A.strs[i]) j * w j else 0 := fun j => by
      rw [p4 i hi, Mat.coefAt]; split <;> simp
    simp only [e2]
    split <;> simp
  · simp only [ladderOperatorsOriginal, h1, h2, hcomb, p1, bind, Except.bind]
  · simp only [originalMatrix, h1, h2, p1, bind, Except.bind]

/-- what a ladder operator over a closed basis is for the matrix of the commutator -/
theorem ladder_eigen [Nontrivial 𝔸] (R : StrAlg K 𝔸) {A : Basis} (hA : A.Inv) (hs : ∀ s ∈ A.strs, R.Str s ∧ s.Canonical) {O : Operator K} (hO : O.WF)
    (hOs : ∀ s ∈ O.basis.strs, R.Str s) (hr : ∀ x ∈ O.coeffs, IsReal x) (hcl : ClosedUnder R.Str R.den A.strs O) {L : Mat K} (hL : originalMatrix A O = .ok L) {v : List K} {δ : K}
    (h : IsLadder (O.den R.den) (vecOp R.den A v) δ) {i : ℕ} (hi : i < A.len) : ∑ j : Fin A.len, L.get i j * v.getD j 0 = δ * v.getD i 0 := by
  obtain ⟨L', -, hact, -, hL'⟩ := original_closed R (num := ⟨⟨fun _ => .error .valueError, fun _ => .error .valueError, fun _ => .error .valueError, fun _ => [],
    fun _ => .error .valueError, fun _ => .error .valueError⟩, fun _ => .error .valueError, fun _ _ => true⟩) hA hs hO hOs hr hcl (sp := false) (tol := 0)
  rw [hL] at hL'
  obtain rfl := Except.ok.inj hL'
  rw [IsLadder, vecOp, hact, ← linComb_smul'] at h
  have := R.independent hA.2 hs (w := fun i => ∑ j : Fin A.len, L.get i j * v.getD j 0 - δ * v.getD i 0) (by
    rw [linComb]
    simp only [sub_smul, Finset.sum_sub_distrib]
    exact sub_eq_zero.mpr h) i hi
  exact sub_eq_zero.mp this

/-! ### the results -/

theorem OriginalPairs.good [Nontrivial 𝔸] {R : StrAlg K 𝔸} {A : Basis} (hA : A.Inv) (hs : ∀ s ∈ A.strs, R.Str s ∧ s.Canonical) {O : Operator K} {L : Mat K} (hL : L.IsHermitian A.len)
    (hact : ∀ w : ℕ → K, bracketOf .commutator (O.den R.den) (linComb R.den A.strs w) = linComb R.den A.strs (fun i => ∑ j : Fin A.len, L.get i j * w j)) {tol : ℚ}
    {l : List (K × List K)} (h : OriginalPairs L A.len tol l) :
    (∀ e ∈ l, GoodPair R A O tol e) ∧ ∀ (w : ℕ → K) (δ : K), IsReal δ → (tol : ℝ) < toR δ → IsLadder (O.den R.den) (linComb R.den A.strs w) δ →
      linComb R.den A.strs w ∈ pairSpan R.den A l δ := by
  constructor
  · intro e he
    have hm := List.mem_map_of_mem (f := (·.2)) he
    refine ⟨h.ortho.dim _ hm, h.ortho.unit _ hm, (h.real e he).1, (h.real e he).2, ?_⟩
    rw [IsLadder, vecOp, hact, ← linComb_smul']
    exact linComb_congr' _ fun i hi => h.eigen e he i hi
  · intro w δ hδ hδt hlad
    have hx : ∀ i, i < A.len → ∑ j : Fin A.len, L.get i j * w j = δ * w i := by
      intro i hi
      rw [IsLadder, hact, ← linComb_smul'] at hlad
      have := R.independent hA.2 hs (w := fun i => ∑ j : Fin A.len, L.get i j * w j - δ * w i) (by
        rw [linComb]
        simp only [sub_smul, Finset.sum_sub_distrib]
        exact sub_eq_zero.mpr hlad) i hi
      exact sub_eq_zero.mp this
    have e1 := h.complete w δ hδ hδt hx
    have e2 : linComb R.den A.strs w = (l.map fun e => (∑ j : Fin A.len, star (e.2.getD j 0) * w j) • vecOp R.den A e.2).sum := by
      rw [linComb_congr' (v := w) R.den (fun i hi => e1 i hi)]
      clear e1 h
      induction l with
      | nil => simp [linComb]
      | cons e l ih =>
        rw [List.map_cons, List.sum_cons, ← ih, vecOp, ← linComb_smul', linComb, linComb, linComb, ← Finset.sum_add_distrib]
        exact Finset.sum_congr rfl fun i _ => by rw [List.map_cons, List.sum_cons, add_smul]
    rw [e2]
    refine list_sum_mem fun x hx' => ?_
    obtain ⟨e, he, rfl⟩ := List.mem_map.mp hx'
    by_cases hδe : e.1 = δ
    · exact Submodule.smul_mem _ _ (Submodule.subset_span ⟨e, he, hδe, rfl⟩)
    · rw [hermitian_orthogonal hL (v := fun j => e.2.getD j 0) (h.real e he).1 (h.eigen e he) hx hδe, zero_smul]
      exact Submodule.zero_mem _

/-- `_ladder_operators_original` on a closed basis -/
theorem ladderOriginal_closed [Nontrivial 𝔸] (R : StrAlg K 𝔸) {num : OriginalNumerics K} (hnum : IsOriginalNumerics num) (horth : OrthogonalEig num) {A : Basis} (hA : A.Inv)
    (hs : ∀ s ∈ A.strs, R.Str s ∧ s.Canonical) {O : Operator K} (hO : O.WF) (hOs : ∀ s ∈ O.basis.strs, R.Str s) (hr : ∀ x ∈ O.coeffs, IsReal x) (hcl : ClosedUnder R.Str R.den A.strs O)
    {sp : Bool} (hsp : sp = true → WellSeparated (K := K) R.den A.strs (O.den R.den)) {tol : ℚ} (htol : 0 < tol) {ops : List (Operator K)} {evals : List K}
    (h : ladderOperatorsOriginal num A O sp tol = .ok (ops, evals)) :
    List.Forall₂ (fun B δ => UnitOver A.strs B ∧ IsReal δ ∧ (tol : ℝ) < toR δ ∧ IsLadder (O.den R.den) (B.den R.den) δ) ops evals ∧
      (sp = true → evals.Pairwise (fun x y => ‖toC x‖ ≤ ‖toC y‖)) ∧ (sp = false → ops.Pairwise (OrthogonalOver A.strs)) ∧
      ∀ (w : ℕ → K) (δ : K), IsReal δ → (tol : ℝ) < toR δ → IsLadder (O.den R.den) (linComb R.den A.strs w) δ → linComb R.den A.strs w ∈ ladderSpan R.den ops evals δ := by
  obtain ⟨L, hL, hact, hrun, -⟩ := original_closed R (num := num) hA hs hO hOs hr hcl (sp := sp) (tol := tol)
  rw [hrun] at h
  obtain ⟨l, h1, h⟩ := py_bind_ok h
  obtain ⟨os, h3, h4⟩ := py_bind_ok h
  simp only [Except.ok.injEq, Prod.mk.injEq] at h4
  obtain ⟨rfl, rfl⟩ := h4
  have h2 : List.Forall₂ (fun (e : K × List K) (o : Operator K) => o.coeffs = e.2 ∧ o.basis.strs = A.strs) l os := by
    exact (mapM_ok_inv h3).imp fun e o he => let ⟨a, b, _⟩ := mkOperator_none_inv he; ⟨a, b⟩
  have key : (∀ e ∈ l, GoodPair R A O tol e) ∧ (sp = true → (l.map (·.1)).Pairwise (fun x y => ‖toC x‖ ≤ ‖toC y‖)) ∧ (sp = false → OrthonormalVectors A.len (l.map (·.2))) ∧
      ∀ (w : ℕ → K) (δ : K), IsReal δ → (tol : ℝ) < toR δ → IsLadder (O.den R.den) (linComb R.den A.strs w) δ → linComb R.den A.strs w ∈ pairSpan R.den A l δ := by
    obtain ⟨pairs, p1, p2⟩ := originalVectors_pairs hnum horth hL htol h1
    obtain ⟨g1, g2⟩ := p1.good hA hs hL hact
    rcases p2 with ⟨rfl, p2⟩ | ⟨rfl, sorted, p2, p3⟩
    · refine ⟨g1, fun hp => ?_, fun _ => p1.ortho, g2⟩
      rcases p2 with rfl | rfl
      · simp at hp
      · simp
    · obtain ⟨s1, s2⟩ := ladderSort_ok hnum.ladder.argsort p2
      obtain ⟨u1, u2, u3⟩ := ladderSparsify_ok hnum.ladder hA hs (hsp rfl) _ (p1.ortho.perm (s1.map _)) (fun e he => g1 e (s1.subset he)) p3
      refine ⟨u1, fun _ => by rw [u2]; exact List.pairwise_map.mpr s2, by simp, fun w δ q1 q2 q3 => u3 δ ?_⟩
      rw [pairSpan_perm R.den A s1]
      exact g2 w δ q1 q2 q3
  obtain ⟨g1, g2, g3, g4⟩ := key
  refine ⟨forall₂_evals h2 fun e he o e1 e2 => ?_, g2, fun hf => ?_, fun w δ a b c => pairSpan_le_ladderSpan (fun e he => (g1 e he).dim) h2 δ (g4 w δ a b c)⟩
  · have g := g1 e he
    refine ⟨⟨e2, by rw [e1]; exact g.dim, by rw [e1]; exact g.unit⟩, g.real, g.pos, ?_⟩
    rw [den_vecOp e1 e2 g.dim]; exact g.ladder
  · have := (g3 hf).orthogonal
    rw [← forall₂_coeffs h2, List.pairwise_map] at this
    exact this

theorem ladderOriginal_err [Nontrivial 𝔸] (R : StrAlg K 𝔸) {num : OriginalNumerics K} (hnum : IsOriginalNumerics num) (horth : OrthogonalEig num) {A : Basis} (hA : A.Inv)
    (hs : ∀ s ∈ A.strs, R.Str s ∧ s.Canonical) {O : Operator K} (hO : O.WF) (hOs : ∀ s ∈ O.basis.strs, R.Str s) (hr : ∀ x ∈ O.coeffs, IsReal x) (hcl : ClosedUnder R.Str R.den A.strs O)
    {sp : Bool} {tol : ℚ} (htol : 0 < tol) {e : PyErr} (h : ladderOperatorsOriginal num A O sp tol = .error e) : OriginalFails num e := by
  obtain ⟨L, hL, hact, hrun, -⟩ := original_closed R (num := num) hA hs hO hOs hr hcl (sp := sp) (tol := tol)
  rw [hrun] at h
  cases h1 : originalVectors num L A.len A.len sp tol with
  | error e' => rw [h1] at h; cases h; exact originalVectors_err hnum horth hL htol h1
  | ok l =>
    exfalso
    rw [h1] at h
    by_cases hA0 : A.strs = []
    · have hl : l = [] := by
        obtain ⟨pairs, p1, p2⟩ := originalVectors_pairs hnum horth hL htol h1
        have hp : pairs = [] := by
          rw [List.eq_nil_iff_forall_not_mem]
          intro e he
          have hu := p1.ortho.unit _ (List.mem_map_of_mem (f := (·.2)) he)
          rw [Finset.sum_eq_zero] at hu
          · exact zero_ne_one hu
          · intro j _
            have : (j : ℕ) < A.strs.length := j.2
            rw [hA0] at this; simp at this
        subst hp
        rcases p2 with ⟨rfl, -⟩ | ⟨-, sorted, q1, q2⟩
        · rfl
        · have := (ladderSort_ok hnum.ladder.argsort q1).1
          rw [List.perm_nil] at this
          subst this
          rw [List.length_nil, ladderSparsify] at q2
          exact (Except.ok.inj q2).symm
      subst hl
      simp [bind, Except.bind, pure, Except.pure] at h
    · obtain ⟨ops, h2, -⟩ := mapM_forall₂ (f := fun e : K × List K => mkOperator e.2 A.strs none) (Q := fun _ _ => True) (l := l) fun e _ =>
          ⟨_, mkOperator_none_ok hA0 hA.2 (fun s hs' => R.str_type s (hs s hs').1), trivial⟩
      simp only [bind, Except.bind, h2] at h
      cases h

end Qosy
