import Mathlib.LinearAlgebra.Matrix.ConjTranspose
import Mathlib.LinearAlgebra.Matrix.NonsingularInverse
import Verif.Lemmas.GreedySolve
import Verif.Lemmas.ManyOps2
import Verif.Spec.Ladder

/-! # Linear algebra for the ladder operators -/

namespace Qosy
open Coef RealOps
variable {K : Type} [Field K] [StarRing K] [Coef K] [RealCoef K]

/-! ### dense matrices -/

omit [Coef K] [RealCoef K] [StarRing K] in
theorem sum_flatMap_map (m n : ℕ) (g : ℕ → ℕ → K) :
    (((List.range m).flatMap (fun i => (List.range n).map (g i))).sum) = ∑ i ∈ Finset.range m, ∑ j ∈ Finset.range n, g i j := by
  induction m with
  | zero => simp
  | succ m ih =>
    rw [List.range_succ, List.flatMap_append, List.sum_append, ih, Finset.sum_range_succ]
    congr 1
    simp only [List.flatMap_cons, List.flatMap_nil, List.append_nil]
    clear ih
    induction n with
    | zero => simp
    | succ n ih => rw [List.range_succ, List.map_append, List.sum_append, Finset.sum_range_succ, ih]; simp

theorem Mat.ofFn_get (m n : ℕ) (f : ℕ → ℕ → K) {i j : ℕ} (hi : i < m) (hj : j < n) : (Mat.ofFn m n f).get i j = f i j := by
  unfold Mat.get Mat.ofFn
  simp only [List.map_flatMap, List.map_map, Function.comp_def]
  rw [sum_flatMap_map m n (fun a b => if a = i ∧ b = j then f a b else 0), Finset.sum_eq_single i, Finset.sum_eq_single j]
  · simp
  · intro b _ hb; simp [hb]
  · intro h; exact absurd (Finset.mem_range.mpr hj) h
  · intro b _ hb; simp [hb]
  · intro h; exact absurd (Finset.mem_range.mpr hi) h

theorem hermitianPart_hermitian (M : Mat K) : M.hermitianPart.IsHermitian M.nrows := by
  refine ⟨rfl, rfl, fun i j hi hj => ?_⟩
  unfold Mat.hermitianPart
  rw [Mat.ofFn_get _ _ _ hi hj, Mat.ofFn_get _ _ _ hj hi, star_div₀, star_add, star_star, add_comm, show star (2 : K) = 2 from star_ofNat 2]

theorem hermitianPart_get {M : Mat K} {n : ℕ} (h : M.IsHermitian n) {i j : ℕ} (hi : i < n) (hj : j < n) : M.hermitianPart.get i j = M.get i j := by
  obtain ⟨h1, h2, h3⟩ := h
  unfold Mat.hermitianPart
  rw [Mat.ofFn_get _ _ _ (h1 ▸ hi) (h1 ▸ hj), h3 i j hi hj, star_star]
  have : (2 : K) ≠ 0 := toC_num_ne
  field_simp
  ring

/-! ### orthonormal vectors -/

theorem OrthonormalVectors.gram {n : ℕ} {l : List (List K)} (h : OrthonormalVectors n l) (a b : Fin l.length) :
    ip n l[a] l[b] = if a = b then 1 else 0 := by
  by_cases e : a = b
  · subst e; rw [if_pos rfl]; exact h.unit _ (List.getElem_mem _)
  · rw [if_neg e]
    have hp := List.pairwise_iff_getElem.mp h.orthogonal
    rcases lt_or_gt_of_ne (fun h' : (a : ℕ) = b => e (Fin.ext h')) with h' | h'
    · exact hp a b a.2 b.2 h'
    · exact ip_symm (hp b a b.2 a.2 h')

/-- `n` orthonormal vectors with `n` entries are a basis -/
theorem OrthonormalVectors.expand {n : ℕ} {l : List (List K)} (h : OrthonormalVectors n l) (hl : l.length = n) (u : ℕ → K) {i : ℕ} (hi : i < n) :
    u i = ∑ k : Fin l.length, (∑ j : Fin n, star (l[k].getD j 0) * u j) * l[k].getD i 0 := by
  subst hl
  let U : Matrix (Fin l.length) (Fin l.length) K := fun i k => l[k].getD i 0
  have h1 : U.conjTranspose * U = 1 := by
    ext a b
    rw [Matrix.mul_apply]
    have := h.gram a b
    rw [ip] at this
    rw [Matrix.one_apply]
    exact this
  have h2 : U * U.conjTranspose = 1 := mul_eq_one_comm.mp h1
  have h3 := congrFun (congrArg (fun M => Matrix.mulVec M (fun j : Fin l.length => u j)) h2) ⟨i, hi⟩
  simp only [Matrix.one_mulVec] at h3
  rw [← Matrix.mulVec_mulVec] at h3
  rw [← h3]
  unfold Matrix.mulVec dotProduct
  exact Finset.sum_congr rfl fun k _ => mul_comm _ _

/-- eigenvectors of a Hermitian matrix for different eigenvalues are orthogonal -/
theorem hermitian_orthogonal {M : Mat K} {n : ℕ} (hM : M.IsHermitian n) {v u : ℕ → K} {x y : K} (hx : star x = x)
    (hv : ∀ i, i < n → ∑ j : Fin n, M.get i j * v j = x * v i) (hu : ∀ i, i < n → ∑ j : Fin n, M.get i j * u j = y * u i) (hxy : x ≠ y) :
    ∑ j : Fin n, star (v j) * u j = 0 := by
  have e1 : ∑ i : Fin n, star (v i) * ∑ j : Fin n, M.get i j * u j = y * ∑ j : Fin n, star (v j) * u j := by
    rw [Finset.mul_sum]; exact Finset.sum_congr rfl fun i _ => by rw [hu i i.2]; ring
  have e2 : ∑ i : Fin n, star (v i) * ∑ j : Fin n, M.get i j * u j = x * ∑ j : Fin n, star (v j) * u j := by
    simp only [Finset.mul_sum]
    rw [Finset.sum_comm]
    refine Finset.sum_congr rfl fun j _ => ?_
    have := congrArg star (hv j j.2)
    rw [star_sum, star_mul', hx] at this
    rw [← mul_assoc, ← this, Finset.sum_mul]
    refine Finset.sum_congr rfl fun i _ => ?_
    rw [star_mul', ← hM.2.2 j i j.2 i.2]; ring
  have : (x - y) * ∑ j : Fin n, star (v j) * u j = 0 := by rw [sub_mul, ← e2, e1, sub_self]
  rcases mul_eq_zero.mp this with h | h
  · exact absurd (sub_eq_zero.mp h) hxy
  · exact h

theorem IsEigenpairs.orthonormal {M : Mat K} {n : ℕ} {r : List K × List (List K)} (h : IsEigenpairs M n r) : OrthonormalVectors n r.2 := ⟨h.dim, h.unit, h.orthogonal⟩

/-- the expansion of an eigenvector contains only eigenvectors with the same eigenvalue -/
theorem IsEigenpairs.expand {M : Mat K} {n : ℕ} {r : List K × List (List K)} (hM : M.IsHermitian n) (h : IsEigenpairs M n r) (hl : r.1.length = n) {u : ℕ → K} {δ : K}
    (hu : ∀ i, i < n → ∑ j : Fin n, M.get i j * u j = δ * u i) : ∃ c : ℕ → K,
      (∀ i, i < n → u i = ∑ k : Fin r.2.length, c k * r.2[k].getD i 0) ∧ ∀ k, r.1[k]? ≠ some δ → c k = 0 := by
  have hl2 : r.2.length = n := by rw [← h.len, hl]
  classical
  refine ⟨fun k => if r.1[k]? = some δ then ∑ j : Fin n, star ((r.2.getD k []).getD j 0) * u j else 0, fun i hi => ?_, fun k hk => if_neg hk⟩
  refine (h.orthonormal.expand hl2 u hi).trans (Finset.sum_congr rfl fun k _ => ?_)
  have hk1 : (k : ℕ) < r.1.length := by rw [h.len]; exact k.2
  have hg : r.2.getD k [] = r.2[k] := List.getD_eq_getElem _ _ k.2
  beta_reduce
  rw [hg]
  by_cases e : r.1[(k : ℕ)]? = some δ
  · rw [if_pos e]
  · rw [if_neg e]
    rw [List.getElem?_eq_getElem hk1] at e
    have hm : (r.1[(k : ℕ)], r.2[k]) ∈ r.1.zip r.2 := by
      rw [List.mem_iff_getElem]
      exact ⟨k, by rw [List.length_zip]; omega, by simp⟩
    have := hermitian_orthogonal hM (v := fun j => r.2[k].getD j 0) (u := u) (h.real _ (List.getElem_mem hk1)) (fun i hi => h.eigen _ hm i hi) hu (fun e' => e (by rw [e']))
    rw [this]

/-- an eigenvalue is in the list -/
theorem IsEigenpairs.mem {M : Mat K} {n : ℕ} {r : List K × List (List K)} (hM : M.IsHermitian n) (h : IsEigenpairs M n r) (hl : r.1.length = n) {u : ℕ → K} {δ : K}
    (hu : ∀ i, i < n → ∑ j : Fin n, M.get i j * u j = δ * u i) {i : ℕ} (hi : i < n) (h0 : u i ≠ 0) : δ ∈ r.1 := by
  obtain ⟨c, h1, h2⟩ := h.expand hM hl hu
  by_contra hn
  apply h0
  rw [h1 i hi]
  refine Finset.sum_eq_zero fun k _ => ?_
  rw [h2 k (fun e => hn (List.mem_of_getElem? e)), zero_mul]

end Qosy
