import Verif.Spec.QuadraticSpectrum
import Verif.Lemmas.ZeroModes
import Verif.Lemmas.QuadraticLadder
import Mathlib.LinearAlgebra.Dimension.LinearMap

/-! # Lemmas for the spectra of quadratic Hamiltonians -/

namespace Qosy
open Matrix

/-! ### linear algebra -/

/-- the spectral decomposition -/
theorem spectral_columns {ι κ : Type} [Fintype ι] [DecidableEq ι] [Fintype κ] [DecidableEq κ] (e : ι ≃ κ) {D : Matrix ι ι ℂ} {U : Matrix ι κ ℂ}
    {E : κ → ℂ} (hU : ∀ k l, ∑ i, star (U i k) * U i l = if k = l then 1 else 0) (hD : ∀ k i, ∑ j, D i j * U j k = E k * U i k) (i j : ι) :
    D i j = ∑ k, E k * U i k * star (U j k) := by
  have h1 : Uᴴ * U = 1 := by
    ext k l
    rw [Matrix.mul_apply, Matrix.one_apply]
    exact hU k l
  have h2 : U * Uᴴ = 1 := (Matrix.mul_eq_one_comm_of_equiv e.symm).mp h1
  have h3 : D * U = U * Matrix.diagonal E := by
    ext i k
    rw [Matrix.mul_apply, Matrix.mul_diagonal, mul_comm (U i k)]
    exact hD k i
  have h4 : D = U * Matrix.diagonal E * Uᴴ := by rw [← h3, Matrix.mul_assoc, h2, Matrix.mul_one]
  have := congrFun (congrFun h4 i) j
  rw [this, Matrix.mul_apply]
  refine Finset.sum_congr rfl fun k _ => ?_
  rw [Matrix.mul_diagonal, Matrix.conjTranspose_apply]
  ring

/-- particle-hole symmetry makes the lower half of the spectrum negative -/
theorem lower_half {ι : Type} [Fintype ι] {D : Matrix ι ι ℂ} (hD : D.IsHermitian) (σ : ι → ι) (hσ : Function.Involutive σ)
    (hP : ∀ i j, D (σ i) (σ j) = -star (D i j)) {r : List (ℝ × (ι → ℂ))} (h : LowestEigenpairs D r) (hs : r.Pairwise fun p q => p.1 ≤ q.1)
    {k : ℕ} (hk : k < r.length) (hn : 2 * k < Fintype.card ι) : r[k].1 ≤ 0 := by
  by_contra hpos
  push Not at hpos
  have hb := h.minmax hD hs hk
  set vs := (r.take k).map Prod.snd with hvs
  have hlen : vs.length = k := by rw [hvs, List.length_map, List.length_take]; omega
  let conj : (ι → ℂ) → (ι → ℂ) := fun u i => star (u (σ i))
  have hsum : ∀ f : ι → ℂ, ∑ i, f (σ i) = ∑ i, f i := fun f => Equiv.sum_comp hσ.toPerm f
  have hsumR : ∀ f : ι → ℝ, ∑ i, f (σ i) = ∑ i, f i := fun f => Equiv.sum_comp hσ.toPerm f
  obtain ⟨u, hu0, hu⟩ := exists_orthogonal (vs ++ vs.map conj) (by rw [List.length_append, List.length_map (as := vs), hlen]; omega)
  have hin : ∀ v w : ι → ℂ, ∑ i, star (v i) * conj w i = star (∑ i, star (conj v i) * w i) := by
    intro v w
    rw [star_sum, ← hsum (fun i => star (v i) * conj w i)]
    refine Finset.sum_congr rfl fun i _ => ?_
    simp only [conj, hσ i, star_mul', star_star]
  have h1 := hb u fun v hv => hu v (List.mem_append_left _ hv)
  have h2 := hb (conj u) fun v hv => by
    rw [hin, hu _ (List.mem_append_right _ (List.mem_map_of_mem hv)), star_zero]
  have hmul : ∀ i, (D.mulVec (conj u)) i = -star (D.mulVec u (σ i)) := by
    intro i
    simp only [Matrix.mulVec, dotProduct, conj, star_sum, star_mul', ← Finset.sum_neg_distrib]
    rw [← hsum (fun j => -(star (D (σ i) j) * star (u j)))]
    refine Finset.sum_congr rfl fun j _ => ?_
    rw [hP, star_neg, star_star]; ring
  have hval : ∑ i, star (conj u i) * (D.mulVec (conj u)) i = -star (∑ i, star (u i) * D.mulVec u i) := by
    rw [star_sum, ← Finset.sum_neg_distrib, ← hsum (fun i => -star (star (u i) * D.mulVec u i))]
    refine Finset.sum_congr rfl fun i _ => ?_
    rw [hmul]
    simp only [conj, star_mul', star_star]; ring
  have hnorm : ∑ i, ‖conj u i‖ ^ 2 = ∑ i, ‖u i‖ ^ 2 := by
    rw [← hsumR (fun i => ‖u i‖ ^ 2)]
    exact Finset.sum_congr rfl fun i _ => by simp only [conj, norm_star]
  rw [hval, hnorm, Complex.neg_re, show (star (∑ i, star (u i) * D.mulVec u i)).re = (∑ i, star (u i) * D.mulVec u i).re from Complex.conj_re _] at h2
  have hupos : 0 < ∑ i, ‖u i‖ ^ 2 := by
    obtain ⟨i, hi⟩ := Function.ne_iff.mp hu0
    exact Finset.sum_pos' (fun _ _ => by positivity) ⟨i, Finset.mem_univ _, by have : 0 < ‖u i‖ := norm_pos_iff.mpr hi; positivity⟩
  have := mul_pos hpos hupos
  linarith

/-- orthonormal lists as families -/
theorem OrthonormalList.family {ι : Type} [Fintype ι] {β : Type} {r : List (β × (ι → ℂ))} (h : OrthonormalList (r.map Prod.snd)) (k l : Fin r.length) :
    ∑ i, star (r[k].2 i) * r[l].2 i = if k = l then 1 else 0 := by
  have hp : ∀ (a b : ℕ) (ha : a < r.length) (hb : b < r.length), a < b → ∑ i, star (r[a].2 i) * r[b].2 i = 0 := by
    intro a b ha hb hab
    have := List.pairwise_iff_getElem.mp h.2 a b (by simpa using ha) (by simpa using hb) hab
    simpa using this
  by_cases e : k = l
  · subst e
    rw [if_pos rfl]
    have h1 := h.1 r[k].2 (List.mem_map_of_mem (List.getElem_mem _))
    have h2 := sum_norm_sq r[k].2
    rw [h1] at h2
    simpa using h2.symm
  · rw [if_neg e]
    rcases lt_or_gt_of_ne e with hlt | hlt
    · exact hp k l k.2 l.2 hlt
    · rw [sum_star_comm]
      have := hp l k l.2 k.2 hlt
      rw [show ∑ i, star (r[l].2 i) * r[k].2 i = 0 from this, star_zero]

/-- ... and the upper half positive -/
theorem upper_half {ι : Type} [Fintype ι] {D : Matrix ι ι ℂ} (hD : D.IsHermitian) (σ : ι → ι) (hσ : Function.Involutive σ)
    (hP : ∀ i j, D (σ i) (σ j) = -star (D i j)) {r : List (ℝ × (ι → ℂ))} (h : LowestEigenpairs D r) (hs : r.Pairwise fun p q => p.1 ≤ q.1)
    (hl : r.length = Fintype.card ι) {k : ℕ} (hk : k < r.length) (hn : Fintype.card ι ≤ 2 * k) : 0 ≤ r[k].1 := by
  classical
  have hz : ∀ u : ι → ℂ, (∀ v ∈ r.map Prod.snd, ∑ i, star (v i) * u i = 0) → u = 0 := by
    intro u hu
    let U : Matrix ι (Fin r.length) ℂ := Matrix.of fun i k => r[k].2 i
    have h1 : Uᴴ * U = 1 := by
      ext k l
      rw [Matrix.mul_apply, Matrix.one_apply]
      exact h.orthonormal.family k l
    have h2 : U * Uᴴ = 1 := (Matrix.mul_eq_one_comm_of_equiv (Fintype.equivOfCardEq (by rw [hl, Fintype.card_fin]) : Fin r.length ≃ ι)).mp h1
    have h3 : Uᴴ *ᵥ u = 0 := by
      funext k
      exact hu _ (List.mem_map_of_mem (List.getElem_mem k.2))
    rw [← Matrix.one_mulVec u, ← h2, ← Matrix.mulVec_mulVec, h3, Matrix.mulVec_zero]
  have hmap : (r.reverse.map fun p => (-p.1, p.2)).map Prod.snd = (r.map Prod.snd).reverse := by
    rw [List.map_map, ← List.map_reverse]
    rfl
  have := lower_half hD.neg σ hσ (fun i j => by rw [Matrix.neg_apply, Matrix.neg_apply, hP, star_neg]) (r := r.reverse.map fun p => (-p.1, p.2))
    ⟨by rw [hmap]; exact h.orthonormal.perm (List.reverse_perm _).symm, by
      intro p hp
      obtain ⟨p', hp', rfl⟩ := List.mem_map.mp hp
      show (-D).mulVec p'.2 = ((-p'.1 : ℝ) : ℂ) • p'.2
      rw [Matrix.neg_mulVec, h.eigen p' (List.mem_reverse.mp hp'), Complex.ofReal_neg, neg_smul], by
      intro p hp u hu
      rw [hmap] at hu
      rw [hz u fun v hv => hu v (List.mem_reverse.mpr hv)]
      simp⟩ (by
      rw [List.pairwise_map, List.pairwise_reverse]
      exact hs.imp fun h => neg_le_neg h) (k := r.length - 1 - k) (by simp; omega) (by omega)
  simp only [List.getElem_map, List.getElem_reverse] at this
  have e : r.length - 1 - (r.length - 1 - k) = k := by omega
  simp only [e] at this
  linarith

/-! ### the solvers -/

theorem ofFn_finCongr {N N' : ℕ} (h : N' = N) (x : Fin N → ℂ) : List.ofFn (x ∘ finCongr h) = List.ofFn x := by
  subst h; rfl

theorem hermitian_ok {num : Eigensolvers} (hnum : num.Exact) {M : Mat ℂ} {N : ℕ} (hc : M.ncols = N) (hH : ∀ i j, M.get i j = star (M.get j i))
    {numVecs : Option ℕ} (hk : ∀ k ∈ numVecs, 0 < k ∧ k + 1 < N) :
    ∃ r : List (ℝ × (Fin N → ℂ)), num.hermitian M.toarray numVecs = .ok (r.map fun p => (p.1, p.2 ∘ finCongr hc)) ∧ r.length = numVecs.getD N ∧
      LowestEigenpairs (Matrix.of fun i j : Fin N => M.get i j) r := by
  subst hc
  have hT : M.toarray.IsHermitian := by
    ext i j
    exact (hH i j).symm
  have hid : ∀ r : List (ℝ × (Fin M.ncols → ℂ)), (r.map fun p => (p.1, p.2 ∘ finCongr (rfl : M.ncols = M.ncols))) = r := fun r => by
    conv_rhs => rw [← List.map_id r]
    exact List.map_congr_left fun p _ => rfl
  cases numVecs with
  | none => exact ⟨_, by rw [hid]; rfl, by simp, lowest_of_eigh (hnum.eigh _ _ hT)⟩
  | some k =>
    obtain ⟨h1, h2⟩ := hk k rfl
    obtain ⟨r, r1, r2, r3⟩ := hnum.eigsh _ M.toarray k hT h1 h2
    exact ⟨r, by rw [hid]; exact r1, r2, r3⟩

/-! ### modes -/

section modes
variable {n : ℕ} {𝔸 : Type} [Ring 𝔸] [Algebra ℂ 𝔸] [StarRing 𝔸] [StarModule ℂ 𝔸]

/-- exchange of `c_k` and `c†_k` -/
def nambuSwap (n : ℕ) (i : Fin (2 * n)) : Fin (2 * n) := ⟨halfSwap n i, halfSwap_lt i.2⟩

theorem nambuSwap_involutive : Function.Involutive (nambuSwap n) := fun i => Fin.ext (halfSwap_halfSwap i.2)

variable (R : MajoranaRep ℂ 𝔸 (siteLabels n))

theorem nambu_fin (i j : Fin (2 * n)) : R.nambuDag n i * R.nambu n j + R.nambu n j * R.nambuDag n i = if i = j then 1 else 0 := by
  rw [nambuDag_eq R i.2, nambu_anticomm R (halfSwap_lt i.2) j.2]
  by_cases h : i = j
  · subst h; simp
  · rw [if_neg h, if_neg, zero_smul]
    rw [halfSwap_eq (halfSwap_lt i.2) j.2, halfSwap_halfSwap i.2]
    exact fun h' => h (Fin.ext h')

theorem nambuDag_fin (i : Fin (2 * n)) : R.nambuDag n i = R.nambu n (nambuSwap n i) := nambuDag_eq R i.2

theorem star_nambu (hR : ∀ i ∈ siteLabels n, star (R.a i) = R.a i ∧ star (R.b i) = R.b i) (i : Fin (2 * n)) : star (R.nambu n i) = R.nambuDag n i := by
  rw [MajoranaRep.nambu, MajoranaRep.nambuDag]
  have := i.2
  split
  · exact R.star_c hR ⟨by omega, by omega⟩
  · exact R.star_cdag hR ⟨by omega, by omega⟩

theorem sum_halves {M : Type} [AddCommMonoid M] (g : ℕ → M) : ∑ i : Fin (2 * n), g i = ∑ i : Fin n, (g i + g (n + i)) := by
  rw [Finset.sum_add_distrib, ← Finset.sum_range (fun i => g i), ← Finset.sum_range g, ← Finset.sum_range (fun i => g (n + i)), two_mul, Finset.sum_range_add]

theorem bogoliubov_eq (w : Fin (2 * n) → ℂ) :
    R.bogoliubov (fun i : Fin n => w ⟨i, by omega⟩) (fun i : Fin n => w ⟨n + i, by omega⟩) = ∑ i, w i • R.nambuDag n i := by
  have := sum_halves (n := n) (fun i => (if h : i < 2 * n then w ⟨i, h⟩ else 0) • R.nambuDag n i)
  have h2 : ∀ i : Fin (2 * n), (if h : (i : ℕ) < 2 * n then w ⟨i, h⟩ else 0) = w i := fun i => by rw [dif_pos i.2]
  simp only [h2] at this
  rw [this, MajoranaRep.bogoliubov]
  refine Finset.sum_congr rfl fun i _ => ?_
  rw [dif_pos (by omega), dif_pos (by omega), MajoranaRep.nambuDag, MajoranaRep.nambuDag, if_pos i.2, if_neg (by omega), Nat.add_sub_cancel_left, add_comm]

/-- anticommutators of linear combinations -/
theorem anticomm_sum (x y : Fin (2 * n) → ℂ) :
    (∑ i, x i • R.nambuDag n i) * (∑ j, y j • R.nambu n j) + (∑ j, y j • R.nambu n j) * (∑ i, x i • R.nambuDag n i) = (∑ i, x i * y i) • 1 := by
  have h1 : (∑ i, x i • R.nambuDag n i) * (∑ j, y j • R.nambu n j) = ∑ i, ∑ j, (x i * y j) • (R.nambuDag n i * R.nambu n j) := by
    rw [Finset.sum_mul_sum]
    exact Finset.sum_congr rfl fun i _ => Finset.sum_congr rfl fun j _ => by rw [smul_mul_smul_comm]
  have h2 : (∑ j, y j • R.nambu n j) * (∑ i, x i • R.nambuDag n i) = ∑ i, ∑ j, (x i * y j) • (R.nambu n j * R.nambuDag n i) := by
    rw [Finset.sum_mul_sum, Finset.sum_comm]
    exact Finset.sum_congr rfl fun i _ => Finset.sum_congr rfl fun j _ => by rw [smul_mul_smul_comm, mul_comm]
  rw [h1, h2, ← Finset.sum_add_distrib, Finset.sum_smul]
  refine Finset.sum_congr rfl fun i _ => ?_
  rw [← Finset.sum_add_distrib, Finset.sum_congr rfl fun j _ => by rw [← smul_add, nambu_fin R i j]]
  rw [Finset.sum_eq_single i]
  · simp
  · intro j _ hj; rw [if_neg (Ne.symm hj), smul_zero]
  · simp

theorem sum_nambuDag_swap (w : Fin (2 * n) → ℂ) : ∑ i, w i • R.nambuDag n i = ∑ i, w (nambuSwap n i) • R.nambu n i := by
  rw [← Equiv.sum_comp (nambuSwap_involutive (n := n)).toPerm (fun i => w i • R.nambuDag n i)]
  refine Finset.sum_congr rfl fun i _ => ?_
  simp only [Function.Involutive.coe_toPerm]
  rw [nambuDag_fin R (nambuSwap n i), nambuSwap_involutive i]

theorem star_sum_nambuDag (hR : ∀ i ∈ siteLabels n, star (R.a i) = R.a i ∧ star (R.b i) = R.b i) (w : Fin (2 * n) → ℂ) :
    star (∑ i, w i • R.nambuDag n i) = ∑ i, star (w i) • R.nambu n i := by
  rw [star_sum]
  refine Finset.sum_congr rfl fun i _ => ?_
  rw [star_smul, ← star_nambu R hR, star_star]

/-- quasiparticles of a particle-hole symmetric matrix -/
theorem bdg_canonical (hR : ∀ i ∈ siteLabels n, star (R.a i) = R.a i ∧ star (R.b i) = R.b i) {m : ℕ} {w : Fin m → Fin (2 * n) → ℂ}
    (ho : ∀ k l, ∑ i, star (w k i) * w l i = if k = l then 1 else 0) (hc : ∀ k l, ∑ i, w k i * w l (nambuSwap n i) = 0) :
    CanonicalModes fun k => ∑ i, w k i • R.nambuDag n i := by
  intro k l
  constructor
  · show (∑ i, w k i • R.nambuDag n i) * (∑ i, w l i • R.nambuDag n i) + (∑ i, w l i • R.nambuDag n i) * (∑ i, w k i • R.nambuDag n i) = 0
    rw [sum_nambuDag_swap R (w l), anticomm_sum, hc, zero_smul]
  · show (∑ i, w k i • R.nambuDag n i) * star (∑ i, w l i • R.nambuDag n i) + star (∑ i, w l i • R.nambuDag n i) * (∑ i, w k i • R.nambuDag n i) = _
    rw [star_sum_nambuDag R hR, anticomm_sum]
    have : ∑ i, w k i * star (w l i) = if k = l then 1 else 0 := by
      rw [Finset.sum_congr rfl fun i _ => mul_comm _ _, ho l k]
      exact if_congr eq_comm rfl rfl
    rw [this]
    split <;> simp

/-- a quadratic form in terms of its quasiparticles -/
theorem bdg_form (hR : ∀ i ∈ siteLabels n, star (R.a i) = R.a i ∧ star (R.b i) = R.b i) {D : Matrix (Fin (2 * n)) (Fin (2 * n)) ℂ} {m : ℕ}
    {w : Fin m → Fin (2 * n) → ℂ} {E : Fin m → ℝ} (ho : ∀ k, ∑ i, star (w k i) * w k i = 1)
    (hspec : ∀ i j, D i j = ∑ k, -(E k : ℂ) * w k i * star (w k j) + ∑ k, (E k : ℂ) * star (w k (nambuSwap n i)) * w k (nambuSwap n j)) :
    (1 / 2 : ℂ) • ∑ i, ∑ j, D i j • (R.nambuDag n i * R.nambu n j) =
      ∑ k, (E k : ℂ) • (star (∑ i, w k i • R.nambuDag n i) * (∑ i, w k i • R.nambuDag n i)) - (1 / 2 * ∑ k, (E k : ℂ)) • 1 := by
  -- the form as a sum over the modes
  have key : ∀ x y : Fin (2 * n) → ℂ, ∑ i, ∑ j, (x i * y j) • (R.nambuDag n i * R.nambu n j) = (∑ i, x i • R.nambuDag n i) * (∑ j, y j • R.nambu n j) := by
    intro x y
    rw [Finset.sum_mul_sum]
    exact Finset.sum_congr rfl fun i _ => Finset.sum_congr rfl fun j _ => by rw [smul_mul_smul_comm]
  have h1 : ∑ i, ∑ j, D i j • (R.nambuDag n i * R.nambu n j) = ∑ k, (E k : ℂ) • (star (∑ i, w k i • R.nambuDag n i) * (∑ i, w k i • R.nambuDag n i)
      - (∑ i, w k i • R.nambuDag n i) * star (∑ i, w k i • R.nambuDag n i)) := by
    have e1 : ∀ i j, D i j • (R.nambuDag n i * R.nambu n j) = ∑ k, ((E k : ℂ) • ((star (w k (nambuSwap n i)) * w k (nambuSwap n j)) • (R.nambuDag n i * R.nambu n j))
        - (E k : ℂ) • ((w k i * star (w k j)) • (R.nambuDag n i * R.nambu n j))) := by
      intro i j
      rw [hspec i j, add_smul, Finset.sum_smul, Finset.sum_smul, ← Finset.sum_add_distrib]
      refine Finset.sum_congr rfl fun k _ => ?_
      module
    rw [Finset.sum_congr rfl fun i _ => Finset.sum_congr rfl fun j _ => e1 i j]
    rw [Finset.sum_congr rfl fun i _ => Finset.sum_comm, Finset.sum_comm]
    refine Finset.sum_congr rfl fun k _ => ?_
    simp only [Finset.sum_sub_distrib, ← Finset.smul_sum]
    rw [key (fun i => star (w k (nambuSwap n i))) (fun j => w k (nambuSwap n j)), key (w k) (fun j => star (w k j)), ← smul_sub]
    rw [star_sum_nambuDag R hR, ← sum_nambuDag_swap R (w k), sum_nambuDag_swap R (fun i => star (w k (nambuSwap n i)))]
    simp only [nambuSwap_involutive _]
  rw [h1, Finset.smul_sum, Finset.mul_sum, Finset.sum_smul, ← Finset.sum_sub_distrib]
  refine Finset.sum_congr rfl fun k _ => ?_
  have : (∑ i, w k i • R.nambuDag n i) * star (∑ i, w k i • R.nambuDag n i) + star (∑ i, w k i • R.nambuDag n i) * (∑ i, w k i • R.nambuDag n i) = 1 := by
    rw [star_sum_nambuDag R hR, anticomm_sum, Finset.sum_congr rfl fun i _ => mul_comm _ _, ho k, one_smul]
  rw [eq_sub_of_add_eq this]
  module

/-- a quadratic form in terms of its quasiparticles -/
theorem bdg_decomposition (hR : ∀ i ∈ siteLabels n, star (R.a i) = R.a i ∧ star (R.b i) = R.b i) {D : Matrix (Fin (2 * n)) (Fin (2 * n)) ℂ}
    {w : Fin n → Fin (2 * n) → ℂ} {E : Fin n → ℝ} (ho : ∀ k l, ∑ i, star (w k i) * w l i = if k = l then 1 else 0)
    (hc : ∀ k l, ∑ i, w k i * w l (nambuSwap n i) = 0) (hD : ∀ k i, ∑ j, D i j * w k j = -(E k : ℂ) * w k i)
    (hD' : ∀ k i, ∑ j, D i j * star (w k (nambuSwap n j)) = (E k : ℂ) * star (w k (nambuSwap n i))) :
    (1 / 2 : ℂ) • ∑ i, ∑ j, D i j • (R.nambuDag n i * R.nambu n j) =
      ∑ k, (E k : ℂ) • (star (∑ i, w k i • R.nambuDag n i) * (∑ i, w k i • R.nambuDag n i)) - (1 / 2 * ∑ k, (E k : ℂ)) • 1 := by
  have hsum : ∀ f : Fin (2 * n) → ℂ, ∑ i, f (nambuSwap n i) = ∑ i, f i := fun f => Equiv.sum_comp (nambuSwap_involutive (n := n)).toPerm f
  have hspec := spectral_columns (ι := Fin (2 * n)) (κ := Fin n ⊕ Fin n) ((finCongr (two_mul n)).trans finSumFinEquiv.symm) (D := D)
    (U := Matrix.of fun i k => Sum.elim (fun k => w k i) (fun k => star (w k (nambuSwap n i))) k)
    (E := Sum.elim (fun k => -(E k : ℂ)) (fun k => (E k : ℂ))) (by
      rintro (k | k) (l | l)
      · simp only [Matrix.of_apply, Sum.elim_inl, ho, Sum.inl.injEq]
      · simp only [Matrix.of_apply, Sum.elim_inl, Sum.elim_inr, reduceCtorEq, if_false]
        rw [← star_zero ℂ, ← hc k l, star_sum]
        exact Finset.sum_congr rfl fun i _ => by rw [star_mul']
      · simp only [Matrix.of_apply, Sum.elim_inl, Sum.elim_inr, reduceCtorEq, if_false, star_star]
        rw [← hc l k]
        exact Finset.sum_congr rfl fun i _ => mul_comm _ _
      · simp only [Matrix.of_apply, Sum.elim_inr, star_star, Sum.inr.injEq]
        rw [hsum (fun i => w k i * star (w l i)), Finset.sum_congr rfl fun i _ => mul_comm _ _, ho l k]
        exact if_congr eq_comm rfl rfl) (by
      rintro (k | k) i
      · exact hD k i
      · exact hD' k i)
  simp only [Fintype.sum_sum_type, Matrix.of_apply, Sum.elim_inl, Sum.elim_inr, star_star] at hspec
  exact bdg_form R hR (fun k => by rw [ho, if_pos rfl]) hspec

/-- orbitals of a Hermitian matrix -/
theorem orbital_canonical (hR : ∀ i ∈ siteLabels n, star (R.a i) = R.a i ∧ star (R.b i) = R.b i) {m : ℕ} {x : Fin m → Fin n → ℂ}
    (ho : ∀ k l, ∑ i, star (x k i) * x l i = if k = l then 1 else 0) : CanonicalModes fun k => R.orbital (x k) := by
  have hmem : ∀ i : Fin n, ((i : ℕ) : ℤ) ∈ siteLabels n := fun i => ⟨by omega, by omega⟩
  have hstar : ∀ y : Fin n → ℂ, star (R.orbital y) = ∑ i, y i • R.cdag ((i : ℕ) : ℤ) := fun y => by
    rw [MajoranaRep.orbital, star_sum]
    exact Finset.sum_congr rfl fun i _ => by rw [star_smul, star_star, R.star_c hR (hmem i)]
  intro k l
  constructor
  · show R.orbital (x k) * R.orbital (x l) + R.orbital (x l) * R.orbital (x k) = 0
    rw [MajoranaRep.orbital, MajoranaRep.orbital, Finset.sum_mul_sum, Finset.sum_mul_sum, Finset.sum_comm (γ := Fin n), ← Finset.sum_add_distrib]
    refine Finset.sum_eq_zero fun i _ => ?_
    rw [← Finset.sum_add_distrib]
    refine Finset.sum_eq_zero fun j _ => ?_
    rw [smul_mul_smul_comm, smul_mul_smul_comm, R.c_mul_c (hmem j) (hmem i), mul_comm, smul_neg, neg_add_cancel]
  · show R.orbital (x k) * star (R.orbital (x l)) + star (R.orbital (x l)) * R.orbital (x k) = _
    rw [hstar, MajoranaRep.orbital, Finset.sum_mul_sum, Finset.sum_mul_sum, Finset.sum_comm (γ := Fin n), ← Finset.sum_add_distrib]
    have h : ∀ i : Fin n, ∑ j, (star (x k j) • R.c ((j : ℕ) : ℤ)) * (x l i • R.cdag ((i : ℕ) : ℤ)) + ∑ j, (x l i • R.cdag ((i : ℕ) : ℤ)) * (star (x k j) • R.c ((j : ℕ) : ℤ)) =
        (star (x k i) * x l i) • (1 : 𝔸) := by
      intro i
      rw [← Finset.sum_add_distrib, Finset.sum_eq_single i]
      · rw [smul_mul_smul_comm, smul_mul_smul_comm, mul_comm (x l i), ← smul_add, R.c_mul_cdag (hmem i), sub_add_cancel]
      · intro j _ hj
        rw [smul_mul_smul_comm, smul_mul_smul_comm, mul_comm (x l i), ← smul_add, R.c_mul_cdag_other (hmem j) (hmem i) (fun h => hj (Fin.ext (by exact_mod_cast h))),
          neg_add_cancel, smul_zero]
      · simp
    rw [Finset.sum_congr rfl fun i _ => h i, ← Finset.sum_smul, ho]
    split <;> simp

theorem orbital_decomposition (hR : ∀ i ∈ siteLabels n, star (R.a i) = R.a i ∧ star (R.b i) = R.b i) {D : Matrix (Fin n) (Fin n) ℂ} {x : Fin n → Fin n → ℂ}
    {E : Fin n → ℝ} (ho : ∀ k l, ∑ i, star (x k i) * x l i = if k = l then 1 else 0) (hD : ∀ k i, ∑ j, D i j * x k j = (E k : ℂ) * x k i) :
    ∑ i : Fin n, ∑ j : Fin n, D i j • (R.cdag ((i : ℕ) : ℤ) * R.c ((j : ℕ) : ℤ)) = ∑ k, (E k : ℂ) • (star (R.orbital (x k)) * R.orbital (x k)) := by
  have hmem : ∀ i : Fin n, ((i : ℕ) : ℤ) ∈ siteLabels n := fun i => ⟨by omega, by omega⟩
  have hstar : ∀ y : Fin n → ℂ, star (R.orbital y) = ∑ i, y i • R.cdag ((i : ℕ) : ℤ) := fun y => by
    rw [MajoranaRep.orbital, star_sum]
    exact Finset.sum_congr rfl fun i _ => by rw [star_smul, star_star, R.star_c hR (hmem i)]
  have hspec := spectral_columns (Equiv.refl (Fin n)) (D := D) (U := Matrix.of fun i k => x k i) (E := fun k => (E k : ℂ)) ho hD
  have e1 : ∀ i j : Fin n, D i j • (R.cdag ((i : ℕ) : ℤ) * R.c ((j : ℕ) : ℤ)) = ∑ k, (E k : ℂ) • ((x k i • R.cdag ((i : ℕ) : ℤ)) * (star (x k j) • R.c ((j : ℕ) : ℤ))) := by
    intro i j
    rw [hspec i j, Finset.sum_smul]
    refine Finset.sum_congr rfl fun k _ => ?_
    rw [smul_mul_smul_comm, smul_smul, Matrix.of_apply, Matrix.of_apply, mul_assoc]
  rw [Finset.sum_congr rfl fun i _ => Finset.sum_congr rfl fun j _ => e1 i j, Finset.sum_congr rfl fun i _ => Finset.sum_comm, Finset.sum_comm]
  refine Finset.sum_congr rfl fun k _ => ?_
  rw [hstar, MajoranaRep.orbital, Finset.sum_mul_sum, Finset.smul_sum]
  exact Finset.sum_congr rfl fun i _ => by rw [Finset.smul_sum]

end modes

variable {n : ℕ} {num : Eigensolvers}

/-- the upper and the lower half of the vector of an eigenpair, and the energy -/
def splitPair (p : ℝ × (Fin (2 * n) → ℂ)) : ℝ × (Fin n → ℂ) × (Fin n → ℂ) :=
  (-p.1, fun i : Fin n => p.2 ⟨i, by omega⟩, fun i : Fin n => p.2 ⟨n + i, by omega⟩)

/-- the result of `diagonalize_bdg` for any particle-hole symmetric matrix, from eigenpairs whose `n` smallest eigenvalues are not positive -/
theorem bdg_result_of {argsort : List ℝ → List ℕ}
    (hsrt : ∀ l : List ℝ, (argsort l).Perm (List.range l.length) ∧ (argsort l).Pairwise fun i j => l.getD i 0 ≤ l.getD j 0) {M : Mat ℂ} (h3 : M.ncols = 2 * n) (h4 : ∀ i j, M.get i j = star (M.get j i))
    (h5 : ∀ i j, i < 2 * n → j < 2 * n → M.get (halfSwap n i) (halfSwap n j) = -star (M.get i j)) {solve : Py (List (ℝ × (Fin M.ncols → ℂ)))}
    {r : List (ℝ × (Fin (2 * n) → ℂ))} (r1 : solve = .ok (r.map fun p => (p.1, p.2 ∘ finCongr h3))) (ho : OrthonormalList (r.map Prod.snd))
    (he : ∀ p ∈ r, (Matrix.of fun i j : Fin (2 * n) => M.get i j).mulVec p.2 = (p.1 : ℂ) • p.2)
    (hn : ∀ q : List (ℝ × (Fin (2 * n) → ℂ)), r.Perm q → (q.Pairwise fun a b => a.1 ≤ b.1) → ∀ p ∈ q.take n, p.1 ≤ 0) :
    ∃ (ps : List (ℝ × (Fin M.ncols → ℂ))) (pairs : List (ℝ × (Fin n → ℂ) × (Fin n → ℂ))),
      (solve >>= sortEigenpairs argsort) = .ok ps ∧
      ((ps.take n).map fun p => |p.1|) = pairs.map Prod.fst ∧ ((ps.take n).map fun p => (List.ofFn p.2).take n) = (pairs.map fun p => List.ofFn p.2.1) ∧
      ((ps.take n).map fun p => ((List.ofFn p.2).drop n).take n) = (pairs.map fun p => List.ofFn p.2.2) ∧
      pairs.length = min n r.length ∧ (∀ p ∈ pairs, 0 ≤ p.1) ∧ (pairs.Pairwise fun p q => q.1 ≤ p.1) ∧
      (∃ q : List (ℝ × (Fin (2 * n) → ℂ)), r.Perm q ∧ (q.Pairwise fun a b => a.1 ≤ b.1) ∧ pairs = (q.take n).map splitPair) ∧
      ∀ {𝔸 : Type} [Ring 𝔸] [Algebra ℂ 𝔸] [StarRing 𝔸] [StarModule ℂ 𝔸] (R : MajoranaRep ℂ 𝔸 (siteLabels n)),
        (∀ i ∈ siteLabels n, star (R.a i) = R.a i ∧ star (R.b i) = R.b i) → ∀ c : ℂ,
        Quasiparticles R ((1 / 2 : ℂ) • ∑ i ∈ Finset.range (2 * n), ∑ j ∈ Finset.range (2 * n), M.get i j • (R.nambuDag n i * R.nambu n j) + c • 1) c pairs := by
  set D : Matrix (Fin (2 * n)) (Fin (2 * n)) ℂ := Matrix.of fun i j : Fin (2 * n) => M.get i j with hDdef
  obtain ⟨ps, s1, s2, s3⟩ := sortEigenpairs_ok hsrt (r.map fun p => (p.1, p.2 ∘ finCongr h3))
  -- the sorted pairs, indexed by `Fin (2 * n)`
  set q : List (ℝ × (Fin (2 * n) → ℂ)) := ps.map fun p => (p.1, p.2 ∘ (finCongr h3).symm) with hq
  have hperm : r.Perm q := by
    have := s2.map fun p : ℝ × (Fin M.ncols → ℂ) => (p.1, p.2 ∘ (finCongr h3).symm)
    rw [List.map_map] at this
    refine List.Perm.trans (List.Perm.of_eq ?_) this
    conv_lhs => rw [← List.map_id r]
    exact List.map_congr_left fun p _ => rfl
  have hsort : q.Pairwise fun a b => a.1 ≤ b.1 := by rw [hq, List.pairwise_map]; exact s3
  have hDh : D.IsHermitian := by ext i j; exact (h4 i j).symm
  have hP : ∀ i j, D (nambuSwap n i) (nambuSwap n j) = -star (D i j) := fun i j => h5 i j i.2 j.2
  have hoq : OrthonormalList (q.map Prod.snd) := ho.perm (hperm.map _)
  set t := q.take n with htk
  have htlen : t.length = min n r.length := by rw [htk, List.length_take, hperm.length_eq]
  have hneg : ∀ p ∈ t, p.1 ≤ 0 := hn q hperm hsort
  have hortho : OrthonormalList (t.map Prod.snd) := by
    rw [htk, List.map_take]
    exact ⟨fun v hv => hoq.1 v (List.mem_of_mem_take hv), hoq.2.sublist (List.take_sublist _ _)⟩
  have hfam := hortho.family
  have hmem : ∀ p ∈ t, p ∈ q := fun p hp => List.mem_of_mem_take hp
  have heig : ∀ p ∈ t, ∀ i, ∑ j, D i j * p.2 j = (p.1 : ℂ) * p.2 i := fun p hp i => congrFun (he p (hperm.mem_iff.mpr (hmem p hp))) i
  have hsum : ∀ f : Fin (2 * n) → ℂ, ∑ i, f (nambuSwap n i) = ∑ i, f i := fun f => Equiv.sum_comp (nambuSwap_involutive (n := n)).toPerm f
  have heig' : ∀ p ∈ t, ∀ i, ∑ j, D i j * star (p.2 (nambuSwap n j)) = -(p.1 : ℂ) * star (p.2 (nambuSwap n i)) := by
    intro p hp i
    have h := congrArg star (heig p hp (nambuSwap n i))
    rw [star_sum, ← hsum] at h
    rw [star_mul', show star (p.1 : ℂ) = p.1 from Complex.conj_ofReal _] at h
    rw [neg_mul, ← h, ← Finset.sum_neg_distrib]
    refine Finset.sum_congr rfl fun j _ => ?_
    rw [star_mul', hP, star_neg, star_star, neg_mul, neg_neg]
  have hcross : ∀ p ∈ t, ∀ p' ∈ t, p.1 < 0 ∨ p'.1 < 0 → ∑ i, p.2 i * p'.2 (nambuSwap n i) = 0 := by
    intro p hp p' hp' hlt
    -- both are eigenvectors of a Hermitian matrix with different eigenvalues
    have h1 := sum_star_mulVec hDh (fun i => star (p'.2 (nambuSwap n i))) p.2
    have e1 : D.mulVec p.2 = fun i => (p.1 : ℂ) * p.2 i := funext fun i => heig p hp i
    have e2 : D.mulVec (fun i => star (p'.2 (nambuSwap n i))) = fun i => -(p'.1 : ℂ) * star (p'.2 (nambuSwap n i)) := funext fun i => heig' p' hp' i
    rw [e1, e2] at h1
    simp only [star_star, star_mul', star_neg, show star (p'.1 : ℂ) = p'.1 from Complex.conj_ofReal _] at h1
    have h2 : ((p.1 : ℂ) + p'.1) * ∑ i, p.2 i * p'.2 (nambuSwap n i) = 0 := by
      have a1 : ∑ i, p'.2 (nambuSwap n i) * (↑p.1 * p.2 i) = (p.1 : ℂ) * ∑ i, p.2 i * p'.2 (nambuSwap n i) := by
        rw [Finset.mul_sum]; exact Finset.sum_congr rfl fun i _ => by ring
      have a2 : ∑ i, -(p'.1 : ℂ) * p'.2 (nambuSwap n i) * p.2 i = -((p'.1 : ℂ) * ∑ i, p.2 i * p'.2 (nambuSwap n i)) := by
        rw [Finset.mul_sum, ← Finset.sum_neg_distrib]; exact Finset.sum_congr rfl fun i _ => by ring
      rw [a1, a2] at h1
      linear_combination h1
    refine (mul_eq_zero.mp h2).resolve_left ?_
    have := hneg p hp
    have := hneg p' hp'
    exact_mod_cast (by rcases hlt with h | h <;> linarith : p.1 + p'.1 < 0).ne
  refine ⟨ps, t.map fun p => (-p.1, fun i : Fin n => p.2 ⟨i, by omega⟩, fun i : Fin n => p.2 ⟨n + i, by omega⟩), ?_, ?_, ?_, ?_, ?_, ?_, ?_, ⟨q, hperm, hsort, rfl⟩, ?_⟩
  · rw [r1]; exact s1
  · rw [List.map_map, htk, hq, ← List.map_take, List.map_map]
    refine List.map_congr_left fun p hp => ?_
    have : p.1 ≤ 0 := hneg (p.1, p.2 ∘ (finCongr h3).symm) (by rw [htk, hq, ← List.map_take]; exact List.mem_map_of_mem hp)
    simp [abs_of_nonpos this]
  · rw [List.map_map, htk, hq, ← List.map_take, List.map_map]
    refine List.map_congr_left fun p hp => ?_
    refine List.ext_getElem (by simp [h3]; omega) fun k h1 h2 => ?_
    simp
  · rw [List.map_map, htk, hq, ← List.map_take, List.map_map]
    refine List.map_congr_left fun p hp => ?_
    refine List.ext_getElem (by simp [h3]; omega) fun k h1 h2 => ?_
    simp
  · rw [List.length_map, htlen]
  · intro p hp
    obtain ⟨p', hp', rfl⟩ := List.mem_map.mp hp
    exact neg_nonneg.mpr (hneg p' hp')
  · rw [List.pairwise_map]
    exact (hsort.sublist (List.take_sublist _ _)).imp fun h => neg_le_neg h
  · intro 𝔸 _ _ _ _ R hR c
    have hbog : ∀ p ∈ t, R.bogoliubov (fun i : Fin n => p.2 ⟨i, by omega⟩) (fun i : Fin n => p.2 ⟨n + i, by omega⟩) = ∑ i, p.2 i • R.nambuDag n i :=
      fun p _ => bogoliubov_eq R p.2
    refine ⟨?_, ?_, ?_, ?_, ?_⟩
    · intro p hp
      obtain ⟨p', hp', rfl⟩ := List.mem_map.mp hp
      simp only
      rw [hbog p' hp', sum_nambuDag_swap]
      have hl := ladder_of_comm (m := 2 * n) (fun k hk => bdg_comm R h4 h5 hk) h4 (E := ((-p'.1 : ℝ) : ℂ)) (Complex.conj_ofReal _)
        (x := fun i => if h : i < 2 * n then star (p'.2 (nambuSwap n ⟨i, h⟩)) else 0) (fun i hi => by
          have := heig' p' hp' ⟨i, hi⟩
          rw [Finset.sum_range, dif_pos hi]
          simp only [Fin.is_lt, dite_true, Fin.eta]
          rw [Complex.ofReal_neg]
          exact this)
      simp only [Finset.sum_range (n := 2 * n), Fin.is_lt, dite_true, Fin.eta, star_star] at hl
      simp only [Finset.sum_range (n := 2 * n)]
      rw [add_mul, mul_add, smul_one_mul, mul_smul_one, add_sub_add_right_eq_sub]
      exact hl
    · intro k l hkl
      have hk : (k : ℕ) < t.length := by simpa using k.2
      have hl : (l : ℕ) < t.length := by simpa using l.2
      simp only [Fin.getElem_fin, List.getElem_map, bogoliubov_eq, neg_pos] at hkl ⊢
      rw [sum_nambuDag_swap R t[(l : ℕ)].2, anticomm_sum, hcross _ (List.getElem_mem hk) _ (List.getElem_mem hl) hkl, zero_smul]
    · intro k l
      have hk : (k : ℕ) < t.length := by simpa using k.2
      have hl : (l : ℕ) < t.length := by simpa using l.2
      simp only [Fin.getElem_fin, List.getElem_map, bogoliubov_eq]
      rw [star_sum_nambuDag R hR, anticomm_sum, Finset.sum_congr rfl fun i _ => mul_comm _ _]
      have := hfam ⟨l, hl⟩ ⟨k, hk⟩
      simp only [Fin.getElem_fin, Fin.mk.injEq] at this
      rw [this]
      by_cases h : k = l
      · rw [if_pos h, if_pos (congrArg Fin.val h).symm, one_smul]
      · rw [if_neg h, if_neg (fun h' => h (Fin.ext h'.symm)), zero_smul]
    · obtain ⟨w', w1, w2, w3⟩ := complete_modes (nambuSwap_involutive (n := n)) (m := t.length) (by rw [Fintype.card_fin, htlen]; omega)
        (fun k => t[k].2) (fun k => t[k].1 < 0) (fun k l _ _ => hfam k l) (fun k l hk _ => by
          have := hcross _ (List.getElem_mem k.2) _ (List.getElem_mem l.2) (Or.inl hk)
          rw [← hsum] at this
          rw [← this]
          refine Finset.sum_congr rfl fun i _ => ?_
          simp only [Pi.star_apply, phConj, star_star, nambuSwap_involutive i, Fin.getElem_fin])
      have hcan := bdg_canonical R hR (w := w') w2 (fun k l => by
        have := w3 k l
        rw [← this]
        show _ = ∑ i, star (phConj (nambuSwap n) (w' k) i) * w' l i
        rw [← hsum]
        refine Finset.sum_congr rfl fun i _ => ?_
        simp only [phConj, star_star, nambuSwap_involutive i])
      refine ⟨fun k => (splitPair (0, w' ⟨k, by simpa using k.2⟩)).2, fun k hk => ?_, fun k l => ?_⟩
      · simp only [Fin.getElem_fin, List.getElem_map, neg_pos] at hk ⊢
        rw [w1 ⟨k, by simpa using k.2⟩ hk]
        rfl
      · have := hcan ⟨k, by simpa using k.2⟩ ⟨l, by simpa using l.2⟩
        simp only [splitPair, bogoliubov_eq]
        simp only [Fin.mk.injEq] at this
        exact ⟨this.1, this.2.trans (if_congr Fin.ext_iff.symm rfl rfl)⟩
    · intro hn hpos
      rw [List.length_map] at hn
      have hlt : ∀ p ∈ t, p.1 < 0 := fun p hp => by
        have := hpos _ (List.mem_map_of_mem hp)
        simpa using this
      have hdec := bdg_decomposition R hR (D := D) (w := fun k => t[finCongr hn.symm k].2) (E := fun k => -t[finCongr hn.symm k].1)
        (fun k l => by rw [hfam]; exact if_congr (finCongr hn.symm).injective.eq_iff rfl rfl)
        (fun k l => hcross _ (List.getElem_mem _) _ (List.getElem_mem _) (Or.inl (hlt _ (List.getElem_mem _))))
        (fun k i => (heig _ (List.getElem_mem (finCongr hn.symm k).2) i).trans (by push_cast; rw [neg_neg]; rfl))
        (fun k i => (heig' _ (List.getElem_mem (finCongr hn.symm k).2) i).trans (by push_cast; rfl))
      simp only [FreeForm, Finset.sum_range (n := 2 * n)]
      have hlen : (t.map fun p => ((-p.1, fun i : Fin n => p.2 ⟨i, by omega⟩, fun i : Fin n => p.2 ⟨n + i, by omega⟩) : ℝ × (Fin n → ℂ) × (Fin n → ℂ))).length = n := by
        rw [List.length_map, hn]
      simp only [hDdef, Matrix.of_apply] at hdec
      rw [hdec, ← (finCongr hlen.symm).sum_comp, ← (finCongr hlen.symm).sum_comp]
      simp only [Fin.getElem_fin, List.getElem_map, bogoliubov_eq, finCongr_apply, Fin.val_cast]
      module

/-- the result of `diagonalize_bdg` for any particle-hole symmetric matrix -/
theorem bdg_result (hnum : num.Exact) {M : Mat ℂ} (h3 : M.ncols = 2 * n) (h4 : ∀ i j, M.get i j = star (M.get j i))
    (h5 : ∀ i j, i < 2 * n → j < 2 * n → M.get (halfSwap n i) (halfSwap n j) = -star (M.get i j)) {numVecs : Option ℕ} (hk : ∀ k ∈ numVecs, 0 < k ∧ k + 1 < 2 * n) :
    ∃ (ps : List (ℝ × (Fin M.ncols → ℂ))) (pairs : List (ℝ × (Fin n → ℂ) × (Fin n → ℂ))),
      (num.hermitian M.toarray numVecs >>= sortEigenpairs num.argsort) = .ok ps ∧
      ((ps.take n).map fun p => |p.1|) = pairs.map Prod.fst ∧ ((ps.take n).map fun p => (List.ofFn p.2).take n) = (pairs.map fun p => List.ofFn p.2.1) ∧
      ((ps.take n).map fun p => ((List.ofFn p.2).drop n).take n) = (pairs.map fun p => List.ofFn p.2.2) ∧
      pairs.length = min n (numVecs.getD (2 * n)) ∧ (∀ p ∈ pairs, 0 ≤ p.1) ∧ (pairs.Pairwise fun p q => q.1 ≤ p.1) ∧
      ∀ {𝔸 : Type} [Ring 𝔸] [Algebra ℂ 𝔸] [StarRing 𝔸] [StarModule ℂ 𝔸] (R : MajoranaRep ℂ 𝔸 (siteLabels n)),
        (∀ i ∈ siteLabels n, star (R.a i) = R.a i ∧ star (R.b i) = R.b i) → ∀ c : ℂ,
        Quasiparticles R ((1 / 2 : ℂ) • ∑ i ∈ Finset.range (2 * n), ∑ j ∈ Finset.range (2 * n), M.get i j • (R.nambuDag n i * R.nambu n j) + c • 1) c pairs ∧
        (numVecs = none → FreeForm R ((1 / 2 : ℂ) • ∑ i ∈ Finset.range (2 * n), ∑ j ∈ Finset.range (2 * n), M.get i j • (R.nambuDag n i * R.nambu n j) + c • 1) c pairs) := by
  obtain ⟨r, r1, r2, r3⟩ := hermitian_ok hnum h3 h4 hk
  have hDh : (Matrix.of fun i j : Fin (2 * n) => M.get i j).IsHermitian := by ext i j; exact (h4 i j).symm
  obtain ⟨ps, pairs, p1, p2, p3, p4, p5, p6, p7, ⟨q, q1, q2, q3⟩, p8⟩ := bdg_result_of hnum.argsort h3 h4 h5 r1 r3.orthonormal r3.eigen (by
    intro q hperm hsort p hp
    obtain ⟨k, hk, rfl⟩ := List.mem_iff_getElem.mp hp
    have hk' : k < n ∧ k < q.length := by rw [List.length_take] at hk; omega
    have := lower_half hDh (nambuSwap n) nambuSwap_involutive (fun i j => h5 i j i.2 j.2) (r3.perm hperm) hsort hk'.2 (by simp; omega)
    rw [List.getElem_take]
    exact this)
  refine ⟨ps, pairs, p1, p2, p3, p4, by rw [p5, r2], p6, p7, fun R hR c => ⟨p8 R hR c, fun hnone => ?_⟩⟩
  subst hnone
  have hP : ∀ i j : Fin (2 * n), (Matrix.of fun i j : Fin (2 * n) => M.get i j) (nambuSwap n i) (nambuSwap n j) = -star ((Matrix.of fun i j : Fin (2 * n) => M.get i j) i j) :=
    fun i j => h5 i j i.2 j.2
  have hq := r3.perm q1
  have hql : q.length = 2 * n := by rw [← q1.length_eq, r2]; rfl
  have hneg : ∀ k (h : k < q.length), min q[k].1 0 = if k < n then q[k].1 else 0 := by
    intro k h
    split
    · exact min_eq_left (lower_half hDh (nambuSwap n) nambuSwap_involutive hP hq q2 h (by simp; omega))
    · exact min_eq_right (upper_half hDh (nambuSwap n) nambuSwap_involutive hP hq q2 (by simpa using hql) h (by simp; omega))
  have hdec := negative_part hDh nambuSwap_involutive hP (finCongr hql.symm) (v := fun k => q[k].2) (x := fun k => q[k].1) (fun k l => hq.orthonormal.family k l)
    (fun k => hq.eigen _ (List.getElem_mem k.2))
  have htl : (q.take n).length = n := by rw [List.length_take, hql]; omega
  have hform := bdg_form R hR (D := Matrix.of fun i j : Fin (2 * n) => M.get i j) (m := (q.take n).length) (w := fun k => (q.take n)[k].2) (E := fun k => -(q.take n)[k].1)
    (fun k => by
      have hk : (k : ℕ) < q.length := by have := k.2; omega
      have := hq.orthonormal.family ⟨k, hk⟩ ⟨k, hk⟩
      rw [if_pos rfl] at this
      simpa using this)
    (fun i j => by
      rw [hdec i j, ← Finset.sum_add_distrib]
      have e1 : ∀ g : ℕ → ℂ, (∀ k, n ≤ k → g k = 0) → ∑ k : Fin q.length, g k = ∑ k : Fin (q.take n).length, g k := by
        intro g hg
        rw [Fin.sum_univ_eq_sum_range g, Fin.sum_univ_eq_sum_range g, htl, hql, two_mul, Finset.sum_range_add, Finset.sum_eq_zero (s := Finset.range n) (f := fun k => g (n + k)),
          add_zero]
        exact fun k _ => hg _ (by omega)
      have e2 := e1 (fun k => if h : k < q.length then ((min q[k].1 0 : ℝ) : ℂ) * (q[k].2 i * star (q[k].2 j) - star (q[k].2 (nambuSwap n i)) * q[k].2 (nambuSwap n j)) else 0)
        (fun k hk => by
          split
          · rename_i h
            rw [hneg k h, if_neg (by omega), Complex.ofReal_zero, zero_mul]
          · rfl)
      simp only [Fin.is_lt, dite_true] at e2
      refine e2.trans (Finset.sum_congr rfl fun k _ => ?_)
      have hk : (k : ℕ) < n := by have := k.2; omega
      have hk' : (k : ℕ) < q.length := by omega
      rw [dif_pos hk', hneg k hk', if_pos hk]
      simp only [Fin.getElem_fin, List.getElem_take]
      push_cast
      ring)
  simp only [Matrix.of_apply] at hform
  simp only [FreeForm, Finset.sum_range (n := 2 * n)]
  rw [hform, q3, ← (finCongr (List.length_map (as := q.take n) splitPair)).sum_comp, ← (finCongr (List.length_map (as := q.take n) splitPair)).sum_comp]
  simp only [Fin.getElem_fin, List.getElem_map, splitPair, bogoliubov_eq, finCongr_apply, Fin.val_cast]
  module

end Qosy
