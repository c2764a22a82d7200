import Verif.Spec.EnergyMaps
import Verif.Spec.Spectrum
import Verif.Lemmas.StateSymmetry

/-!
# Operators that map energies
-/

namespace Qosy
open Matrix
variable {n : ℕ}

private theorem hermitian_dot {ι : Type} [Fintype ι] {D : Matrix ι ι ℂ} (hD : D.IsHermitian) (x y : ι → ℂ) :
    ∑ i, star (D.mulVec x i) * y i = ∑ i, star (x i) * D.mulVec y i := by
  show star (D *ᵥ x) ⬝ᵥ y = star x ⬝ᵥ (D *ᵥ y)
  rw [Matrix.star_mulVec, hD.eq, Matrix.dotProduct_mulVec]

/-- eigenvectors of different eigenvalues -/
private theorem dot_zero {ι : Type} [Fintype ι] {D : Matrix ι ι ℂ} (hD : D.IsHermitian) {x y : ι → ℂ} {a : ℝ} {μ : ℂ} (hx : D.mulVec x = (a : ℂ) • x)
    (hy : D.mulVec y = μ • y) (h : (a : ℂ) ≠ μ) : ∑ i, star (x i) * y i = 0 := by
  have e := hermitian_dot hD x y
  rw [hx, hy] at e
  simp only [Pi.smul_apply, smul_eq_mul, star_mul', Complex.star_def, Complex.conj_ofReal] at e
  have : (a : ℂ) * ∑ i, star (x i) * y i = μ * ∑ i, star (x i) * y i := by
    rw [Finset.mul_sum, Finset.mul_sum]
    refine (Finset.sum_congr rfl fun i _ => ?_).trans (e.trans (Finset.sum_congr rfl fun i _ => ?_))
    · simp only [Complex.star_def]; ring
    · simp only [Complex.star_def]; ring
  rw [← sub_eq_zero, ← sub_mul, mul_eq_zero] at this
  exact this.resolve_left (sub_ne_zero.mpr h)

/-- the energies and states, from the eigenpairs -/
private theorem get_pair {pairs : List (ℝ × (Cfg n → ℂ))} {vecs : List (List ℂ)} (hv : List.Forall₂ (IsState n) vecs (pairs.map Prod.snd)) {k : ℕ} {E : ℂ} {v : List ℂ}
    (h1 : (pairs.map fun p => (p.1 : ℂ))[k]? = some E) (h2 : vecs[k]? = some v) : ∃ p, pairs[k]? = some p ∧ (p.1 : ℂ) = E ∧ IsState n v p.2 := by
  rw [List.getElem?_map, Option.map_eq_some_iff] at h1
  obtain ⟨p, p1, p2⟩ := h1
  refine ⟨p, p1, p2, ?_⟩
  obtain ⟨hk, e⟩ := List.getElem?_eq_some_iff.mp h2
  obtain ⟨hk', e'⟩ := List.getElem?_eq_some_iff.mp p1
  have := (List.forall₂_iff_get.mp hv).2 k hk (by simpa using hk')
  simpa [e, e'] using this

/-- an eigenvector among all eigenpairs -/
theorem eigenstate {D : Matrix (Cfg n) (Cfg n) ℂ} (hD : D.IsHermitian) {pairs : List (ℝ × (Cfg n → ℂ))} (hp : LowestEigenpairs D pairs)
    (hc : ∀ u : Cfg n → ℂ, (∀ p ∈ pairs, ∑ σ, star (p.2 σ) * u σ = 0) → u = 0) {vecs : List (List ℂ)} (hv : List.Forall₂ (IsState n) vecs (pairs.map Prod.snd))
    {MH : Mat ℂ} (hH : IsMatrixOf n MH D) {μ : ℂ} {w : List ℂ} {φ : Cfg n → ℂ} (hw : IsState n w φ) (hφ : D.mulVec φ = μ • φ) :
    IsEigenstate MH (pairs.map fun p => (p.1 : ℂ)) vecs w μ := by
  refine ⟨(matVec_state hH hw).ext (hw.smul _) hφ, ?_, fun j u h3 h4 h5 => ?_⟩
  · by_cases hE : μ ∈ pairs.map fun p => (p.1 : ℂ)
    · exact .inr hE
    · left
      have h0 := hc φ fun q hq => dot_zero hD (hp.eigen q hq) hφ (fun e => hE (List.mem_map.mpr ⟨q, hq, e⟩))
      intro x hx
      obtain ⟨i, hi, rfl⟩ := List.getElem_of_mem hx
      have := hw.entries i (hw.length ▸ hi)
      rw [List.getElem?_eq_getElem hi, h0] at this
      exact Option.some.inj this
  · obtain ⟨q, q1, q2, q3⟩ := get_pair hv h3 h4
    refine ⟨∑ σ, star (q.2 σ) * φ σ, hw.ext (q3.smul _) (sub_eq_zero.mp (hc _ fun r hr => ?_))⟩
    obtain ⟨i, hi, rfl⟩ := List.getElem_of_mem hr
    obtain ⟨hj, rfl⟩ := List.getElem?_eq_some_iff.mp q1
    have split : ∀ z : Cfg n → ℂ, ∑ σ, star (z σ) * (φ - fun σ => (∑ σ, star (pairs[j].2 σ) * φ σ) * pairs[j].2 σ) σ =
        ∑ σ, star (z σ) * φ σ - (∑ σ, star (pairs[j].2 σ) * φ σ) * ∑ σ, star (z σ) * pairs[j].2 σ := by
      intro z
      rw [Finset.mul_sum, ← Finset.sum_sub_distrib]
      exact Finset.sum_congr rfl fun σ _ => by rw [Pi.sub_apply]; ring
    rw [split]
    by_cases hij : i = j
    · subst hij
      have h1 := hp.orthonormal.1 pairs[i].2 (List.mem_map_of_mem (List.getElem_mem hi))
      have h2 : ∑ σ, star (pairs[i].2 σ) * pairs[i].2 σ = 1 := by
        rw [← Complex.ofReal_one, ← h1, Complex.ofReal_sum]
        exact Finset.sum_congr rfl fun σ _ => by rw [Complex.star_def, Complex.conj_mul', Complex.ofReal_pow]
      rw [h2, mul_one, sub_self]
    · have a1 : ∑ σ, star (pairs[i].2 σ) * φ σ = 0 := dot_zero hD (hp.eigen _ (List.getElem_mem hi)) hφ fun e =>
        hij (h5 i (by rw [List.getElem?_map, List.getElem?_eq_getElem hi]; exact congrArg some e))
      have a2 : ∑ σ, star (pairs[i].2 σ) * pairs[j].2 σ = 0 := by
        have ho := List.pairwise_iff_getElem.mp hp.orthonormal.2
        rcases lt_or_gt_of_ne hij with hlt | hlt
        · have := ho i j (by simpa using hi) (by simpa using hj) hlt
          simp only [List.getElem_map] at this
          exact this
        · have := ho j i (by simpa using hj) (by simpa using hi) hlt
          have := congrArg star this
          simp only [List.getElem_map, star_sum, star_mul', star_star, star_zero] at this
          rw [← this]
          exact Finset.sum_congr rfl fun σ _ => mul_comm _ _
      rw [a1, a2, mul_zero, sub_zero]

/-- a map of states that maps eigenvectors to eigenvectors -/
theorem mapsEnergies {D : Matrix (Cfg n) (Cfg n) ℂ} (hD : D.IsHermitian) {pairs : List (ℝ × (Cfg n → ℂ))} (hp : LowestEigenpairs D pairs)
    (hc : ∀ u : Cfg n → ℂ, (∀ p ∈ pairs, ∑ σ, star (p.2 σ) * u σ = 0) → u = 0) {vecs : List (List ℂ)} (hv : List.Forall₂ (IsState n) vecs (pairs.map Prod.snd))
    {MH : Mat ℂ} (hH : IsMatrixOf n MH D) {act : List ℂ → List ℂ} {F : (Cfg n → ℂ) → Cfg n → ℂ} (hF : ∀ v ψ, IsState n v ψ → IsState n (act v) (F ψ)) {f : ℂ → ℂ}
    (hX : ∀ (E : ℝ) (ψ : Cfg n → ℂ), D.mulVec ψ = (E : ℂ) • ψ → D.mulVec (F ψ) = f E • F ψ) : MapsEnergies MH act (pairs.map fun p => (p.1 : ℂ)) vecs f := by
  intro k E v h1 h2
  obtain ⟨p, p1, rfl, p3⟩ := get_pair hv h1 h2
  exact eigenstate hD hp hc hv hH (hF v _ p3) (hX _ _ (hp.eigen _ (List.mem_of_getElem? p1)))

end Qosy
