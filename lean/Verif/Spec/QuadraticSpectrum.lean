import Verif.Model.QuadraticSpectrum
import Verif.Spec.Quadratic
import Verif.Spec.Spectrum

/-! # Specification: fermionic modes -/

namespace Qosy
variable {𝔸 : Type} [Ring 𝔸] [Algebra ℂ 𝔸] {S : Set ℤ} {n : ℕ}

/-- the annihilation operator `Σ x̄_i c_i` of the orbital `x` -/
noncomputable def MajoranaRep.orbital (R : MajoranaRep ℂ 𝔸 S) (x : Fin n → ℂ) : 𝔸 := ∑ i, star (x i) • R.c ((i : ℕ) : ℤ)

/-- the annihilation operator `Σ v_i c_i + u_i c†_i` of a Bogoliubov quasiparticle -/
noncomputable def MajoranaRep.bogoliubov (R : MajoranaRep ℂ 𝔸 S) (u v : Fin n → ℂ) : 𝔸 := ∑ i, (v i • R.c ((i : ℕ) : ℤ) + u i • R.cdag ((i : ℕ) : ℤ))

/-- canonical anticommutation relations -/
def CanonicalModes [StarRing 𝔸] {m : ℕ} (f : Fin m → 𝔸) : Prop :=
  ∀ k l, f k * f l + f l * f k = 0 ∧ f k * star (f l) + star (f l) * f k = if k = l then 1 else 0

/-- `H = Σ E_k f†_k f_k - ½ Σ E_k + c` for the energies and coefficients `(u, v)` in `pairs` -/
def FreeForm [StarRing 𝔸] (R : MajoranaRep ℂ 𝔸 S) (H : 𝔸) (c : ℂ) (pairs : List (ℝ × (Fin n → ℂ) × (Fin n → ℂ))) : Prop :=
  H = ∑ k : Fin pairs.length, (pairs[k].1 : ℂ) • (star (R.bogoliubov pairs[k].2.1 pairs[k].2.2) * R.bogoliubov pairs[k].2.1 pairs[k].2.2) +
    (c - 1 / 2 * ∑ k : Fin pairs.length, (pairs[k].1 : ℂ)) • 1

/-- `pairs` lists energies and coefficients `(u, v)` of quasiparticles of `H`.  Each operator `f` lowers the energy by its energy.  They are fermions, except
that two of energy zero need not anticommute; those can be replaced by fermions.  If there are as many as orbitals and no energy is zero, then
`H = Σ E_k f†_k f_k - ½ Σ E_k + c`. -/
structure Quasiparticles [StarRing 𝔸] (R : MajoranaRep ℂ 𝔸 S) (H : 𝔸) (c : ℂ) (pairs : List (ℝ × (Fin n → ℂ) × (Fin n → ℂ))) : Prop where
  lowers : ∀ p ∈ pairs, H * R.bogoliubov p.2.1 p.2.2 - R.bogoliubov p.2.1 p.2.2 * H = -((p.1 : ℂ) • R.bogoliubov p.2.1 p.2.2)
  anticommute : ∀ k l : Fin pairs.length, 0 < pairs[k].1 ∨ 0 < pairs[l].1 →
    R.bogoliubov pairs[k].2.1 pairs[k].2.2 * R.bogoliubov pairs[l].2.1 pairs[l].2.2 + R.bogoliubov pairs[l].2.1 pairs[l].2.2 * R.bogoliubov pairs[k].2.1 pairs[k].2.2 = 0
  canonical : ∀ k l : Fin pairs.length,
    R.bogoliubov pairs[k].2.1 pairs[k].2.2 * star (R.bogoliubov pairs[l].2.1 pairs[l].2.2) +
      star (R.bogoliubov pairs[l].2.1 pairs[l].2.2) * R.bogoliubov pairs[k].2.1 pairs[k].2.2 = if k = l then 1 else 0
  modes : ∃ uv : Fin pairs.length → (Fin n → ℂ) × (Fin n → ℂ), (∀ k, 0 < pairs[k].1 → uv k = pairs[k].2) ∧ CanonicalModes fun k => R.bogoliubov (uv k).1 (uv k).2
  form : pairs.length = n → (∀ p ∈ pairs, 0 < p.1) → FreeForm R H c pairs

/-- no quasiparticle that is independent of those in `pairs` has a smaller energy -/
def LowestModes [StarRing 𝔸] (R : MajoranaRep ℂ 𝔸 S) (H : 𝔸) (pairs : List (ℝ × (Fin n → ℂ) × (Fin n → ℂ))) : Prop :=
  ∀ (u v : Fin n → ℂ) (E : ℝ), 0 < E → u ≠ 0 ∨ v ≠ 0 → H * R.bogoliubov u v - R.bogoliubov u v * H = -((E : ℂ) • R.bogoliubov u v) →
    (∀ p ∈ pairs, R.bogoliubov u v * star (R.bogoliubov p.2.1 p.2.2) + star (R.bogoliubov p.2.1 p.2.2) * R.bogoliubov u v = 0) → ∀ p ∈ pairs, p.1 ≤ E

end Qosy
