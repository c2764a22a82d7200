import Verif.Spec.JordanWigner
import Verif.Spec.MatrixRep
import Mathlib.Algebra.Module.LinearMap.End
import Mathlib.Algebra.Algebra.Bilinear
import Mathlib.Algebra.Module.Pi
import Mathlib.LinearAlgebra.Pi

/-!
# A concrete representation: wave functions on infinitely many spins

Shows that the relations in `Spec/Rep.lean` are satisfiable on *all* integer labels (non-vacuity).
-/

namespace Qosy

variable (K : Type) [Field K] [StarRing K] [Coef K]

/-- configurations of spins on all integer sites -/
abbrev Conf := ℤ → Bool

/-- flip the spin at site `i` -/
def flip (i : ℤ) (σ : Conf) : Conf := Function.update σ i (!σ i)

@[simp] theorem flip_flip (i : ℤ) (σ : Conf) : flip i (flip i σ) = σ := by
  funext j; by_cases h : j = i
  · subst h; simp [flip]
  · simp [flip, h]

@[simp] theorem flip_same (i : ℤ) (σ : Conf) : flip i σ i = !σ i := by simp [flip]
theorem flip_other {i j : ℤ} (h : j ≠ i) (σ : Conf) : flip i σ j = σ j := by simp [flip, h]
theorem flip_comm {i j : ℤ} (h : i ≠ j) (σ : Conf) : flip i (flip j σ) = flip j (flip i σ) := by
  funext k
  by_cases h1 : k = i
  · subst h1; simp [flip, h]
  · by_cases h2 : k = j
    · subst h2; simp [flip, h1]
    · simp [flip, h1, h2]

/-- `(X_i ψ)(σ) = ψ(flip_i σ)` -/
def waveX (i : ℤ) : Module.End K (Conf → K) where
  toFun ψ σ := ψ (flip i σ)
  map_add' _ _ := rfl
  map_smul' _ _ := rfl

/-- `(Y_i ψ)(σ) = ± i ψ(flip_i σ)`: the matrix `[[0,-i],[i,0]]` -/
def waveY (i : ℤ) : Module.End K (Conf → K) where
  toFun ψ σ := (if σ i then I else -I) * ψ (flip i σ)
  map_add' _ _ := by funext σ; simp [mul_add]
  map_smul' _ _ := by funext σ; simp [mul_left_comm]

/-- `(Z_i ψ)(σ) = ± ψ(σ)` -/
def waveZ (i : ℤ) : Module.End K (Conf → K) where
  toFun ψ σ := (if σ i then -1 else 1) * ψ σ
  map_add' _ _ := by funext σ; simp [mul_add]
  map_smul' _ _ := by funext σ; simp [mul_left_comm]

/-- the Pauli representation on wave functions, on all integer sites -/
def waveRep : PauliRep K (Module.End K (Conf → K)) Set.univ where
  X := waveX K
  Y := waveY K
  Z := waveZ K
  x_sq i _ := by ext1 ψ; funext σ; simp [waveX]
  y_sq i _ := by
    ext1 ψ; funext σ
    cases h : σ i <;> simp [waveY, h, ← mul_assoc]
  z_sq i _ := by
    ext1 ψ; funext σ
    cases h : σ i <;> simp [waveZ, h]
  x_mul_y i _ := by
    ext1 ψ; funext σ
    cases h : σ i <;> simp [waveX, waveY, waveZ, h]
  y_mul_z i _ := by
    ext1 ψ; funext σ
    cases h : σ i <;> simp [waveX, waveY, waveZ, h]
  z_mul_x i _ := by
    ext1 ψ; funext σ
    cases h : σ i <;> simp [waveX, waveY, waveZ, h, ← mul_assoc]
  y_mul_x i _ := by
    ext1 ψ; funext σ
    cases h : σ i <;> simp [waveX, waveY, waveZ, h]
  z_mul_y i _ := by
    ext1 ψ; funext σ
    cases h : σ i <;> simp [waveX, waveY, waveZ, h]
  x_mul_z i _ := by
    ext1 ψ; funext σ
    cases h : σ i <;> simp [waveX, waveY, waveZ, h, ← mul_assoc]
  xx i _ j _ hij := by ext1 ψ; funext σ; simp [waveX, flip_comm hij]
  xy i _ j _ hij := by
    ext1 ψ; funext σ; simp [waveX, waveY, flip_comm hij, flip_other hij.symm]
  xz i _ j _ hij := by ext1 ψ; funext σ; simp [waveX, waveZ, flip_other hij.symm]
  yy i _ j _ hij := by
    ext1 ψ; funext σ
    simp only [Module.End.mul_apply, waveY, LinearMap.coe_mk, AddHom.coe_mk, flip_comm hij, flip_other hij.symm,
      flip_other hij]; ring
  yz i _ j _ hij := by
    ext1 ψ; funext σ
    simp only [Module.End.mul_apply, waveY, waveZ, LinearMap.coe_mk, AddHom.coe_mk, flip_other hij.symm]; ring
  zz i _ j _ hij := by
    ext1 ψ; funext σ
    simp only [Module.End.mul_apply, waveZ, LinearMap.coe_mk, AddHom.coe_mk]; ring

/-- an injection of the integers into the naturals -/
def foldInt (i : ℤ) : ℤ := if 0 ≤ i then 2 * i else -2 * i - 1

theorem foldInt_injective : Function.Injective foldInt := by
  intro i j h; simp only [foldInt] at h; split at h <;> split at h <;> omega

theorem foldInt_nonneg (i : ℤ) : 0 ≤ foldInt i := by
  simp only [foldInt]; split <;> omega

/-- a Majorana representation on all integer labels -/
def waveMajorana : MajoranaRep K (Module.End K (Conf → K)) Set.univ :=
  (waveRep K).jordanWigner.relabel foldInt foldInt_injective
    (fun i _ => ⟨foldInt_nonneg i, fun _ _ _ => Set.mem_univ _⟩)

/-- Jordan-Wigner operators of a *-representation are Hermitian. -/
theorem jordanWigner_star {K : Type} [Field K] [StarRing K] [Coef K] {𝔸 : Type} [Ring 𝔸] [Algebra K 𝔸] [StarRing 𝔸]
    {S : Set ℤ} (R : PauliRep K 𝔸 S)
    (hs : ∀ i ∈ S, star (R.X i) = R.X i ∧ star (R.Y i) = R.Y i ∧ star (R.Z i) = R.Z i) (j : ℤ) (hj : j ∈ jwLabels S) :
    star (R.jordanWigner.a j) = R.jordanWigner.a j ∧ star (R.jordanWigner.b j) = R.jordanWigner.b j := by
  obtain ⟨m, rfl⟩ := Int.eq_ofNat_of_zero_le hj.1
  have hm : ∀ k : ℕ, k ≤ m → (k : ℤ) ∈ S := fun k hk => hj.2 k (by omega) (by omega)
  have hz : ∀ n : ℕ, n ≤ m → star (R.zs n) = R.zs n := by
    intro n
    induction n with
    | zero => intro _; simp [PauliRep.zs]
    | succ n ih =>
      intro h
      rw [R.zs_succ, star_mul, ih (by omega), (hs _ (hm n (by omega))).2.2]
      exact R.zs_comm n _ (fun k hk => R.zz n (hm n (by omega)) k (hm k (by omega)) (by omega))
  have hx := R.zs_comm m (R.X m) (fun k hk => (R.jwX m (hm m le_rfl)).comm k (hm k (by omega)) (by omega))
  have hy := R.zs_comm m (R.Y m) (fun k hk => (R.jwY m (hm m le_rfl)).comm k (hm k (by omega)) (by omega))
  simp only [PauliRep.jordanWigner, Int.toNat_natCast, star_mul, hz m le_rfl, (hs _ (hm m le_rfl)).1,
    (hs _ (hm m le_rfl)).2.1]
  exact ⟨hx, hy⟩

theorem siteLabels_jw {n : ℕ} {i : ℤ} (h : i ∈ siteLabels n) : i ∈ jwLabels (siteLabels n) :=
  ⟨h.1, fun _ h1 h2 => ⟨h1, lt_of_le_of_lt h2 h.2⟩⟩

theorem matRep_star (n : ℕ) (i : ℤ) (hi : i ∈ siteLabels n) : star ((matRep K n).X i) = (matRep K n).X i ∧
    star ((matRep K n).Y i) = (matRep K n).Y i ∧ star ((matRep K n).Z i) = (matRep K n).Z i :=
  ⟨matX_star i, matY_star hi, matZ_star i⟩

end Qosy
