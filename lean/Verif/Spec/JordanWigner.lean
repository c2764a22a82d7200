import Verif.Spec.Rep
import Mathlib.Algebra.BigOperators.Group.List.Basic
import Mathlib.Tactic.NoncommRing

/-!
# Specification: the Jordan-Wigner transformation

`a_j = Z_0 ⋯ Z_{j-1} X_j`, `b_j = Z_0 ⋯ Z_{j-1} Y_j` (conversion.py documentation).  We prove that these operators
satisfy the Majorana relations, so they form a `MajoranaRep`.
-/

namespace Qosy

variable {K : Type} [Field K] [StarRing K] [Coef K]
variable {𝔸 : Type} [Ring 𝔸] [Algebra K 𝔸] {S : Set ℤ}

/-- labels `j ≥ 0` such that all sites `0, …, j` exist -/
def jwLabels (S : Set ℤ) : Set ℤ := {j | 0 ≤ j ∧ ∀ k, 0 ≤ k → k ≤ j → k ∈ S}

/-- `Z_0 ⋯ Z_{n-1}` -/
def PauliRep.zs (R : PauliRep K 𝔸 S) (n : ℕ) : 𝔸 := ((List.range n).map (fun k : ℕ => R.Z k)).prod

theorem PauliRep.zs_succ (R : PauliRep K 𝔸 S) (n : ℕ) : R.zs (n + 1) = R.zs n * R.Z n := by
  simp [PauliRep.zs, List.range_succ]

/-- `Z_0 ⋯ Z_{n-1}` commutes with what commutes with every factor -/
theorem PauliRep.zs_comm (R : PauliRep K 𝔸 S) (n : ℕ) (p : 𝔸)
    (h : ∀ k : ℕ, k < n → p * R.Z k = R.Z k * p) : p * R.zs n = R.zs n * p := by
  induction n with
  | zero => simp [PauliRep.zs]
  | succ n ih =>
    rw [R.zs_succ, ← mul_assoc, ih (fun k hk => h k (by omega)), mul_assoc, h n (by omega), mul_assoc]

theorem PauliRep.zs_anticomm (R : PauliRep K 𝔸 S) (n : ℕ) (p : 𝔸) (i : ℕ) (hi : i < n)
    (h : ∀ k : ℕ, k < n → k ≠ i → p * R.Z k = R.Z k * p) (hani : p * R.Z i = -(R.Z i * p)) :
    p * R.zs n = -(R.zs n * p) := by
  induction n with
  | zero => omega
  | succ n ih =>
    rw [R.zs_succ]
    by_cases hin : i = n
    · subst hin
      rw [← mul_assoc, R.zs_comm i p (fun k hk => h k (by omega) (by omega)), mul_assoc, hani, mul_neg, mul_assoc]
    · rw [← mul_assoc, ih (by omega) (fun k hk hne => h k (by omega) hne), neg_mul, mul_assoc,
        h n (by omega) (fun h => hin h.symm), mul_assoc]

theorem PauliRep.zs_sq (R : PauliRep K 𝔸 S) (n : ℕ) (h : ∀ k : ℕ, k < n → (k : ℤ) ∈ S) : R.zs n * R.zs n = 1 := by
  induction n with
  | zero => simp [PauliRep.zs]
  | succ n ih =>
    have hc : R.Z n * R.zs n = R.zs n * R.Z n :=
      R.zs_comm n _ (fun k hk => R.zz n (h n (by omega)) k (h k (by omega)) (by omega))
    rw [R.zs_succ, mul_assoc, ← mul_assoc (R.Z n), hc, mul_assoc, ← mul_assoc (R.zs n) (R.zs n),
      ih (fun k hk => h k (by omega)), one_mul, R.z_sq n (h n (by omega))]

theorem PauliRep.zs_mul_zs (R : PauliRep K 𝔸 S) (m n : ℕ) (h : ∀ k : ℕ, k < m ∨ k < n → (k : ℤ) ∈ S) :
    R.zs m * R.zs n = R.zs n * R.zs m := by
  apply R.zs_comm
  intro k hk
  symm
  apply R.zs_comm
  intro j hj
  by_cases hjk : j = k
  · rw [hjk]
  · exact R.zz k (h k (by omega)) j (h j (by omega)) (by omega)

/-- the four relations shared by `X` and `Y` -/
structure JWSite (R : PauliRep K 𝔸 S) (i : ℕ) (p : 𝔸) : Prop where
  comm : ∀ k : ℕ, (k : ℤ) ∈ S → k ≠ i → p * R.Z k = R.Z k * p
  anti : p * R.Z i = -(R.Z i * p)

theorem PauliRep.jwX (R : PauliRep K 𝔸 S) (i : ℕ) (hi : (i : ℤ) ∈ S) : JWSite R i (R.X i) :=
  ⟨fun k hk hne => R.xz i hi k hk (by omega), by rw [R.x_mul_z i hi, R.z_mul_x i hi]⟩

theorem PauliRep.jwY (R : PauliRep K 𝔸 S) (i : ℕ) (hi : (i : ℤ) ∈ S) : JWSite R i (R.Y i) :=
  ⟨fun k hk hne => R.yz i hi k hk (by omega), by rw [R.y_mul_z i hi, R.z_mul_y i hi, neg_neg]⟩

theorem JWSite.lt {R : PauliRep K 𝔸 S} {i j : ℕ} {p q : 𝔸} (hp : JWSite R i p) (hq : JWSite R j q)
    (hij : i < j) (hS : ∀ k : ℕ, k ≤ j → (k : ℤ) ∈ S) (hpq : p * q = q * p) :
    (R.zs i * p) * (R.zs j * q) = -((R.zs j * q) * (R.zs i * p)) := by
  have h1 : p * R.zs j = -(R.zs j * p) :=
    R.zs_anticomm j p i hij (fun k hk hne => hp.comm k (hS k (by omega)) hne) hp.anti
  have h2 : q * R.zs i = R.zs i * q :=
    R.zs_comm i q (fun k hk => hq.comm k (hS k (by omega)) (by omega))
  have h3 := R.zs_mul_zs i j (fun k hk => hS k (by omega))
  calc (R.zs i * p) * (R.zs j * q) = R.zs i * (p * R.zs j) * q := by noncomm_ring
    _ = -(R.zs i * R.zs j * (p * q)) := by rw [h1]; noncomm_ring
    _ = -(R.zs j * R.zs i * (q * p)) := by rw [h3, hpq]
    _ = -(R.zs j * (R.zs i * q) * p) := by noncomm_ring
    _ = -((R.zs j * q) * (R.zs i * p)) := by rw [← h2]; noncomm_ring

theorem JWSite.same {R : PauliRep K 𝔸 S} {i : ℕ} {p q : 𝔸} (hp : JWSite R i p)
    (hS : ∀ k : ℕ, k ≤ i → (k : ℤ) ∈ S) : (R.zs i * p) * (R.zs i * q) = p * q := by
  have h1 : p * R.zs i = R.zs i * p :=
    R.zs_comm i p (fun k hk => hp.comm k (hS k (by omega)) (by omega))
  have h2 := R.zs_sq i (fun k hk => hS k (by omega))
  calc (R.zs i * p) * (R.zs i * q) = R.zs i * (p * R.zs i) * q := by noncomm_ring
    _ = (R.zs i * R.zs i) * (p * q) := by rw [h1]; noncomm_ring
    _ = p * q := by rw [h2, one_mul]

theorem JWSite.anticomm {R : PauliRep K 𝔸 S} {i j : ℕ} {p q : 𝔸} (hp : JWSite R i p) (hq : JWSite R j q)
    (hij : i ≠ j) (hS : ∀ k : ℕ, k ≤ i ∨ k ≤ j → (k : ℤ) ∈ S) (hpq : p * q = q * p) :
    (R.zs i * p) * (R.zs j * q) = -((R.zs j * q) * (R.zs i * p)) := by
  rcases lt_or_gt_of_ne hij with h | h
  · exact hp.lt hq h (fun k hk => hS k (Or.inr hk)) hpq
  · rw [hq.lt hp h (fun k hk => hS k (Or.inl hk)) hpq.symm, neg_neg]

/-- The Jordan-Wigner operators of a spin system form a Majorana system. -/
def PauliRep.jordanWigner (R : PauliRep K 𝔸 S) : MajoranaRep K 𝔸 (jwLabels S) where
  a j := R.zs j.toNat * R.X j
  b j := R.zs j.toNat * R.Y j
  a_sq i hi := by
    obtain ⟨n, rfl⟩ := Int.eq_ofNat_of_zero_le hi.1
    have hS : ∀ k : ℕ, k ≤ n → (k : ℤ) ∈ S := fun k hk => hi.2 k (by omega) (by omega)
    rw [Int.toNat_natCast, (R.jwX n (hS n le_rfl)).same hS, R.x_sq n (hS n le_rfl)]
  b_sq i hi := by
    obtain ⟨n, rfl⟩ := Int.eq_ofNat_of_zero_le hi.1
    have hS : ∀ k : ℕ, k ≤ n → (k : ℤ) ∈ S := fun k hk => hi.2 k (by omega) (by omega)
    rw [Int.toNat_natCast, (R.jwY n (hS n le_rfl)).same hS, R.y_sq n (hS n le_rfl)]
  ab i hi j hj := by
    obtain ⟨m, rfl⟩ := Int.eq_ofNat_of_zero_le hi.1
    obtain ⟨n, rfl⟩ := Int.eq_ofNat_of_zero_le hj.1
    have hm : ∀ k : ℕ, k ≤ m → (k : ℤ) ∈ S := fun k hk => hi.2 k (by omega) (by omega)
    have hn : ∀ k : ℕ, k ≤ n → (k : ℤ) ∈ S := fun k hk => hj.2 k (by omega) (by omega)
    rw [Int.toNat_natCast, Int.toNat_natCast]
    by_cases hmn : m = n
    · subst hmn
      rw [(R.jwX m (hm m le_rfl)).same hm, (R.jwY m (hm m le_rfl)).same hm, R.x_mul_y m (hm m le_rfl),
        R.y_mul_x m (hm m le_rfl), neg_neg]
    · exact (R.jwX m (hm m le_rfl)).anticomm (R.jwY n (hn n le_rfl)) hmn
        (fun k hk => hk.elim (hm k) (hn k)) (R.xy m (hm m le_rfl) n (hn n le_rfl) (by omega))
  aa i hi j hj hij := by
    obtain ⟨m, rfl⟩ := Int.eq_ofNat_of_zero_le hi.1
    obtain ⟨n, rfl⟩ := Int.eq_ofNat_of_zero_le hj.1
    have hm : ∀ k : ℕ, k ≤ m → (k : ℤ) ∈ S := fun k hk => hi.2 k (by omega) (by omega)
    have hn : ∀ k : ℕ, k ≤ n → (k : ℤ) ∈ S := fun k hk => hj.2 k (by omega) (by omega)
    rw [Int.toNat_natCast, Int.toNat_natCast]
    exact (R.jwX m (hm m le_rfl)).anticomm (R.jwX n (hn n le_rfl)) (by omega)
        (fun k hk => hk.elim (hm k) (hn k)) (R.xx m (hm m le_rfl) n (hn n le_rfl) hij)
  bb i hi j hj hij := by
    obtain ⟨m, rfl⟩ := Int.eq_ofNat_of_zero_le hi.1
    obtain ⟨n, rfl⟩ := Int.eq_ofNat_of_zero_le hj.1
    have hm : ∀ k : ℕ, k ≤ m → (k : ℤ) ∈ S := fun k hk => hi.2 k (by omega) (by omega)
    have hn : ∀ k : ℕ, k ≤ n → (k : ℤ) ∈ S := fun k hk => hj.2 k (by omega) (by omega)
    rw [Int.toNat_natCast, Int.toNat_natCast]
    exact (R.jwY m (hm m le_rfl)).anticomm (R.jwY n (hn n le_rfl)) (by omega)
        (fun k hk => hk.elim (hm k) (hn k)) (R.yy m (hm m le_rfl) n (hn n le_rfl) hij)

/-- Relabelling a Majorana system along an injection. -/
def MajoranaRep.relabel {T : Set ℤ} (R : MajoranaRep K 𝔸 T) (e : ℤ → ℤ) (he : Function.Injective e)
    (hT : ∀ i ∈ S, e i ∈ T) : MajoranaRep K 𝔸 S where
  a i := R.a (e i)
  b i := R.b (e i)
  a_sq i hi := R.a_sq _ (hT i hi)
  b_sq i hi := R.b_sq _ (hT i hi)
  ab i hi j hj := R.ab _ (hT i hi) _ (hT j hj)
  aa i hi j hj h := R.aa _ (hT i hi) _ (hT j hj) (fun h' => h (he h'))
  bb i hi j hj h := R.bb _ (hT i hi) _ (hT j hj) (fun h' => h (he h'))

end Qosy
