import Verif.Lemmas.JordanWigner
import Verif.Spec.Fermion
import Mathlib.Data.List.Sort

/-! # Fermion operators: sorting, expansion in Majorana operators and back -/

namespace Qosy
open Coef
variable {K : Type} [Field K] [StarRing K] [Coef K]
variable {𝔸 : Type} [Ring 𝔸] [Algebra K 𝔸] {S : Set ℤ}

/-! ### sorting a product whose inverted pairs anticommute -/

section sort
variable {ι : Type} (key : ι → ℤ) (v : ι → 𝔸)

theorem prod_orderedInsert (x : ι) : ∀ (t : List ι), t.Pairwise (fun a b => key a ≤ key b) →
    (∀ y ∈ t, key y < key x → v x * v y = -(v y * v x)) →
    v x * (t.map v).prod = ((-1 : K) ^ (t.map key).countP (fun y => y < key x)) •
      ((t.orderedInsert (fun a b => key a ≤ key b) x).map v).prod
  | [], _, _ => by simp
  | y :: t, hs, ha => by
    rw [List.pairwise_cons] at hs
    by_cases h : key x ≤ key y
    · have h0 : ((y :: t).map key).countP (fun z => z < key x) = 0 := by
        rw [List.countP_eq_zero]
        intro z hz
        rw [List.map_cons, List.mem_cons] at hz
        rcases hz with rfl | hz
        · simpa using h
        · obtain ⟨u, hu, rfl⟩ := List.mem_map.mp hz
          have := hs.1 u hu
          simp; omega
      rw [h0, List.orderedInsert, if_pos h]
      simp
    · have ih := prod_orderedInsert x t hs.2 (fun z hz => ha z (List.mem_cons_of_mem _ hz))
      rw [List.orderedInsert, if_neg h, List.map_cons, List.map_cons, List.countP_cons, if_pos (by simpa using h), pow_succ,
        List.prod_cons, ← mul_assoc, ha y (List.mem_cons_self ..) (by omega), neg_mul, mul_assoc, ih, List.map_cons, List.prod_cons,
        mul_smul_comm]
      simp

/-- the sign of `sort_sign` is the sign of sorting the operators -/
theorem prod_insertionSort : ∀ (l : List ι), l.Pairwise (fun x y => key y < key x → v x * v y = -(v y * v x)) →
    (l.map v).prod = ((-1 : K) ^ inversions (l.map key)) • ((l.insertionSort (fun a b => key a ≤ key b)).map v).prod
  | [], _ => by simp [inversions]
  | x :: t, h => by
    rw [List.pairwise_cons] at h
    have : IsTotal ι (fun a b => key a ≤ key b) := ⟨fun a b => le_total _ _⟩
    have : IsTrans ι (fun a b => key a ≤ key b) := ⟨fun a b c => le_trans⟩
    have hp : (t.insertionSort (fun a b => key a ≤ key b)).Perm t := List.perm_insertionSort _ _
    rw [List.map_cons, List.prod_cons, prod_insertionSort t h.2, mul_smul_comm,
      prod_orderedInsert (K := K) key v x _ (List.pairwise_insertionSort _ _) (fun y hy => h.1 y (hp.mem_iff.mp hy)), smul_smul, ← pow_add,
      List.insertionSort_cons, List.map_cons, inversions, (hp.map key).countP_eq]
    congr 2
    omega

theorem map_insertionSort_key (l : List ι) :
    (l.insertionSort (fun a b => key a ≤ key b)).map key = (l.map key).insertionSort (· ≤ ·) :=
  List.map_insertionSort _ _ _ _ (fun _ _ _ _ => Iff.rfl)

end sort

/-! ### relations of the Fermion operators -/

namespace MajoranaRep
variable (R : MajoranaRep K 𝔸 S)

theorem half_add_half : (1 / 2 : K) + 1 / 2 = 1 := by norm_num

theorem a_eq (j : ℤ) : R.a j = R.c j + R.cdag j := by
  simp only [c, cdag]
  rw [← smul_add, show R.a j + (I : K) • R.b j + (R.a j - (I : K) • R.b j) = (2 : K) • R.a j by rw [two_smul]; abel, smul_smul]
  norm_num

theorem b_eq (j : ℤ) : R.b j = -(I : K) • R.c j + (I : K) • R.cdag j := by
  simp only [c, cdag]
  rw [neg_smul, neg_add_eq_sub, ← smul_sub, ← smul_sub, show R.a j - (I : K) • R.b j - (R.a j + (I : K) • R.b j) = (-2 * I : K) • R.b j by
    rw [show (-2 * I : K) = -I + -I by ring, add_smul, neg_smul]; abel, smul_smul, smul_smul]
  rw [show (I : K) * (1 / 2) * (-2 * I) = -(I * I) by ring, I_mul_I]
  simp

theorem cdag_mul_c {j : ℤ} (hj : j ∈ S) : R.cdag j * R.c j = (1 / 2 : K) • (1 - R.d j) := by
  simp only [c, cdag, d]
  rw [smul_mul_smul_comm, sub_mul, mul_add, mul_add, R.a_sq j hj, smul_mul_smul_comm, R.b_sq j hj, mul_smul_comm, smul_mul_assoc,
    R.ba j hj j hj, I_mul_I]
  rw [show (1 : 𝔸) + (I : K) • (R.a j * R.b j) - ((I : K) • -(R.a j * R.b j) + (-1 : K) • (1 : 𝔸))
    = (2 : K) • (1 - -((I : K) • (R.a j * R.b j))) by rw [two_smul, neg_one_smul, smul_neg]; abel, smul_smul]
  norm_num

theorem d_eq {j : ℤ} (hj : j ∈ S) : R.d j = -2 • (R.cdag j * R.c j) + 1 := by
  rw [R.cdag_mul_c hj]
  rw [show (-2 : ℤ) • ((1 / 2 : K) • (1 - R.d j)) = (-2 * (1 / 2) : K) • (1 - R.d j) by
    rw [mul_smul, ← Int.cast_smul_eq_zsmul K]; norm_num]
  norm_num

/-- operators on different orbitals anticommute -/
theorem fsite_anticomm {o o' : Op} {i j : ℤ} (hi : i ∈ S) (hj : j ∈ S) (hij : i ≠ j) :
    R.fsite o i * R.fsite o' j = -(R.fsite o' j * R.fsite o i) := by
  have key : ∀ x y x' y' : K, (x • R.a i + y • R.b i) * (x' • R.a j + y' • R.b j) = -((x' • R.a j + y' • R.b j) * (x • R.a i + y • R.b i)) := by
    intro x y x' y'
    simp only [add_mul, mul_add, smul_mul_smul_comm]
    rw [R.aa i hi j hj hij, R.ab i hi j hj, R.ba i hi j hj, R.bb i hi j hj hij, mul_comm x' x, mul_comm x' y, mul_comm y' x, mul_comm y' y]
    simp only [smul_neg]
    abel
  have form : ∀ (o : Op) (j : ℤ), ∃ x y : K, R.fsite o j = x • R.a j + y • R.b j := by
    intro o j
    cases o
    case CDag => exact ⟨1 / 2, -(1 / 2 * I), by simp only [fsite, cdag, smul_sub, smul_smul, neg_smul]; abel⟩
    case C => exact ⟨1 / 2, 1 / 2 * I, by simp only [fsite, c, smul_add, smul_smul]⟩
    all_goals exact ⟨0, 0, by simp [fsite]⟩
  obtain ⟨x, y, h⟩ := form o i
  obtain ⟨x', y', h'⟩ := form o' j
  rw [h, h']; exact key x y x' y'

/-- Hermitian conjugates -/
theorem star_fsite [StarRing 𝔸] [StarModule K 𝔸] (hs : ∀ i ∈ S, star (R.a i) = R.a i ∧ star (R.b i) = R.b i) {j : ℤ} (hj : j ∈ S) :
    star (R.c j) = R.cdag j ∧ star (R.cdag j) = R.c j := by
  have h2 : star (2 : K) = 2 := by rw [star_ofNat]
  simp only [c, cdag, star_smul, star_add, star_sub, (hs j hj).1, (hs j hj).2, star_I, star_div₀, star_one, h2]
  constructor
  · rw [neg_smul, ← sub_eq_add_neg]
  · rw [neg_smul, sub_neg_eq_add]

end MajoranaRep

end Qosy
