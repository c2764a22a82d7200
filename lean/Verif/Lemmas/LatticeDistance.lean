import Verif.Lemmas.LatticeConcrete
import Mathlib.Analysis.InnerProductSpace.PiL2
import Mathlib.Tactic.FinCases
import Mathlib.Tactic.NormNum

/-! # Lattices: distances -/

namespace Qosy
open Finset
variable {ω ν : Type} [DecidableEq ω] [DecidableEq ν] {N : List ℕ} {periodic : Option (List Bool)}

theorem separation_eq {d : ℕ} (x y : Fin d → ℝ) : separation x y = dist (WithLp.toLp 2 x : EuclideanSpace ℝ (Fin d)) (WithLp.toLp 2 y) := by
  rw [EuclideanSpace.dist_eq, separation]
  congr 1
  refine Finset.sum_congr rfl fun i _ => ?_
  rw [Real.dist_eq, sq_abs]

theorem euclid_ofFn {d : ℕ} (x : Fin d → ℝ) : euclid (List.ofFn x) = Real.sqrt (∑ i, x i ^ 2) := by
  rw [euclid, List.map_ofFn, List.sum_ofFn]
  rfl

theorem minList_spec {x : ℝ} (l : List ℝ) (h : x ∈ l) : ∃ m, minList l = .ok m ∧ m ∈ l ∧ ∀ y ∈ l, m ≤ y := by
  have key : ∀ (l : List ℝ) (a : ℝ), l.foldl min a ∈ a :: l ∧ ∀ y ∈ a :: l, l.foldl min a ≤ y := by
    intro l
    induction l with
    | nil => intro a; simp
    | cons b l ih =>
      intro a
      obtain ⟨h1, h2⟩ := ih (min a b)
      rw [List.foldl_cons]
      constructor
      · rcases List.mem_cons.mp h1 with h | h
        · rw [h]
          rcases min_choice a b with h | h <;> rw [h] <;> simp
        · simp [h]
      · intro y hy
        have hm := h2 (min a b) (by simp)
        rcases List.mem_cons.mp hy with rfl | hy
        · exact hm.trans (min_le_left _ _)
        · rcases List.mem_cons.mp hy with rfl | hy
          · exact hm.trans (min_le_right _ _)
          · exact h2 y (by simp [hy])
  cases l with
  | nil => simp at h
  | cons a l => exact ⟨_, rfl, (key l a).1, (key l a).2⟩

section
variable {u : UnitCell ℝ ω} {render : List ℝ → ν} {tol : ℝ}

theorem distance_ok {L : Lattice ℝ ω ν} (h : L.Built u N periodic tol render) (x y : Fin N.length → ℝ) :
    ∃ δ, L.distance euclid (.at (List.ofFn x)) (.at (List.ofFn y)) = .ok δ ∧
      (∃ c, Near c ∧ Period periodic c ∧ δ = separation (x + u.shift N.length (sizes N) c) y) ∧
      ∀ c, Near c → Period periodic c → δ ≤ separation (x + u.shift N.length (sizes N) c) y := by
  have hstep : ∀ b ∈ L.boundary, (do
      let q ← vadd (List.ofFn x) b
      let q ← vadd q (vscale (-1) (List.ofFn y))
      .ok (euclid q) : Py ℝ) = .ok (separation (x + vec N.length b) y) := by
    intro b hb
    have h1 := vadd_ofFn x (h.len b hb)
    have h2 := vadd_ofFn (x + vec N.length b) (b := vscale (-1) (List.ofFn y)) (by simp [vscale_length])
    rw [vec_vscale _ (by simp), vec_ofFn] at h2
    simp only [h1, bind, Except.bind, h2]
    rw [euclid_ofFn, separation]
    congr 3
    funext i
    simp only [Pi.add_apply, Pi.smul_apply, smul_eq_mul]
    ring
  have hmap : L.boundary.mapM (fun bv => (do
      let q ← vadd (List.ofFn x) bv
      let q ← vadd q (vscale (-1) (List.ofFn y))
      .ok (euclid q) : Py ℝ)) = .ok (L.boundary.map fun b => separation (x + vec N.length b) y) := by
    have : ∀ l : List (List ℝ), (∀ b ∈ l, b ∈ L.boundary) → l.mapM (fun bv => (do
      let q ← vadd (List.ofFn x) bv
      let q ← vadd q (vscale (-1) (List.ofFn y))
      .ok (euclid q) : Py ℝ)) = .ok (l.map fun b => separation (x + vec N.length b) y) := by
      intro l
      induction l with
      | nil => intro _; rfl
      | cons b l ih =>
        intro hl
        rw [List.mapM_cons, hstep b (hl b (by simp)), ih (fun b hb => hl b (List.mem_cons_of_mem _ hb))]
        rfl
    exact this _ (fun _ h => h)
  obtain ⟨bs, hbs⟩ := h.head
  obtain ⟨δ, h1, h2, h3⟩ := minList_spec (x := separation (x + vec N.length (List.replicate N.length 0)) y)
    (L.boundary.map fun b => separation (x + vec N.length b) y) (by rw [hbs]; simp)
  refine ⟨δ, ?_, ?_, fun c hc1 hc2 => ?_⟩
  · simp only [Lattice.distance, Lattice.resolve, bind, Except.bind] at hmap ⊢
    rw [hmap]
    exact h1
  · obtain ⟨b, hb, rfl⟩ := List.mem_map.mp h2
    obtain ⟨c, hc1, hc2, hbv⟩ := (h.boundary (vec N.length b)).mp ⟨b, hb, rfl⟩
    exact ⟨c, hc1, hc2, by rw [hbv]⟩
  · obtain ⟨b, hb, hbv⟩ := (h.boundary (u.shift N.length (sizes N) c)).mpr ⟨c, hc1, hc2, rfl⟩
    rw [← hbv]
    exact h3 _ (List.mem_map_of_mem hb)

theorem shift_neg (d : ℕ) (M : Fin d → ℕ) (c : Fin d → ℤ) : u.shift d M (-c) = -u.shift d M c := by
  rw [UnitCell.shift, UnitCell.shift, ← Finset.sum_neg_distrib]
  refine Finset.sum_congr rfl fun l _ => ?_
  rw [Pi.neg_apply, Int.cast_neg, neg_mul, neg_smul]

theorem shift_add (d : ℕ) (M : Fin d → ℕ) (c c' : Fin d → ℤ) : u.shift d M (c + c') = u.shift d M c + u.shift d M c' := by
  simp only [UnitCell.shift]
  rw [← Finset.sum_add_distrib]
  refine Finset.sum_congr rfl fun l _ => ?_
  rw [Pi.add_apply, Int.cast_add, add_mul, add_smul]

theorem shift_zero (d : ℕ) (M : Fin d → ℕ) : u.shift d M 0 = 0 := by
  rw [UnitCell.shift]
  refine Finset.sum_eq_zero fun l _ => ?_
  simp

theorem separation_shift_comm {d : ℕ} (x y z : Fin d → ℝ) : separation (x + z) y = separation (y + -z) x := by
  rw [separation, separation]
  congr 1
  refine Finset.sum_congr rfl fun i _ => ?_
  simp only [Pi.add_apply, Pi.neg_apply]
  ring

/-- squared length of a combination of orthogonal vectors -/
theorem UnitCell.Orthogonal.sq {d : ℕ} (h : u.Orthogonal d) (g : Fin d → ℝ) :
    ∑ i, (∑ l, g l • u.vec d l) i ^ 2 = ∑ l, g l ^ 2 * ∑ i, u.vec d l i ^ 2 := by
  have h1 : ∀ i, (∑ l, g l • u.vec d l) i ^ 2 = ∑ l, ∑ l', g l * g l' * (u.vec d l i * u.vec d l' i) := by
    intro i
    rw [pow_two, Finset.sum_apply, Finset.sum_mul_sum]
    refine Finset.sum_congr rfl fun l _ => Finset.sum_congr rfl fun l' _ => ?_
    simp only [Pi.smul_apply, smul_eq_mul]; ring
  simp only [h1]
  rw [Finset.sum_comm]
  refine Finset.sum_congr rfl fun l _ => ?_
  rw [Finset.sum_comm, Finset.sum_eq_single l]
  · rw [← Finset.mul_sum, pow_two]
    congr 1
    exact Finset.sum_congr rfl fun i _ => (pow_two _).symm
  · intro l' _ hl
    rw [← Finset.mul_sum, h l l' hl.symm, mul_zero]
  · simp

/-- among the images `t + c n` the nearest to zero has `c` in -1, 0, 1 if `|t| ≤ n` -/
theorem nearest_image {t n : ℝ} (hn : |t| ≤ n) (c : ℤ) : ∃ e : ℤ, (e = -1 ∨ e = 0 ∨ e = 1) ∧ (c = 0 → e = 0) ∧ (t + e * n) ^ 2 ≤ (t + c * n) ^ 2 := by
  obtain ⟨h1, h2⟩ := abs_le.mp hn
  have hn0 : 0 ≤ n := (abs_nonneg t).trans hn
  rcases lt_trichotomy c 0 with hc | rfl | hc
  · refine ⟨-1, Or.inl rfl, fun h => by omega, ?_⟩
    have : (c : ℝ) ≤ -1 := by exact_mod_cast (show c ≤ -1 by omega)
    have h3 : t + c * n ≤ t + (-1) * n := by nlinarith
    push_cast
    nlinarith
  · exact ⟨0, Or.inr (Or.inl rfl), fun _ => rfl, le_refl _⟩
  · refine ⟨1, Or.inr (Or.inr rfl), fun h => by omega, ?_⟩
    have : (1 : ℝ) ≤ c := by exact_mod_cast (show 1 ≤ c by omega)
    have h3 : t + 1 * n ≤ t + c * n := by nlinarith
    push_cast
    nlinarith

theorem orthogonal_min {L : Lattice ℝ ω ν} (h : L.Built u N periodic tol render) (ho : u.Orthogonal N.length) {x y : Fin N.length → ℝ}
    {t : Fin N.length → ℝ} (hxy : x - y = ∑ l, t l • u.vec N.length l) (ht : ∀ l, |t l| ≤ sizes N l) :
    ∃ δ, L.distance euclid (.at (List.ofFn x)) (.at (List.ofFn y)) = .ok δ ∧
      (∃ c, Period periodic c ∧ δ = separation (x + u.shift N.length (sizes N) c) y) ∧
      ∀ c, Period periodic c → δ ≤ separation (x + u.shift N.length (sizes N) c) y := by
  obtain ⟨δ, hδ, ⟨c0, -, hc2, hc⟩, hmin⟩ := distance_ok h x y
  refine ⟨δ, hδ, ⟨c0, hc2, hc⟩, fun c hcp => ?_⟩
  have hsep : ∀ c : Fin N.length → ℤ, separation (x + u.shift N.length (sizes N) c) y =
      Real.sqrt (∑ l, (t l + c l * sizes N l) ^ 2 * ∑ i, u.vec N.length l i ^ 2) := by
    intro c
    rw [separation, ← ho.sq]
    congr 1
    refine Finset.sum_congr rfl fun i _ => ?_
    congr 1
    have h1 := congrFun hxy i
    have h2 : (∑ l, (t l + c l * sizes N l) • u.vec N.length l) = (x - y) + u.shift N.length (sizes N) c := by
      rw [hxy, UnitCell.shift, ← Finset.sum_add_distrib]
      exact Finset.sum_congr rfl fun l _ => add_smul _ _ _
    rw [h2]
    simp only [Pi.add_apply, Pi.sub_apply]; ring
  choose e he1 he2 he3 using fun l => nearest_image (ht l) (c l)
  refine (hmin e he1 (fun l hl => he2 l (hcp l hl))).trans ?_
  rw [hsep, hsep]
  apply Real.sqrt_le_sqrt
  refine Finset.sum_le_sum fun l _ => mul_le_mul_of_nonneg_right (he3 l) (Finset.sum_nonneg fun i _ => sq_nonneg _)

end

/-- cubic lattices are orthogonal -/
theorem cubicCell_orthogonal (d : ℕ) (names : List ω) : (cubicCell ℝ d names).Orthogonal d := by
  intro l l' h
  simp [cubicCell_vec, Pi.single_apply, Ne.symm h]

end Qosy
