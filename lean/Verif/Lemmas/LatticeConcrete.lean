import Verif.Lemmas.LatticeIndex
import Mathlib.Algebra.Order.Round
import Mathlib.Tactic.FieldSimp
import Mathlib.Tactic.FinCases
import Mathlib.Tactic.Positivity

/-! # Cubic and kagome lattices satisfy the hypotheses of the theorems on lattices -/

namespace Qosy
open Finset
variable {F ω ν : Type} [Field F] [LinearOrder F] [IsStrictOrderedRing F]

/-! ### decimal places -/

theorem decimals_ne [FloorRing F] (k : ℕ) {d : ℕ} {x y : Fin d → F} {i : Fin d} (h : 1 / 10 ^ k ≤ |x i - y i|) :
    decimals k (List.ofFn x) ≠ decimals k (List.ofFn y) := by
  have key : ∀ a b : F, 1 / 10 ^ k ≤ a - b → round (b * 10 ^ k) < round (a * 10 ^ k) := by
    intro a b hab
    have hpos : (0 : F) < 10 ^ k := by positivity
    have h1 : b * 10 ^ k + 1 ≤ a * 10 ^ k := by
      rw [div_le_iff₀ hpos] at hab
      linarith
    have h2 : round (b * 10 ^ k) + 1 ≤ round (a * 10 ^ k) := by
      rw [← round_add_one, round_eq, round_eq]
      exact Int.floor_le_floor (by linarith)
    omega
  intro he
  have hi := congrArg (fun l => l.getD i 0) he
  simp only [decimals] at hi
  rw [List.getD_eq_getElem _ _ (by simp), List.getD_eq_getElem _ _ (by simp)] at hi
  simp only [List.getElem_map, List.getElem_ofFn, Fin.eta] at hi
  rcases abs_cases (x i - y i) with ⟨h1, -⟩ | ⟨h1, -⟩
  · exact absurd hi (ne_of_gt (key _ _ (h1 ▸ h)))
  · exact absurd hi (ne_of_lt (key _ _ (by rw [h1] at h; linarith)))

/-- rounding to `k` decimal places distinguishes positions whose coordinates are equal or differ by at least one unit of the last place -/
theorem resolved_decimals [FloorRing F] (k : ℕ) {u : UnitCell F ω} {d : ℕ} {tol : F} {P : (Fin d → ℤ) → Prop}
    (h0 : ∀ m, P m → ∀ a < u.orbitals.length, ∀ i, u.point d m a i = 0 ∨ tol < |u.point d m a i|)
    (h1 : ∀ m m', P m → P m' → ∀ a < u.orbitals.length, ∀ b < u.orbitals.length, ∀ i,
      u.point d m a i = u.point d m' b i ∨ 1 / 10 ^ k ≤ |u.point d m a i - u.point d m' b i|) :
    u.Resolved d tol (decimals k) P := by
  refine ⟨h0, fun m m' hm hm' a ha b hb he => ?_⟩
  funext i
  rcases h1 m m' hm hm' a ha b hb i with h | h
  · exact h
  · exact absurd he (decimals_ne k h)

/-! ### cubic lattices -/

/-- the unit cell of `cubic` -/
def cubicCell (F : Type) [Field F] (d : ℕ) (names : List ω) : UnitCell F ω := ⟨(List.range d).map (unitVector d), [List.replicate d 0], [names]⟩

theorem cubicCell_wf (d : ℕ) (names : List ω) : (cubicCell F d names).WF d := by
  refine ⟨by simp [cubicCell], fun v hv => ?_, rfl, fun p hp => ?_⟩
  · simp only [cubicCell, List.mem_map] at hv
    obtain ⟨k, -, rfl⟩ := hv
    simp [unitVector]
  · simp only [cubicCell, List.mem_singleton] at hp
    rw [hp]; simp

theorem cubicCell_vec (d : ℕ) (names : List ω) (l : Fin d) : (cubicCell F d names).vec d l = Pi.single l 1 := by
  funext i
  simp only [UnitCell.vec, cubicCell, vec]
  rw [List.getD_eq_getElem (l := (List.range d).map _) _ (by simp)]
  simp only [List.getElem_map, List.getElem_range, unitVector]
  rw [List.getD_eq_getElem _ _ (by simp)]
  simp only [List.getElem_map, List.getElem_range, Pi.single_apply, Fin.ext_iff]

theorem cubicCell_sum (d : ℕ) (names : List ω) (g : Fin d → F) : ∑ l, g l • (cubicCell F d names).vec d l = g := by
  funext i
  rw [Finset.sum_apply]
  simp [cubicCell_vec, Pi.single_apply]

theorem cubicCell_point (d : ℕ) (names : List ω) (m : Fin d → ℤ) : (cubicCell F d names).point d m 0 = fun l => (m l : F) := by
  rw [UnitCell.point, cubicCell_sum d names (fun l => (m l : F))]
  show vec d (List.replicate d 0) + _ = _
  rw [vec_replicate, zero_add]

theorem cubicCell_primitive (d : ℕ) {names : List ω} (h : names.Nodup) : (cubicCell F d names).Primitive d := by
  refine ⟨?_, fun m a b ha hb o _ _ _ => ?_, fun l hl => ?_⟩
  · rw [Fintype.linearIndependent_iff]
    intro g hg
    rw [cubicCell_sum] at hg
    exact fun i => congrFun hg i
  · simp only [cubicCell, List.length_singleton] at ha hb
    omega
  · simp only [cubicCell, List.mem_singleton] at hl
    rw [hl]; exact h

theorem int_zero_or_one_le (n : ℤ) : (n : F) = 0 ∨ 1 ≤ |(n : F)| := by
  by_cases h : n = 0
  · exact Or.inl (by simp [h])
  · right
    have : (1 : ℤ) ≤ |n| := Int.one_le_abs h
    exact_mod_cast this

theorem cubicCell_resolved [FloorRing F] (d : ℕ) (names : List ω) {tol : F} (ht : tol < 1) (k : ℕ) (P : (Fin d → ℤ) → Prop) :
    (cubicCell F d names).Resolved d tol (decimals k) P := by
  have hlen : (cubicCell F d names).orbitals.length = 1 := rfl
  apply resolved_decimals
  · intro m _ a ha i
    obtain rfl : a = 0 := by omega
    rw [cubicCell_point]
    rcases int_zero_or_one_le (F := F) (m i) with h | h
    · exact Or.inl h
    · exact Or.inr (lt_of_lt_of_le ht h)
  · intro m m' _ _ a ha b hb i
    obtain rfl : a = 0 := by omega
    obtain rfl : b = 0 := by omega
    simp only [cubicCell_point]
    rw [← Int.cast_sub]
    rcases int_zero_or_one_le (F := F) (m i - m' i) with h | h
    · left
      rw [Int.cast_sub, sub_eq_zero] at h; exact h
    · right
      refine le_trans ?_ h
      have : (1 : F) ≤ 10 ^ k := one_le_pow₀ (by norm_num)
      rw [div_le_one (by positivity)]
      exact this

theorem cubicCell_shift (d : ℕ) (names : List ω) (M : Fin d → ℕ) (c : Fin d → ℤ) :
    (cubicCell F d names).shift d M c = fun l => (c l : F) * (M l : F) := by
  rw [UnitCell.shift, cubicCell_sum d names (fun l => (c l : F) * (M l : F))]

/-! ### kagome lattices -/

/-- the unit cell of `kagome` -/
def kagomeCell (r3 : F) (names : List ω) : UnitCell F ω :=
  ⟨[[1, 0], [1 / 2, r3 / 2]], [[0, 0], [1 / 2, 0 / 2], [1 / 2 / 2, r3 / 2 / 2]], [names, names, names]⟩

theorem kagomeCell_wf (r3 : F) (names : List ω) : (kagomeCell r3 names).WF 2 := by
  refine ⟨rfl, ?_, rfl, ?_⟩
  · intro v hv
    simp only [kagomeCell, List.mem_cons, List.not_mem_nil, or_false] at hv
    rcases hv with rfl | rfl <;> rfl
  · intro v hv
    simp only [kagomeCell, List.mem_cons, List.not_mem_nil, or_false] at hv
    rcases hv with rfl | rfl | rfl <;> rfl

theorem kagomeCell_vec0 (r3 : F) (names : List ω) : (kagomeCell r3 names).vec 2 0 = ![1, 0] := by
  funext i; fin_cases i <;> rfl

theorem kagomeCell_vec1 (r3 : F) (names : List ω) : (kagomeCell r3 names).vec 2 1 = ![1 / 2, r3 / 2] := by
  funext i; fin_cases i <;> rfl

/-- four times the coordinates of the atoms, the second one in units of `r3` -/
def kagomeX : ℕ → ℤ | 0 => 0 | 1 => 2 | _ => 1
/-- see `kagomeX` -/
def kagomeY : ℕ → ℤ | 0 => 0 | 1 => 0 | _ => 1

theorem kagomeCell_point (r3 : F) (names : List ω) (m : Fin 2 → ℤ) {a : ℕ} (ha : a < 3) :
    (kagomeCell r3 names).point 2 m a = ![((4 * m 0 + 2 * m 1 + kagomeX a : ℤ) : F) * (1 / 4), ((2 * m 1 + kagomeY a : ℤ) : F) * (r3 / 4)] := by
  rw [UnitCell.point, Fin.sum_univ_two, kagomeCell_vec0, kagomeCell_vec1]
  obtain rfl | rfl | rfl : a = 0 ∨ a = 1 ∨ a = 2 := by omega
  · funext i
    fin_cases i
    · show (0 : F) + ((m 0 : F) * 1 + (m 1 : F) * (1 / 2)) = _
      simp [kagomeX]; ring
    · show (0 : F) + ((m 0 : F) * 0 + (m 1 : F) * (r3 / 2)) = _
      simp [kagomeY]; ring
  · funext i
    fin_cases i
    · show (1 / 2 : F) + ((m 0 : F) * 1 + (m 1 : F) * (1 / 2)) = _
      simp [kagomeX]; ring
    · show (0 / 2 : F) + ((m 0 : F) * 0 + (m 1 : F) * (r3 / 2)) = _
      simp [kagomeY]; ring
  · funext i
    fin_cases i
    · show (1 / 2 / 2 : F) + ((m 0 : F) * 1 + (m 1 : F) * (1 / 2)) = _
      simp [kagomeX]; ring
    · show (r3 / 2 / 2 : F) + ((m 0 : F) * 0 + (m 1 : F) * (r3 / 2)) = _
      simp [kagomeY]; ring

theorem kagomeCell_primitive {r3 : F} (hr : 1 ≤ r3) {names : List ω} (h : names.Nodup) : (kagomeCell r3 names).Primitive 2 := by
  have hr0 : r3 ≠ 0 := by intro h; rw [h] at hr; exact absurd hr (by norm_num)
  refine ⟨?_, fun m a b ha hb o _ _ he => ?_, fun l hl => ?_⟩
  · rw [Fintype.linearIndependent_iff]
    intro g hg
    rw [Fin.sum_univ_two, kagomeCell_vec0, kagomeCell_vec1] at hg
    have h0 := congrFun hg 0
    have h1 := congrFun hg 1
    simp only [Pi.add_apply, Pi.smul_apply, smul_eq_mul, Matrix.cons_val_zero, Matrix.cons_val_one, Pi.zero_apply, mul_one, mul_zero, zero_add] at h0 h1
    have hg1 : g 1 = 0 := by
      rcases mul_eq_zero.mp h1 with h | h
      · exact h
      · exact absurd h (div_ne_zero hr0 two_ne_zero)
    intro i
    fin_cases i
    · simpa [hg1] using h0
    · exact hg1
  · have ha : a < 3 := ha
    have hb : b < 3 := hb
    rw [kagomeCell_point r3 names m ha, kagomeCell_point r3 names 0 hb] at he
    have h0 := congrFun he 0
    have h1 := congrFun he 1
    simp only [Matrix.cons_val_zero, Matrix.cons_val_one, Pi.zero_apply] at h0 h1
    have e0 : 4 * m 0 + 2 * m 1 + kagomeX a = 4 * 0 + 2 * 0 + kagomeX b := by
      exact_mod_cast mul_right_cancel₀ (by norm_num : (1 / 4 : F) ≠ 0) h0
    have e1 : 2 * m 1 + kagomeY a = 2 * 0 + kagomeY b := by
      exact_mod_cast mul_right_cancel₀ (div_ne_zero hr0 four_ne_zero) h1
    obtain rfl | rfl | rfl : a = 0 ∨ a = 1 ∨ a = 2 := by omega
    all_goals obtain rfl | rfl | rfl : b = 0 ∨ b = 1 ∨ b = 2 := by omega
    all_goals simp only [kagomeX, kagomeY] at e0 e1
    all_goals omega
  · simp only [kagomeCell, List.mem_cons, List.not_mem_nil, or_false] at hl
    rcases hl with rfl | rfl | rfl <;> exact h

theorem int_mul_zero_or_le {s : F} (hs : 0 ≤ s) (n : ℤ) : (n : F) * s = 0 ∨ s ≤ |(n : F) * s| := by
  rcases int_zero_or_one_le (F := F) n with h | h
  · exact Or.inl (by rw [h, zero_mul])
  · right
    rw [abs_mul, abs_of_nonneg hs]
    nlinarith

theorem kagomeCell_resolved [FloorRing F] {r3 : F} (hr : 1 ≤ r3) (names : List ω) {tol : F} (ht : tol < 1 / 4) {k : ℕ} (hk : 0 < k)
    (P : (Fin 2 → ℤ) → Prop) : (kagomeCell r3 names).Resolved 2 tol (decimals k) P := by
  have hlen : (kagomeCell r3 names).orbitals.length = 3 := rfl
  have h4 : (0 : F) ≤ 1 / 4 := by norm_num
  have hr4 : (1 / 4 : F) ≤ r3 / 4 := by linarith
  have hu : (1 / 10 ^ k : F) ≤ 1 / 4 := by
    have : (10 : F) ^ 1 ≤ 10 ^ k := pow_le_pow_right₀ (by norm_num) hk
    rw [div_le_div_iff₀ (by positivity) (by norm_num)]
    linarith
  apply resolved_decimals
  · intro m _ a ha i
    rw [hlen] at ha
    rw [kagomeCell_point r3 names m ha]
    fin_cases i
    · rcases int_mul_zero_or_le h4 (4 * m 0 + 2 * m 1 + kagomeX a) with h | h
      · exact Or.inl h
      · exact Or.inr (lt_of_lt_of_le ht h)
    · rcases int_mul_zero_or_le (h4.trans hr4) (2 * m 1 + kagomeY a) with h | h
      · exact Or.inl h
      · exact Or.inr (lt_of_lt_of_le ht (hr4.trans h))
  · intro m m' _ _ a ha b hb i
    rw [hlen] at ha hb
    rw [kagomeCell_point r3 names m ha, kagomeCell_point r3 names m' hb]
    fin_cases i
    · rcases int_mul_zero_or_le h4 (4 * m 0 + 2 * m 1 + kagomeX a - (4 * m' 0 + 2 * m' 1 + kagomeX b)) with h | h
      · left
        rw [Int.cast_sub, sub_mul, sub_eq_zero] at h
        exact h
      · right
        rw [Int.cast_sub, sub_mul] at h
        exact hu.trans h
    · rcases int_mul_zero_or_le (h4.trans hr4) (2 * m 1 + kagomeY a - (2 * m' 1 + kagomeY b)) with h | h
      · left
        rw [Int.cast_sub, sub_mul, sub_eq_zero] at h
        exact h
      · right
        rw [Int.cast_sub, sub_mul] at h
        exact (hu.trans hr4).trans h

end Qosy
