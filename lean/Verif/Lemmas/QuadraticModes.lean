import Verif.Lemmas.QuadraticMatrix
import Mathlib.LinearAlgebra.Matrix.NonsingularInverse
import Mathlib.Data.List.GetD

/-! # The modes of a quadratic Hamiltonian -/

namespace Qosy
open Coef
variable {K : Type} [Field K] [StarRing K] [Coef K]
variable {F : Type} [Field F] [LinearOrder F]

/-- the partner of an index in its block -/
def partner (k : ℕ) : ℕ := if k % 2 = 0 then k + 1 else k - 1

theorem partner_div (k : ℕ) : partner k / 2 = k / 2 := by rw [partner]; split <;> omega
theorem partner_even (m : ℕ) : partner (2 * m) = 2 * m + 1 := by rw [partner, if_pos (by omega)]
theorem partner_odd (m : ℕ) : partner (2 * m + 1) = 2 * m := by rw [partner, if_neg (by omega)]; omega
theorem partner_ne (k : ℕ) : partner k ≠ k := by rw [partner]; split <;> omega

/-- the condition under which the loop exchanges the columns of a block -/
def Flips (thr e : F) : Prop := thr < |e| ∧ e < -thr

instance (thr e : F) : Decidable (Flips thr e) := inferInstanceAs (Decidable (_ ∧ _))

theorem positiveModes_ok (thr : F) (T : Dense F) (n : ℕ) : ∀ (ns : List ℕ) (e : List F) (Z : Dense F), ns.Nodup → (∀ m ∈ ns, m < n) → e.length = n →
    ∃ e' Z', positiveModes thr T ns (e, Z) = .ok (e', Z') ∧ e'.length = n ∧
      (∀ m, e'.getD m 0 = if m ∈ ns ∧ Flips thr (e.getD m 0) then T.get (2 * m + 1) (2 * m) else e.getD m 0) ∧
      ∀ i k, Z'.get i k = if k / 2 ∈ ns ∧ Flips thr (e.getD (k / 2) 0) then Z.get i (partner k) else Z.get i k := by
  intro ns
  induction ns with
  | nil => intro e Z _ _ he; exact ⟨e, Z, rfl, he, by simp, by simp⟩
  | cons m ns ih =>
    intro e Z hnd hlt he
    rw [List.nodup_cons] at hnd
    have hm : m < e.length := by rw [he]; exact hlt m (by simp)
    have hget : pyGet e m = .ok (e.getD m 0) := by
      rw [pyGet, List.getElem?_eq_getElem hm, List.getD_eq_getElem _ _ hm]
    have hlt' : ∀ k ∈ ns, k < n := fun k hk => hlt k (List.mem_cons_of_mem _ hk)
    by_cases hf : Flips thr (e.getD m 0)
    · have hset : npSet e m (T.get (2 * m + 1) (2 * m)) = .ok (e.set m (T.get (2 * m + 1) (2 * m))) := by rw [npSet, if_pos hm]
      obtain ⟨e', Z', h1, h2, h3, h4⟩ := ih (e.set m (T.get (2 * m + 1) (2 * m))) (Z.swapColumns (2 * m) (2 * m + 1)) hnd.2 hlt' (by rw [List.length_set, he])
      have hgs : ∀ k, k ≠ m → (e.set m (T.get (2 * m + 1) (2 * m))).getD k 0 = e.getD k 0 := by
        intro k hk
        rw [List.getD_eq_getElem?_getD, List.getD_eq_getElem?_getD, List.getElem?_set_ne (Ne.symm hk)]
      have hgm : (e.set m (T.get (2 * m + 1) (2 * m))).getD m 0 = T.get (2 * m + 1) (2 * m) := by
        rw [List.getD_eq_getElem?_getD, List.getElem?_set_self hm]; rfl
      refine ⟨e', Z', ?_, h2, ?_, ?_⟩
      · rw [positiveModes, hget]
        simp only [bind, Except.bind]
        rw [if_pos (show thr < |e.getD m 0| ∧ e.getD m 0 < -thr from hf), hset]
        exact h1
      · intro k
        rw [h3]
        by_cases hk : k = m
        · subst hk
          rw [if_neg (fun h => hnd.1 h.1), hgm, if_pos ⟨by simp, hf⟩]
        · rw [hgs k hk]
          simp only [List.mem_cons, hk, false_or]
      · intro i k
        rw [h4]
        by_cases hk : k / 2 = m
        · rw [if_neg (fun h => hnd.1 (hk ▸ h.1)), if_pos ⟨by simp [hk], by rw [hk]; exact hf⟩]
          simp only [Dense.swapColumns, partner]
          rcases Nat.mod_two_eq_zero_or_one k with hz | hz
          · rw [if_pos (by omega), if_pos hz, show 2 * m + 1 = k + 1 by omega]
          · rw [if_neg (by omega), if_pos (by omega), if_neg (by omega), show 2 * m = k - 1 by omega]
        · rw [hgs _ hk]
          simp only [List.mem_cons, hk, false_or]
          have hZ : ∀ j, j / 2 = k / 2 → (Z.swapColumns (2 * m) (2 * m + 1)).get i j = Z.get i j := by
            intro j hj
            simp only [Dense.swapColumns]
            rw [if_neg (by omega), if_neg (by omega)]
          rw [hZ _ (partner_div k), hZ k rfl]
    · obtain ⟨e', Z', h1, h2, h3, h4⟩ := ih e Z hnd.2 hlt' he
      refine ⟨e', Z', ?_, h2, ?_, ?_⟩
      · rw [positiveModes, hget]
        simp only [bind, Except.bind]
        rw [if_neg (show ¬ (thr < |e.getD m 0| ∧ e.getD m 0 < -thr) from hf)]
        exact h1
      · intro k
        rw [h3]
        by_cases hk : k = m
        · subst hk
          rw [if_neg (fun h => hnd.1 h.1), if_neg (fun h => hf h.2)]
        · simp only [List.mem_cons, hk, false_or]
      · intro i k
        rw [h4]
        by_cases hk : k / 2 = m
        · rw [if_neg (fun h => hnd.1 (hk ▸ h.1)), if_neg (fun h => hf (hk ▸ h.2))]
        · simp only [List.mem_cons, hk, false_or]

/-- the result of `quadraticModes` in terms of the Schur decomposition -/
theorem quadraticModes_ok (thr : F) (T Z : Dense F) (n : ℕ) : ∃ ε Z', quadraticModes thr n T Z = .ok (-1 / 2 * ε.sum, ε, Z') ∧ ε.length = n ∧
    (∀ m, m < n → ε.getD m 0 = if Flips thr (T.get (2 * m) (2 * m + 1)) then T.get (2 * m + 1) (2 * m) else T.get (2 * m) (2 * m + 1)) ∧
    ∀ i k, k < 2 * n → Z'.get i k = if Flips thr (T.get (2 * (k / 2)) (2 * (k / 2) + 1)) then Z.get i (partner k) else Z.get i k := by
  obtain ⟨ε, Z', h1, h2, h3, h4⟩ := positiveModes_ok thr T n (List.range n) ((List.range n).map (fun n => T.get (2 * n) (2 * n + 1))) Z List.nodup_range
    (fun m hm => List.mem_range.mp hm) (by simp)
  have hg : ∀ m, m < n → ((List.range n).map (fun n => T.get (2 * n) (2 * n + 1))).getD m 0 = T.get (2 * m) (2 * m + 1) := by
    intro m hm
    rw [List.getD_eq_getElem _ _ (by simpa using hm)]
    simp
  refine ⟨ε, Z', ?_, h2, ?_, ?_⟩
  · rw [quadraticModes]
    simp only [h1, bind, Except.bind]
    rfl
  · intro m hm
    rw [h3, hg m hm]
    simp only [List.mem_range, hm, true_and]
  · intro i k hk
    rw [h4, hg (k / 2) (by omega)]
    simp only [List.mem_range, show k / 2 < n by omega, true_and]

/-! ### the Schur decomposition -/

variable {ι : F →+* K} {n : ℕ} {A : Mat K} {T Z : Dense F}

/-- the block matrix is antisymmetric -/
theorem IsSchur.antisymm (h : IsSchur ι n A T Z) (hA : ∀ i j, A.get i j = -A.get j i) {k l : ℕ} (hk : k < 2 * n) (hl : l < 2 * n) :
    T.get k l = -T.get l k := by
  let Zm : Matrix (Fin (2 * n)) (Fin (2 * n)) F := fun i j => Z.get i j
  let Tm : Matrix (Fin (2 * n)) (Fin (2 * n)) F := fun i j => T.get i j
  have h1 : Zm.transpose * Zm = 1 := by
    ext i j
    rw [Matrix.mul_apply, Matrix.one_apply]
    have := h.orthogonal i j i.2 j.2
    rw [Finset.sum_range] at this
    simp only [Matrix.transpose_apply, Zm, Fin.ext_iff]
    exact this
  have h2 : (Zm * Tm * Zm.transpose).transpose = -(Zm * Tm * Zm.transpose) := by
    ext i j
    rw [Matrix.transpose_apply, Matrix.neg_apply]
    apply ι.injective
    have e : ∀ a b : Fin (2 * n), ι ((Zm * Tm * Zm.transpose) a b) = A.get a b := by
      intro a b
      rw [h.decomposition a b a.2 b.2]
      congr 1
      simp only [Finset.sum_range, Matrix.mul_apply, Finset.sum_mul, Matrix.transpose_apply]
      rw [Finset.sum_comm]
    rw [map_neg, e, e]
    exact hA j i
  have h3 : Tm = Zm.transpose * (Zm * Tm * Zm.transpose) * Zm := by
    rw [Matrix.mul_assoc Zm, ← Matrix.mul_assoc Zm.transpose, h1, Matrix.one_mul, Matrix.mul_assoc, h1, Matrix.mul_one]
  have h4 : Tm.transpose = -Tm := by
    conv_lhs => rw [h3]
    rw [Matrix.transpose_mul, Matrix.transpose_mul, h2, Matrix.transpose_transpose, Matrix.neg_mul, Matrix.mul_neg, ← Matrix.mul_assoc, ← h3]
  have := congrFun (congrFun h4 ⟨l, hl⟩) ⟨k, hk⟩
  rw [Matrix.transpose_apply, Matrix.neg_apply] at this
  exact this

variable {𝔸 : Type} [Ring 𝔸] [Algebra K 𝔸]

/-- the columns of an orthogonal matrix give Majorana operators -/
theorem combo_anticomm (R : MajoranaRep K 𝔸 (siteLabels n)) (h : IsSchur ι n A T Z) {k l : ℕ} (hk : k < 2 * n) (hl : l < 2 * n) :
    R.combo ι n Z k * R.combo ι n Z l + R.combo ι n Z l * R.combo ι n Z k = (if k = l then (2 : K) else 0) • 1 := by
  have e : ∀ k l, R.combo ι n Z k * R.combo ι n Z l =
      ∑ i ∈ Finset.range (2 * n), ∑ j ∈ Finset.range (2 * n), (ι (Z.get i k) * ι (Z.get j l)) • (R.γ i * R.γ j) := by
    intro k l
    rw [MajoranaRep.combo, MajoranaRep.combo, Finset.sum_mul_sum]
    apply Finset.sum_congr rfl; intro i _
    apply Finset.sum_congr rfl; intro j _
    rw [smul_mul_smul_comm]
  rw [e, e, Finset.sum_comm (s := Finset.range (2 * n)) (f := fun i j => (ι (Z.get i l) * ι (Z.get j k)) • (R.γ i * R.γ j)), ← Finset.sum_add_distrib]
  have e2 : ∀ i ∈ Finset.range (2 * n), (∑ j ∈ Finset.range (2 * n), (ι (Z.get i k) * ι (Z.get j l)) • (R.γ i * R.γ j)) +
      (∑ j ∈ Finset.range (2 * n), (ι (Z.get j l) * ι (Z.get i k)) • (R.γ j * R.γ i)) = (2 * ι (Z.get i k * Z.get i l)) • (1 : 𝔸) := by
    intro i hi
    rw [← Finset.sum_add_distrib, Finset.sum_eq_single i]
    · rw [γ_sq R (Finset.mem_range.mp hi), map_mul]; module
    · intro j hj hji
      rw [γ_anticomm R (Finset.mem_range.mp hj) (Finset.mem_range.mp hi) hji]; module
    · intro h; exact absurd hi h
  rw [Finset.sum_congr rfl e2, ← Finset.sum_smul, ← Finset.mul_sum, ← map_sum, h.orthogonal k l hk hl]
  congr 1
  split <;> simp

theorem combo_sq (R : MajoranaRep K 𝔸 (siteLabels n)) (h : IsSchur ι n A T Z) {k : ℕ} (hk : k < 2 * n) :
    R.combo ι n Z k * R.combo ι n Z k = 1 := by
  have := combo_anticomm R h hk hk
  rw [if_pos rfl, ← two_smul K] at this
  have h2 : (2 : K) ≠ 0 := two_ne_zero'
  simpa [smul_smul, h2] using congrArg (fun x => (2 : K)⁻¹ • x) this

/-- the Hamiltonian in the basis of the columns -/
theorem combo_form (R : MajoranaRep K 𝔸 (siteLabels n)) (h : IsSchur ι n A T Z) :
    ∑ i ∈ Finset.range (2 * n), ∑ j ∈ Finset.range (2 * n), (I / 4 * A.get i j) • (R.γ i * R.γ j) =
      ∑ k ∈ Finset.range (2 * n), ∑ l ∈ Finset.range (2 * n), (I / 4 * ι (T.get k l)) • (R.combo ι n Z k * R.combo ι n Z l) := by
  have e1 : ∀ k l, (I / 4 * ι (T.get k l)) • (R.combo ι n Z k * R.combo ι n Z l) =
      ∑ i ∈ Finset.range (2 * n), ∑ j ∈ Finset.range (2 * n), (I / 4 * (ι (Z.get i k) * ι (T.get k l) * ι (Z.get j l))) • (R.γ i * R.γ j) := by
    intro k l
    rw [MajoranaRep.combo, MajoranaRep.combo, Finset.sum_mul_sum, Finset.smul_sum]
    apply Finset.sum_congr rfl; intro i _
    rw [Finset.smul_sum]
    apply Finset.sum_congr rfl; intro j _
    rw [smul_mul_smul_comm, smul_smul]
    congr 1; ring
  have e2 : ∀ i ∈ Finset.range (2 * n), ∀ j ∈ Finset.range (2 * n), (I / 4 * A.get i j) • (R.γ i * R.γ j) =
      ∑ k ∈ Finset.range (2 * n), ∑ l ∈ Finset.range (2 * n), (I / 4 * (ι (Z.get i k) * ι (T.get k l) * ι (Z.get j l))) • (R.γ i * R.γ j) := by
    intro i hi j hj
    rw [h.decomposition i j (Finset.mem_range.mp hi) (Finset.mem_range.mp hj), map_sum, Finset.mul_sum, Finset.sum_smul]
    apply Finset.sum_congr rfl; intro k _
    rw [map_sum, Finset.mul_sum, Finset.sum_smul]
    apply Finset.sum_congr rfl; intro l _
    rw [map_mul, map_mul]
  rw [Finset.sum_congr rfl (fun i hi => Finset.sum_congr rfl (e2 i hi))]
  simp only [e1]
  rw [Finset.sum_congr rfl (fun i _ => Finset.sum_comm), Finset.sum_comm]
  apply Finset.sum_congr rfl; intro k _
  rw [Finset.sum_congr rfl (fun i _ => Finset.sum_comm), Finset.sum_comm]

/-- a double sum over a block-diagonal matrix -/
theorem sum_blocks (f : ℕ → ℕ → 𝔸) : ∀ n : ℕ, (∀ k l, k < 2 * n → l < 2 * n → k / 2 ≠ l / 2 → f k l = 0) →
    ∑ k ∈ Finset.range (2 * n), ∑ l ∈ Finset.range (2 * n), f k l =
      ∑ m ∈ Finset.range n, (f (2 * m) (2 * m) + f (2 * m) (2 * m + 1) + f (2 * m + 1) (2 * m) + f (2 * m + 1) (2 * m + 1))
  | 0, _ => by simp
  | n + 1, h => by
    rw [Finset.sum_range_succ, ← sum_blocks f n (fun k l hk hl hkl => h k l (by omega) (by omega) hkl)]
    have e : ∀ g : ℕ → 𝔸, ∑ k ∈ Finset.range (2 * (n + 1)), g k = ∑ k ∈ Finset.range (2 * n), g k + g (2 * n) + g (2 * n + 1) := by
      intro g
      rw [show 2 * (n + 1) = 2 * n + 1 + 1 by ring, Finset.sum_range_succ, Finset.sum_range_succ]
    have z : ∀ k, k / 2 = n → ∑ l ∈ Finset.range (2 * n), f k l = 0 := by
      intro k hk
      apply Finset.sum_eq_zero
      intro l hl
      have := Finset.mem_range.mp hl
      exact h k l (by omega) (by omega) (by omega)
    have z' : ∀ l, l / 2 = n → ∑ k ∈ Finset.range (2 * n), f k l = 0 := by
      intro l hl
      apply Finset.sum_eq_zero
      intro k hk
      have := Finset.mem_range.mp hk
      exact h k l (by omega) (by omega) (by omega)
    rw [e]
    simp only [e]
    rw [Finset.sum_add_distrib, Finset.sum_add_distrib, z (2 * n) (by omega), z (2 * n + 1) (by omega), z' (2 * n) (by omega), z' (2 * n + 1) (by omega)]
    abel

/-- the column of `Z` that becomes a column of the result -/
def flipIndex (thr : F) (T : Dense F) (k : ℕ) : ℕ := if Flips thr (T.get (2 * (k / 2)) (2 * (k / 2) + 1)) then partner k else k

theorem flipIndex_div (thr : F) (T : Dense F) (k : ℕ) : flipIndex thr T k / 2 = k / 2 := by
  rw [flipIndex]; split
  · exact partner_div k
  · rfl

theorem flipIndex_inj (thr : F) (T : Dense F) {k l : ℕ} : flipIndex thr T k = flipIndex thr T l ↔ k = l := by
  constructor
  · intro h
    have hd : k / 2 = l / 2 := by rw [← flipIndex_div thr T k, ← flipIndex_div thr T l, h]
    rw [flipIndex, flipIndex, hd] at h
    split at h
    · rw [partner, partner] at h
      split at h <;> split at h <;> omega
    · exact h
  · rintro rfl; rfl

section relations
variable {x y x' y' : 𝔸} {δ : K}

theorem mode_anti (h1 : x * x' + x' * x = (2 * δ) • 1) (h2 : y * y' + y' * y = (-(2 * δ)) • 1) (h3 : x * y' + y' * x = 0) (h4 : y * x' + x' * y = 0) :
    ((1 / 2 : K) • (x + y)) * ((1 / 2 : K) • (x' + y')) + ((1 / 2 : K) • (x' + y')) * ((1 / 2 : K) • (x + y)) = 0 := by
  simp only [smul_mul_smul_comm, mul_add, add_mul, smul_add]
  linear_combination (norm := module) (1 / 4 : K) • h1 + (1 / 4 : K) • h2 + (1 / 4 : K) • h3 + (1 / 4 : K) • h4

theorem mode_anti_dag (h1 : x * x' + x' * x = (2 * δ) • 1) (h2 : y * y' + y' * y = (-(2 * δ)) • 1) (h3 : x * y' + y' * x = 0) (h4 : y * x' + x' * y = 0) :
    ((1 / 2 : K) • (x - y)) * ((1 / 2 : K) • (x' - y')) + ((1 / 2 : K) • (x' - y')) * ((1 / 2 : K) • (x - y)) = 0 := by
  simp only [smul_mul_smul_comm, mul_sub, sub_mul, smul_sub]
  linear_combination (norm := module) (1 / 4 : K) • h1 + (1 / 4 : K) • h2 - (1 / 4 : K) • h3 - (1 / 4 : K) • h4

theorem mode_canonical (h1 : x * x' + x' * x = (2 * δ) • 1) (h2 : y * y' + y' * y = (-(2 * δ)) • 1) (h3 : x * y' + y' * x = 0) (h4 : y * x' + x' * y = 0) :
    ((1 / 2 : K) • (x + y)) * ((1 / 2 : K) • (x' - y')) + ((1 / 2 : K) • (x' - y')) * ((1 / 2 : K) • (x + y)) = δ • 1 := by
  have e4 : (4 : K) ≠ 0 := by have : (2 : K) ≠ 0 := two_ne_zero'; rw [show (4 : K) = 2 * 2 by norm_num]; exact mul_ne_zero this this
  have h5 : δ = 1 / 4 * (2 * δ) - 1 / 4 * (-(2 * δ)) := by field_simp; ring
  rw [h5]
  simp only [smul_mul_smul_comm, mul_sub, add_mul, mul_add, sub_mul, smul_sub, smul_add]
  linear_combination (norm := module) (1 / 4 : K) • h1 - (1 / 4 : K) • h2 - (1 / 4 : K) • h3 + (1 / 4 : K) • h4

theorem mode_number (h1 : x * x = 1) (h2 : y * y = -1) (h3 : y * x = -(x * y)) :
    ((1 / 2 : K) • (x - y)) * ((1 / 2 : K) • (x + y)) = (1 / 2 : K) • 1 + (1 / 2 : K) • (x * y) := by
  have e4 : (2 : K) ≠ 0 := two_ne_zero'
  have h5 : (1 / 2 : K) = 1 / 4 + 1 / 4 := by rw [show (4 : K) = 2 * 2 by norm_num]; field_simp; norm_num
  simp only [smul_mul_smul_comm, mul_add, sub_mul, smul_add, smul_sub, h1, h2, h3]
  rw [h5, show (1 / 4 + 1 / 4) * (1 / 4 + 1 / 4 : K) = 1 / 4 by rw [← h5, show (4 : K) = 2 * 2 by norm_num]; field_simp]
  module

end relations

variable [IsStrictOrderedRing F]

/-- the modes of a quadratic Hamiltonian -/
theorem modes_ok (R : MajoranaRep K 𝔸 (siteLabels n)) (h : IsSchur ι n A T Z) (hA : ∀ i j, A.get i j = -A.get j i) {thr : F} (hthr : 0 ≤ thr) :
    ∃ shift ε Z', quadraticModes thr n T Z = .ok (shift, ε, Z') ∧ ε.length = n ∧ (∀ e ∈ ε, -thr ≤ e) ∧ shift = -1 / 2 * ε.sum ∧
      (∀ k l, k < 2 * n → l < 2 * n → R.combo ι n Z' k * R.combo ι n Z' l + R.combo ι n Z' l * R.combo ι n Z' k = (if k = l then (2 : K) else 0) • 1) ∧
      (∑ i ∈ Finset.range (2 * n), ∑ j ∈ Finset.range (2 * n), (I / 4 * A.get i j) • (R.γ i * R.γ j) =
        ∑ m ∈ Finset.range n, ι (ε.getD m 0) • (R.modeDag ι n Z' m * R.mode ι n Z' m) + ι shift • 1) := by
  obtain ⟨ε, Z', h1, h2, h3, h4⟩ := quadraticModes_ok thr T Z n
  have hT : ∀ m, m < n → T.get (2 * m + 1) (2 * m) = -T.get (2 * m) (2 * m + 1) := fun m hm => h.antisymm hA (by omega) (by omega)
  have hT0 : ∀ k, k < 2 * n → T.get k k = 0 := fun k hk => self_eq_neg.mp (h.antisymm hA hk hk)
  have hG : ∀ k, k < 2 * n → R.combo ι n Z' k = R.combo ι n Z (flipIndex thr T k) := by
    intro k hk
    rw [MajoranaRep.combo, MajoranaRep.combo]
    apply Finset.sum_congr rfl
    intro l _
    rw [h4 l k hk, flipIndex]
    split <;> rfl
  have hlt : ∀ k, k < 2 * n → flipIndex thr T k < 2 * n := by
    intro k hk
    have := flipIndex_div thr T k
    omega
  have hanti : ∀ k l, k < 2 * n → l < 2 * n → R.combo ι n Z' k * R.combo ι n Z' l + R.combo ι n Z' l * R.combo ι n Z' k = (if k = l then (2 : K) else 0) • 1 := by
    intro k l hk hl
    rw [hG k hk, hG l hl, combo_anticomm R h (hlt k hk) (hlt l hl)]
    simp only [flipIndex_inj]
  have hsq : ∀ k, k < 2 * n → R.combo ι n Z' k * R.combo ι n Z' k = 1 := by
    intro k hk
    rw [hG k hk]; exact combo_sq R h (hlt k hk)
  have heps : ∀ m, m < n → -thr ≤ ε.getD m 0 := by
    intro m hm
    rw [h3 m hm]
    split
    · rename_i hf
      rw [hT m hm]
      have := hf.2
      linarith
    · rename_i hf
      by_contra hcon
      push Not at hcon
      exact hf ⟨lt_of_lt_of_le (by linarith) (neg_le_abs _), hcon⟩
  refine ⟨_, ε, Z', h1, h2, ?_, rfl, hanti, ?_⟩
  · intro e he
    obtain ⟨m, hm, rfl⟩ := List.mem_iff_getElem.mp he
    have := heps m (h2 ▸ hm)
    rwa [List.getD_eq_getElem _ _ hm] at this
  · rw [combo_form R h, sum_blocks _ n (by
      intro k l hk hl hkl
      rw [h.blocks k l hk hl hkl, map_zero, mul_zero, zero_smul])]
    have hsum : ε.sum = ∑ m ∈ Finset.range n, ε.getD m 0 := by
      have : ∀ l : List F, l.sum = ∑ m ∈ Finset.range l.length, l.getD m 0 := by
        intro l
        rw [Finset.sum_range, ← Fin.sum_univ_getElem]
        apply Finset.sum_congr rfl
        intro i _
        rw [List.getD_eq_getElem _ _ i.2]
      rw [this, h2]
    rw [hsum, Finset.mul_sum, map_sum, Finset.sum_smul, ← Finset.sum_add_distrib]
    apply Finset.sum_congr rfl
    intro m hm
    have hm := Finset.mem_range.mp hm
    have c0 := hsq (2 * m) (by omega)
    have c1 := hsq (2 * m + 1) (by omega)
    have c2 : R.combo ι n Z' (2 * m + 1) * R.combo ι n Z' (2 * m) = -(R.combo ι n Z' (2 * m) * R.combo ι n Z' (2 * m + 1)) := by
      have := hanti (2 * m) (2 * m + 1) (by omega) (by omega)
      rw [if_neg (by omega), zero_smul] at this
      exact eq_neg_of_add_eq_zero_right this
    have c3 : R.combo ι n Z (2 * m + 1) * R.combo ι n Z (2 * m) = -(R.combo ι n Z (2 * m) * R.combo ι n Z (2 * m + 1)) := by
      have := combo_anticomm R h (k := 2 * m) (l := 2 * m + 1) (by omega) (by omega)
      rw [if_neg (by omega), zero_smul] at this
      exact eq_neg_of_add_eq_zero_right this
    rw [MajoranaRep.mode, MajoranaRep.modeDag, mode_number c0
      (by rw [smul_mul_smul_comm, I_mul_I, c1, neg_one_smul]) (by rw [smul_mul_assoc, mul_smul_comm, c2, smul_neg]),
      hT m hm, hT0 _ (by omega), hT0 _ (by omega), c3, mul_smul_comm]
    have c4 : ι (ε.getD m 0) • (R.combo ι n Z' (2 * m) * R.combo ι n Z' (2 * m + 1)) =
        ι (T.get (2 * m) (2 * m + 1)) • (R.combo ι n Z (2 * m) * R.combo ι n Z (2 * m + 1)) := by
      rw [h3 m hm, hG _ (by omega), hG _ (by omega), flipIndex, flipIndex, show 2 * m / 2 = m by omega, show (2 * m + 1) / 2 = m by omega]
      split
      · rw [partner_even, partner_odd, hT m hm, c3, map_neg, smul_neg, neg_smul, neg_neg]
      · rfl
    rw [smul_add, smul_comm (ι (ε.getD m 0)) (1 / 2 : K) (_ • _), smul_comm (ι (ε.getD m 0)) (I : K), c4]
    simp only [map_zero, mul_zero, zero_smul, map_neg, map_mul, map_div₀, map_one, map_ofNat]
    have e4 : (2 : K) ≠ 0 := two_ne_zero'
    rw [show (I / 4 : K) = I * (1 / 2) * (1 / 2) by rw [show (4 : K) = 2 * 2 by norm_num]; field_simp]
    module

/-! ### the Fermion vectors -/

omit [IsStrictOrderedRing F] in
theorem Dense.set_row {E : Dense K} {i j : ℕ} {x : K} {r : ℕ} (hi : i < E.nrows) (hj : j < E.ncols) (hr : i ≠ r) (h : ∀ c, E.get r c = 0) :
    ∃ E', E.set i j x = .ok E' ∧ E'.nrows = E.nrows ∧ E'.ncols = E.ncols ∧ ∀ c, E'.get r c = 0 := by
  rw [Dense.set, if_pos ⟨hi, hj⟩]
  refine ⟨_, rfl, rfl, rfl, fun c => ?_⟩
  simp only
  rw [if_neg (fun h' => hr h'.1.symm), h c]

theorem fermionVectorsLoop_row {N : ℕ} (hN : 2 ≤ N) (Z : Dense K) : ∀ (l : List (ℕ × ℕ)) (E : Dense K), (∀ p ∈ l, p.1 < N ∧ p.2 < N) → E.nrows = 2 * N → E.ncols = 2 * N →
    (∀ c, E.get (2 * N - 2) c = 0) → ∃ E', fermionVectorsLoop Z l E = .ok E' ∧ E'.nrows = 2 * N ∧ E'.ncols = 2 * N ∧ ∀ c, E'.get (2 * N - 2) c = 0 := by
  intro l
  induction l with
  | nil => intro E _ h1 h2 h3; exact ⟨E, rfl, h1, h2, h3⟩
  | cons p l ih =>
    obtain ⟨m, n⟩ := p
    intro E hl h1 h2 h3
    obtain ⟨hm, hn⟩ := hl (m, n) (by simp)
    simp only at hm hn
    obtain ⟨E1, a1, a2, a3, a4⟩ := Dense.set_row (E := E) (i := m) (j := n) (r := 2 * N - 2) (by omega) (by omega) (by omega) h3
      (x := 1 / 2 * (Z.get (2 * m) (2 * n) + I * Z.get (2 * m) (2 * n + 1) - I * Z.get (2 * m + 1) (2 * n) + Z.get (2 * m + 1) (2 * n + 1)))
    obtain ⟨E2, b1, b2, b3, b4⟩ := Dense.set_row (E := E1) (i := m) (j := 2 * n + 1) (r := 2 * N - 2) (by omega) (by omega) (by omega) a4
      (x := 1 / 2 * (Z.get (2 * m) (2 * n) + I * Z.get (2 * m) (2 * n + 1) + I * Z.get (2 * m + 1) (2 * n) - Z.get (2 * m + 1) (2 * n + 1)))
    obtain ⟨E3, c1, c2, c3, c4⟩ := Dense.set_row (E := E2) (i := 2 * m + 1) (j := n) (r := 2 * N - 2) (by omega) (by omega) (by omega) b4
      (x := 1 / 2 * (Z.get (2 * m) (2 * n) - I * Z.get (2 * m) (2 * n + 1) - I * Z.get (2 * m + 1) (2 * n) - Z.get (2 * m + 1) (2 * n + 1)))
    obtain ⟨E4, d1, d2, d3, d4⟩ := Dense.set_row (E := E3) (i := 2 * m + 1) (j := 2 * n + 1) (r := 2 * N - 2) (by omega) (by omega) (by omega) c4
      (x := 1 / 2 * (Z.get (2 * m) (2 * n) + I * Z.get (2 * m) (2 * n + 1) - I * Z.get (2 * m + 1) (2 * n) + Z.get (2 * m + 1) (2 * n + 1)))
    obtain ⟨E', e1, e2⟩ := ih E4 (fun p hp => hl p (List.mem_cons_of_mem _ hp)) (by omega) (by omega) d4
    refine ⟨E', ?_, e2⟩
    rw [fermionVectorsLoop, fermionVectorsStep, a1]
    simp only [bind, Except.bind, b1, c1, d1]
    exact e1

theorem fermionVectors_row {N : ℕ} (hN : 2 ≤ N) (Z : Dense K) : ∃ E, fermionVectors Z N = .ok E ∧ E.nrows = 2 * N ∧ E.ncols = 2 * N ∧
    ∀ c, E.get (2 * N - 2) c = 0 := by
  apply fermionVectorsLoop_row hN Z _ _ _ rfl rfl (fun _ => rfl)
  intro p hp
  simp only [List.mem_flatMap, List.mem_map, List.mem_range] at hp
  obtain ⟨m, hm, k, hk, rfl⟩ := hp
  exact ⟨hm, hk⟩

end Qosy
