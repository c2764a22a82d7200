import Verif.Lemmas.GreedyGeneral
import Verif.Lemmas.PermGroup
import Verif.Props.SymmetryMatrix
import Verif.Spec.GreedySymmetry

/-! # `selected_ci_greedy` with transformations -/

namespace Qosy
open Coef RealOps
variable {K : Type} [Field K] [StarRing K] [Coef K] [RealCoef K]
variable {𝔸 : Type} [Ring 𝔸] [Algebra K 𝔸]

/-! ### the closure of the basis -/

/-- a string that occurs in the image of `s` -/
def ImageOf (T : Transformation K) (s s' : OpString) : Prop := ∃ A, T s = .ok A ∧ ∃ t ∈ A.terms, absGt t.1 (1 / 10 ^ 16) = true ∧ t.2 = s'

theorem insertNew_ok {b : Basis} (hb : b.Inv) (l : List (K × OpString)) :
    (l.foldl (fun (b : Basis) t => if absGt t.1 (1 / 10 ^ 16) && !b.contains t.2 then b.iaddString t.2 else b) b).Inv ∧
    b.strs <+: (l.foldl (fun (b : Basis) t => if absGt t.1 (1 / 10 ^ 16) && !b.contains t.2 then b.iaddString t.2 else b) b).strs ∧
    ∀ s, s ∈ (l.foldl (fun (b : Basis) t => if absGt t.1 (1 / 10 ^ 16) && !b.contains t.2 then b.iaddString t.2 else b) b).strs ↔
      s ∈ b.strs ∨ ∃ t ∈ l, absGt t.1 (1 / 10 ^ 16) = true ∧ t.2 = s := by
  induction l generalizing b with
  | nil => exact ⟨hb, List.prefix_rfl, by simp⟩
  | cons x l ih =>
    rw [List.foldl_cons]
    split
    · rename_i h
      rw [Bool.and_eq_true, Bool.not_eq_true', ← Bool.not_eq_true, hb.contains_iff] at h
      obtain ⟨n1, n2⟩ := hb.iaddString_new h.2
      obtain ⟨i1, i2, i3⟩ := ih n2
      refine ⟨i1, ?_, fun s => ?_⟩
      · exact (n1 ▸ List.prefix_append _ _ : b.strs <+: _).trans i2
      · rw [i3, n1, List.mem_append, List.mem_singleton]
        constructor
        · rintro ((h' | rfl) | ⟨t, h1, h2⟩)
          · exact Or.inl h'
          · exact Or.inr ⟨x, List.mem_cons_self .., h.1, rfl⟩
          · exact Or.inr ⟨t, List.mem_cons_of_mem _ h1, h2⟩
        · rintro (h' | ⟨t, h1, h2, h3⟩)
          · exact Or.inl (Or.inl h')
          · rcases List.mem_cons.mp h1 with rfl | h1
            · exact Or.inl (Or.inr h3.symm)
            · exact Or.inr ⟨t, h1, h2, h3⟩
    · rename_i h
      obtain ⟨i1, i2, i3⟩ := ih hb
      refine ⟨i1, i2, fun s => ?_⟩
      rw [i3]
      constructor
      · rintro (h' | ⟨t, h1, h2⟩)
        · exact Or.inl h'
        · exact Or.inr ⟨t, List.mem_cons_of_mem _ h1, h2⟩
      · rintro (h' | ⟨t, h1, h2, h3⟩)
        · exact Or.inl h'
        · rcases List.mem_cons.mp h1 with rfl | h1
          · left
            rw [Bool.and_eq_true, Bool.not_eq_true', ← Bool.not_eq_true, hb.contains_iff, h3] at h
            by_contra hn
            exact h ⟨h2, hn⟩
          · exact Or.inr ⟨t, h1, h2, h3⟩

theorem insertImages_inv {s : OpString} : ∀ {Ts : List (Transformation K)} {b b' : Basis}, b.Inv → insertImages Ts s b = .ok b' →
    b'.Inv ∧ b.strs <+: b'.strs ∧ (∀ T ∈ Ts, ∃ A, T s = .ok A) ∧ ∀ s', s' ∈ b'.strs ↔ s' ∈ b.strs ∨ ∃ T ∈ Ts, ImageOf T s s' := by
  intro Ts
  induction Ts with
  | nil =>
    intro b b' hb h
    cases h
    exact ⟨hb, List.prefix_rfl, by simp, by simp⟩
  | cons T Ts ih =>
    intro b b' hb h
    unfold insertImages at h
    rw [List.foldlM_cons] at h
    obtain ⟨b1, h1, h2⟩ := py_bind_ok h
    obtain ⟨A, h3, h4⟩ := py_bind_ok h1
    cases h4
    obtain ⟨i1, i2, i3⟩ := insertNew_ok hb A.terms
    obtain ⟨j1, j2, j3, j4⟩ := ih i1 h2
    refine ⟨j1, i2.trans j2, ?_, fun s' => ?_⟩
    · intro T' hT'
      rcases List.mem_cons.mp hT' with rfl | h
      · exact ⟨A, h3⟩
      · exact j3 T' h
    · rw [j4, i3]
      constructor
      · rintro ((h' | h') | ⟨T', h1, h2⟩)
        · exact Or.inl h'
        · exact Or.inr ⟨T, List.mem_cons_self .., A, h3, h'⟩
        · exact Or.inr ⟨T', List.mem_cons_of_mem _ h1, h2⟩
      · rintro (h' | ⟨T', h1, h2⟩)
        · exact Or.inl (Or.inl h')
        · rcases List.mem_cons.mp h1 with rfl | h1
          · obtain ⟨A', e, h'⟩ := h2
            rw [h3] at e; cases e
            exact Or.inl (Or.inr h')
          · exact Or.inr ⟨T', h1, h2⟩

theorem closeUnder_inv {Ts : List (Transformation K)} : ∀ {fuel i : ℕ} {b b' : Basis}, b.Inv → closeUnderTransformations Ts fuel i b = .ok (some b') →
    (∀ k s, k < i → b.strs[k]? = some s → ∀ T ∈ Ts, (∃ A, T s = .ok A) ∧ ∀ s', ImageOf T s s' → s' ∈ b.strs) →
    b'.Inv ∧ b.strs <+: b'.strs ∧ (∀ s ∈ b'.strs, ∀ T ∈ Ts, (∃ A, T s = .ok A) ∧ ∀ s', ImageOf T s s' → s' ∈ b'.strs) ∧
      ∀ C : OpString → Prop, (∀ s ∈ b.strs, C s) → (∀ s s' T, T ∈ Ts → C s → ImageOf T s s' → C s') → ∀ s ∈ b'.strs, C s := by
  intro fuel
  induction fuel with
  | zero =>
    intro i b b' hb h hi
    unfold closeUnderTransformations at h
    split at h
    · rename_i hn
      cases h
      refine ⟨hb, List.prefix_rfl, fun s hs => ?_, fun C hC _ => hC⟩
      obtain ⟨k, hk, rfl⟩ := List.mem_iff_getElem.mp hs
      rw [List.getElem?_eq_none_iff] at hn
      exact hi k _ (by omega) (List.getElem?_eq_getElem hk)
    · simp at h
  | succ fuel ih =>
    intro i b b' hb h hi
    unfold closeUnderTransformations at h
    split at h
    · rename_i hn
      cases h
      refine ⟨hb, List.prefix_rfl, fun s hs => ?_, fun C hC _ => hC⟩
      obtain ⟨k, hk, rfl⟩ := List.mem_iff_getElem.mp hs
      rw [List.getElem?_eq_none_iff] at hn
      exact hi k _ (by omega) (List.getElem?_eq_getElem hk)
    · rename_i s hs
      simp only [] at h
      obtain ⟨b1, h1, h2⟩ := py_bind_ok h
      obtain ⟨i1, i2, i3, i4⟩ := insertImages_inv hb h1
      obtain ⟨j1, j2, j3, j4⟩ := ih i1 h2 (by
        intro k s' hk hks T hT
        have hkl : k < b.strs.length := by
          have := (List.getElem?_eq_some_iff.mp hs).1
          omega
        have e : b.strs[k]? = some s' := by
          rw [List.prefix_iff_getElem?.mp i2 k hkl] at hks
          rw [List.getElem?_eq_getElem hkl, hks]
        by_cases hki : k = i
        · subst hki
          rw [e] at hs
          cases hs
          exact ⟨i3 T hT, fun s'' h'' => (i4 s'').mpr (Or.inr ⟨T, hT, h''⟩)⟩
        · obtain ⟨a1, a2⟩ := hi k s' (by omega) e T hT
          exact ⟨a1, fun s'' h'' => i2.subset (a2 s'' h'')⟩)
      refine ⟨j1, i2.trans j2, j3, fun C hC hcl => j4 C (fun s' hs' => ?_) hcl⟩
      rcases (i4 s').mp hs' with h' | ⟨T, hT, h'⟩
      · exact hC s' h'
      · exact hcl s s' T hT (hC s (List.mem_of_getElem? hs)) h'

/-! ### the penalty -/

theorem sum_map_range {M : Type} [AddCommMonoid M] {α : Type} (l : List α) (g : α → M) : (l.map g).sum = ∑ i : Fin l.length, g l[i] := by
  rw [← Fin.sum_univ_fun_getElem]
  rfl

/-- for unitary `S`: `u† (1 - (S + S†)/2) u = ½ ‖S u - u‖²` -/
theorem unitary_form {n : ℕ} (S : Matrix (Fin n) (Fin n) K) (hS : S.conjTranspose * S = 1) (u : Fin n → K) :
    ∑ i, ∑ j, star (u i) * ((1 : Matrix (Fin n) (Fin n) K) i j - 1 / 2 * (S i j + star (S j i))) * u j =
      1 / 2 * ∑ i, star ((∑ j, S i j * u j) - u i) * ((∑ j, S i j * u j) - u i) := by
  have h2 : (2 : K) ≠ 0 := toC_num_ne
  have e1 : ∑ i, star (∑ j, S i j * u j) * (∑ j, S i j * u j) = ∑ i, star (u i) * u i := by
    have : ∀ k l, ∑ i, star (S i k) * S i l = (1 : Matrix (Fin n) (Fin n) K) k l := by
      intro k l
      rw [← hS]; rfl
    calc ∑ i, star (∑ j, S i j * u j) * (∑ j, S i j * u j) = ∑ i, ∑ k, ∑ l, star (u k) * (star (S i k) * S i l) * u l := by
          refine Finset.sum_congr rfl fun i _ => ?_
          rw [star_sum, Finset.sum_mul]
          refine Finset.sum_congr rfl fun k _ => ?_
          rw [Finset.mul_sum]
          refine Finset.sum_congr rfl fun l _ => ?_
          rw [star_mul]; ring
      _ = ∑ k, ∑ l, star (u k) * (∑ i, star (S i k) * S i l) * u l := by
          rw [Finset.sum_comm]
          refine Finset.sum_congr rfl fun k _ => ?_
          rw [Finset.sum_comm]
          refine Finset.sum_congr rfl fun l _ => ?_
          rw [Finset.mul_sum, Finset.sum_mul]
      _ = _ := by
          refine Finset.sum_congr rfl fun k _ => ?_
          simp only [this]
          rw [Finset.sum_eq_single k]
          · simp
          · intro l _ hl
            rw [Matrix.one_apply_ne hl.symm]; simp
          · simp
  have e2 : ∑ i, ∑ j, star (u i) * star (S j i) * u j = ∑ i, star (∑ j, S i j * u j) * u i := by
    rw [Finset.sum_comm]
    refine Finset.sum_congr rfl fun i _ => ?_
    rw [star_sum, Finset.sum_mul]
    refine Finset.sum_congr rfl fun j _ => ?_
    rw [star_mul]
  have e3 : ∑ i, ∑ j, star (u i) * S i j * u j = ∑ i, star (u i) * ∑ j, S i j * u j := by
    refine Finset.sum_congr rfl fun i _ => ?_
    rw [Finset.mul_sum]
    exact Finset.sum_congr rfl fun j _ => by ring
  have e4 : ∑ i, ∑ j, star (u i) * (1 : Matrix (Fin n) (Fin n) K) i j * u j = ∑ i, star (u i) * u i := by
    refine Finset.sum_congr rfl fun i _ => ?_
    rw [Finset.sum_eq_single i]
    · simp
    · intro l _ hl
      rw [Matrix.one_apply_ne hl.symm]; simp
    · simp
  have l1 : ∑ i, ∑ j, star (u i) * ((1 : Matrix (Fin n) (Fin n) K) i j - 1 / 2 * (S i j + star (S j i))) * u j =
      ∑ i, star (u i) * u i - 1 / 2 * (∑ i, star (u i) * (∑ j, S i j * u j) + ∑ i, star (∑ j, S i j * u j) * u i) := by
    rw [← e2, ← e3, ← e4, ← Finset.sum_add_distrib, Finset.mul_sum, ← Finset.sum_sub_distrib]
    refine Finset.sum_congr rfl fun i _ => ?_
    rw [← Finset.sum_add_distrib, Finset.mul_sum, ← Finset.sum_sub_distrib]
    exact Finset.sum_congr rfl fun j _ => by ring
  have l2 : ∑ i, star ((∑ j, S i j * u j) - u i) * ((∑ j, S i j * u j) - u i) =
      ∑ i, star (u i) * u i + ∑ i, star (u i) * u i - (∑ i, star (u i) * (∑ j, S i j * u j) + ∑ i, star (∑ j, S i j * u j) * u i) := by
    conv_rhs => arg 1; arg 1; rw [← e1]
    rw [← Finset.sum_add_distrib, ← Finset.sum_add_distrib, ← Finset.sum_sub_distrib]
    refine Finset.sum_congr rfl fun i _ => ?_
    rw [star_sub]; ring
  rw [l1, l2]
  field_simp
  ring

theorem eye_get (n : ℕ) {i j : ℕ} (hi : i < n) : (Mat.eye n : Mat K).get i j = if i = j then 1 else 0 := by
  have key : ∀ (l : List ℕ), l.Nodup → tget (l.map (fun k => ((k, k, 1) : ℕ × ℕ × K))) i j = if i ∈ l ∧ i = j then 1 else 0 := by
    intro l hl
    induction l with
    | nil => simp
    | cons k l ih =>
      rw [List.nodup_cons] at hl
      rw [List.map_cons, tget_cons, ih hl.2]
      by_cases hk : k = i
      · subst hk
        by_cases hj : k = j
        · subst hj; simp [hl.1]
        · simp [hj]
      · simp [hk, Ne.symm hk]
  rw [Mat.get_eq]
  refine (key _ List.nodup_range).trans ?_
  simp [hi]

/-- `∑_T ‖T(u) - u‖²` for a vector over the strings -/
noncomputable def defectV (Ts : List (Transformation K)) (strs : List OpString) (u : ℕ → K) : ℝ :=
  (Ts.map (fun T => ∑ i : Fin strs.length, ‖toC ((∑ j : Fin strs.length, T.entry strs[i] strs[j] * u j) - u i)‖ ^ 2)).sum

theorem isReal_natCast_div : IsReal (1 / 2 : K) := .div .one (by unfold IsReal; exact toC_inj (by rw [toC_star, map_ofNat]; simp))

theorem isReal_ten : IsReal (10 ^ 10 : K) := by unfold IsReal; exact toC_inj (by rw [toC_star, map_pow, map_ofNat]; simp)

theorem symmetrizeStep_ok {b : Basis} (hb : b.Inv) {t : OpType} {T : Transformation K} {ε : OpString → K} {f : OpString → OpString}
    (h : SignRule T t (· ∈ b.strs) ε f) (hinj : Set.InjOn f {s | s ∈ b.strs}) {com : Mat K} (hc : com.IsHermitian b.len)
    (hr : ∀ i j, i < b.len → j < b.len → IsReal (com.get i j)) :
    ∃ M, (do
        let M ← symmetryMatrix b T
        let M ← M.add M.getH
        let M ← (Mat.eye b.len).add (M.smul (-(1 / 2)))
        com.add (M.smul (10 ^ 10)) : Py (Mat K)) = .ok M ∧ M.IsHermitian b.len ∧ (∀ i j, i < b.len → j < b.len → IsReal (M.get i j)) ∧
      ∀ u, toR (M.form b.len u) = toR (com.form b.len u) + 10 ^ 10 / 2 * defectV [T] b.strs u := by
  obtain ⟨S, s1, s2, s3, -, s4⟩ := symmetryMatrix_ok (T := T) (tol := tolTransformation) hb.2 (fun s hs => by
    obtain ⟨O, o1, o2, -⟩ := h.maps.ok s hs; exact ⟨O, o1, o2⟩)
  rw [← hb.1] at s1
  obtain ⟨S', s1', s5, s6, -⟩ := C41_signed hb (tol := tolTransformation) (by norm_num [tolTransformation]) h hinj
  rw [s1] at s1'
  cases s1'
  have n1 : S.nrows = b.len := s2
  have n2 : S.ncols = b.len := s3
  have hget : ∀ i j (hi : i < b.len) (hj : j < b.len), S.get i j = T.entry (b.strs[i]'hi) (b.strs[j]'hj) := by
    intro i j hi hj
    rw [s5 i j hi hj, Sends.entry (h.sends _ (List.getElem_mem hj))]
  have hSr : ∀ i j, i < b.len → j < b.len → IsReal (S.get i j) := by
    intro i j hi hj
    rw [s5 i j hi hj]
    split
    · rcases h.sign _ (List.getElem_mem hj) with e | e <;> rw [e]
      · exact .one
      · exact IsReal.one.neg
    · exact .zero
  have a1 : S.add S.getH = .ok ⟨S.nrows, S.ncols, S.data ++ S.getH.data⟩ := Mat.add_ok (n1.trans n2.symm) (n2.trans n1.symm)
  set A : Mat K := ⟨S.nrows, S.ncols, S.data ++ S.getH.data⟩ with hA
  have a2 : ∀ i j, A.get i j = S.get i j + star (S.get j i) := by
    intro i j
    rw [hA, Mat.add_get', Mat.getH_get]
  have b1 : (Mat.eye b.len).add (A.smul (-(1 / 2))) = .ok ⟨b.len, b.len, (Mat.eye b.len : Mat K).data ++ (A.smul (-(1 / 2))).data⟩ :=
    Mat.add_ok (M := Mat.eye b.len) (N := A.smul (-(1 / 2))) n1.symm n2.symm
  set B : Mat K := ⟨b.len, b.len, (Mat.eye b.len : Mat K).data ++ (A.smul (-(1 / 2))).data⟩ with hB
  have b2 : ∀ i j, i < b.len → B.get i j = (if i = j then 1 else 0) - 1 / 2 * (S.get i j + star (S.get j i)) := by
    intro i j hi
    have := Mat.add_get' (M := Mat.eye b.len) (N := A.smul (-(1 / 2))) i j
    rw [eye_get _ hi, Mat.smul_get, a2] at this
    refine (show B.get i j = _ from this).trans ?_
    ring
  have hBr : ∀ i j, i < b.len → j < b.len → IsReal (B.get i j) := by
    intro i j hi hj
    rw [b2 i j hi]
    rw [sub_eq_add_neg]
    refine IsReal.add ?_ (IsReal.neg (isReal_natCast_div.mul ((hSr i j hi hj).add ?_)))
    · split
      · exact .one
      · exact .zero
    · rw [show star (S.get j i) = S.get j i from hSr j i hj hi]; exact hSr j i hj hi
  have hBh : B.IsHermitian b.len := by
    refine ⟨rfl, rfl, fun i j hi hj => ?_⟩
    rw [show star (B.get i j) = B.get i j from hBr i j hi hj, b2 _ _ hi, b2 _ _ hj, show star (S.get j i) = S.get j i from hSr j i hj hi,
      show star (S.get i j) = S.get i j from hSr i j hi hj, add_comm (S.get i j)]
    congr 1
    simp only [eq_comm]
  have hSm : (B.smul (10 ^ 10)).IsHermitian b.len := by
    refine ⟨rfl, rfl, fun i j hi hj => ?_⟩
    rw [Mat.smul_get, Mat.smul_get, hBh.2.2 i j hi hj, star_mul, isReal_ten, mul_comm]
  have c1 : com.add (B.smul (10 ^ 10)) = .ok ⟨com.nrows, com.ncols, com.data ++ (B.smul (10 ^ 10)).data⟩ :=
    Mat.add_ok (hc.1.trans hSm.1.symm) (hc.2.1.trans hSm.2.1.symm)
  refine ⟨_, ?_, hermitian_add hc hSm, fun i j hi hj => ?_, fun u => ?_⟩
  · simp only [s1, a1, b1, bind, Except.bind]
    exact c1
  · rw [Mat.add_get', Mat.smul_get]
    exact (hr i j hi hj).add (isReal_ten.mul (hBr i j hi hj))
  · have e1 : (⟨com.nrows, com.ncols, com.data ++ (B.smul (10 ^ 10)).data⟩ : Mat K).form b.len u = com.form b.len u + 10 ^ 10 * B.form b.len u := by
      unfold Mat.form
      rw [Finset.mul_sum, ← Finset.sum_add_distrib]
      refine Finset.sum_congr rfl fun i _ => ?_
      rw [Finset.mul_sum, ← Finset.sum_add_distrib]
      refine Finset.sum_congr rfl fun j _ => ?_
      rw [Mat.add_get', Mat.smul_get]; ring
    have e2 : B.form b.len u = 1 / 2 * ∑ i : Fin b.len, star ((∑ j : Fin b.len, S.get i j * u j) - u i) * ((∑ j : Fin b.len, S.get i j * u j) - u i) := by
      refine Eq.trans ?_ (unitary_form (S.rect b.strs.length b.strs.length) s6 (fun i => u i))
      unfold Mat.form
      refine Finset.sum_congr rfl fun i _ => Finset.sum_congr rfl fun j _ => ?_
      rw [b2 i j i.2]
      congr 3
      rw [Matrix.one_apply (i := (show Fin b.strs.length from i)) (j := (show Fin b.strs.length from j))]
      exact if_congr Fin.ext_iff.symm rfl rfl
    have t1 : toR (10 ^ 10 : K) = 10 ^ 10 := by rw [toR, map_pow, map_ofNat]; norm_num [← Complex.ofReal_ofNat, ← Complex.ofReal_pow]
    have t2 : toR (1 / 2 : K) = 1 / 2 := by rw [toR, map_div₀, map_one, map_ofNat]; norm_num
    rw [e1, e2, toR_add, toR_mul isReal_ten, toR_mul isReal_natCast_div, toR_sum, t1, t2, defectV, List.map_singleton, List.sum_singleton]
    simp only [toR_mul_self_star]
    have e3 : ∀ i : Fin b.len, ∑ j : Fin b.len, S.get i j * u j = ∑ j : Fin b.strs.length, T.entry b.strs[i] b.strs[j] * u j := by
      intro i
      exact Finset.sum_congr rfl fun j _ => by rw [hget i j i.2 j.2]; rfl
    simp only [e3]
    have : (10 : ℝ) ^ 10 / 2 = 10 ^ 10 * (1 / 2) := by ring
    rw [this, mul_assoc]
    rfl

theorem symmetrize_ok {b : Basis} (hb : b.Inv) {t : OpType} : ∀ {Ts : List (Transformation K)}, (∀ T ∈ Ts, ∃ ε f, SignRule T t (· ∈ b.strs) ε f ∧ Set.InjOn f {s | s ∈ b.strs}) →
    ∀ {com : Mat K}, com.IsHermitian b.len → (∀ i j, i < b.len → j < b.len → IsReal (com.get i j)) →
    ∃ M, symmetrizeComMatrix com b Ts = .ok M ∧ M.IsHermitian b.len ∧ (∀ i j, i < b.len → j < b.len → IsReal (M.get i j)) ∧
      ∀ u, toR (M.form b.len u) = toR (com.form b.len u) + 10 ^ 10 / 2 * defectV Ts b.strs u := by
  intro Ts
  induction Ts with
  | nil =>
    intro _ com hc hr
    exact ⟨com, rfl, hc, hr, fun u => by simp [defectV]⟩
  | cons T Ts ih =>
    intro h com hc hr
    obtain ⟨ε, f, h1, h2⟩ := h T (List.mem_cons_self ..)
    obtain ⟨M, m1, m2, m3, m4⟩ := symmetrizeStep_ok hb h1 h2 hc hr
    obtain ⟨N, k1, k2, k3, k4⟩ := ih (fun T hT => h T (List.mem_cons_of_mem _ hT)) m2 m3
    refine ⟨N, ?_, k2, k3, fun u => ?_⟩
    · unfold symmetrizeComMatrix
      rw [List.foldlM_cons, m1]
      exact k1
    · rw [k4, m4]
      simp only [defectV, List.map_cons, List.sum_cons, List.map_nil, List.sum_nil]
      ring

theorem defectV_nonneg (Ts : List (Transformation K)) (strs : List OpString) (u : ℕ → K) : 0 ≤ defectV Ts strs u := by
  apply List.sum_nonneg
  intro x hx
  obtain ⟨T, _, rfl⟩ := List.mem_map.mp hx
  exact Finset.sum_nonneg fun i _ => by positivity

theorem defectV_eq (Ts : List (Transformation K)) (strs : List OpString) {u : ℕ → K} {w : OpString → K} (h : ∀ i (hi : i < strs.length), u i = w strs[i]) :
    defectV Ts strs u = symmetryDefect Ts strs w := by
  unfold defectV symmetryDefect
  congr 1
  refine List.map_congr_left fun T _ => ?_
  rw [sum_map_range]
  refine Finset.sum_congr rfl fun i _ => ?_
  rw [sum_map_range, h i i.2]
  congr 4
  exact Finset.sum_congr rfl fun j _ => by rw [h j j.2]; rfl

theorem symmetryDefect_nonneg (Ts : List (Transformation K)) (strs : List OpString) (w : OpString → K) : 0 ≤ symmetryDefect Ts strs w := by
  unfold symmetryDefect
  apply List.sum_nonneg
  intro x hx
  obtain ⟨T, _, rfl⟩ := List.mem_map.mp hx
  apply List.sum_nonneg
  intro y hy
  obtain ⟨s, _, rfl⟩ := List.mem_map.mp hy
  positivity

/-! ### the main loop -/

theorem PermutesUpToSign.rule {T : Transformation K} {R : StrAlg K 𝔸} (h : PermutesUpToSign T R.Str) : ∃ ε f, SignRule T R.type R.Str ε f ∧ Set.InjOn f {s | R.Str s} := by
  obtain ⟨ε, f, h1, h2⟩ := h
  exact ⟨ε, f, ⟨R.str_type, fun s hs => (h1 s hs).1, fun s hs => (h1 s hs).2.1, fun s hs => (h1 s hs).2.2⟩, h2⟩

theorem imageOf_sends {T : Transformation K} {s s' u : OpString} {ε : K} (h : T.Sends s ε s') (hε : ε = 1 ∨ ε = -1) : ImageOf T s u ↔ u = s' := by
  have ht : absGt ε (1 / 10 ^ 16) = true := by
    rw [absGt_iff]
    rcases hε with rfl | rfl <;> simp <;> norm_num
  constructor
  · rintro ⟨A, h1, t, h2, _, h3⟩
    rw [h] at h1
    cases h1
    simp [Operator.terms, Basis.ofList] at h2
    rw [← h3, h2]
  · rintro rfl
    exact ⟨_, h, (ε, u), by simp [Operator.terms, Basis.ofList], ht, rfl⟩

/-- the end of a step keeps the basis valid -/
theorem greedyFinish_basis {R : StrAlg K 𝔸} {num : Numerics K} (ha : IsArgsort num.argsort) {args : GreedyArgs K} {s s' : GreedyState K} {b : Basis} (hb : GoodBasis R b)
    {st : Explored K} {e stop : Bool} {first v : List K} (hf : first.length = b.len) {c : K} (h : greedyFinish num args s b st e first v c = .ok (s', stop)) :
    s'.operators = s.operators ++ [⟨v, b, R.type⟩] ∧ s'.comNorms = s.comNorms ++ [c] ∧ GoodBasis R s'.basis ∧ 0 < s'.basis.len ∧
      s'.operator.coeffs.length = s'.basis.len ∧ s'.operator.basis.strs = s'.basis.strs ∧ s'.explored = st ∧ s'.numVecs = s.numVecs ∧ (stop = false → s'.step = s.step + 1) := by
  unfold greedyFinish at h
  obtain ⟨O, h1, h⟩ := py_bind_ok h
  obtain ⟨size, h2, h⟩ := py_bind_ok h
  obtain ⟨small, h3, h⟩ := py_bind_ok h
  obtain ⟨cs, h4, h⟩ := py_bind_ok h
  obtain ⟨C, h5, h⟩ := py_bind_ok h
  cases h
  have hne := (mkOperator_none_inv h1).2.2
  rw [mkOperator_none_ok (t := R.type) hne hb.1.2 (fun s hs => R.str_type s (hb.2 s hs)), ← hb.1.1] at h1
  cases h1
  obtain ⟨strs, t1, t2, t3⟩ := truncateBasis_ok ha hb.1.2 (vector := first) (filterFun := none) (vec := first) rfl (hf : first.length = b.strs.length)
    (if gotWorse c s.bestComNorm then s.threshold / 2 else s.threshold) size
  rw [t1] at h3
  cases h3
  obtain ⟨k1, k2, k3⟩ := mkOperator_none_inv h5
  refine ⟨rfl, rfl, ⟨Basis.Inv.ofList t2, fun t ht => hb.2 t (t3.above t ht).1⟩, List.length_pos_iff.mpr k3, ?_, k2, rfl, rfl, ?_⟩
  · show C.coeffs.length = strs.length
    rw [k1, ← (mapM_ok_inv h4).length_eq]
    rfl
  · intro h
    show (if _ then _ else _) = _
    rw [h]
    rfl

/-- the invariant of the main loop -/
structure SymInv (R : StrAlg K 𝔸) (H : Operator K) (Ts : List (Transformation K)) (args : GreedyArgs K) (s : GreedyState K) : Prop where
  records : List.Forall₂ (IsSymmetricRecord R.Str R.den (H.den R.den) Ts) s.operators s.comNorms
  cache : s.explored.Coherent R (· ∈ H.termStrs)
  good : GoodBasis R s.basis
  nonempty : 0 < s.basis.len
  first : s.step = 0 → s.basis = Basis.ofList args.initialOperator.basis.strs
  later : s.step ≠ 0 → s.operator.coeffs.length = s.basis.len ∧ s.operator.basis.strs = s.basis.strs
  vecs : 1 ≤ s.numVecs
  count : s.operators.length = s.step
  start : ∀ O ∈ s.operators.head?, ∀ t ∈ args.initialOperator.basis.strs, t ∈ O.basis.strs

theorem IsComNorm.mono {P Q : OpString → Prop} (hPQ : ∀ s, P s → Q s) {den : OpString → 𝔸} {O H : 𝔸} {c : K} (h : IsComNorm P den O H c) : IsComNorm Q den O H c := by
  obtain ⟨strs, w, h1, h2, h3⟩ := h
  exact ⟨strs, w, h1, fun s hs => hPQ s (h2 s hs), h3⟩

theorem toR_one : toR (1 : K) = 1 := by simp [toR]

/-- what a step records -/
theorem symmetric_record {R : StrAlg K 𝔸} (hR : ∀ s, R.Str s → s.Canonical) {H : Operator K} {Ts : List (Transformation K)} {b : Basis} (hb : GoodBasis R b)
    (hcl : ClosedUnderAll Ts b.strs) {M N : Mat K} (hM : CommForm R H b M)
    (hNr : ∀ i j, i < b.len → j < b.len → IsReal (N.get i j)) (hN : ∀ u, toR (N.form b.len u) = toR (M.form b.len u) + 10 ^ 10 / 2 * defectV Ts b.strs u)
    {r : List K × List (List K)} (hr : IsEigenpairs N b.len r) {v : List K} {c : K} (he : (c, v) ∈ r.1.zip r.2) (hl : Rayleigh N b.len c) :
    IsSymmetricRecord R.Str R.den (H.den R.den) Ts ⟨v, b, R.type⟩ c := by
  have hmem := List.of_mem_zip he
  have hlen := hr.dim v hmem.2
  have hreal := hr.realVectors hNr v hmem.2
  have hwf : (⟨v, b, R.type⟩ : Operator K).WF := ⟨hb.1, hlen, fun s hs => R.str_type s (hb.2 s hs)⟩
  refine ⟨hwf, hb.2, hcl, hreal, ?_, ⟨hr.real c hmem.1, M.form b.len (fun j => v.getD j 0), ?_, ?_⟩, ?_⟩
  · have := hr.unit v hmem.2
    rw [← innerL_eq hlen hlen] at this
    unfold Operator.IsUnit
    rw [← this]
    unfold innerL
    congr 1
    rw [List.zipWith_self]
  · rw [den_linComb (O := ⟨v, b, R.type⟩) hlen]
    exact (hM.norm _ (fun j _ => getD_real hreal j)).mono fun s hs => hs.1
  · have := hr.value he
    rw [show c = N.form b.len (fun j => v.getD j 0) from this, hN]
    congr 2
    apply defectV_eq
    intro i hi
    have := hwf.coef_eq b.strs[i]
    rw [this]
    show _ = if b.strs[i] ∈ b.strs then v.getD (b.strs.idxOf b.strs[i]) 0 else 0
    rw [if_pos (List.getElem_mem hi), hb.1.2.idxOf_getElem i hi]
  · intro _ w d hw hu hd
    have hu' : ∀ i (hi : i < b.strs.length), (b.strs[i]?).elim 0 w = w b.strs[i] := fun i hi => by rw [List.getElem?_eq_getElem hi]; rfl
    have e1 : linComb R.den b.strs (fun i => (b.strs[i]?).elim 0 w) = (b.strs.map (fun s => w s • R.den s)).sum := by
      rw [sum_map_range]
      unfold linComb
      exact Finset.sum_congr rfl fun i _ => congrArg (· • R.den b.strs[i]) (hu' i i.2)
    rw [← e1] at hd
    have e2 : d = M.form b.len (fun i => (b.strs[i]?).elim 0 w) := IsComNorm.unique R (hd.mono fun s hs => ⟨hs, hR s hs⟩) (hM.norm _ (fun j hj => by
      rw [hu' j hj]; exact hw _))
    have e3 := hl (fun i => (b.strs[i]?).elim 0 w)
    have e4 : ∑ j : Fin b.len, ‖toC ((b.strs[(j : ℕ)]?).elim 0 w)‖ ^ 2 = 1 := by
      have := congrArg toR hu
      rw [sum_map_range, toR_sum, toR_one] at this
      simp only [toR_mul_self_star] at this
      rw [← this]
      exact Finset.sum_congr rfl fun i _ => by rw [hu' i i.2]; rfl
    rw [e4, mul_one, hN, ← e2, defectV_eq Ts b.strs hu'] at e3
    exact e3

/-- the expansion of the basis -/
theorem symExpand_ok {R : StrAlg K 𝔸} {num : Numerics K} (hnum : IsNumerics num) {H : Operator K} {Ts : List (Transformation K)}
    {args : GreedyArgs K} (ha : SymmetricOK R.Str H Ts args) {s : GreedyState K} (hs : SymInv R H Ts args s) (fuel : ℕ) {numH : ℕ}
    (hn : args.numHTerms[s.step]? = some numH) :
    ∃ b st, GoodBasis R b ∧ st.Coherent R (· ∈ H.termStrs) ∧ (b.strs ≠ [] ∧ ∀ t ∈ s.basis.strs, t ∈ b.strs) ∧ greedyStep num args fuel s = (closeUnderTransformations Ts fuel 0 b >>= fun cl =>
      match cl with
      | none => .ok none
      | some b => greedySolve num args b s.numVecs st >>= fun x =>
          greedyAccept num args s (if s.step = 0 then args.initialOperator else s.operator) b x.2 x.1.1 x.1.2 >>= fun r => .ok (some r)) := by
  set O := if s.step = 0 then args.initialOperator else s.operator with hO
  have hO1 : O.coeffs.length = s.basis.len ∧ O.basis.strs = s.basis.strs := by
    rw [hO]
    split
    · rename_i h
      rw [hs.first h, ha.initial.len]
      exact ⟨rfl, rfl⟩
    · rename_i h
      exact hs.later h
  obtain ⟨b1, st1, e1, g1, c1, i1, -⟩ := greedyExpandH_ok R hnum.argsort ha.str ha.nodup numH hs.good hO1.1 hs.cache
  obtain ⟨b2, e2, g2, i2, -⟩ := greedyExpandO_ok (R := R) hnum.argsort args.numOTerms (A := O) (by rw [hO1.1, hO1.2]; rfl)
    (fun t ht => hs.good.2 t (hO1.2 ▸ ht)) g1
  refine ⟨b2, st1, g2, c1, ⟨?_, fun t ht => i2 t (i1 t ht)⟩, ?_⟩
  · obtain ⟨t, ht⟩ := List.exists_mem_of_length_pos (show 0 < s.basis.strs.length from hs.nonempty)
    exact List.ne_nil_of_mem (i2 t (i1 t ht))
  · unfold greedyStep
    simp only [← hO, pyGet, hn, ha.com, e1, e2, ha.transformations, bind, Except.bind]
    cases closeUnderTransformations Ts fuel 0 b2 with
    | error e => rfl
    | ok cl => cases cl <;> rfl

/-- the solution in the closed basis -/
theorem symSolve_ok {R : StrAlg K 𝔸} (hR : ∀ s, R.Str s → s.Canonical) {num : Numerics K} (hnum : IsNumerics num) {H : Operator K} {Ts : List (Transformation K)}
    {args : GreedyArgs K} (ha : SymmetricOK R.Str H Ts args) {s : GreedyState K} (hs : SymInv R H Ts args s) {fuel : ℕ} {b2 b : Basis} (g2 : GoodBasis R b2)
    {st : Explored K} (hst : st.Coherent R (· ∈ H.termStrs)) (hne : b2.strs ≠ []) (hc : closeUnderTransformations Ts fuel 0 b2 = .ok (some b)) (O : Operator K) :
    ∃ v c st', GoodBasis R b ∧ (b.strs ≠ [] ∧ ∀ t ∈ b2.strs, t ∈ b.strs) ∧ v.length = b.len ∧ ∑ j : Fin b.len, star (v.getD j 0) * v.getD j 0 = 1 ∧ st'.Coherent R (· ∈ H.termStrs) ∧
      IsSymmetricRecord R.Str R.den (H.den R.den) Ts ⟨v, b, R.type⟩ c ∧
      (greedySolve num args b s.numVecs st >>= fun x => greedyAccept num args s O b x.2 x.1.1 x.1.2 >>= fun r => .ok (some r)) =
        (greedyFinish num args s b st' s.endEarly v v c >>= fun r => (.ok (some r) : Py (Option (GreedyState K × Bool)))) := by
  obtain ⟨k1, k2, k3, k4⟩ := closeUnder_inv g2.1 hc (by omega)
  have hgood : GoodBasis R b := ⟨k1, k4 R.Str g2.2 (by
    intro t t' T hT ht hi
    obtain ⟨ε, f, r1, r2⟩ := (ha.permutes T hT).rule
    rw [imageOf_sends (r1.sends t ht) (r1.sign t ht)] at hi
    rw [hi]; exact r1.mem t ht)⟩
  have hcl : ClosedUnderAll Ts b.strs := by
    intro t ht T hT
    obtain ⟨⟨A, a1⟩, a2⟩ := k3 t ht T hT
    refine ⟨A, a1, fun x hx hlt => a2 x.2 ⟨A, a1, x, hx, ?_, rfl⟩⟩
    rw [absGt_iff]
    push_cast
    exact hlt
  have hrule : ∀ T ∈ Ts, ∃ ε f, SignRule T R.type (· ∈ b.strs) ε f ∧ Set.InjOn f {s | s ∈ b.strs} := by
    intro T hT
    obtain ⟨ε, f, r1, r2⟩ := (ha.permutes T hT).rule
    refine ⟨ε, f, ⟨fun t ht => r1.type t (hgood.2 t ht), fun t ht => r1.sends t (hgood.2 t ht), fun t ht => r1.sign t (hgood.2 t ht), fun t ht => ?_⟩,
      r2.mono fun t ht => hgood.2 t ht⟩
    have hv := hgood.2 t ht
    exact (k3 t ht T hT).2 _ ((imageOf_sends (r1.sends t hv) (r1.sign t hv)).mpr rfl)
  obtain ⟨M, st2, m1, m2, m3⟩ := greedyComMatrices_ok R ha.str ha.nodup hst hgood
  obtain ⟨N, n1, n2, n3, n4⟩ := symmetrize_ok k1 hrule m2.herm (fun i j _ _ => m2.real i j)
  obtain ⟨r, r1, r2, r3, r4⟩ := greedyEig_ok hnum n2 hs.vecs
  have hpos : 0 < b.len := by
    obtain ⟨t, ht⟩ := List.exists_mem_of_ne_nil _ hne
    exact List.length_pos_of_mem (k2.subset ht)
  have hsolve : greedySolve num args b s.numVecs st = .ok (r, st2) := by
    unfold greedySolve
    simp only [ha.com, ha.orth, ha.transformations, m1, n1, r1, bind, Except.bind]
    simp
  have hl1 : 0 < r.1.length := List.length_pos_iff.mpr (r3 hpos)
  have hl2 : 0 < r.2.length := by rw [← r2.len]; exact hl1
  have hray : Rayleigh N b.len r.1[0] := by
    refine r4 (fun u => ?_) _ (by rw [List.head?_eq_getElem?, List.getElem?_eq_getElem hl1]; rfl)
    rw [n4]
    have := m2.nonneg u
    have := defectV_nonneg Ts b.strs u
    positivity
  refine ⟨r.2[0], r.1[0], st2, hgood, ⟨List.length_pos_iff.mp hpos, fun t ht => k2.subset ht⟩, r2.dim _ (List.getElem_mem hl2), r2.unit _ (List.getElem_mem hl2), m3,
    symmetric_record hR hgood hcl m2 n3 n4 r2 (v := r.2[0]) (c := r.1[0]) (List.mem_iff_getElem.mpr ⟨0, by simp; omega, by simp⟩) hray, ?_⟩
  rw [hsolve]
  simp only [bind, Except.bind]
  unfold greedyAccept greedyChoose
  simp only [ha.target, pyGet_lt hl1, pyGet_lt hl2, bind, Except.bind, lowFidelity, Bool.false_and, Bool.or_false, Bool.false_eq_true, if_false]

theorem symStep_inv {R : StrAlg K 𝔸} (hR : ∀ s, R.Str s → s.Canonical) {num : Numerics K} (hnum : IsNumerics num) {H : Operator K} {Ts : List (Transformation K)}
    {args : GreedyArgs K} (ha : SymmetricOK R.Str H Ts args) {s s' : GreedyState K} (hs : SymInv R H Ts args s) {fuel : ℕ} {stop : Bool}
    (h : greedyStep num args fuel s = .ok (some (s', stop))) :
    List.Forall₂ (IsSymmetricRecord R.Str R.den (H.den R.den) Ts) s'.operators s'.comNorms ∧
      (∀ O ∈ s'.operators.head?, ∀ t ∈ args.initialOperator.basis.strs, t ∈ O.basis.strs) ∧ (stop = false → SymInv R H Ts args s') := by
  cases hn : args.numHTerms[s.step]? with
  | none => simp [greedyStep, pyGet, hn, bind, Except.bind] at h
  | some numH =>
    obtain ⟨b2, st, g1, g2, g3, g4⟩ := symExpand_ok hnum ha hs fuel hn
    rw [g4] at h
    obtain ⟨cl, hc, h⟩ := py_bind_ok h
    cases cl with
    | none => simp at h
    | some b =>
      obtain ⟨v, c, st', a1, a2, a3, a4, a5, a6, a7⟩ := symSolve_ok hR hnum ha hs g1 g2 g3.1 hc (if s.step = 0 then args.initialOperator else s.operator)
      replace h := a7.symm.trans h
      obtain ⟨r, hacc, h⟩ := py_bind_ok h
      cases h
      obtain ⟨q1, q2, q3, q4, q5, q6, q7, q8, q9⟩ := greedyFinish_basis hnum.argsort a1 a3 hacc
      have hall : List.Forall₂ (IsSymmetricRecord R.Str R.den (H.den R.den) Ts) s'.operators s'.comNorms := by
        rw [q1, q2]
        exact List.rel_append hs.records (.cons a6 .nil)
      have hstart : ∀ O ∈ s'.operators.head?, ∀ t ∈ args.initialOperator.basis.strs, t ∈ O.basis.strs := by
        rw [q1]
        intro O hO t ht
        cases hops : s.operators with
        | nil =>
          rw [hops] at hO
          simp at hO
          subst hO
          have h0 : s.step = 0 := by rw [← hs.count, hops]; rfl
          exact a2.2 t (g3.2 t (by rw [hs.first h0]; exact ht))
        | cons A l =>
          rw [hops] at hO
          exact hs.start O (by rw [hops]; exact hO) t ht
      exact ⟨hall, hstart, fun hstop => ⟨hall, q7 ▸ a5, q3, q4, fun h0 => absurd h0 (by rw [q9 hstop]; omega), fun _ => ⟨q5, q6⟩, by rw [q8]; exact hs.vecs,
        by rw [q1, q9 hstop, List.length_append, hs.count]; rfl, hstart⟩⟩

theorem symLoop_inv {R : StrAlg K 𝔸} (hR : ∀ s, R.Str s → s.Canonical) {num : Numerics K} (hnum : IsNumerics num) {H : Operator K} {Ts : List (Transformation K)}
    {args : GreedyArgs K} (ha : SymmetricOK R.Str H Ts args) (fuel : ℕ) : ∀ (n : ℕ) {s s' : GreedyState K}, SymInv R H Ts args s → greedyLoop num args fuel n s = .ok (some s') →
    List.Forall₂ (IsSymmetricRecord R.Str R.den (H.den R.den) Ts) s'.operators s'.comNorms ∧
      ∀ O ∈ s'.operators.head?, ∀ t ∈ args.initialOperator.basis.strs, t ∈ O.basis.strs := by
  intro n
  induction n with
  | zero =>
    intro s s' hs h
    unfold greedyLoop at h
    split at h
    · simp at h
    · cases h; exact ⟨hs.records, hs.start⟩
  | succ n ih =>
    intro s s' hs h
    unfold greedyLoop at h
    split at h
    · simp only [] at h
      obtain ⟨r, h1, h⟩ := py_bind_ok h
      cases r with
      | none => simp at h
      | some r =>
        obtain ⟨s1, stop⟩ := r
        simp only [] at h
        obtain ⟨q1, q2, q3⟩ := symStep_inv hR hnum ha hs h1
        cases stop with
        | true => simp at h; subst h; exact ⟨q1, q2⟩
        | false => simp at h; exact ih (q3 rfl) h
    · cases h; exact ⟨hs.records, hs.start⟩

theorem symInit_inv {R : StrAlg K 𝔸} {H : Operator K} {Ts : List (Transformation K)} {args : GreedyArgs K} (ha : SymmetricOK R.Str H Ts args)
    (he : args.explored = Explored.empty) : SymInv R H Ts args (greedyInit args) := by
  have hb : emptyBasis.iadd args.initialOperator.basis = Basis.ofList args.initialOperator.basis.strs := by
    have := Basis.iadd_ofList List.nodup_nil args.initialOperator.basis
    rw [show Basis.ofList [] = emptyBasis from rfl, unionList_eq_filter _ ha.initial.basis.2] at this
    rw [this]
    simp
  refine ⟨.nil, by rw [show (greedyInit args).explored = _ from he]; exact Explored.empty_coherent _ _, ?_, ?_, fun _ => hb, fun h => absurd rfl h, ha.vecs, rfl, by simp [greedyInit]⟩
  · show GoodBasis R (emptyBasis.iadd args.initialOperator.basis)
    rw [hb, ← ha.initial.basis.1]; exact ⟨ha.initial.basis, ha.initialStr⟩
  · show 0 < (emptyBasis.iadd args.initialOperator.basis).len
    rw [hb]
    exact List.length_pos_iff.mpr ha.nonempty

theorem selectedCiGreedy_symmetric {R : StrAlg K 𝔸} (hR : ∀ s, R.Str s → s.Canonical) {num : Numerics K} (hnum : IsNumerics num) {H : Operator K}
    {Ts : List (Transformation K)} {args : GreedyArgs K} (ha : SymmetricOK R.Str H Ts args) (he : args.explored = Explored.empty) {fuel : ℕ}
    {best : Operator K} {c : Option K} {ops : List (Operator K)} {norms : List K} (h : selectedCiGreedy num args fuel = .ok (some (best, c, ops, norms))) :
    List.Forall₂ (IsSymmetricRecord R.Str R.den (H.den R.den) Ts) ops norms ∧
      ∀ O ∈ ops.head?, ∀ t ∈ args.initialOperator.basis.strs, t ∈ O.basis.strs := by
  unfold selectedCiGreedy at h
  rw [ha.com] at h
  simp only at h
  split at h
  · simp at h
  · obtain ⟨r, h4, h⟩ := py_bind_ok h
    cases r with
    | none => simp at h
    | some s =>
      simp only [Option.map_some, Except.ok.injEq, Option.some.injEq, Prod.mk.injEq] at h
      obtain ⟨rfl, rfl, rfl, rfl⟩ := h
      exact symLoop_inv hR hnum ha fuel fuel (symInit_inv ha he) h4

/-! ### no exception -/

/-- the closure ends -/
theorem closeUnder_total {R : StrAlg K 𝔸} {Ts : List (Transformation K)} (hT : ∀ T ∈ Ts, PermutesUpToSign T R.Str) (hfin : {s | R.Str s}.Finite) :
    ∀ {fuel i : ℕ} {b : Basis}, GoodBasis R b → hfin.toFinset.card ≤ fuel + i → ∃ b', closeUnderTransformations Ts fuel i b = .ok (some b') := by
  have hcard : ∀ {b : Basis}, GoodBasis R b → b.strs.length ≤ hfin.toFinset.card := by
    intro b hb
    rw [← List.toFinset_card_of_nodup hb.1.2]
    exact Finset.card_le_card fun s hs => by rw [Set.Finite.mem_toFinset]; exact hb.2 s (List.mem_toFinset.mp hs)
  have himg : ∀ {s : OpString}, R.Str s → ∀ {Ts : List (Transformation K)}, (∀ T ∈ Ts, PermutesUpToSign T R.Str) → ∀ {b : Basis}, ∃ b', insertImages Ts s b = .ok b' := by
    intro s hs Ts
    induction Ts with
    | nil => intro _ b; exact ⟨b, rfl⟩
    | cons T Ts ih =>
      intro h b
      obtain ⟨ε, f, h1, -⟩ := h T (List.mem_cons_self ..)
      obtain ⟨b', hb'⟩ := ih (fun T hT => h T (List.mem_cons_of_mem _ hT)) (b := ((⟨[ε s], Basis.ofList [f s], s.opType⟩ : Operator K).terms.foldl (fun (b : Basis) t =>
        if absGt t.1 (1 / 10 ^ 16) && !b.contains t.2 then b.iaddString t.2 else b) b))
      refine ⟨b', ?_⟩
      unfold insertImages at hb' ⊢
      rw [List.foldlM_cons, show T s = _ from (h1 s hs).1]
      exact hb'
  intro fuel
  induction fuel with
  | zero =>
    intro i b hb h
    have := hcard hb
    unfold closeUnderTransformations
    rw [List.getElem?_eq_none (by omega)]
    exact ⟨b, rfl⟩
  | succ fuel ih =>
    intro i b hb h
    unfold closeUnderTransformations
    split
    · exact ⟨b, rfl⟩
    · rename_i s hs
      have hv := hb.2 s (List.mem_of_getElem? hs)
      obtain ⟨b1, h1⟩ := himg hv hT (b := b)
      obtain ⟨i1, -, -, i4⟩ := insertImages_inv hb.1 h1
      obtain ⟨b', h'⟩ := ih (i := i + 1) (b := b1) ⟨i1, fun s' hs' => by
        rcases (i4 s').mp hs' with h' | ⟨T, hT', h'⟩
        · exact hb.2 s' h'
        · obtain ⟨ε, f, r1, -⟩ := hT T hT'
          rw [imageOf_sends (r1 s hv).1 (r1 s hv).2.1] at h'
          rw [h']; exact (r1 s hv).2.2⟩ (by omega)
      exact ⟨b', by simp only [h1, bind, Except.bind]; exact h'⟩

theorem greedyFinish_runs {R : StrAlg K 𝔸} {num : Numerics K} (ha : IsArgsort num.argsort) {args : GreedyArgs K} {s : GreedyState K} {b : Basis} (hb : GoodBasis R b)
    (hne : b.strs ≠ []) (st : Explored K) (e : Bool) {v : List K} (hv : v.length = b.len) (hu : ∑ j : Fin b.len, star (v.getD j 0) * v.getD j 0 = 1) (c : K) {size : ℕ}
    (hsize : args.maxSizes[s.step]? = some size) (hsz : 0 < size) {n : ℕ} (hn : b.len ≤ n) (hθ : s.threshold ≤ 0 ∨ n * s.threshold ^ 2 < 1) :
    ∃ s' stop, greedyFinish num args s b st e v v c = .ok (s', stop) ∧ (s'.threshold ≤ 0 ∨ n * s'.threshold ^ 2 < 1) ∧ (stop = false → s'.step = s.step + 1) := by
  set θ := (if gotWorse c s.bestComNorm then s.threshold / 2 else s.threshold) with hθ'
  have hθ1 : θ ≤ 0 ∨ n * θ ^ 2 < 1 := by
    rw [hθ']
    split
    · rcases hθ with h | h
      · left; linarith
      · right
        have : (n : ℚ) * (s.threshold / 2) ^ 2 = (n * s.threshold ^ 2) / 4 := by ring
        rw [this]; linarith
    · exact hθ
  obtain ⟨strs, t1, t2, t3⟩ := truncateBasis_ok ha hb.1.2 (vector := v) (filterFun := none) (vec := v) rfl (hv : v.length = b.strs.length) θ size
  have hsub : ∀ t ∈ strs, t ∈ b.strs := fun t ht => (t3.above t ht).1
  have hsmall : strs.length ≤ b.len := (t2.subperm hsub).length_le
  have hne' : strs ≠ [] := by
    intro h0
    have hall : ∀ x ∈ v, ‖toC x‖ ≤ (θ : ℝ) := by
      intro x hx
      by_contra hlt
      push Not at hlt
      obtain ⟨i, hi, rfl⟩ := List.mem_iff_getElem.mp hx
      have hi' : i < b.strs.length := by
        have : i < b.len := by omega
        exact this
      have hco : coefAt b v b.strs[i] = v[i] := by
        unfold coefAt
        rw [List.Nodup.idxOf_getElem hb.1.2, List.getD_eq_getElem _ _ hi]
      rcases t3.full b.strs[i] (List.getElem_mem _) (by rw [hco]; exact hlt) with h | h
      · rw [h0] at h; simp [Basis.ofList] at h
      · rw [h0] at h; simp [Basis.ofList, Basis.len] at h; omega
    obtain ⟨p1, p2⟩ := unit_bound hv hu hall
    have p3 : (b.len : ℚ) * θ ^ 2 ≤ n * θ ^ 2 := mul_le_mul_of_nonneg_right (by exact_mod_cast hn) (by positivity)
    rcases hθ1 with h | h <;> linarith
  obtain ⟨cs, c1, c2⟩ := mapM_forall₂ (l := strs) (f := fun os => (do
      let i ← (Basis.ofList strs).index os
      pyGet v i : Py K)) (Q := fun _ _ => True) (by
    intro os hos
    have hi : strs.idxOf os < v.length := by
      have := List.idxOf_lt_length_iff.mpr hos
      rw [hv]; omega
    refine ⟨v[strs.idxOf os], ?_, trivial⟩
    rw [Basis.index_ofList, if_pos hos]
    simp only [bind, Except.bind, pyGet_lt hi])
  have hop : mkOperator v b.strs none = .ok ⟨v, Basis.ofList b.strs, R.type⟩ := mkOperator_none_ok (t := R.type) hne hb.1.2 (fun s hs => R.str_type s (hb.2 s hs))
  have hop' : mkOperator cs strs none = .ok ⟨cs, Basis.ofList strs, R.type⟩ :=
    mkOperator_none_ok (t := R.type) hne' t2 (fun s hs => R.str_type s (hb.2 s (hsub s hs)))
  unfold greedyFinish
  simp only [hop, pyGet, hsize, bind, Except.bind]
  rw [← hθ', t1]
  simp only [bind, Except.bind, pyGet] at c1
  simp only []
  rw [show (Basis.ofList strs).strs = strs from rfl, c1]
  simp only [hop']
  exact ⟨_, _, rfl, hθ1, fun h => by show (if _ then _ else _) = _; rw [h]; rfl⟩

theorem symStep_total {R : StrAlg K 𝔸} (hR : ∀ s, R.Str s → s.Canonical) {num : Numerics K} (hnum : IsNumerics num) {H : Operator K} {Ts : List (Transformation K)}
    {args : GreedyArgs K} (ha : SymmetricOK R.Str H Ts args) (hfin : {s | R.Str s}.Finite) {s : GreedyState K} (hs : SymInv R H Ts args s) {fuel : ℕ}
    (hf : hfin.toFinset.card ≤ fuel) (hn : s.step < args.numHTerms.length) (hm : s.step < args.maxSizes.length) (hz : ∀ z ∈ args.maxSizes, 0 < z)
    (hθ : s.threshold ≤ 0 ∨ hfin.toFinset.card * s.threshold ^ 2 < 1) :
    ∃ s' stop, greedyStep num args fuel s = .ok (some (s', stop)) ∧ (s'.threshold ≤ 0 ∨ hfin.toFinset.card * s'.threshold ^ 2 < 1) ∧
      (stop = false → s'.step = s.step + 1) := by
  obtain ⟨b2, st, g1, g2, g3, g4⟩ := symExpand_ok hnum ha hs fuel (List.getElem?_eq_getElem hn)
  obtain ⟨b, hc⟩ := closeUnder_total ha.permutes hfin (fuel := fuel) (i := 0) g1 (by omega)
  obtain ⟨v, c, st', a1, a2, a3, a4, a5, a6, a7⟩ := symSolve_ok hR hnum ha hs g1 g2 g3.1 hc (if s.step = 0 then args.initialOperator else s.operator)
  have hcard : b.len ≤ hfin.toFinset.card := by
    rw [Basis.len, ← List.toFinset_card_of_nodup a1.1.2]
    exact Finset.card_le_card fun s hs => by rw [Set.Finite.mem_toFinset]; exact a1.2 s (List.mem_toFinset.mp hs)
  obtain ⟨s', stop, f1, f2, f3⟩ := greedyFinish_runs hnum.argsort a1 a2.1 st' s.endEarly a3 a4 c (List.getElem?_eq_getElem hm) (hz _ (List.getElem_mem _)) hcard hθ
  refine ⟨s', stop, ?_, f2, f3⟩
  rw [g4, hc]
  refine a7.trans ?_
  rw [f1]
  rfl

theorem symLoop_total {R : StrAlg K 𝔸} (hR : ∀ s, R.Str s → s.Canonical) {num : Numerics K} (hnum : IsNumerics num) {H : Operator K} {Ts : List (Transformation K)}
    {args : GreedyArgs K} (ha : SymmetricOK R.Str H Ts args) (hfin : {s | R.Str s}.Finite) {fuel : ℕ}
    (hf : hfin.toFinset.card ≤ fuel) (hn : args.numSteps ≤ args.numHTerms.length) (hm : args.numSteps ≤ args.maxSizes.length) (hz : ∀ z ∈ args.maxSizes, 0 < z) :
    ∀ (n : ℕ) {s : GreedyState K}, SymInv R H Ts args s → (s.threshold ≤ 0 ∨ hfin.toFinset.card * s.threshold ^ 2 < 1) → args.numSteps ≤ s.step + n →
      ∃ s', greedyLoop num args fuel n s = .ok (some s') := by
  intro n
  induction n with
  | zero =>
    intro s hs hθ h
    unfold greedyLoop
    rw [if_neg (by omega)]
    exact ⟨s, rfl⟩
  | succ n ih =>
    intro s hs hθ h
    unfold greedyLoop
    split
    · rename_i hc
      obtain ⟨s', stop, h1, h2, h3⟩ := symStep_total hR hnum ha hfin hs hf (by omega) (by omega) hz hθ
      simp only [h1, bind, Except.bind]
      cases stop with
      | true => exact ⟨s', rfl⟩
      | false => exact ih ((symStep_inv hR hnum ha hs h1).2.2 rfl) h2 (by rw [h3 rfl]; omega)
    · exact ⟨s, rfl⟩

theorem selectedCiGreedy_symmetric_total {R : StrAlg K 𝔸} (hR : ∀ s, R.Str s → s.Canonical) {num : Numerics K} (hnum : IsNumerics num) {H : Operator K}
    {Ts : List (Transformation K)} {args : GreedyArgs K} (ha : SymmetricOK R.Str H Ts args) (he : args.explored = Explored.empty) (hfin : {s | R.Str s}.Finite)
    (hlab : ∃ s ∈ H.basis.strs, s.labels ≠ []) (hn : args.numSteps ≤ args.numHTerms.length) (hm : args.numSteps ≤ args.maxSizes.length)
    (hz : ∀ z ∈ args.maxSizes, 0 < z) (hθ : args.threshold ≤ 0 ∨ hfin.toFinset.card * args.threshold ^ 2 < 1) {fuel : ℕ} (hf : hfin.toFinset.card ≤ fuel)
    (hf' : args.numSteps ≤ fuel) : ∃ r, selectedCiGreedy num args fuel = .ok (some r) := by
  obtain ⟨s', h⟩ := symLoop_total hR hnum ha hfin hf hn hm hz fuel (symInit_inv ha he) hθ (by show _ ≤ 0 + fuel; omega)
  unfold selectedCiGreedy
  rw [ha.com]
  obtain ⟨t, t1, t2⟩ := hlab
  have : H.basis.strs.all (fun s => s.labels.isEmpty) = false := by
    rw [List.all_eq_false]
    exact ⟨t, t1, by simpa using t2⟩
  simp only [this, h, bind, Except.bind]
  exact ⟨_, rfl⟩

/-! ### canonical strings -/

/-- the algebra of canonical strings -/
def StrAlg.canonical (R : StrAlg K 𝔸) : StrAlg K 𝔸 where
  type := R.type
  Str s := R.Str s ∧ s.Canonical
  den := R.den
  str_type s h := R.str_type s h.1
  core A B hA hB := by
    obtain ⟨c, c', C, h⟩ := R.core A B hA.1 hB.1
    exact ⟨c, c', C, ⟨⟨h.str, h.sorted, h.pref⟩, h.sorted, h.sub, h.phase, h.ab, h.ba, h.prod, h.brackets, h.pref⟩⟩
  sq s h := R.sq s h.1
  sep A B hA hB h1 h2 h3 := by
    obtain ⟨u, ε, e1, e2, e3⟩ := R.sep A B hA.1 hB.1 h1 h2 h3
    exact ⟨u, ε, e1, fun s hs => e2 s hs.1, e3⟩

/-- relabelling by an injective map is injective on canonical strings -/
theorem relabel_injOn {e : ℤ → ℤ} {S : Set ℤ} {t : OpType} (he : Set.InjOn e S) : Set.InjOn (relabelString e) {s | TypedString t S s ∧ s.Canonical} := by
  intro s hs s' hs' h
  have hT : Set.MapsTo e S (e '' S) := Set.mapsTo_image e S
  have hinv : Set.InjOn (Function.invFunOn e S) (e '' S) := by
    rintro _ ⟨x, hx, rfl⟩ _ ⟨y, hy, rfl⟩ hxy
    rw [he.leftInvOn_invFunOn hx, he.leftInvOn_invFunOn hy] at hxy
    rw [hxy]
  have key : ∀ {s}, TypedString t S s → s.Canonical → relabelString (Function.invFunOn e S) (relabelString e s) = s := by
    intro s h1 h2
    rw [(relabel_comp h1 he hT hinv).1]
    exact (relabel_id h1 h2 (fun l hl => he.leftInvOn_invFunOn hl)).1
  rw [← key hs.1 hs.2, ← key hs'.1 hs'.2, h]

theorem labelPermutation_permutes {p : List ℕ} (hp : IsPermArray p) (t : OpType) :
    PermutesUpToSign (labelPermutation (labelsOf p) : Transformation K) (fun s => TypedString t (siteLabels p.length) s ∧ s.Canonical) := by
  have h := labelPermutation_signRule (K := K) hp t
  exact ⟨_, _, fun s hs => ⟨h.sends s hs.1, h.sign s hs.1, h.mem s hs.1, hs.1.relabel_canonical (relabelMap_inj hp)⟩, relabel_injOn (relabelMap_inj hp)⟩

theorem timeReversal_permutes (t : OpType) (S : Set ℤ) : PermutesUpToSign (timeReversal : Transformation K) (fun s => TypedString t S s ∧ s.Canonical) := by
  have h := timeReversal_signRule (K := K) t S
  exact ⟨_, _, fun s hs => ⟨h.sends s hs.1, h.sign s hs.1, hs⟩, fun s _ s' _ h => h⟩

theorem lists_finite {α : Type} {S : Set α} (hS : S.Finite) (n : ℕ) : {l : List α | (∀ x ∈ l, x ∈ S) ∧ l.length ≤ n}.Finite := by
  induction n with
  | zero =>
    refine Set.Finite.subset (Set.finite_singleton []) fun l hl => ?_
    simpa using hl.2
  | succ n ih =>
    refine Set.Finite.subset ((Set.finite_singleton []).union ((hS.prod ih).image (fun p => p.1 :: p.2))) fun l hl => ?_
    cases l with
    | nil => exact Or.inl rfl
    | cons x l =>
      refine Or.inr ⟨(x, l), ⟨hl.1 x (List.mem_cons_self ..), fun y hy => hl.1 y (List.mem_cons_of_mem _ hy), ?_⟩, rfl⟩
      have := hl.2
      simp at this
      exact this

theorem strings_finite {S : Set ℤ} (hS : S.Finite) {P : OpString → Prop} {ops : Set Op} (hops : ops.Finite)
    (h : ∀ s, P s → (∀ o ∈ s.ops, o ∈ ops) ∧ s.ops.length = s.labels.length ∧ s.labels.Nodup ∧ ∀ l ∈ s.labels, l ∈ S) {t : OpType} (ht : ∀ s, P s → s.opType = t)
    (hp : ∀ s, P s → s.pref = .imag ∨ s.pref = .float1) : {s | P s}.Finite := by
  set n := hS.toFinset.card
  refine Set.Finite.subset ((((lists_finite hops n).prod (lists_finite hS n)).prod (Set.toFinite ({.imag, .float1} : Set Pref))).image (fun p => (⟨p.1.1, p.1.2, t, p.2⟩ : OpString))) ?_
  intro s hs
  obtain ⟨h1, h2, h3, h4⟩ := h s hs
  have hl : s.labels.length ≤ n := by
    rw [← List.toFinset_card_of_nodup h3]
    exact Finset.card_le_card fun l hl => by rw [Set.Finite.mem_toFinset]; exact h4 l (List.mem_toFinset.mp hl)
  refine ⟨((s.ops, s.labels), s.pref), ⟨⟨⟨h1, h2.trans_le hl⟩, h4, hl⟩, hp s hs⟩, ?_⟩
  obtain ⟨a, b, c, d⟩ := s
  simp only [OpString.mk.injEq, and_true, true_and]
  exact (ht _ hs).symm

theorem pauliStrings_finite {S : Set ℤ} (hS : S.Finite) : {s | PauliString S s ∧ s.Canonical}.Finite :=
  strings_finite hS (ops := {.X, .Y, .Z}) (Set.toFinite _) (fun _ h => ⟨h.1.ops, h.1.len, h.1.nodup, h.1.mem⟩) (fun _ h => h.1.type) (fun _ h => h.2.2)

theorem majoranaStrings_finite {S : Set ℤ} (hS : S.Finite) : {s | MajoranaString S s ∧ s.Canonical}.Finite :=
  strings_finite hS (ops := {.A, .B, .D}) (Set.toFinite _) (fun _ h => ⟨h.1.ops, h.1.len, h.1.nodup, h.1.mem⟩) (fun _ h => h.1.type) (fun _ h => h.2.2)

end Qosy
