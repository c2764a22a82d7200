import Verif.Lemmas.LadderMain

/-! # `_ladder_operators` for bases that are not closed -/

namespace Qosy
open Coef RealOps
variable {K : Type} [Field K] [StarRing K] [Coef K] [RealCoef K]
variable {𝔸 : Type} [Ring 𝔸] [Algebra K 𝔸]

/-! ### combinations of orthonormal vectors -/

theorem combineColumns_length (n : ℕ) (vs : List (List K)) (u : List K) : (combineColumns n vs u).length = n := by simp [combineColumns]

theorem combineColumns_get {n : ℕ} (vs : List (List K)) (u : List K) {i : ℕ} (hi : i < n) :
    (combineColumns n vs u).getD i 0 = ∑ k : Fin vs.length, vs[k].getD i 0 * u.getD k 0 := by
  rw [combineColumns, List.getD_eq_getElem _ _ (by simpa using hi), List.getElem_map, List.getElem_range]
  have := (Fin.sum_univ_eq_sum_range (fun k => (vs.getD k []).getD i 0 * u.getD k 0) vs.length).symm
  refine Eq.trans this (Finset.sum_congr rfl fun k _ => ?_)
  rw [show vs.getD (k : ℕ) [] = vs[k] from List.getD_eq_getElem _ _ k.2]

/-- a sesquilinear form on combinations -/
theorem form_combine {n m : ℕ} (vs : List (List K)) (u w : List K) (F : ℕ → ℕ → K) :
    ∑ i : Fin n, ∑ j : Fin m, star ((combineColumns n vs u).getD i 0) * F i j * (combineColumns m vs w).getD j 0 =
      ∑ a : Fin vs.length, ∑ b : Fin vs.length, star (u.getD a 0) * (∑ i : Fin n, ∑ j : Fin m, star (vs[a].getD i 0) * F i j * vs[b].getD j 0) * w.getD b 0 := by
  have e : ∀ (i : Fin n) (j : Fin m), star ((combineColumns n vs u).getD i 0) * F i j * (combineColumns m vs w).getD j 0 =
      ∑ a : Fin vs.length, ∑ b : Fin vs.length, star (u.getD a 0) * (star (vs[a].getD i 0) * F i j * vs[b].getD j 0) * w.getD b 0 := by
    intro i j
    rw [combineColumns_get vs u i.2, combineColumns_get vs w j.2, star_sum, Finset.sum_mul, Finset.sum_mul]
    refine Finset.sum_congr rfl fun a _ => ?_
    rw [Finset.mul_sum]
    refine Finset.sum_congr rfl fun b _ => ?_
    rw [star_mul']; ring
  simp only [e]
  simp only [Finset.mul_sum, Finset.sum_mul]
  calc _ = ∑ i : Fin n, ∑ a : Fin vs.length, ∑ j : Fin m, ∑ b : Fin vs.length, _ := Finset.sum_congr rfl fun i _ => Finset.sum_comm
    _ = ∑ a : Fin vs.length, ∑ i : Fin n, ∑ j : Fin m, ∑ b : Fin vs.length, _ := Finset.sum_comm
    _ = _ := by
      refine Finset.sum_congr rfl fun a _ => ?_
      calc _ = ∑ i : Fin n, ∑ b : Fin vs.length, ∑ j : Fin m, _ := Finset.sum_congr rfl fun i _ => Finset.sum_comm
        _ = _ := Finset.sum_comm

theorem combine_ip {n : ℕ} {vs : List (List K)} (hv : OrthonormalVectors n vs) (u w : List K) :
    ip n (combineColumns n vs u) (combineColumns n vs w) = ip vs.length u w := by
  have h := form_combine (n := n) (m := n) vs u w (fun i j => if i = j then 1 else 0)
  have e1 : ∀ (a b : List K), ∑ i : Fin n, ∑ j : Fin n, star (a.getD i 0) * (if (i : ℕ) = j then 1 else 0) * b.getD j 0 = ip n a b := by
    intro a b
    refine Finset.sum_congr rfl fun i _ => ?_
    rw [Finset.sum_eq_single i]
    · simp
    · intro j _ hj
      rw [if_neg (fun e => hj (Fin.ext e.symm))]; simp
    · simp
  rw [e1] at h
  rw [h]
  simp only [e1]
  refine Finset.sum_congr rfl fun a _ => ?_
  rw [Finset.sum_eq_single a]
  · rw [hv.gram a a]; simp
  · intro b _ hb
    rw [hv.gram a b, if_neg (Ne.symm hb)]; simp
  · simp

/-! ### the valid vectors -/

theorem nullVectors_mem {tol : ℚ} {r : List K × List (List K)} {v : List K} (h : v ∈ nullVectors tol r) : ∃ i : ℕ, ∃ s : K, r.1[i]? = some s ∧ r.2[i]? = some v ∧ ‖toC s‖ < tol := by
  obtain ⟨e, he, rfl⟩ := List.mem_map.mp h
  obtain ⟨h1, h2⟩ := List.mem_filter.mp he
  obtain ⟨i, hi, rfl⟩ := List.getElem_of_mem h1
  rw [absLt_iff] at h2
  rw [List.getElem_zip] at h2 ⊢
  exact ⟨i, _, List.getElem?_eq_getElem _, List.getElem?_eq_getElem _, h2⟩

theorem nullVectors_ortho {tol : ℚ} {r : List K × List (List K)} {n : ℕ} (h : OrthonormalVectors n r.2) : OrthonormalVectors n (nullVectors tol r) := by
  have h1 : (nullVectors tol r).Sublist ((r.1.zip r.2).map (·.2)) := List.filter_sublist.map _
  have h2 : ((r.1.zip r.2).map (·.2)).Sublist r.2 := by
    have : ∀ (a : List K) (b : List (List K)), ((a.zip b).map (·.2)).Sublist b := by
      intro a
      induction a with
      | nil => intro b; simp
      | cons x a ih =>
        intro b
        cases b with
        | nil => simp
        | cons y b => simpa using ih b
    exact this _ _
  exact h.sublist (h1.trans h2)

theorem toR_norm_sq (x : K) : toR (star x * x) = ‖toC x‖ ^ 2 := by
  rw [toR, map_mul, toC_star, Complex.star_def, Complex.conj_mul', ← Complex.ofReal_pow, Complex.ofReal_re]

/-- a normalised combination of the valid vectors is sent to a short vector -/
theorem null_short {M : Mat K} {r : List K × List (List K)} (hr : IsSvd M r) {tol : ℚ} (htol : 0 < tol) {u : List K}
    (hu : ∑ a : Fin (nullVectors tol r).length, star (u.getD a 0) * u.getD a 0 = 1) :
    ∑ c : Fin M.nrows, ‖toC (∑ l : Fin M.ncols, M.get c l * (combineColumns M.ncols (nullVectors tol r) u).getD l 0)‖ ^ 2 < (tol : ℝ) ^ 2 := by
  set vs := nullVectors tol r with hvs
  have ho : OrthonormalVectors M.ncols vs := nullVectors_ortho hr.ortho
  -- the Gram matrix
  have hgram : ∀ a b : Fin vs.length, ∃ s : K, ‖toC s‖ < tol ∧
      ∑ i : Fin M.ncols, ∑ j : Fin M.ncols, star (vs[a].getD i 0) * (∑ c : Fin M.nrows, star (M.get c i) * M.get c j) * vs[b].getD j 0 = if a = b then s ^ 2 else 0 := by
    intro a b
    obtain ⟨i, s, h1, h2, h3⟩ := nullVectors_mem (List.getElem_mem (l := vs) b.2)
    refine ⟨s, h3, ?_⟩
    have hb : ∀ i' : Fin M.ncols, ∑ j : Fin M.ncols, star (vs[a].getD i' 0) * (∑ c : Fin M.nrows, star (M.get c i') * M.get c j) * vs[b].getD j 0 =
        star (vs[a].getD i' 0) * (s ^ 2 * vs[b].getD i' 0) := by
      intro i'
      have := hr.gram i _ h2 i' i'.2
      rw [List.getD_eq_getElem?_getD, h1] at this
      rw [show s ^ 2 * vs[b].getD i' 0 = (some s).getD 0 ^ 2 * vs[(b : ℕ)].getD i' 0 from rfl, ← this, Finset.mul_sum]
      simp only [Finset.mul_sum, Finset.sum_mul]
      rw [Finset.sum_comm]
      refine Finset.sum_congr rfl fun c _ => Finset.sum_congr rfl fun l _ => ?_
      show _ = star (vs[a].getD i' 0) * (star (M.get c i') * (M.get c l * vs[b].getD l 0))
      ring
    rw [Finset.sum_congr rfl fun i' _ => hb i']
    have hg := ho.gram a b
    rw [ip] at hg
    have : ∑ i' : Fin M.ncols, star (vs[a].getD i' 0) * (s ^ 2 * vs[b].getD i' 0) = s ^ 2 * ∑ i' : Fin M.ncols, star (vs[a].getD i' 0) * vs[b].getD i' 0 := by
      rw [Finset.mul_sum]; exact Finset.sum_congr rfl fun _ _ => by ring
    rw [this, hg]; split <;> simp
  choose s hs1 hs2 using hgram
  have hform := form_combine (n := M.ncols) (m := M.ncols) vs u u (fun i j => ∑ c : Fin M.nrows, star (M.get c i) * M.get c j)
  simp only [hs2] at hform
  have hl : ∑ i : Fin M.ncols, ∑ j : Fin M.ncols, star ((combineColumns M.ncols vs u).getD i 0) * (∑ c : Fin M.nrows, star (M.get c i) * M.get c j) * (combineColumns M.ncols vs u).getD j 0 =
      ∑ c : Fin M.nrows, star (∑ l : Fin M.ncols, M.get c l * (combineColumns M.ncols vs u).getD l 0) * ∑ l : Fin M.ncols, M.get c l * (combineColumns M.ncols vs u).getD l 0 := by
    simp only [star_sum, Finset.mul_sum, Finset.sum_mul]
    calc _ = ∑ i : Fin M.ncols, ∑ c : Fin M.nrows, ∑ j : Fin M.ncols, _ := Finset.sum_congr rfl fun i _ => Finset.sum_comm
      _ = ∑ c : Fin M.nrows, ∑ i : Fin M.ncols, ∑ j : Fin M.ncols, _ := Finset.sum_comm
      _ = _ := by
        refine Finset.sum_congr rfl fun c _ => ?_
        rw [Finset.sum_comm]
        refine Finset.sum_congr rfl fun j _ => Finset.sum_congr rfl fun i _ => ?_
        rw [star_mul']; ring
  rw [hl] at hform
  have hR := congrArg (fun x => ‖toC x‖) hform
  have hlhs : ‖toC (∑ c : Fin M.nrows, star (∑ l : Fin M.ncols, M.get c l * (combineColumns M.ncols vs u).getD l 0) * ∑ l : Fin M.ncols, M.get c l * (combineColumns M.ncols vs u).getD l 0)‖ =
      ∑ c : Fin M.nrows, ‖toC (∑ l : Fin M.ncols, M.get c l * (combineColumns M.ncols vs u).getD l 0)‖ ^ 2 := by
    rw [map_sum]
    have : ∀ x : K, toC (star x * x) = ((‖toC x‖ ^ 2 : ℝ) : ℂ) := fun x => by
      rw [map_mul, toC_star, Complex.star_def, Complex.conj_mul', ← Complex.ofReal_pow]
    simp only [this]
    rw [← Complex.ofReal_sum, Complex.norm_real, Real.norm_of_nonneg (Finset.sum_nonneg fun _ _ => by positivity)]
  beta_reduce at hR
  rw [hlhs] at hR
  rw [hR]
  have hdiag : ∀ a : Fin vs.length, ∑ b : Fin vs.length, star (u.getD a 0) * (if a = b then s a b ^ 2 else 0) * u.getD b 0 = s a a ^ 2 * (star (u.getD a 0) * u.getD a 0) := by
    intro a
    rw [Finset.sum_eq_single a]
    · rw [if_pos rfl]; ring
    · intro b _ hb; rw [if_neg (Ne.symm hb)]; ring
    · simp
  rw [Finset.sum_congr rfl fun a _ => hdiag a, map_sum]
  have hu' : ∑ a : Fin vs.length, ‖toC (u.getD a 0)‖ ^ 2 = 1 := by
    have := congrArg toR hu
    rw [toR_sum] at this
    simp only [toR_norm_sq] at this
    rw [this]; simp [toR]
  have ht : (0 : ℝ) < tol := by exact_mod_cast htol
  obtain ⟨a0, ha0⟩ : ∃ a : Fin vs.length, 0 < ‖toC (u.getD a 0)‖ ^ 2 := by
    by_contra hn
    push Not at hn
    have : ∑ a : Fin vs.length, ‖toC (u.getD a 0)‖ ^ 2 ≤ 0 := Finset.sum_nonpos fun a _ => hn a
    linarith
  calc ‖∑ a : Fin vs.length, toC (s a a ^ 2 * (star (u.getD a 0) * u.getD a 0))‖ ≤ ∑ a : Fin vs.length, ‖toC (s a a ^ 2 * (star (u.getD a 0) * u.getD a 0))‖ := norm_sum_le _ _
    _ = ∑ a : Fin vs.length, ‖toC (s a a)‖ ^ 2 * ‖toC (u.getD a 0)‖ ^ 2 := by
      refine Finset.sum_congr rfl fun a _ => ?_
      rw [map_mul, map_pow, norm_mul, norm_pow, map_mul, norm_mul, toC_star, norm_star]; ring
    _ < ∑ a : Fin vs.length, (tol : ℝ) ^ 2 * ‖toC (u.getD a 0)‖ ^ 2 := by
      apply Finset.sum_lt_sum
      · intro a _
        have := pow_le_pow_left₀ (norm_nonneg _) (hs1 a a).le 2
        exact mul_le_mul_of_nonneg_right this (by positivity)
      · refine ⟨a0, Finset.mem_univ _, ?_⟩
        have := pow_lt_pow_left₀ (hs1 a0 a0) (norm_nonneg _) two_ne_zero
        exact mul_lt_mul_of_pos_right this ha0
    _ = (tol : ℝ) ^ 2 := by rw [← Finset.mul_sum, hu', mul_one]

/-! ### the projected matrix -/

theorem project_ok {M : Mat K} {n : ℕ} (hM : M.IsHermitian n) {vs : List (List K)} (hv : ∀ v ∈ vs, v.length = n) :
    ∃ P, M.project vs = .ok P ∧ P.IsHermitian vs.length ∧ ∀ a b : Fin vs.length, P.get a b = ∑ i : Fin n, ∑ j : Fin n, star (vs[a].getD i 0) * M.get i j * vs[b].getD j 0 := by
  obtain ⟨ws, h1, h2⟩ : ∃ ws, vs.mapM M.dotVec = .ok ws ∧ List.Forall₂ (fun v w => w.length = n ∧ ∀ i, i < n → w.getD i 0 = ∑ j : Fin n, M.get i j * v.getD j 0) vs ws := by
    refine mapM_forall₂ fun v hv' => ?_
    obtain ⟨w, a, b, c⟩ := dotVec_ok (M := M) (v := v) (by rw [hv v hv', hM.2.1])
    have e1 := hM.1
    have e2 := hM.2.1
    subst e1
    refine ⟨w, a, b, fun i hi => ?_⟩
    rw [c i hi]
    exact Fintype.sum_equiv (finCongr e2) _ _ fun j => rfl
  have hl := h2.length_eq
  have hg : ∀ a b : Fin vs.length, (Mat.ofFn vs.length vs.length (fun i j => innerL (vs.getD i []) (ws.getD j []))).get a b =
      ∑ i : Fin n, ∑ j : Fin n, star (vs[a].getD i 0) * M.get i j * vs[b].getD j 0 := by
    intro a b
    rw [Mat.ofFn_get _ _ _ a.2 b.2, List.getD_eq_getElem _ _ a.2, List.getD_eq_getElem _ _ (by rw [← hl]; exact b.2)]
    have hb := h2.get b.2 (by rw [← hl]; exact b.2)
    rw [List.get_eq_getElem, List.get_eq_getElem] at hb
    rw [innerL_eq (hv _ (List.getElem_mem a.2)) hb.1]
    refine Finset.sum_congr rfl fun i _ => ?_
    rw [hb.2 i i.2, Finset.mul_sum]
    refine Finset.sum_congr rfl fun j _ => ?_
    rw [mul_assoc]; rfl
  refine ⟨_, by rw [Mat.project, h1]; rfl, ⟨rfl, rfl, fun i j hi hj => ?_⟩, hg⟩
  rw [hg ⟨j, hj⟩ ⟨i, hi⟩, hg ⟨i, hi⟩ ⟨j, hj⟩, Finset.sum_comm, star_sum]
  refine Finset.sum_congr rfl fun a _ => ?_
  rw [star_sum]
  refine Finset.sum_congr rfl fun b _ => ?_
  rw [star_mul', star_mul', star_star, hM.2.2 a b a.2 b.2]; ring

section setup
variable {R : StrAlg K 𝔸} {A : Basis} {O : Operator K} {L : Mat K} {B : Basis} {S : List OpString} {inA inB : List ℕ}

theorem LadderSetup.scatter_orthonormal (h : LadderSetup R A O L B S inA inB) {us : List (List K)} (ho : OrthonormalVectors S.length us) :
    OrthonormalVectors A.len (us.map (scatterInto A.len inA)) := by
  refine ⟨?_, ?_, ?_⟩
  · intro v hv
    obtain ⟨u, hu, rfl⟩ := List.mem_map.mp hv
    exact scatterInto_length _ _ _
  · intro v hv
    obtain ⟨u, hu, rfl⟩ := List.mem_map.mp hv
    have hd : u.length = inA.length := by rw [ho.dim u hu, h.common.lenA]
    have := scatterInto_ip h.common.nodupA h.common.ltA hd hd
    rw [ip] at this
    rw [this, h.common.lenA]; exact ho.unit u hu
  · rw [List.pairwise_map]
    refine (List.Pairwise.and_mem.mp ho.orthogonal).imp ?_
    rintro u w ⟨hu, hw, e⟩
    have hd : u.length = inA.length := by rw [ho.dim u hu, h.common.lenA]
    have hd' : w.length = inA.length := by rw [ho.dim w hw, h.common.lenA]
    have := scatterInto_ip h.common.nodupA h.common.ltA hd hd'
    rw [ip] at this
    rw [this, h.common.lenA]; exact e

/-- a combination of the strings of the extended basis in which only strings at some positions occur -/
theorem linComb_part (den : OpString → 𝔸) {inds : List ℕ} (hn : inds.Nodup) (hlt : ∀ i ∈ inds, i < B.len) {T : List OpString} (hlen : inds.length = T.length)
    (hget : ∀ k, k < T.length → B.strs[inds.getD k 0]? = T[k]?) {y : ℕ → K} (hy : ∀ c, c < B.len → c ∉ inds → y c = 0) :
    linComb den B.strs y = linComb den T (fun k => y (inds.getD k 0)) := by
  rw [linComb_eq_sum]
  have e : ∀ c : Fin B.len, y c • ((B.strs[(c : ℕ)]?).map den).getD 0 = (fun c => if c < B.len then y c • ((B.strs[c]?).map den).getD 0 else 0) (c : ℕ) := fun c => by
    simp only [c.2, if_true]
  rw [Finset.sum_congr rfl (fun c _ => e c), ladder_sum_support hn hlt
    (g := fun c => if c < B.len then y c • ((B.strs[c]?).map den).getD 0 else 0) (fun c hc => by
      by_cases hc' : c < B.len
      · simp only [hc', if_true, hy c hc' hc, zero_smul]
      · simp only [hc', if_false])]
  refine Fintype.sum_equiv (finCongr hlen) _ _ fun k => ?_
  have hk : (k : ℕ) < T.length := by rw [← hlen]; exact k.2
  have := hget k hk
  rw [List.getD_eq_getElem _ _ k.2, List.getElem?_eq_getElem hk] at this
  show (if inds[(k : ℕ)] < B.len then y inds[(k : ℕ)] • ((B.strs[inds[(k : ℕ)]]?).map den).getD 0 else 0) = y (inds.getD k 0) • den T[(k : ℕ)]
  rw [if_pos (hlt _ (List.getElem_mem k.2)), this, List.getD_eq_getElem _ _ k.2]; rfl

/-- the commutator split into the parts inside and outside of the span of the basis -/
theorem LadderSetup.act_split (h : LadderSetup R A O L B S inA inB) {notB : List ℕ} (hn : notB.Nodup) (hm : ∀ i, i ∈ notB ↔ i < B.len ∧ i ∉ inB)
    {u w : List K} (hu : u.length = S.length) (hw : w.length = S.length)
    (h1 : ∀ k, k < S.length → ∑ l : Fin S.length, L.get (inB.getD k 0) (inA.getD l 0) * u.getD l 0 = w.getD k 0) :
    ∃ T : List OpString, T.length = notB.length ∧ T.Nodup ∧ (∀ s ∈ T, (R.Str s ∧ s.Canonical) ∧ s ∉ A.strs) ∧
      bracketOf .commutator (O.den R.den) (vecOp R.den A (scatterInto A.len inA u)) = vecOp R.den A (scatterInto A.len inA w) +
        linComb R.den T (fun c => ∑ l : Fin S.length, L.get (notB.getD c 0) (inA.getD l 0) * u.getD l 0) := by
  have hlt : ∀ i ∈ notB, i < B.strs.length := fun i hi => ((hm i).mp hi).1
  let T : List OpString := notB.pmap (fun i hi => B.strs[i]'hi) hlt
  have hTl : T.length = notB.length := List.length_pmap
  have hget : ∀ k, k < T.length → B.strs[notB.getD k 0]? = T[k]? := by
    intro k hk
    have hk' : k < notB.length := by rw [← hTl]; exact hk
    rw [List.getD_eq_getElem _ _ hk', List.getElem?_eq_getElem hk, List.getElem?_eq_getElem (hlt _ (List.getElem_mem hk'))]
    congr 1
    exact (List.getElem_pmap _ _ _).symm
  have hTm : ∀ s ∈ T, ∃ i ∈ notB, B.strs[i]? = some s := by
    intro s hs
    obtain ⟨i, hi, rfl⟩ := List.mem_pmap.mp hs
    exact ⟨i, hi, List.getElem?_eq_getElem _⟩
  refine ⟨T, hTl, ?_, ?_, ?_⟩
  · exact hn.pmap (fun i hi j hj e => (List.Nodup.getElem_inj_iff h.extInv.2).mp e)
  · intro s hs
    obtain ⟨i, hi, e⟩ := hTm s hs
    have hsB : s ∈ B.strs := List.mem_of_getElem? e
    refine ⟨h.extStr s hsB, fun hsA => ?_⟩
    obtain ⟨k, hk, e'⟩ := List.getElem_of_mem (h.common.mem s hsA hsB)
    have h2 := h.common.getB k hk
    rw [List.getElem?_eq_getElem hk, e'] at h2
    obtain ⟨p, q⟩ := List.getElem?_eq_some_iff.mp h2
    obtain ⟨p', q'⟩ := List.getElem?_eq_some_iff.mp e
    have := (List.Nodup.getElem_inj_iff h.extInv.2).mp (q.trans q'.symm)
    refine ((hm i).mp hi).2 ?_
    rw [← this]
    exact getD_inA_mem (by rw [h.common.lenB]; exact hk)
  · classical
    rw [h.act, h.vecOp_scatter hw]
    set y : ℕ → K := fun c => ∑ j : Fin A.len, L.get c j * (scatterInto A.len inA u).getD j 0 with hy
    have hsplit : linComb R.den B.strs y = linComb R.den B.strs (fun c => if c ∈ inB then y c else 0) + linComb R.den B.strs (fun c => if c ∈ inB then 0 else y c) := by
      rw [linComb, linComb, linComb, ← Finset.sum_add_distrib]
      refine Finset.sum_congr rfl fun c _ => ?_
      rw [← add_smul]
      by_cases hc : (c : ℕ) ∈ inB <;> simp [hc]
    rw [hsplit, h.linComb_common (fun c _ hc => by simp [hc]),
      linComb_part R.den hn hlt hTl.symm hget (fun c hc hc' => by
        have : c ∈ inB := by by_contra hh; exact hc' ((hm c).mpr ⟨hc, hh⟩)
        simp [this])]
    congr 1
    · rw [linComb, linComb]
      refine Finset.sum_congr rfl fun k _ => ?_
      beta_reduce
      rw [if_pos (getD_inA_mem (by rw [h.common.lenB]; exact k.2)), hy]
      beta_reduce
      rw [h.row_scatter hu, h1 k k.2]
    · rw [linComb, linComb]
      refine Finset.sum_congr rfl fun k _ => ?_
      beta_reduce
      have : notB.getD (k : ℕ) 0 ∈ notB := getD_inA_mem (by rw [← hTl]; exact k.2)
      rw [if_neg ((hm _).mp this).2, hy]
      beta_reduce
      rw [h.row_scatter hu]

end setup

/-- `_ladder_operators` on any basis, without sparsification -/
theorem ladderVectors_open [Nontrivial 𝔸] (R : StrAlg K 𝔸) {num : LadderNumerics K} (hnum : IsLadderNumerics num) {A : Basis} (hA : A.Inv) (hs : ∀ s ∈ A.strs, R.Str s ∧ s.Canonical)
    {O : Operator K} (hO : O.WF) (hOs : ∀ s ∈ O.basis.strs, R.Str s) (hr : ∀ x ∈ O.coeffs, IsReal x) {tol : ℚ} (htol : 0 < tol) {l : List (K × List K)}
    (h : ladderVectors num A O false tol = .ok l) :
    (∀ e ∈ l, IsReal e.1 ∧ (tol : ℝ) < toR e.1 ∧ IsProjectedLadder (fun s => R.Str s ∧ s.Canonical) R.den A.strs (O.den R.den) tol (fun j => e.2.getD j 0) e.1) ∧
      (l.map (·.1)).Pairwise (fun x y => ‖toC x‖ ≤ ‖toC y‖) ∧ OrthonormalVectors A.len (l.map (·.2)) := by
  obtain ⟨L, B, S, inA, inB, notB, h1, hn, h2, h3⟩ := ladderVectors_inv R hA hs hO hOs hr h
  rcases h3 with ⟨rfl, rfl⟩ | ⟨valid, P, r, sorted, k1, k2, k3, k4⟩
  · exact ⟨by simp, by simp, ⟨by simp, by simp, by simp⟩⟩
  rcases k4 with ⟨-, rfl⟩ | ⟨h0, -⟩
  swap
  · cases h0
  obtain ⟨s1, s2⟩ := ladderSort_ok hnum.argsort k3
  suffices hmain : (∀ e ∈ (embedPairs inA.length valid (partneredPairs tol r)).map (fun e => (e.1, scatterInto A.len inA e.2)), IsReal e.1 ∧ (tol : ℝ) < toR e.1 ∧
      IsProjectedLadder (fun s => R.Str s ∧ s.Canonical) R.den A.strs (O.den R.den) tol (fun j => e.2.getD j 0) e.1) ∧
      OrthonormalVectors A.len (((embedPairs inA.length valid (partneredPairs tol r)).map (fun e => (e.1, scatterInto A.len inA e.2))).map (·.2)) from
    ⟨fun e he => hmain.1 e (s1.subset he), List.pairwise_map.mpr s2, hmain.2.perm (s1.map _)⟩
  unfold ladderProject at k1
  by_cases hb : notB.isEmpty = true
  · rw [if_pos hb] at k1
    simp only [Except.ok.injEq, Prod.mk.injEq] at k1
    obtain ⟨rfl, rfl⟩ := k1
    have hnotB := List.isEmpty_iff.mp hb
    have hc : ∀ c, c < B.len → c ∈ inB := by
      intro c hc
      by_contra hh
      have := (h2 c).mpr ⟨hc, hh⟩
      rw [hnotB] at this; simp at this
    have hH := hermitianPart_hermitian (L.pick inB inA)
    have hnr : (L.pick inB inA).hermitianPart.nrows = S.length := by rw [hH.1]; exact h1.common.lenB
    obtain ⟨e1, e2⟩ := hnum.eigh _ _ (by rw [hH.1]; exact hH) k2
    rw [hnr] at e1 e2
    obtain ⟨a1, a2, -⟩ := h1.closed_pairs hc (tol := tol) e1 e2 rfl
    refine ⟨fun e he => ?_, a1⟩
    have g := a2 e he
    refine ⟨g.real, g.pos, fun j => e.1 * e.2.getD j 0, [], fun _ => 0, List.nodup_nil, by simp, ?_, ?_, ?_⟩
    · have := g.ladder
      rw [IsLadder] at this
      show bracketOf _ _ (vecOp R.den A e.2) = _
      rw [this, vecOp, linComb, linComb, linComb, Finset.smul_sum]
      simp [smul_smul]
    · simp; exact_mod_cast pow_pos htol 2
    · have := g.unit
      show ∑ j : Fin A.len, star (e.2.getD j 0) * (e.1 * e.2.getD j 0) = e.1
      rw [show ∑ j : Fin A.len, star (e.2.getD j 0) * (e.1 * e.2.getD j 0) = e.1 * ∑ j : Fin A.len, star (e.2.getD j 0) * e.2.getD j 0 by
        rw [Finset.mul_sum]; exact Finset.sum_congr rfl fun j _ => by ring, this, mul_one]
  · rw [if_neg hb] at k1
    obtain ⟨sv, g1, k1⟩ := py_bind_ok k1
    obtain ⟨P', g2, k1⟩ := py_bind_ok k1
    simp only [Except.ok.injEq, Prod.mk.injEq] at k1
    obtain ⟨rfl, rfl⟩ := k1
    have hsv := hnum.svd _ _ g1
    have hncols : (L.pick notB inA).ncols = S.length := h1.common.lenA
    have hnrows : (L.pick notB inA).nrows = notB.length := rfl
    have hvo : OrthonormalVectors S.length (nullVectors tol sv) := by
      have := nullVectors_ortho (tol := tol) hsv.ortho
      rwa [hncols] at this
    set vs := nullVectors tol sv with hvs
    obtain ⟨P'', p1, p2, p3⟩ := project_ok h1.pick_hermitian hvo.dim
    obtain rfl : P' = P'' := by rw [g2] at p1; exact Except.ok.inj p1
    have hH := hermitianPart_hermitian P'
    have hnr : P'.hermitianPart.nrows = vs.length := by rw [hH.1]; exact p2.1
    obtain ⟨e1, e2⟩ := hnum.eigh _ _ (by rw [hH.1]; exact hH) k2
    rw [hnr] at e1 e2
    have hlA : inA.length = S.length := h1.common.lenA
    have hsub : ((partneredPairs tol r).map (·.2)).Sublist r.2 := by
      have : ((partneredPairs tol r).map (·.2)).Sublist ((r.1.zip r.2).map (·.2)) := List.filter_sublist.map _
      rwa [map_snd_zip_of_length e1.len] at this
    have hou := e1.orthonormal.sublist hsub
    have hoc : OrthonormalVectors S.length (((partneredPairs tol r).map (·.2)).map (combineColumns S.length vs)) := by
      refine ⟨?_, ?_, ?_⟩
      · intro v hv
        obtain ⟨u, hu, rfl⟩ := List.mem_map.mp hv
        exact combineColumns_length _ _ _
      · intro v hv
        obtain ⟨u, hu, rfl⟩ := List.mem_map.mp hv
        have := combine_ip hvo u u
        rw [ip] at this
        rw [this]; exact hou.unit u hu
      · rw [List.pairwise_map]
        refine hou.orthogonal.imp ?_
        intro u w e
        have := combine_ip hvo u w
        rw [ip] at this
        rw [this]; exact e
    refine ⟨fun e he => ?_, ?_⟩
    · obtain ⟨q, hq, rfl⟩ := List.mem_map.mp he
      obtain ⟨p, hp, rfl⟩ := List.mem_map.mp hq
      obtain ⟨m1, m2, m3, m4⟩ := (mem_partnered e1.real).mp hp
      have hpd : p.2.length = vs.length := e1.dim _ (List.of_mem_zip m1).2
      have hpu : ∑ a : Fin vs.length, star (p.2.getD a 0) * p.2.getD a 0 = 1 := e1.unit _ (List.of_mem_zip m1).2
      refine ⟨e1.real _ (List.of_mem_zip m1).1, m3, ?_⟩
      show IsProjectedLadder _ _ _ _ _ (fun j => (scatterInto A.len inA (combineColumns inA.length vs p.2)).getD j 0) p.1
      rw [hlA]
      set u := combineColumns S.length vs p.2 with hu
      have hul : u.length = S.length := combineColumns_length _ _ _
      obtain ⟨w, hw1, hw2⟩ : ∃ w : List K, w.length = S.length ∧ ∀ k, k < S.length → w.getD k 0 = ∑ l : Fin S.length, L.get (inB.getD k 0) (inA.getD l 0) * u.getD l 0 :=
        ⟨(List.range S.length).map (fun k => ∑ l : Fin S.length, L.get (inB.getD k 0) (inA.getD l 0) * u.getD l 0), by simp,
          fun j hj => by rw [List.getD_eq_getElem _ _ (by simpa using hj)]; simp⟩
      obtain ⟨T, t1, t2, t3, t4⟩ := h1.act_split hn h2 hul hw1 (fun k hk => (hw2 k hk).symm)
      refine ⟨fun j => (scatterInto A.len inA w).getD j 0, T, _, t2, t3, t4, ?_, ?_⟩
      · have hsh := null_short hsv htol (u := p.2) hpu
        rw [hncols] at hsh
        refine lt_of_eq_of_lt ?_ hsh
        refine Fintype.sum_equiv (finCongr t1) _ _ fun c => ?_
        congr 3
        refine Finset.sum_congr rfl fun l' _ => ?_
        have hc : (c : ℕ) < notB.length := by rw [← t1]; exact c.2
        have := Mat.ofFn_get notB.length inA.length (fun i j => L.get (notB.getD i 0) (inA.getD j 0)) hc (by rw [hlA]; exact l'.2)
        rw [show (L.pick notB inA).get ((finCongr t1 c : Fin notB.length) : ℕ) l' = L.get (notB.getD c 0) (inA.getD l' 0) from this]
      · have hd : u.length = inA.length := by rw [hul, hlA]
        have hd' : w.length = inA.length := by rw [hw1, hlA]
        have hip := scatterInto_ip h1.common.nodupA h1.common.ltA hd hd'
        rw [ip] at hip
        show ∑ j : Fin A.len, _ = _
        rw [hip, hlA, ip]
        have hf := form_combine (n := S.length) (m := S.length) vs p.2 p.2 (fun i j => (L.pick inB inA).get i j)
        have hlhs : ∑ i : Fin S.length, star (u.getD i 0) * w.getD i 0 =
            ∑ i : Fin S.length, ∑ j : Fin S.length, star (u.getD i 0) * (L.pick inB inA).get i j * u.getD j 0 := by
          refine Finset.sum_congr rfl fun i _ => ?_
          rw [hw2 i i.2, Finset.mul_sum]
          refine Finset.sum_congr rfl fun j _ => ?_
          rw [h1.pick_get i.2 j.2, mul_assoc]
        rw [hlhs, hf]
        have hrow : ∀ a : Fin vs.length, ∑ b : Fin vs.length, star (p.2.getD a 0) * (∑ i : Fin S.length, ∑ j : Fin S.length, star (vs[a].getD i 0) * (L.pick inB inA).get i j * vs[b].getD j 0) *
            p.2.getD b 0 = p.1 * (star (p.2.getD a 0) * p.2.getD a 0) := by
          intro a
          have := e1.eigen p m1 a a.2
          rw [show p.1 * (star (p.2.getD a 0) * p.2.getD a 0) = star (p.2.getD a 0) * (p.1 * p.2.getD a 0) by ring, ← this, Finset.mul_sum]
          refine Finset.sum_congr rfl fun b _ => ?_
          rw [hermitianPart_get p2 a.2 b.2, p3 a b, mul_assoc]
        rw [Finset.sum_congr rfl fun a _ => hrow a, ← Finset.mul_sum, hpu, mul_one]
    · have := h1.scatter_orthonormal hoc
      have e3 : ((embedPairs inA.length (some vs) (partneredPairs tol r)).map (fun e => (e.1, scatterInto A.len inA e.2))).map (·.2) =
          (((partneredPairs tol r).map (·.2)).map (combineColumns S.length vs)).map (scatterInto A.len inA) := by
        simp only [embedPairs, List.map_map, hlA]; rfl
      rw [e3]; exact this

end Qosy
