import Verif.Lemmas.LadderOps
import Verif.Lemmas.SelectedCi
import Verif.Props.Operator

/-! # `_inverse_ladder_operators` -/

namespace Qosy
open Coef RealOps
variable {K : Type} [Field K] [StarRing K] [Coef K] [RealCoef K]
variable {𝔸 : Type} [Ring 𝔸] [Algebra K 𝔸]

omit [RealCoef K] in
/-- the extended basis holds the strings reached by commutators -/
theorem StrAlg.liouvillianStrings_reached [Nontrivial 𝔸] (R : StrAlg K 𝔸) {A : Basis} {O : Operator K} (hlen : O.coeffs.length = O.basis.len)
    (hA : ∀ s ∈ A.strs, R.Str s) (hO : ∀ s ∈ O.basis.strs, R.Str s) {L : Mat K} {ext : Basis} (h : liouvillianStrings A O .commutator = .ok (L, ext)) (t : OpString) :
    t ∈ ext.strs ↔ Reached R.Str R.den A.strs O none t := by
  refine ⟨R.liouvillianStrings_mem hlen hA hO h t, ?_⟩
  obtain ⟨sc, strs, h1, h2, h3, h4, h5⟩ := R.structureConstants_ok .commutator (tol := 1 / 10 ^ 16) (by norm_num) (by norm_num) hA hO
  have he : ext = Basis.ofList strs := by
    unfold liouvillianStrings at h
    simp only [h1, bind, Except.bind] at h
    split at h
    · cases h
    · simp only [Except.ok.injEq, Prod.mk.injEq] at h; exact h.2.symm
  subst he
  rintro ⟨k1, s, hs, u, hu, -, k2⟩
  have hu' : u ∈ O.basis.strs := O.termStrs_sublist.subset hu
  obtain ⟨D, -, g2⟩ := h3 u hu'
  obtain ⟨c, hc⟩ := (R.commutator_string (hA s hs) (hO u hu') t).mpr ⟨k1, k2⟩
  exact g2.mem s hs c t hc

/-! ### the null operators -/

theorem LiouvilleOK.vecOp {den : OpString → 𝔸} {Str : OpString → Prop} {A : Basis} {y : 𝔸} {L : Mat K} {ext : Basis}
    (h : LiouvilleOK den Str .commutator A.len (fun j => ((A.strs[j]?).map den).getD 0) y L ext) (v : ℕ → K) :
    bracketOf .commutator (linComb den A.strs v) y = linComb den ext.strs (L.mulVec v) := by
  rw [h.mulVec, linComb_eq_sum]

omit [StarRing K] [Coef K] [RealCoef K] in
/-- a list as a function of its indices -/
theorem ofFn_getD (n : ℕ) (c : ℕ → K) {k : ℕ} (hk : k < n) : ((List.range n).map c).getD k 0 = c k := by
  rw [List.getD_eq_getElem _ _ (by simpa using hk)]; simp

theorem null_small [Nontrivial 𝔸] {R : StrAlg K 𝔸} {A : Basis} {y : 𝔸} {L : Mat K} {ext : Basis}
    (h : LiouvilleOK R.den R.Str .commutator A.len (fun j => ((A.strs[j]?).map R.den).getD 0) y L ext) {r : List K × List (List K)} (hr : IsSvd L r) {tol : ℚ} (htol : 0 < tol)
    {w : List K} (hw : w.length = A.len) (hu : ∑ j : Fin A.len, star (w.getD j 0) * w.getD j 0 = 1) (hc : IsColumnCombination A.len (nullVectors tol r) w) :
    IsSmall K (fun s => R.Str s ∧ s.Canonical) R.den tol (bracketOf .commutator (vecOp R.den A w) y) := by
  have hn : L.ncols = A.len := h.ncols
  have ho : OrthonormalVectors A.len (nullVectors tol r) := by rw [← hn]; exact nullVectors_ortho hr.ortho
  obtain ⟨c, hc⟩ := hc
  set u := (List.range (nullVectors tol r).length).map c with hudef
  have hcomb : ∀ i, i < A.len → w.getD i 0 = (combineColumns A.len (nullVectors tol r) u).getD i 0 := by
    intro i hi
    rw [hc i hi, combineColumns_get _ _ hi]
    refine Finset.sum_congr rfl fun k _ => ?_
    rw [hudef, ofFn_getD _ _ k.2, mul_comm]
  have hu1 : ∑ a : Fin (nullVectors tol r).length, star (u.getD a 0) * u.getD a 0 = 1 := by
    have := combine_ip ho u u
    rw [ip, ip] at this
    rw [← this, ← hu]
    exact Finset.sum_congr rfl fun j _ => by rw [hcomb j j.2]
  have hs := null_short hr htol hu1
  refine ⟨ext.strs, L.mulVec (fun j => w.getD j 0), h.ext_inv.2, h.ext_str, by rw [vecOp, h.vecOp], ?_⟩
  have hrow : L.nrows = ext.strs.length := h.nrows
  refine lt_of_eq_of_lt ?_ hs
  refine Fintype.sum_equiv (finCongr hrow.symm) _ _ fun i => ?_
  congr 3
  rw [Mat.mulVec]
  refine Finset.sum_congr rfl fun l _ => ?_
  have hl : (l : ℕ) < A.len := by rw [← hn]; exact l.2
  have e : ∀ n, n = A.len → w.getD l 0 = (combineColumns n (nullVectors tol r) u).getD l 0 := by
    rintro n rfl; exact hcomb l hl
  beta_reduce
  rw [e _ hn]
  rfl

theorem inverseNull_ok {num : LadderNumerics K} (hnum : IsLadderNumerics num) {L : Mat K} {sp : Bool} {tol : ℚ} {null : List (List K)} (h : inverseNull num L sp tol = .ok null) :
    ∃ r, IsSvd L r ∧ (∀ w ∈ null, w.length = L.ncols ∧ ∑ j : Fin L.ncols, star (w.getD j 0) * w.getD j 0 = 1 ∧ IsColumnCombination L.ncols (nullVectors tol r) w) ∧
      (∀ v ∈ nullVectors tol r, IsColumnCombination L.ncols null v) ∧ (sp = false → null = nullVectors tol r) := by
  unfold inverseNull at h
  obtain ⟨r, h1, h2⟩ := py_bind_ok h
  have hr := hnum.svd _ _ h1
  have ho : OrthonormalVectors L.ncols (nullVectors tol r) := nullVectors_ortho hr.ortho
  have hself : ∀ v ∈ nullVectors tol r, IsColumnCombination L.ncols (nullVectors tol r) v := by
    intro v hv
    obtain ⟨i, hi, rfl⟩ := List.getElem_of_mem hv
    refine ⟨fun k => if k = i then 1 else 0, fun j _ => ?_⟩
    rw [Finset.sum_eq_single ⟨i, hi⟩]
    · simp
    · intro b _ hb
      have : (b : ℕ) ≠ i := fun e => hb (Fin.ext e)
      simp [this]
    · simp
  refine ⟨r, hr, ?_⟩
  cases sp with
  | false =>
    simp only [Bool.false_eq_true, if_false, Except.ok.injEq] at h2
    subst h2
    exact ⟨fun w hw => ⟨ho.dim w hw, ho.unit w hw, hself w hw⟩, hself, fun _ => rfl⟩
  | true =>
    simp only [if_true] at h2
    obtain ⟨-, h3, h4⟩ := hnum.sparsify _ _ _ ho h2
    exact ⟨h3, h4, fun h => by cases h⟩

/-- with at least as many rows as columns every vector in the null space is a combination of the null vectors -/
theorem null_complete {L : Mat K} {r : List K × List (List K)} (hr : IsSvd L r) (hle : L.ncols ≤ L.nrows) {tol : ℚ} (htol : 0 < tol) {v : ℕ → K}
    (hv : ∀ c, c < L.nrows → L.mulVec v c = 0) : ∃ c : ℕ → K, ∀ i, i < L.ncols → v i = ∑ k : Fin (nullVectors tol r).length, c k * (nullVectors tol r)[k].getD i 0 := by
  have hex := fun i hi => hr.ortho.expand hr.lenV v (i := i) hi
  set f : ℕ → List K → K := fun i w => (∑ j : Fin L.ncols, star (w.getD j 0) * v j) * w.getD i 0 with hf
  have hzero : ∀ e ∈ r.1.zip r.2, absLt e.1 tol = false → ∑ j : Fin L.ncols, star (e.2.getD j 0) * v j = 0 := by
    intro e he hlt
    obtain ⟨i, hi, rfl⟩ := List.getElem_of_mem he
    have hi2 : i < r.2.length := by rw [List.length_zip] at hi; omega
    have hi1 : i < r.1.length := by rw [List.length_zip] at hi; omega
    rw [List.getElem_zip] at hlt ⊢
    have hs : r.1[i] ≠ 0 := by
      intro h0
      have : absLt r.1[i] tol = true := by
        rw [absLt_iff, h0, map_zero, norm_zero]
        exact_mod_cast htol
      rw [this] at hlt; cases hlt
    have hg := hr.gram i r.2[i] (List.getElem?_eq_getElem hi2)
    rw [List.getD_eq_getElem _ _ hi1] at hg
    have key : star (r.1[i] ^ 2) * ∑ j : Fin L.ncols, star (r.2[i].getD j 0) * v j = 0 := by
      have e1 : star (r.1[i] ^ 2) * ∑ j : Fin L.ncols, star (r.2[i].getD j 0) * v j = ∑ j : Fin L.ncols, star (r.1[i] ^ 2 * r.2[i].getD j 0) * v j := by
        rw [Finset.mul_sum]
        exact Finset.sum_congr rfl fun j _ => by rw [star_mul']; ring
      rw [e1]
      have e2 : ∀ j : Fin L.ncols, star (r.1[i] ^ 2 * r.2[i].getD j 0) * v j =
          ∑ k : Fin L.nrows, star (∑ l : Fin L.ncols, L.get k l * r.2[i].getD l 0) * (L.get k j * v j) := by
        intro j
        rw [← hg j j.2, star_sum, Finset.sum_mul]
        exact Finset.sum_congr rfl fun k _ => by rw [star_mul', star_star]; ring
      rw [Finset.sum_congr rfl fun j _ => e2 j, Finset.sum_comm]
      refine Finset.sum_eq_zero fun k _ => ?_
      rw [← Finset.mul_sum]
      have := hv k k.2
      rw [Mat.mulVec] at this
      rw [this, mul_zero]
    rcases mul_eq_zero.mp key with h | h
    · exact absurd (star_eq_zero.mp h) (pow_ne_zero 2 hs)
    · exact h
  refine ⟨fun k => ∑ j : Fin L.ncols, star (((nullVectors tol r).getD k []).getD j 0) * v j, fun i hi => ?_⟩
  have e1 : v i = (r.2.map (f i)).sum := by
    rw [hex i hi, ← Fin.sum_univ_fun_getElem]
    rfl
  have e2 : ∑ k : Fin (nullVectors tol r).length, (∑ j : Fin L.ncols, star (((nullVectors tol r).getD k []).getD j 0) * v j) * (nullVectors tol r)[k].getD i 0 =
      ((nullVectors tol r).map (f i)).sum := by
    rw [← Fin.sum_univ_fun_getElem]
    refine Finset.sum_congr rfl fun k _ => ?_
    rw [show (nullVectors tol r).getD (k : ℕ) [] = (nullVectors tol r)[k] from List.getD_eq_getElem _ _ k.2]
    rfl
  have hl : r.2.length ≤ r.1.length := by rw [hr.lenV, hr.lenS]; omega
  have e3 : r.2 = (r.1.zip r.2).map Prod.snd := (List.map_snd_zip hl).symm
  beta_reduce
  rw [e2, e1, nullVectors]
  conv_lhs => rw [e3]
  rw [List.map_map, List.map_map]
  generalize r.1.zip r.2 = l at hzero
  clear * - hzero
  induction l with
  | nil => rfl
  | cons e l ih =>
    rw [List.map_cons, List.sum_cons, ih fun e' he' => hzero e' (List.mem_cons_of_mem _ he')]
    by_cases hlt : absLt e.1 tol = true
    · rw [List.filter_cons, if_pos hlt, List.map_cons, List.sum_cons]
    · rw [List.filter_cons, if_neg hlt]
      have := hzero e (by simp) (by simpa using hlt)
      have e0 : f i e.2 = 0 := by show (∑ j : Fin L.ncols, star (e.2.getD j 0) * v j) * _ = 0; rw [this, zero_mul]
      simp only [Function.comp, e0, zero_add]

/-! ### the particular solution -/

omit [RealCoef K] in
theorem Mat.mulVec_congr (M : Mat K) {v w : ℕ → K} (h : ∀ j, j < M.ncols → v j = w j) (i : ℕ) : M.mulVec v i = M.mulVec w i :=
  Finset.sum_congr rfl fun j _ => by rw [h j j.2]

omit [RealCoef K] in
theorem linComb_congr' (den : OpString → 𝔸) {l : List OpString} {v w : ℕ → K} (h : ∀ i, i < l.length → v i = w i) : linComb den l v = linComb den l w :=
  Finset.sum_congr rfl fun i _ => by rw [h i i.2]

omit [RealCoef K] in
theorem linComb_smul' (den : OpString → 𝔸) (l : List OpString) (c : K) (v : ℕ → K) : linComb den l (fun i => c * v i) = c • linComb den l v := by
  rw [linComb, linComb, Finset.smul_sum]
  exact Finset.sum_congr rfl fun i _ => by rw [smul_smul]

omit [RealCoef K] in
theorem linComb_sub' (den : OpString → 𝔸) (l : List OpString) (v w : ℕ → K) : linComb den l (fun i => v i - w i) = linComb den l v - linComb den l w := by
  rw [linComb, linComb, linComb, ← Finset.sum_sub_distrib]
  exact Finset.sum_congr rfl fun i _ => by rw [sub_smul]

theorem toVector_linComb (R : StrAlg K 𝔸) {O : Operator K} (hO : O.WF) (hOs : ∀ s ∈ O.basis.strs, R.Str s) (hne : O.basis.strs ≠ []) {ext : Basis} (hi : ext.Inv)
    (hs : ∀ s ∈ ext.strs, R.Str s) (hin : ∀ s ∈ O.basis.strs, s ∈ ext.strs) :
    ∃ v, O.toVector ext = .ok v ∧ v.length = ext.len ∧ O.den R.den = linComb R.den ext.strs (fun j => v.getD j 0) := by
  obtain ⟨s0, hs0⟩ := List.exists_mem_of_ne_nil _ hne
  have hty : O.opType = R.type := by rw [← hO.type s0 hs0, R.str_type _ (hOs s0 hs0)]
  obtain ⟨v, B, h1, h2, h3, h4, h5⟩ := C11_inverse hO hi hin (fun s h => by rw [hty, R.str_type s (hs s h)])
  have hB := mkOperatorB_basis h2
  have hlen : v.length = ext.len := by
    have := h3.len
    rw [hB.1, hB.2] at this
    exact this
  refine ⟨v, h1, hlen, ?_⟩
  rw [← h5 R.den, den_linComb (by rw [hB.1, hB.2, hlen]), hB.1, hB.2]

theorem pinv_solves [Nontrivial 𝔸] {R : StrAlg K 𝔸} {A : Basis} {y : 𝔸} {L : Mat K} {ext : Basis}
    (h : LiouvilleOK R.den R.Str .commutator A.len (fun j => ((A.strs[j]?).map R.den).getD 0) y L ext) {P : Mat K}
    (hP : P.nrows = L.ncols ∧ P.ncols = L.nrows ∧ ∀ v : ℕ → K, ∀ i, i < L.nrows → L.mulVec (P.mulVec (L.mulVec v)) i = L.mulVec v i)
    {v : ℕ → K} (hv : y = linComb R.den ext.strs v) {w : ℕ → K} {δ : K} (hδ : δ ≠ 0) (hw : IsLadder (linComb R.den A.strs w) y δ) :
    bracketOf .commutator (linComb R.den A.strs (P.mulVec v)) y = y := by
  rw [IsLadder, h.vecOp] at hw
  have h1 : ∀ i, i < ext.strs.length → L.mulVec w i = δ * v i := by
    intro i hi
    have h0 : linComb R.den ext.strs (fun i => L.mulVec w i - δ * v i) = 0 := by
      rw [linComb_sub', linComb_smul', hw, hv, sub_self]
    exact sub_eq_zero.mp (R.independent h.ext_inv.2 h.ext_str h0 i hi)
  have hrow : L.nrows = ext.strs.length := h.nrows
  have hL : ∀ (c : K) (u : ℕ → K) i, L.mulVec (fun j => c * u j) i = c * L.mulVec u i := by
    intro c u i
    simp only [Mat.mulVec, Finset.mul_sum]
    exact Finset.sum_congr rfl fun j _ => by ring
  have h2 : ∀ i, i < L.nrows → v i = L.mulVec (fun j => δ⁻¹ * w j) i := by
    intro i hi
    rw [hL, h1 i (hrow ▸ hi), ← mul_assoc, inv_mul_cancel₀ hδ, one_mul]
  rw [h.vecOp]
  conv_rhs => rw [hv]
  refine linComb_congr' _ fun i hi => ?_
  have hi' : i < L.nrows := hrow ▸ hi
  have h3 : ∀ i, P.mulVec v i = P.mulVec (L.mulVec (fun j => δ⁻¹ * w j)) i := fun i => P.mulVec_congr (fun j hj => h2 j (hP.2.1 ▸ hj)) i
  rw [L.mulVec_congr (fun j _ => h3 j) i, hP.2.2 _ i hi', ← h2 i hi']

theorem innerL_self_real (l : List K) : IsReal (innerL l l) ∧ 0 ≤ toR (innerL l l) := by
  rw [innerL_eq rfl rfl]
  constructor
  · show star _ = _
    rw [star_sum]
    exact Finset.sum_congr rfl fun j _ => by rw [star_mul', star_star, mul_comm]
  · rw [toR_sum]
    exact Finset.sum_nonneg fun j _ => by rw [toR_norm_sq]; positivity

theorem inverseParticular_ok [Nontrivial 𝔸] {R : StrAlg K 𝔸} {num : LadderNumerics K} (hnum : IsLadderNumerics num) {A : Basis} (hA : A.Inv) (hs : ∀ s ∈ A.strs, R.Str s)
    {O : Operator K} (hO : O.WF) (hOs : ∀ s ∈ O.basis.strs, R.Str s) (hne : O.basis.strs ≠ []) {L : Mat K} {ext : Basis}
    (h : LiouvilleOK R.den R.Str .commutator A.len (fun j => ((A.strs[j]?).map R.den).getD 0) (O.den R.den) L ext) (hin : ∀ s ∈ O.basis.strs, s ∈ ext.strs) {tol : ℚ}
    {op : Operator K} (hop : inverseParticular num A L ext O tol = .ok op) :
    ∃ (x : List K) (N : K), IsCleaned tol A.strs x op N ∧
      ((∃ (w : ℕ → K) (δ : K), δ ≠ 0 ∧ IsLadder (linComb R.den A.strs w) (O.den R.den) δ) → IsLadder (vecOp R.den A x) (O.den R.den) (1 : K)) := by
  obtain ⟨v, v1, v2, v3⟩ := toVector_linComb R hO hOs hne h.ext_inv (fun s hs => (h.ext_str s hs).1) hin
  unfold inverseParticular at hop
  rw [v1] at hop
  replace hop : (num.pinv L >>= _) = _ := hop
  obtain ⟨P, p1, hop⟩ := py_bind_ok hop
  have hP := hnum.pinv _ _ p1
  have hPc : P.ncols = v.length := by rw [hP.2.1, h.nrows, v2]
  obtain ⟨x, x1, x2, x3⟩ := dotVec_ok hPc
  have hxl : x.length = A.strs.length := by rw [x2, hP.1, h.ncols]; rfl
  simp only [x1, bind, Except.bind] at hop
  split at hop
  · cases hop
  rename_i o1 ho1
  obtain ⟨a1, a2, a3⟩ := mkOperator_none_inv ho1
  have ho1' : o1 = ⟨x, A, R.type⟩ := by
    rw [mkOperator_none_ok a3 hA.2 (fun s h' => R.str_type s (hs s h'))] at ho1
    rw [← Except.ok.inj ho1, ← hA.1]
  have hwf : o1.WF := by
    subst ho1'
    exact ⟨hA, hxl, fun s h' => R.str_type s (hs s h')⟩
  obtain ⟨C, c1, c2, c3, c4⟩ := Operator.removeZeros_ok hwf tol
  simp only [c1] at hop
  unfold Operator.normalizeL2 at hop
  obtain ⟨N, n1, hop⟩ := py_bind_ok hop
  split at hop
  · cases hop
  cases hop
  have hterms : o1.terms = x.zip A.strs := by subst ho1'; rfl
  have hfil : C.terms = (x.zip A.strs).filter (fun t => decide ((tol : ℝ) < ‖toC t.1‖)) := by
    rw [c4, hterms]
    apply List.filter_congr
    intro t _
    rw [Bool.eq_iff_iff, Coef.absGt_iff, decide_eq_true_iff]
  have hinner : innerL C.coeffs C.coeffs = (C.terms.map (fun t => star t.1 * t.1)).sum := by
    have e : C.coeffs = C.terms.map Prod.fst := (c2.terms_fst).symm
    have : (C.terms.map (fun t => star t.1 * t.1)).sum = (C.coeffs.map (fun a => star a * a)).sum := by rw [e, List.map_map]; rfl
    rw [this]
    generalize C.coeffs = l
    induction l with
    | nil => simp [innerL]
    | cons a l ih => simp [innerL] at ih ⊢
  have hreal := innerL_self_real C.coeffs
  obtain ⟨m1, m2, m3⟩ := hnum.sqrt _ _ hreal.1 hreal.2 n1
  refine ⟨x, N, ⟨hxl, m1, m2, by rw [m3, hinner, hfil], ?_⟩, ?_⟩
  · show (C.coeffs.map (· / N)).zip C.basis.strs = _
    rw [← hfil, Operator.terms, List.zip_map_left]
    rfl
  · rintro ⟨w, δ, hδ, hw⟩
    have := pinv_solves h hP v3 hδ hw
    rw [IsLadder, one_smul]
    refine Eq.trans ?_ this
    congr 1
    refine linComb_congr' _ fun i hi => ?_
    rw [x3 i (by rw [hP.1, h.ncols]; exact hi)]
    rfl

/-- nothing but zeros was removed -/
theorem IsCleaned.ladder {tol : ℚ} (htol : 0 ≤ tol) {den : OpString → 𝔸} {A : Basis} {x : List K} {B : Operator K} {N : K} (h : IsCleaned tol A.strs x B N)
    (hx : ∀ a ∈ x, a = 0 ∨ (tol : ℝ) < ‖toC a‖) {r : 𝔸} (hr : r ≠ 0) (hl : IsLadder (vecOp den A x) r (1 : K)) : 0 < toR N ∧ IsLadder (B.den den) r N⁻¹ := by
  set kept := (x.zip A.strs).filter (fun t => decide ((tol : ℝ) < ‖toC t.1‖)) with hk
  have hvec : vecOp den A x = ((x.zip A.strs).map (fun t => t.1 • den t.2)).sum :=
    (den_vecOp (A := A) (o := ⟨x, A, .pauli⟩) rfl rfl h.len den).symm
  have hkept : ((x.zip A.strs).map (fun t => t.1 • den t.2)).sum = (kept.map (fun t => t.1 • den t.2)).sum := by
    have hx' : ∀ t ∈ x.zip A.strs, t.1 = 0 ∨ (tol : ℝ) < ‖toC t.1‖ := fun t ht => hx _ (List.of_mem_zip ht).1
    rw [hk]
    generalize x.zip A.strs = l at hx'
    clear * - hx'
    induction l with
    | nil => rfl
    | cons t l ih =>
      rw [List.map_cons, List.sum_cons, ih fun t ht => hx' t (List.mem_cons_of_mem _ ht), List.filter_cons]
      split
      · rw [List.map_cons, List.sum_cons]
      · rename_i hn
        rcases hx' t (by simp) with h0 | h0
        · rw [h0, zero_smul, zero_add]
        · exact absurd (decide_eq_true h0) hn
  have hden : B.den den = N⁻¹ • vecOp den A x := by
    rw [hvec, hkept]
    show (B.terms.map (fun t => t.1 • den t.2)).sum = _
    rw [h.terms, List.map_map, List.smul_sum, List.map_map]
    congr 1
    apply List.map_congr_left
    intro t _
    show (t.1 / N) • den t.2 = N⁻¹ • (t.1 • den t.2)
    rw [smul_smul, div_eq_mul_inv, mul_comm]
  have ht0 : (0 : ℝ) ≤ tol := by exact_mod_cast htol
  refine ⟨lt_of_le_of_ne h.nonneg fun h0 => ?_, ?_⟩
  · have hN : toR (N ^ 2) = 0 := by
      have : toC N = 0 := by
        rw [IsReal.toC_eq h.real, ← h0]; simp
      rw [toR, map_pow, this]; simp
    have hls : ∀ l : List (K × OpString), toR (l.map (fun t => star t.1 * t.1)).sum = (l.map (fun t => toR (star t.1 * t.1))).sum := by
      intro l
      induction l with
      | nil => simp [toR]
      | cons t l ih => rw [List.map_cons, List.sum_cons, toR_add, ih, List.map_cons, List.sum_cons]
    rw [h.norm, hls] at hN
    have hnil : kept = [] := by
      by_contra hne
      obtain ⟨t, ht⟩ := List.exists_mem_of_ne_nil _ hne
      have hpos : 0 < ‖toC t.1‖ := lt_of_le_of_lt ht0 (of_decide_eq_true (List.mem_filter.mp ht).2)
      have hle : toR (star t.1 * t.1) ≤ (kept.map (fun t => toR (star t.1 * t.1))).sum :=
        List.single_le_sum (by
          intro y hy
          obtain ⟨t', _, rfl⟩ := List.mem_map.mp hy
          rw [toR_norm_sq]; positivity) _ (List.mem_map.mpr ⟨t, ht, rfl⟩)
      rw [toR_norm_sq] at hle
      have : 0 < ‖toC t.1‖ ^ 2 := by positivity
      linarith
    rw [IsLadder, hvec, hkept, hnil, one_smul] at hl
    apply hr
    rw [← hl]
    simp [bracketOf]
  · rw [IsLadder, one_smul] at hl
    rw [IsLadder, hden, bracketOf_smul_left, hl]

/-! ### the function -/

omit [RealCoef K] in
theorem linComb_toFinset (den : OpString → 𝔸) {l : List OpString} (hl : l.Nodup) (v : ℕ → K) : linComb den l v = ∑ s ∈ l.toFinset, v (l.idxOf s) • den s := by
  rw [List.sum_toFinset _ hl, ← Fin.sum_univ_fun_getElem]
  refine Finset.sum_congr rfl fun i _ => ?_
  rw [hl.idxOf_getElem _ i.2]; rfl

/-- equal combinations of strings have the same coefficients -/
theorem StrAlg.linComb_notMem [Nontrivial 𝔸] (R : StrAlg K 𝔸) {l m : List OpString} (hl : l.Nodup) (hm : m.Nodup) (hls : ∀ s ∈ l, R.Str s ∧ s.Canonical)
    (hms : ∀ s ∈ m, R.Str s ∧ s.Canonical) {v w : ℕ → K} (h : linComb R.den l v = linComb R.den m w) {s : OpString} (hs : s ∈ m) (hsl : s ∉ l) : w (m.idxOf s) = 0 := by
  classical
  set U := (l ++ m).dedup with hU
  have hUn : U.Nodup := List.nodup_dedup _
  set f : OpString → K := fun s => (if s ∈ l then v (l.idxOf s) else 0) - (if s ∈ m then w (m.idxOf s) else 0) with hf
  have e1 : ∀ (k : List OpString) (u : ℕ → K), k.Nodup → (∀ s ∈ k, s ∈ U) → ∑ s ∈ U.toFinset, (if s ∈ k then u (k.idxOf s) else 0) • R.den s = linComb R.den k u := by
    intro k u hk hkU
    rw [linComb_toFinset _ hk]
    symm
    refine (Finset.sum_subset (fun s hs => by rw [List.mem_toFinset] at hs ⊢; exact hkU s hs) fun s _ hs => ?_).symm.trans ?_ |>.symm
    · rw [List.mem_toFinset] at hs
      rw [if_neg hs, zero_smul]
    · exact Finset.sum_congr rfl fun s hs => by rw [if_pos (List.mem_toFinset.mp hs)]
  have h0 : linComb R.den U (fun i => f (U.getD i ⟨[], [], .pauli, .float1⟩)) = 0 := by
    rw [linComb_toFinset _ hUn]
    have : ∀ s ∈ U.toFinset, f (U.getD (U.idxOf s) ⟨[], [], .pauli, .float1⟩) • R.den s =
        (if s ∈ l then v (l.idxOf s) else 0) • R.den s - (if s ∈ m then w (m.idxOf s) else 0) • R.den s := by
      intro s hs
      have hs' := List.mem_toFinset.mp hs
      rw [List.getD_eq_getElem _ _ (List.idxOf_lt_length_iff.mpr hs'), List.getElem_idxOf, hf, sub_smul]
    rw [Finset.sum_congr rfl this, Finset.sum_sub_distrib, e1 l v hl (by simp [hU]; tauto), e1 m w hm (by simp [hU]; tauto), h, sub_self]
  have hsU : s ∈ U := by simp [hU, hs]
  have := R.independent hUn (fun s hs => by
    rw [hU, List.mem_dedup, List.mem_append] at hs
    exact hs.elim (hls s) (hms s)) h0 (U.idxOf s) (List.idxOf_lt_length_iff.mpr hsU)
  rw [List.getD_eq_getElem _ _ (List.idxOf_lt_length_iff.mpr hsU), List.getElem_idxOf, hf] at this
  simpa [hs, hsl] using this

/-- the operators `_inverse_ladder_operators` returns -/
theorem inverse_found [Nontrivial 𝔸] (R : StrAlg K 𝔸) {num : LadderNumerics K} (hnum : IsLadderNumerics num) {A : Basis} (hA : A.Inv) (hs : ∀ s ∈ A.strs, R.Str s)
    {O : Operator K} (hO : O.WF) (hOs : ∀ s ∈ O.basis.strs, R.Str s) (hne : O.basis.strs ≠ []) {sp : Bool} {tol : ℚ} (htol : 0 < tol) {op : Operator K} {nulls : List (Operator K)}
    (h : inverseLadderOperators num A O sp tol = .ok (.found op nulls)) :
    (∃ (x : List K) (N : K), IsCleaned tol A.strs x op N ∧
      ((∃ (w : ℕ → K) (δ : K), δ ≠ 0 ∧ IsLadder (linComb R.den A.strs w) (O.den R.den) δ) → IsLadder (linComb R.den A.strs (fun j => x.getD j 0)) (O.den R.den) (1 : K) ∧
        ((∀ a ∈ x, a = 0 ∨ (tol : ℝ) < ‖toC a‖) → O.den R.den ≠ 0 → 0 < toR N ∧ IsLadder (op.den R.den) (O.den R.den) N⁻¹))) ∧
    (∀ B ∈ nulls, UnitOver A.strs B ∧ IsSmall K (fun s => R.Str s ∧ s.Canonical) R.den tol (bracketOf .commutator (B.den R.den) (O.den R.den))) ∧
    (sp = false → nulls.Pairwise (OrthogonalOver A.strs)) ∧
    ∀ T : List OpString, T.Nodup → (∀ t ∈ T, Reached R.Str R.den A.strs O none t) → A.len ≤ T.length →
      ∀ w : ℕ → K, bracketOf .commutator (linComb R.den A.strs w) (O.den R.den) = 0 → linComb R.den A.strs w ∈ Submodule.span K {b | ∃ B ∈ nulls, b = B.den R.den} := by
  obtain ⟨L, ext, h1, hL⟩ := R.liouvillianStrings_ok .commutator hs hOs
  unfold inverseLadderOperators at h
  rw [h1] at h
  replace h : (inverseNull num L sp tol >>= _) = _ := h
  obtain ⟨null, h2, h⟩ := py_bind_ok h
  split at h
  swap
  · cases h
  rename_i hall
  obtain ⟨op', h3, h⟩ := py_bind_ok h
  obtain ⟨nulls', h4, h⟩ := py_bind_ok h
  cases h
  have hin : ∀ s ∈ O.basis.strs, s ∈ ext.strs := by
    intro s hs'
    rw [← hO.terms_snd] at hs'
    obtain ⟨t, ht, rfl⟩ := List.mem_map.mp hs'
    have := List.all_eq_true.mp hall t ht
    rw [hL.ext_inv.1, Basis.contains_ofList] at this
    exact of_decide_eq_true this
  obtain ⟨r, hr, n1, n2, n3⟩ := inverseNull_ok hnum h2
  have hnc : L.ncols = A.len := hL.ncols
  rw [hnc] at n1 n2
  have hops := (mapM_ok_inv h4).imp fun v o h => let ⟨a, b, _⟩ := mkOperator_none_inv h; (⟨a, b⟩ : o.coeffs = v ∧ o.basis.strs = A.strs)
  refine ⟨?_, ?_, ?_, ?_⟩
  · obtain ⟨x, N, c1, c2⟩ := inverseParticular_ok hnum hA hs hO hOs hne hL hin h3
    exact ⟨x, N, c1, fun hw => ⟨c2 hw, fun hx h0 => c1.ladder htol.le hx h0 (c2 hw)⟩⟩
  · intro B hB
    obtain ⟨v, hv, b1, b2⟩ := forall₂_mem_right hops hB
    obtain ⟨v1, v2, v3⟩ := n1 v hv
    refine ⟨⟨b2, by rw [b1, v1]; rfl, by rw [b1]; exact v2⟩, ?_⟩
    rw [den_vecOp b1 b2 v1]
    exact null_small hL hr htol v1 v2 v3
  · intro hsp
    have ho : OrthonormalVectors A.len null := by
      rw [n3 hsp, ← hnc]; exact nullVectors_ortho hr.ortho
    have hc : nulls.map (·.coeffs) = null := by
      clear * - hops
      induction hops with
      | nil => rfl
      | cons h _ ih => rw [List.map_cons, h.1, ih]
    have := ho.orthogonal
    rw [← hc, List.pairwise_map] at this
    exact this
  · intro T hT hTr hle w hw
    have hsub : T.length ≤ ext.strs.length := by
      have : T ⊆ ext.strs := fun t ht => (R.liouvillianStrings_reached hO.len hs hOs h1 t).mpr (hTr t ht)
      exact (List.subperm_of_subset hT this).length_le
    have hrow : L.nrows = ext.strs.length := hL.nrows
    rw [hL.vecOp] at hw
    obtain ⟨c, hc⟩ := null_complete hr (by rw [hrow, hnc]; exact hle.trans hsub) htol (v := w) (fun i hi => R.independent hL.ext_inv.2 hL.ext_str hw i (hrow ▸ hi))
    have e1 : linComb R.den A.strs w = ∑ k : Fin (nullVectors tol r).length, c k • vecOp R.den A (nullVectors tol r)[k] := by
      have := vecOp_combination R.den A (w := (List.range A.len).map w) (l := nullVectors tol r) (c := c) (fun i hi => by
        rw [ofFn_getD _ _ hi, hc i (by rw [hnc]; exact hi)])
      rw [← this]
      exact linComb_congr' _ fun i hi => (ofFn_getD A.len w hi).symm
    rw [e1]
    refine Submodule.sum_mem _ fun k _ => Submodule.smul_mem _ _ ?_
    obtain ⟨d, hd⟩ := n2 _ (List.getElem_mem (l := nullVectors tol r) k.2)
    have e2 : vecOp R.den A (nullVectors tol r)[k] = ∑ m : Fin null.length, d m • vecOp R.den A null[m] := vecOp_combination R.den A hd
    rw [e2]
    refine Submodule.sum_mem _ fun m _ => Submodule.smul_mem _ _ (Submodule.subset_span ?_)
    obtain ⟨B, hB, b1, b2⟩ := forall₂_mem_right hops.flip (List.getElem_mem (l := null) m.2)
    exact ⟨B, hB, (den_vecOp b1 b2 (n1 _ (List.getElem_mem _)).1 R.den).symm⟩

/-- when no operator is returned -/
theorem inverse_missing [Nontrivial 𝔸] (R : StrAlg K 𝔸) {num : LadderNumerics K} (hnum : IsLadderNumerics num) {A : Basis} (hs : ∀ s ∈ A.strs, R.Str s)
    {O : Operator K} (hO : O.WF) (hOs : ∀ s ∈ O.basis.strs, R.Str s ∧ s.Canonical) {sp : Bool} {tol : ℚ} (htol : 0 < tol) {nulls : List (List K)}
    (h : inverseLadderOperators num A O sp tol = .ok (.missing nulls)) :
    ((∀ a ∈ O.coeffs, a ≠ 0) → ¬ ∃ (w : ℕ → K) (δ : K), δ ≠ 0 ∧ IsLadder (linComb R.den A.strs w) (O.den R.den) δ) ∧
    ∀ v ∈ nulls, v.length = A.len ∧ ∑ j : Fin A.len, star (v.getD j 0) * v.getD j 0 = 1 ∧
      IsSmall K (fun s => R.Str s ∧ s.Canonical) R.den tol (bracketOf .commutator (linComb R.den A.strs (fun j => v.getD j 0)) (O.den R.den)) := by
  obtain ⟨L, ext, h1, hL⟩ := R.liouvillianStrings_ok .commutator hs fun s h => (hOs s h).1
  unfold inverseLadderOperators at h
  rw [h1] at h
  replace h : (inverseNull num L sp tol >>= _) = _ := h
  obtain ⟨null, h2, h⟩ := py_bind_ok h
  split at h
  · obtain ⟨op', h3, h⟩ := py_bind_ok h
    obtain ⟨nulls', h4, h⟩ := py_bind_ok h
    cases h
  rename_i hall
  cases h
  refine ⟨?_, ?_⟩
  · rintro hc ⟨w, δ, hδ, hw⟩
    obtain ⟨t, ht, hte⟩ : ∃ t ∈ O.terms, t.2 ∉ ext.strs := by
      by_contra hn
      push Not at hn
      apply hall
      rw [List.all_eq_true]
      intro t ht
      rw [hL.ext_inv.1, Basis.contains_ofList]
      exact decide_eq_true (hn t ht)
    have htO := mem_terms ht
    rw [IsLadder, hL.vecOp, den_linComb hO.len, ← linComb_smul'] at hw
    have h0 := R.linComb_notMem hL.ext_inv.2 hO.basis.2 hL.ext_str hOs hw htO hte
    have hi : O.basis.strs.idxOf t.2 < O.coeffs.length := by rw [hO.len]; exact List.idxOf_lt_length_iff.mpr htO
    rw [List.getD_eq_getElem _ _ hi] at h0
    rcases mul_eq_zero.mp h0 with h0 | h0
    · exact hδ h0
    · exact hc _ (List.getElem_mem hi) h0
  · obtain ⟨r, hr, n1, -, -⟩ := inverseNull_ok hnum h2
    have hnc : L.ncols = A.len := hL.ncols
    rw [hnc] at n1
    intro v hv
    obtain ⟨v1, v2, v3⟩ := n1 v hv
    exact ⟨v1, v2, null_small hL hr htol v1 v2 v3⟩

/-- the particular solution fails only if a numerical routine does -/
theorem inverseParticular_err [Nontrivial 𝔸] {R : StrAlg K 𝔸} {num : LadderNumerics K} (hnum : IsLadderNumerics num) {A : Basis} (hA : A.Inv) (hA0 : A.strs ≠ []) (hs : ∀ s ∈ A.strs, R.Str s)
    {O : Operator K} (hO : O.WF) {L : Mat K} {ext : Basis}
    (h : LiouvilleOK R.den R.Str .commutator A.len (fun j => ((A.strs[j]?).map R.den).getD 0) (O.den R.den) L ext) (hin : ∀ s ∈ O.basis.strs, s ∈ ext.strs) {tol : ℚ} (htol : 0 ≤ tol)
    {e : PyErr} (hop : inverseParticular num A L ext O tol = .error e) : (∃ M, num.pinv M = .error e) ∨ ∃ x, num.sqrt x = .error e := by
  obtain ⟨v, v1, v2, -⟩ := Operator.toVector_ok hO h.ext_inv hin
  unfold inverseParticular at hop
  rw [v1] at hop
  cases hp : num.pinv L with
  | error e' =>
    rw [hp] at hop
    simp only [bind, Except.bind, Except.error.injEq] at hop
    exact Or.inl ⟨L, by rw [hp, hop]⟩
  | ok P =>
    right
    have hP := hnum.pinv _ _ hp
    have hPc : P.ncols = v.length := by rw [hP.2.1, h.nrows, v2]; rfl
    obtain ⟨x, x1, x2, x3⟩ := dotVec_ok hPc
    have hxl : x.length = A.strs.length := by rw [x2, hP.1, h.ncols]; rfl
    have hmk := mkOperator_none_ok (cs := x) hA0 hA.2 (fun s h' => R.str_type s (hs s h'))
    have hwf : (⟨x, Basis.ofList A.strs, R.type⟩ : Operator K).WF := ⟨Basis.Inv.ofList hA.2, hxl, fun s h' => R.str_type s (hs s h')⟩
    obtain ⟨C, c1, c2, c3, c4⟩ := Operator.removeZeros_ok hwf tol
    rw [hp] at hop
    simp only [bind, Except.bind, x1, hmk, c1] at hop
    unfold Operator.normalizeL2 at hop
    cases hq : num.sqrt (innerL C.coeffs C.coeffs) with
    | error e' =>
      rw [hq] at hop
      simp only [bind, Except.bind, Except.error.injEq] at hop
      exact ⟨_, by rw [hq, hop]⟩
    | ok N =>
      exfalso
      rw [hq] at hop
      simp only [bind, Except.bind] at hop
      split at hop
      swap
      · cases hop
      rename_i h0
      simp only [Bool.and_eq_true, Bool.not_eq_true', List.isEmpty_eq_false_iff] at h0
      have hreal := innerL_self_real C.coeffs
      obtain ⟨m1, m2, m3⟩ := hnum.sqrt _ _ hreal.1 hreal.2 hq
      rw [(reZero_iff m1).mp h0.1] at m3
      obtain ⟨a, ha⟩ := List.exists_mem_of_ne_nil _ h0.2
      have hpos : 0 < ‖toC a‖ := by
        rw [← c2.terms_fst, c4] at ha
        obtain ⟨t, ht, rfl⟩ := List.mem_map.mp ha
        have := (List.mem_filter.mp ht).2
        rw [Coef.absGt_iff] at this
        exact lt_of_le_of_lt (by exact_mod_cast htol) this
      obtain ⟨i, hi, rfl⟩ := List.getElem_of_mem ha
      have hz := congrArg toR m3
      rw [innerL_eq rfl rfl, toR_sum] at hz
      simp only [toR_norm_sq] at hz
      have hle := Finset.single_le_sum (f := fun j : Fin C.coeffs.length => ‖toC (C.coeffs.getD j 0)‖ ^ 2) (fun j _ => by positivity) (Finset.mem_univ ⟨i, hi⟩)
      rw [← hz] at hle
      simp only [List.getD_eq_getElem _ _ hi] at hle
      have h2 : toR ((0 : K) ^ 2) = 0 := by simp [toR]
      rw [h2] at hle
      have : 0 < ‖toC C.coeffs[i]‖ ^ 2 := by positivity
      linarith

theorem inverse_err [Nontrivial 𝔸] (R : StrAlg K 𝔸) {num : LadderNumerics K} (hnum : IsLadderNumerics num) {A : Basis} (hA : A.Inv) (hne : A.strs ≠ []) (hs : ∀ s ∈ A.strs, R.Str s)
    {O : Operator K} (hO : O.WF) (hOs : ∀ s ∈ O.basis.strs, R.Str s) {sp : Bool} {tol : ℚ} (htol : 0 ≤ tol) {e : PyErr}
    (h : inverseLadderOperators num A O sp tol = .error e) : (∃ M, num.svd M = .error e) ∨ (∃ M, num.pinv M = .error e) ∨ (∃ x, num.sqrt x = .error e) ∨ ∃ l, num.sparsify l = .error e := by
  obtain ⟨L, ext, h1, hL⟩ := R.liouvillianStrings_ok .commutator hs hOs
  unfold inverseLadderOperators at h
  rw [h1] at h
  replace h : (inverseNull num L sp tol >>= _) = _ := h
  cases hn : inverseNull num L sp tol with
  | error e' =>
    rw [hn] at h
    simp only [bind, Except.bind, Except.error.injEq] at h
    subst h
    unfold inverseNull at hn
    cases hv : num.svd L with
    | error e'' =>
      rw [hv] at hn
      simp only [bind, Except.bind, Except.error.injEq] at hn
      exact Or.inl ⟨L, by rw [hv, hn]⟩
    | ok r =>
      rw [hv] at hn
      simp only [bind, Except.bind] at hn
      split at hn
      · exact Or.inr (Or.inr (Or.inr ⟨_, hn⟩))
      · cases hn
  | ok null =>
    rw [hn] at h
    simp only [bind, Except.bind] at h
    split at h
    swap
    · cases h
    rename_i hall
    have hin : ∀ s ∈ O.basis.strs, s ∈ ext.strs := by
      intro s hs'
      rw [← hO.terms_snd] at hs'
      obtain ⟨t, ht, rfl⟩ := List.mem_map.mp hs'
      have := List.all_eq_true.mp hall t ht
      rw [hL.ext_inv.1, Basis.contains_ofList] at this
      exact of_decide_eq_true this
    split at h
    · rename_i e' hp
      cases h
      rcases inverseParticular_err hnum hA hne hs hO hL hin htol hp with h | h
      · exact Or.inr (Or.inl h)
      · exact Or.inr (Or.inr (Or.inl h))
    · obtain ⟨ops, k1, -⟩ := mapM_forall₂ (f := fun v : List K => mkOperator v A.strs none) (Q := fun _ _ => True) (l := null) fun v _ =>
        ⟨_, mkOperator_none_ok hne hA.2 (fun s hs' => R.str_type s (hs s hs')), trivial⟩
      simp only [k1] at h
      cases h

end Qosy
