import Verif.Lemmas.Ladder

/-! # `_ladder_operators` for closed bases -/

namespace Qosy
open Coef RealOps
variable {K : Type} [Field K] [StarRing K] [Coef K] [RealCoef K]
variable {𝔸 : Type} [Ring 𝔸] [Algebra K 𝔸]

section setup
variable {R : StrAlg K 𝔸} {A : Basis} {O : Operator K} {L : Mat K} {B : Basis} {S : List OpString} {inA inB : List ℕ}

theorem getD_inA_mem {l : List ℕ} {k : ℕ} (h : k < l.length) : l.getD k 0 ∈ l := by
  rw [List.getD_eq_getElem _ _ h]; exact List.getElem_mem h

/-- the operator of a scattered vector -/
theorem LadderSetup.vecOp_scatter (h : LadderSetup R A O L B S inA inB) {u : List K} (hu : u.length = S.length) :
    vecOp R.den A (scatterInto A.len inA u) = linComb R.den S (fun k => u.getD k 0) := by
  have hl : u.length = inA.length := by rw [hu, h.common.lenA]
  rw [vecOp, linComb_eq_sum, scatterInto_sum h.common.nodupA h.common.ltA hl (fun j => ((A.strs[j]?).map R.den).getD 0)]
  refine Fintype.sum_equiv (finCongr h.common.lenA) _ _ fun k => ?_
  have hk : (k : ℕ) < S.length := by rw [← h.common.lenA]; exact k.2
  have := h.common.getA k hk
  rw [List.getD_eq_getElem _ _ k.2, List.getElem?_eq_getElem hk] at this
  show u.getD k 0 • ((A.strs[inA[(k : ℕ)]]?).map R.den).getD 0 = u.getD k 0 • R.den S[(k : ℕ)]
  rw [this]; rfl

/-- the rows of the matrix on a scattered vector -/
theorem LadderSetup.row_scatter (h : LadderSetup R A O L B S inA inB) {u : List K} (hu : u.length = S.length) (c : ℕ) :
    ∑ j : Fin A.len, L.get c j * (scatterInto A.len inA u).getD j 0 = ∑ k : Fin S.length, L.get c (inA.getD k 0) * u.getD k 0 := by
  have hl : u.length = inA.length := by rw [hu, h.common.lenA]
  have := scatterInto_sum (M := K) h.common.nodupA h.common.ltA hl (fun j => L.get c j)
  simp only [smul_eq_mul] at this
  have e : ∑ j : Fin A.len, L.get c j * (scatterInto A.len inA u).getD j 0 = ∑ j : Fin A.len, (scatterInto A.len inA u).getD j 0 * L.get c j :=
    Finset.sum_congr rfl fun j _ => mul_comm _ _
  rw [e, this]
  refine Fintype.sum_equiv (finCongr h.common.lenA) _ _ fun k => ?_
  show u.getD k 0 * L.get c inA[(k : ℕ)] = L.get c (inA.getD k 0) * u.getD k 0
  rw [List.getD_eq_getElem _ _ k.2, mul_comm]

/-- a combination of the strings of the extended basis in which only common strings occur -/
theorem LadderSetup.linComb_common (h : LadderSetup R A O L B S inA inB) {y : ℕ → K} (hy : ∀ c, c < B.len → c ∉ inB → y c = 0) :
    linComb R.den B.strs y = linComb R.den S (fun k => y (inB.getD k 0)) := by
  rw [linComb_eq_sum]
  have e : ∀ c : Fin B.len, y c • ((B.strs[(c : ℕ)]?).map R.den).getD 0 = (fun c => if c < B.len then y c • ((B.strs[c]?).map R.den).getD 0 else 0) (c : ℕ) := fun c => by
    simp only [c.2, if_true]
  rw [Finset.sum_congr rfl (fun c _ => e c), ladder_sum_support h.common.nodupB h.common.ltB
    (g := fun c => if c < B.len then y c • ((B.strs[c]?).map R.den).getD 0 else 0) (fun c hc => by
      by_cases hc' : c < B.len
      · simp only [hc', if_true, hy c hc' hc, zero_smul]
      · simp only [hc', if_false])]
  refine Fintype.sum_equiv (finCongr h.common.lenB) _ _ fun k => ?_
  have hk : (k : ℕ) < S.length := by rw [← h.common.lenB]; exact k.2
  have := h.common.getB k hk
  rw [List.getD_eq_getElem _ _ k.2, List.getElem?_eq_getElem hk] at this
  show (if inB[(k : ℕ)] < B.len then y inB[(k : ℕ)] • ((B.strs[inB[(k : ℕ)]]?).map R.den).getD 0 else 0) = y (inB.getD k 0) • R.den S[(k : ℕ)]
  rw [if_pos (h.common.ltB _ (List.getElem_mem k.2)), this, List.getD_eq_getElem _ _ k.2]; rfl

/-- the action of the operator on a combination of common strings that stays in the span of the basis -/
theorem LadderSetup.act_scatter (h : LadderSetup R A O L B S inA inB) {u w : List K} (hu : u.length = S.length) (hw : w.length = S.length)
    (h0 : ∀ c, c < B.len → c ∉ inB → ∑ k : Fin S.length, L.get c (inA.getD k 0) * u.getD k 0 = 0)
    (h1 : ∀ k, k < S.length → ∑ l : Fin S.length, L.get (inB.getD k 0) (inA.getD l 0) * u.getD l 0 = w.getD k 0) :
    bracketOf .commutator (O.den R.den) (vecOp R.den A (scatterInto A.len inA u)) = vecOp R.den A (scatterInto A.len inA w) := by
  rw [h.act, h.vecOp_scatter hw, h.linComb_common]
  · refine Finset.sum_congr rfl fun k _ => ?_
    beta_reduce
    rw [h.row_scatter hu, h1 k k.2]
  · intro c hc hc'
    rw [h.row_scatter hu, h0 c hc hc']

end setup

/-! ### sorting -/

theorem mapM_pyGet_all {α : Type} {l : List α} {inds : List ℕ} {r : List α} (hp : inds.Perm (List.range l.length)) (h : inds.mapM (pyGet l) = .ok r) :
    r.Perm l ∧ List.Forall₂ (fun i x => l[i]? = some x) inds r := by
  have hf : List.Forall₂ (fun i x => l[i]? = some x) inds r := by
    refine (mapM_ok_inv h).imp fun i x hx => ?_
    unfold pyGet at hx
    split at hx
    · rename_i y hy; simp only [Except.ok.injEq] at hx; rw [hy, hx]
    · cases hx
  refine ⟨?_, hf⟩
  have e : r.map some = inds.map (fun i => l[i]?) := by
    clear h hp
    induction hf with
    | nil => rfl
    | cons h _ ih => rw [List.map_cons, List.map_cons, ih, h]
  have p := hp.map (fun i => l[i]?)
  rw [← e] at p
  have q : (List.range l.length).map (fun i => l[i]?) = l.map some := by
    apply List.ext_getElem
    · simp
    · intro i h1 h2
      have h3 : i < l.length := by simpa using h2
      rw [List.getElem_map, List.getElem_range, List.getElem_map, List.getElem?_eq_getElem h3]
  rw [q] at p
  simpa using p.filterMap id

theorem ladderSort_ok {num : LadderNumerics K} (ha : IsArgsort num.argsort) {l r : List (K × List K)} (h : ladderSort num l = .ok r) :
    r.Perm l ∧ r.Pairwise (fun x y => ‖toC x.1‖ ≤ ‖toC y.1‖) := by
  have hp := (ha (l.map (·.1))).1
  rw [List.length_map] at hp
  obtain ⟨h1, h2⟩ := mapM_pyGet_all hp h
  refine ⟨h1, ?_⟩
  have hs := (ha (l.map (·.1))).2
  generalize num.argsort (l.map (·.1)) = inds at h2 hs
  clear h h1 hp
  induction h2 with
  | nil => exact .nil
  | @cons i x is xs hx hxs ih =>
    rw [List.pairwise_cons] at hs
    refine List.pairwise_cons.mpr ⟨fun y hy => ?_, ih hs.2⟩
    obtain ⟨j, hj, hjy⟩ := forall₂_mem_right hxs hy
    have := hs.1 j hj
    rwa [List.getD_eq_getElem?_getD, List.getD_eq_getElem?_getD, List.getElem?_map, List.getElem?_map, hx, hjy] at this

/-! ### running the function -/

theorem ladderVectors_inv [Nontrivial 𝔸] (R : StrAlg K 𝔸) {num : LadderNumerics K} {A : Basis} (hA : A.Inv) (hs : ∀ s ∈ A.strs, R.Str s ∧ s.Canonical) {O : Operator K} (hO : O.WF)
    (hOs : ∀ s ∈ O.basis.strs, R.Str s) (hr : ∀ x ∈ O.coeffs, IsReal x) {sp : Bool} {tol : ℚ} {l : List (K × List K)} (h : ladderVectors num A O sp tol = .ok l) :
    ∃ (L : Mat K) (B : Basis) (S : List OpString) (inA inB notB : List ℕ), LadderSetup R A O L B S inA inB ∧ notB.Nodup ∧ (∀ i, i ∈ notB ↔ i < B.len ∧ i ∉ inB) ∧
      ((S = [] ∧ l = []) ∨ ∃ valid P r sorted, ladderProject num L inB inA notB tol = .ok (valid, P) ∧ num.eigh P.hermitianPart = .ok r ∧
        ladderSort num ((embedPairs inA.length valid (partneredPairs tol r)).map (fun e => (e.1, scatterInto A.len inA e.2))) = .ok sorted ∧
        ((sp = false ∧ l = sorted) ∨ (sp = true ∧ ∃ again, ladderSort num sorted = .ok again ∧ ladderSparsify num again.length again = .ok l))) := by
  obtain ⟨m, L, B, inA, h1, h2, h3, h4⟩ := ladderSetup_ok R hA hs hO hOs hr
  refine ⟨L, B, _, inA, _, (List.range B.len).filter (fun i => !(B.strs[i]?).any A.contains), h4, List.nodup_range.filter _, ?_, ?_⟩
  · intro i
    simp only [List.mem_filter, List.mem_range, Bool.not_eq_true']
    constructor
    · rintro ⟨a, b⟩; exact ⟨a, fun ⟨_, c⟩ => by rw [b] at c; cases c⟩
    · rintro ⟨a, b⟩; exact ⟨a, by by_contra c; exact b ⟨a, by simpa using c⟩⟩
  · unfold ladderVectors at h
    simp only [h1, h2, h3, bind, Except.bind] at h
    split at h
    · rename_i he
      left
      have : inA.length = 0 := by rw [List.isEmpty_iff.mp he]; rfl
      rw [h4.common.lenA] at this
      exact ⟨List.length_eq_zero_iff.mp this, (Except.ok.inj h).symm⟩
    · right
      split at h
      · cases h
      rename_i p hp
      split at h
      · cases h
      rename_i r hr'
      split at h
      · cases h
      rename_i sorted hsort
      refine ⟨p.1, p.2, r, sorted, hp, hr', hsort, ?_⟩
      cases sp with
      | false => left; exact ⟨rfl, (Except.ok.inj h).symm⟩
      | true =>
        right
        refine ⟨rfl, ?_⟩
        simp only [if_true] at h
        split at h
        · cases h
        rename_i again hag
        exact ⟨again, hag, h⟩

/-! ### good pairs -/

/-- a normalised vector that is a ladder operator with a value above the tolerance -/
structure GoodPair (R : StrAlg K 𝔸) (A : Basis) (O : Operator K) (tol : ℚ) (e : K × List K) : Prop where
  dim : e.2.length = A.len
  unit : ∑ j : Fin A.len, star (e.2.getD j 0) * e.2.getD j 0 = 1
  real : IsReal e.1
  pos : (tol : ℝ) < toR e.1
  ladder : IsLadder (O.den R.den) (vecOp R.den A e.2) e.1

/-- the span of the vectors with the value `δ` -/
def pairSpan (den : OpString → 𝔸) (A : Basis) (l : List (K × List K)) (δ : K) : Submodule K 𝔸 :=
  Submodule.span K {x | ∃ e ∈ l, e.1 = δ ∧ x = vecOp den A e.2}

theorem vecOp_smul (den : OpString → 𝔸) (A : Basis) (c : K) {v w : List K} (h : ∀ j, j < A.len → w.getD j 0 = c * v.getD j 0) : vecOp den A w = c • vecOp den A v := by
  rw [vecOp, vecOp, linComb, linComb, Finset.smul_sum]
  exact Finset.sum_congr rfl fun j _ => by rw [smul_smul]; beta_reduce; rw [h j j.2]

theorem vecOp_combination (den : OpString → 𝔸) (A : Basis) {l : List (List K)} {w : List K} {c : ℕ → K}
    (h : ∀ i, i < A.len → w.getD i 0 = ∑ k : Fin l.length, c k * l[k].getD i 0) : vecOp den A w = ∑ k : Fin l.length, c k • vecOp den A l[k] := by
  simp only [vecOp, linComb, Finset.smul_sum]
  rw [Finset.sum_comm]
  refine Finset.sum_congr rfl fun j _ => ?_
  rw [h j j.2, Finset.sum_smul]
  exact Finset.sum_congr rfl fun k _ => by rw [smul_smul]

theorem OrthonormalVectors.sublist {n : ℕ} {l m : List (List K)} (h : OrthonormalVectors n l) (hs : m.Sublist l) : OrthonormalVectors n m :=
  ⟨fun v hv => h.dim v (hs.subset hv), fun v hv => h.unit v (hs.subset hv), h.orthogonal.sublist hs⟩

theorem OrthonormalVectors.perm {n : ℕ} {l m : List (List K)} (h : OrthonormalVectors n l) (hs : m.Perm l) : OrthonormalVectors n m :=
  ⟨fun v hv => h.dim v (hs.subset hv), fun v hv => h.unit v (hs.subset hv), h.orthogonal.perm hs.symm (fun {x y} e => ip_symm (n := n) e)⟩

theorem map_snd_zip_of_length {α β : Type} {a : List α} {b : List β} (h : a.length = b.length) : (a.zip b).map (·.2) = b :=
  List.map_snd_zip (le_of_eq h.symm)

section closed
variable {R : StrAlg K 𝔸} {A : Basis} {O : Operator K} {L : Mat K} {B : Basis} {S : List OpString} {inA inB : List ℕ}

theorem LadderSetup.pick_get (h : LadderSetup R A O L B S inA inB) {k l : ℕ} (hk : k < S.length) (hl : l < S.length) :
    (L.pick inB inA).get k l = L.get (inB.getD k 0) (inA.getD l 0) :=
  Mat.ofFn_get _ _ _ (by rw [h.common.lenB]; exact hk) (by rw [h.common.lenA]; exact hl)

theorem LadderSetup.pick_hermitian (h : LadderSetup R A O L B S inA inB) : (L.pick inB inA).IsHermitian S.length := by
  refine ⟨h.common.lenB, h.common.lenA, fun i j hi hj => ?_⟩
  rw [h.pick_get hi hj, h.pick_get hj hi]
  exact (h.herm i j hi hj).2

theorem mem_partnered {tol : ℚ} {r : List K × List (List K)} (hr : ∀ x ∈ r.1, IsReal x) {e : K × List K} : e ∈ partneredPairs tol r ↔
    e ∈ r.1.zip r.2 ∧ 0 < tol ∧ (tol : ℝ) < toR e.1 ∧ ∃ x ∈ r.1, ‖toC (e.1 + x)‖ < tol := by
  unfold partneredPairs
  rw [List.mem_filter, Bool.and_eq_true, Bool.and_eq_true, Bool.and_eq_true, decide_eq_true_iff, reLt_iff', List.any_eq_true, Coef.absGt_iff]
  simp only [absLt_iff]
  have h0 : toR (0 : K) = 0 := by simp [toR]
  rw [h0]
  constructor
  · rintro ⟨h1, ⟨⟨h2, h3⟩, h4⟩, h5⟩
    rw [(hr _ (List.of_mem_zip h1).1).toC_eq, Complex.norm_real, Real.norm_of_nonneg h3.le] at h4
    exact ⟨h1, h2, h4, h5⟩
  · rintro ⟨h1, h2, h3, h4⟩
    have ht : (0 : ℝ) < tol := by exact_mod_cast h2
    refine ⟨h1, ⟨⟨h2, ht.trans h3⟩, ?_⟩, h4⟩
    rw [(hr _ (List.of_mem_zip h1).1).toC_eq, Complex.norm_real, Real.norm_of_nonneg (ht.trans h3).le]
    exact h3

/-- the pairs of a closed basis -/
theorem LadderSetup.closed_pairs [Nontrivial 𝔸] (h : LadderSetup R A O L B S inA inB) (hc : ∀ c, c < B.len → c ∈ inB) {tol : ℚ} {r : List K × List (List K)}
    (hE : IsEigenpairs (L.pick inB inA).hermitianPart S.length r) (hlen : r.1.length = S.length) {l : List (K × List K)}
    (hl : l = (partneredPairs tol r).map (fun e => (e.1, scatterInto A.len inA e.2))) :
    OrthonormalVectors A.len (l.map (·.2)) ∧ (∀ e ∈ l, GoodPair R A O tol e) ∧
      (0 < tol → ∀ (w : ℕ → K) (δ : K), IsReal δ → (tol : ℝ) < toR δ → IsLadder (O.den R.den) (linComb R.den A.strs w) δ →
        linComb R.den A.strs w ∈ pairSpan R.den A l δ) := by
  have hM : ∀ k l, k < S.length → l < S.length → (L.pick inB inA).hermitianPart.get k l = L.get (inB.getD k 0) (inA.getD l 0) := fun k l hk hl => by
    rw [hermitianPart_get h.pick_hermitian hk hl, h.pick_get hk hl]
  have hMh : (L.pick inB inA).hermitianPart.IsHermitian S.length := by
    have := hermitianPart_hermitian (L.pick inB inA)
    rwa [h.pick_hermitian.1] at this
  have hort : OrthonormalVectors A.len (l.map (·.2)) := by
    have hsub : ((partneredPairs tol r).map (·.2)).Sublist r.2 := by
      have : ((partneredPairs tol r).map (·.2)).Sublist ((r.1.zip r.2).map (·.2)) := List.filter_sublist.map _
      rwa [map_snd_zip_of_length hE.len] at this
    have ho := hE.orthonormal.sublist hsub
    have hl' : l.map (·.2) = ((partneredPairs tol r).map (·.2)).map (scatterInto A.len inA) := by rw [hl, List.map_map, List.map_map]; rfl
    rw [hl']
    refine ⟨?_, ?_, ?_⟩
    · intro v hv
      obtain ⟨u, hu, rfl⟩ := List.mem_map.mp hv
      exact scatterInto_length _ _ _
    · intro v hv
      obtain ⟨u, hu, rfl⟩ := List.mem_map.mp hv
      have hd : u.length = inA.length := by rw [ho.dim u hu, h.common.lenA]
      have := scatterInto_ip h.common.nodupA h.common.ltA hd hd
      rw [ip] at this
      rw [this, h.common.lenA]; exact ho.unit u hu
    · rw [List.pairwise_map]
      refine (List.Pairwise.and_mem.mp ho.orthogonal).imp ?_
      rintro u w ⟨hu, hw, e⟩
      have hd : u.length = inA.length := by rw [ho.dim u hu, h.common.lenA]
      have hd' : w.length = inA.length := by rw [ho.dim w hw, h.common.lenA]
      have := scatterInto_ip h.common.nodupA h.common.ltA hd hd'
      rw [ip] at this
      rw [this, h.common.lenA]; exact e
  refine ⟨hort, ?_, ?_⟩
  · intro e he
    have he' := he
    rw [hl] at he'
    obtain ⟨p, hp, rfl⟩ := List.mem_map.mp he'
    obtain ⟨p1, p2, p3, p4⟩ := (mem_partnered hE.real).mp hp
    have hd : p.2.length = S.length := hE.dim _ (List.of_mem_zip p1).2
    refine ⟨scatterInto_length _ _ _, hort.unit _ (List.mem_map_of_mem he), hE.real _ (List.of_mem_zip p1).1, p3, ?_⟩
    show bracketOf _ _ _ = _
    have hw : (p.2.map (p.1 * ·)).length = S.length := by simpa using hd
    rw [h.act_scatter hd hw (fun c hc1 hc2 => absurd (hc c hc1) hc2) ?_]
    · show vecOp R.den A (scatterInto A.len inA (p.2.map (p.1 * ·))) = p.1 • vecOp R.den A (scatterInto A.len inA p.2)
      rw [h.vecOp_scatter hw, h.vecOp_scatter hd, linComb, linComb, Finset.smul_sum]
      refine Finset.sum_congr rfl fun k _ => ?_
      rw [smul_smul]
      congr 1
      simp [List.getD_eq_getElem?_getD]
      rcases p.2[(k : ℕ)]? with _ | x <;> simp
    · intro k hk
      have e1 : ∑ l : Fin S.length, L.get (inB.getD k 0) (inA.getD l 0) * p.2.getD l 0 = ∑ l : Fin S.length, (L.pick inB inA).hermitianPart.get k l * p.2.getD l 0 :=
        Finset.sum_congr rfl fun l _ => by rw [hM k l hk l.2]
      rw [e1, hE.eigen p p1 k hk, List.getD_eq_getElem _ _ (by rw [hd]; exact hk), List.getD_eq_getElem _ _ (by rw [hw]; exact hk), List.getElem_map]
  · intro htol w δ hδ hδt hlad
    have hδ0 : δ ≠ 0 := by
      rintro rfl
      have : (0 : ℝ) < tol := by exact_mod_cast htol
      simp [toR] at hδt
      linarith
    -- the vector as a list
    obtain ⟨v, hv1, hv2⟩ : ∃ v : List K, v.length = A.len ∧ ∀ j, j < A.len → v.getD j 0 = w j :=
      ⟨(List.range A.len).map w, by simp, fun j hj => by rw [List.getD_eq_getElem _ _ (by simpa using hj)]; simp⟩
    have hvw : vecOp R.den A v = linComb R.den A.strs w := by
      rw [vecOp, linComb, linComb]; exact Finset.sum_congr rfl fun j _ => by rw [hv2 j j.2]
    -- the commutator as a combination of the common strings
    obtain ⟨z, hz1, hz2⟩ : ∃ z : List K, z.length = S.length ∧ ∀ k, k < S.length → z.getD k 0 = ∑ j : Fin A.len, L.get (inB.getD k 0) j * w j :=
      ⟨(List.range S.length).map (fun k => ∑ j : Fin A.len, L.get (inB.getD k 0) j * w j), by simp,
        fun j hj => by rw [List.getD_eq_getElem _ _ (by simpa using hj)]; simp⟩
    have hact : δ • linComb R.den A.strs w = vecOp R.den A (scatterInto A.len inA z) := by
      rw [← hlad, ← hvw, h.act, h.vecOp_scatter hz1, h.linComb_common (fun c hc1 hc2 => absurd (hc c hc1) hc2)]
      refine Finset.sum_congr rfl fun k _ => ?_
      beta_reduce
      rw [hz2 k k.2]
      congr 1
      exact Finset.sum_congr rfl fun j _ => by rw [hv2 j j.2]
    have hind : ∀ j, j < A.len → δ * w j = (scatterInto A.len inA z).getD j 0 := by
      intro j hj
      have h0 : linComb R.den A.strs (fun j => δ * w j - (scatterInto A.len inA z).getD j 0) = 0 := by
        have : linComb R.den A.strs (fun j => δ * w j - (scatterInto A.len inA z).getD j 0) =
            δ • linComb R.den A.strs w - vecOp R.den A (scatterInto A.len inA z) := by
          rw [vecOp, linComb, linComb, linComb, Finset.smul_sum, ← Finset.sum_sub_distrib]
          exact Finset.sum_congr rfl fun j _ => by rw [smul_smul, ← sub_smul]
        rw [this, hact, sub_self]
      exact sub_eq_zero.mp (R.independent h.inv.2 h.str h0 j hj)
    have hw0 : ∀ j, j < A.len → j ∉ inA → w j = 0 := by
      intro j hj hj'
      have := hind j hj
      rw [scatterInto_notMem hj'] at this
      exact (mul_eq_zero.mp this).resolve_left hδ0
    -- the vector on the common strings
    let u : ℕ → K := fun k => w (inA.getD k 0)
    have hu : ∀ k, k < S.length → ∑ l : Fin S.length, (L.pick inB inA).hermitianPart.get k l * u l = δ * u k := by
      intro k hk
      have hkA : k < inA.length := by rw [h.common.lenA]; exact hk
      have e1 := hind (inA.getD k 0) (h.common.ltA _ (getD_inA_mem hkA))
      rw [show (scatterInto A.len inA z).getD (inA.getD k 0) 0 = z.getD k 0 by
        rw [List.getD_eq_getElem inA _ hkA]; exact scatterInto_get h.common.nodupA h.common.ltA (by rw [hz1, h.common.lenA]) hkA, hz2 k hk] at e1
      rw [show δ * u k = δ * w (inA.getD k 0) from rfl, e1]
      have e2 : ∑ j : Fin A.len, L.get (inB.getD k 0) j * w j = ∑ j : Fin A.len, (fun j => if j < A.len then L.get (inB.getD k 0) j * w j else 0) (j : ℕ) :=
        Finset.sum_congr rfl fun j _ => by simp
      rw [e2, ladder_sum_support h.common.nodupA h.common.ltA (g := fun j => if j < A.len then L.get (inB.getD k 0) j * w j else 0) (fun j hj => by
        by_cases hj' : j < A.len
        · simp only [hj', if_true, hw0 j hj' hj, mul_zero]
        · simp only [hj', if_false])]
      refine Fintype.sum_equiv (finCongr h.common.lenA.symm) _ _ fun l => ?_
      have hl' : (l : ℕ) < inA.length := by rw [h.common.lenA]; exact l.2
      show (L.pick inB inA).hermitianPart.get k l * u l = if inA[(l : ℕ)] < A.len then L.get (inB.getD k 0) inA[(l : ℕ)] * w inA[(l : ℕ)] else 0
      rw [if_pos (h.common.ltA _ (List.getElem_mem hl')), hM k l hk l.2, show u l = w (inA.getD l 0) from rfl, List.getD_eq_getElem inA _ hl']
    obtain ⟨c, c1, c2⟩ := hE.expand hMh hlen hu
    obtain ⟨ul, hul1, hul2⟩ : ∃ v : List K, v.length = S.length ∧ ∀ j, j < S.length → v.getD j 0 = u j :=
      ⟨(List.range S.length).map u, by simp, fun j hj => by rw [List.getD_eq_getElem _ _ (by simpa using hj)]; simp⟩
    have hR : linComb R.den A.strs w = vecOp R.den A (scatterInto A.len inA ul) := by
      refine Finset.sum_congr rfl fun j _ => ?_
      beta_reduce
      congr 1
      by_cases hj : (j : ℕ) ∈ inA
      · obtain ⟨k, hk, e⟩ := List.getElem_of_mem hj
        rw [← e, scatterInto_get h.common.nodupA h.common.ltA (by rw [hul1, h.common.lenA]) hk, hul2 k (by rw [← h.common.lenA]; exact hk)]
        show w inA[k] = w (inA.getD k 0)
        rw [List.getD_eq_getElem inA _ hk]
      · rw [scatterInto_notMem hj, hw0 j j.2 hj]
    by_cases hz : ∃ k, k < S.length ∧ u k ≠ 0
    · obtain ⟨k0, hk0, hk1⟩ := hz
      have hneg : -δ ∈ r.1 := by
        refine hE.mem hMh hlen (u := fun k => star (u k)) (δ := -δ) (fun k hk => ?_) hk0 (by simpa using hk1)
        have := congrArg star (hu k hk)
        rw [star_sum, star_mul', hδ] at this
        rw [neg_mul, ← this, ← Finset.sum_neg_distrib]
        refine Finset.sum_congr rfl fun l _ => ?_
        rw [star_mul', hM k l hk l.2, (h.herm k l hk l.2).1]; ring
      have hexp : linComb R.den A.strs w = ∑ i : Fin r.2.length, c i • vecOp R.den A (scatterInto A.len inA r.2[i]) := by
        rw [hR, h.vecOp_scatter hul1]
        have : ∀ i : Fin r.2.length, vecOp R.den A (scatterInto A.len inA r.2[i]) = linComb R.den S (fun k => r.2[i].getD k 0) := fun i =>
          h.vecOp_scatter (hE.dim _ (List.getElem_mem _))
        simp only [this, linComb, Finset.smul_sum]
        rw [Finset.sum_comm]
        refine Finset.sum_congr rfl fun k _ => ?_
        rw [hul2 k k.2, c1 k k.2, Finset.sum_smul]
        exact Finset.sum_congr rfl fun i _ => by rw [smul_smul]
      rw [hexp]
      refine Submodule.sum_mem _ fun i _ => ?_
      by_cases hci : r.1[(i : ℕ)]? = some δ
      · refine Submodule.smul_mem _ _ (Submodule.subset_span ⟨(δ, scatterInto A.len inA r.2[i]), ?_, rfl, rfl⟩)
        rw [hl]
        refine List.mem_map.mpr ⟨(δ, r.2[i]), (mem_partnered hE.real).mpr ⟨?_, htol, hδt, -δ, hneg, ?_⟩, rfl⟩
        · obtain ⟨hi1, hi2⟩ := List.getElem?_eq_some_iff.mp hci
          rw [List.mem_iff_getElem]
          exact ⟨i, by rw [List.length_zip]; omega, by rw [List.getElem_zip, hi2]; rfl⟩
        · rw [add_neg_cancel, map_zero, norm_zero]; exact_mod_cast htol
      · rw [c2 i hci, zero_smul]; exact Submodule.zero_mem _
    · push Not at hz
      have : linComb R.den A.strs w = 0 := by
        rw [hR, h.vecOp_scatter hul1]
        exact Finset.sum_eq_zero fun k _ => by beta_reduce; rw [hul2 k k.2, hz k k.2, zero_smul]
      rw [this]; exact Submodule.zero_mem _

end closed

/-! ### sparsification -/

theorem vecOp_ne_zero [Nontrivial 𝔸] {R : StrAlg K 𝔸} {A : Basis} (hA : A.Inv) (hs : ∀ s ∈ A.strs, R.Str s ∧ s.Canonical) {v : List K}
    (hu : ∑ j : Fin A.len, star (v.getD j 0) * v.getD j 0 = 1) : vecOp R.den A v ≠ 0 := by
  intro h0
  have := R.independent hA.2 hs h0
  rw [Finset.sum_eq_zero] at hu
  · exact zero_ne_one hu
  · intro j _
    have := this j j.2
    rw [this, mul_zero]

theorem pairSpan_append (den : OpString → 𝔸) (A : Basis) (l m : List (K × List K)) (δ : K) : pairSpan den A (l ++ m) δ = pairSpan den A l δ ⊔ pairSpan den A m δ := by
  rw [pairSpan, pairSpan, pairSpan, ← Submodule.span_union]
  congr 1
  ext x
  simp only [List.mem_append, Set.mem_ofPred_eq, Set.mem_union]
  constructor
  · rintro ⟨e, h | h, h'⟩
    · exact Or.inl ⟨e, h, h'⟩
    · exact Or.inr ⟨e, h, h'⟩
  · rintro (⟨e, h, h'⟩ | ⟨e, h, h'⟩)
    · exact ⟨e, Or.inl h, h'⟩
    · exact ⟨e, Or.inr h, h'⟩

theorem pairSpan_split {den : OpString → 𝔸} {A : Basis} {l m r : List (K × List K)} (j : ℕ) (h1 : ∀ δ, pairSpan den A (l.take j) δ ≤ pairSpan den A m δ)
    (h2 : ∀ δ, pairSpan den A (l.drop j) δ ≤ pairSpan den A r δ) (δ : K) : pairSpan den A l δ ≤ pairSpan den A (m ++ r) δ := by
  have e : pairSpan den A l δ = pairSpan den A (l.take j ++ l.drop j) δ := by rw [List.take_append_drop]
  rw [e, pairSpan_append, pairSpan_append]
  exact sup_le_sup (h1 δ) (h2 δ)

theorem ladder_combination {O : 𝔸} {n : ℕ} {x : Fin n → 𝔸} {c : Fin n → K} {δ : K} (h : ∀ k, IsLadder O (x k) δ) : IsLadder O (∑ k, c k • x k) δ := by
  rw [IsLadder, Finset.smul_sum]
  have : bracketOf .commutator O (∑ k, c k • x k) = ∑ k, bracketOf .commutator O (c k • x k) := by
    simp only [bracketOf, Finset.mul_sum, Finset.sum_mul, Finset.sum_sub_distrib]
  rw [this]
  refine Finset.sum_congr rfl fun k _ => ?_
  rw [bracketOf_smul_right, h k, smul_comm]

/-- one group of equal values -/
theorem sparsify_group {R : StrAlg K 𝔸} {num : LadderNumerics K} (hnum : IsLadderNumerics num) {A : Basis} {O : Operator K} {tol : ℚ} {g : List (K × List K)} {δ : K}
    (hd : ∀ e ∈ g, e.1 = δ) (ho : OrthonormalVectors A.len (g.map (·.2))) (hg : ∀ e ∈ g, GoodPair R A O tol e) {vs : List (List K)}
    (h : num.sparsify (g.map (·.2)) = .ok vs) :
    (∀ e ∈ (g.map (·.1)).zip vs, GoodPair R A O tol e) ∧ ((g.map (·.1)).zip vs).map (·.1) = g.map (·.1) ∧
      ∀ ε, pairSpan R.den A g ε ≤ pairSpan R.den A ((g.map (·.1)).zip vs) ε := by
  obtain ⟨h1, h2, h3⟩ := hnum.sparsify A.len _ _ ho h
  rw [List.length_map] at h1
  have hlen : (g.map (·.1)).length = vs.length := by rw [List.length_map, h1]
  refine ⟨?_, List.map_fst_zip (le_of_eq hlen), ?_⟩
  · intro e he
    obtain ⟨a, b⟩ := List.of_mem_zip (show (e.1, e.2) ∈ _ from he)
    obtain ⟨p, hp, hpe⟩ := List.mem_map.mp a
    obtain ⟨k1, k2, c, k3⟩ := h2 _ b
    have hp' := hg p hp
    refine ⟨k1, k2, hpe ▸ hp'.real, hpe ▸ hp'.pos, ?_⟩
    have hδ : e.1 = δ := by rw [← hpe]; exact hd p hp
    rw [vecOp_combination R.den A k3, hδ]
    refine ladder_combination fun k => ?_
    obtain ⟨q, hq, hqe⟩ := List.mem_map.mp (List.getElem_mem (l := g.map (·.2)) k.2)
    show IsLadder _ (vecOp R.den A ((g.map (·.2))[(k : ℕ)])) δ
    rw [← hqe, ← hd q hq]
    exact (hg q hq).ladder
  · intro ε
    refine Submodule.span_le.mpr ?_
    rintro x ⟨e, he, rfl, rfl⟩
    obtain ⟨c, hc⟩ := h3 e.2 (List.mem_map_of_mem he)
    rw [vecOp_combination R.den A hc]
    refine Submodule.sum_mem _ fun k _ => Submodule.smul_mem _ _ (Submodule.subset_span ?_)
    have hk : (k : ℕ) < g.length := by rw [← h1]; exact k.2
    refine ⟨((g.map (·.1))[(k : ℕ)]'(by simpa using hk), vs[k]), ?_, ?_, rfl⟩
    · rw [List.mem_iff_getElem]
      exact ⟨k, by rw [List.length_zip, hlen, min_self]; exact k.2, by rw [List.getElem_zip]; rfl⟩
    · show (g.map (·.1))[(k : ℕ)]'(by simpa using hk) = e.1
      rw [List.getElem_map, hd _ (List.getElem_mem hk), hd e he]

theorem ladderSparsify_ok [Nontrivial 𝔸] {R : StrAlg K 𝔸} {num : LadderNumerics K} (hnum : IsLadderNumerics num) {A : Basis} (hA : A.Inv) (hs : ∀ s ∈ A.strs, R.Str s ∧ s.Canonical)
    {O : Operator K} (hsep : WellSeparated (K := K) R.den A.strs (O.den R.den)) {tol : ℚ} (n : ℕ) {l r : List (K × List K)}
    (ho : OrthonormalVectors A.len (l.map (·.2))) (hg : ∀ e ∈ l, GoodPair R A O tol e) (h : ladderSparsify num n l = .ok r) :
    (∀ e ∈ r, GoodPair R A O tol e) ∧ r.map (·.1) = l.map (·.1) ∧ ∀ δ, pairSpan R.den A l δ ≤ pairSpan R.den A r δ := by
  induction n generalizing l r with
  | zero =>
    rw [ladderSparsify] at h
    obtain rfl := Except.ok.inj h
    exact ⟨hg, rfl, fun _ => le_refl _⟩
  | succ n ih =>
    cases l with
    | nil =>
      rw [ladderSparsify] at h
      obtain rfl := Except.ok.inj h
      exact ⟨hg, rfl, fun _ => le_refl _⟩
      simp
    | cons e l =>
      rw [ladderSparsify] at h
      generalize hj : ((e :: l).findIdx? (fun x => absGt (x.1 - e.1) (1 / 10 ^ 10))).getD 0 = jump at h
      split at h
      · rename_i hjump
        obtain ⟨vs, hv, h⟩ := py_bind_ok h
        obtain ⟨rest, hrest, h⟩ := py_bind_ok h
        obtain rfl := Except.ok.inj h
        have hgroup : ∀ x ∈ (e :: l).take jump, x.1 = e.1 := by
          intro x hx
          cases hf : (e :: l).findIdx? (fun x => absGt (x.1 - e.1) (1 / 10 ^ 10)) with
          | none => rw [hf] at hj; simp at hj; omega
          | some j =>
            rw [hf] at hj
            simp only [Option.getD_some] at hj
            subst hj
            obtain ⟨i, hi, rfl⟩ := List.getElem_of_mem hx
            have hi' : i < j := by simp at hi; omega
            have hi2 : i < (e :: l).length := by simp at hi; simp; omega
            rw [List.findIdx?_eq_some_iff_getElem] at hf
            obtain ⟨hf1, hf2, hf3⟩ := hf
            have := hf3 i hi'
            rw [List.getElem_take]
            by_contra hne
            have hx1 := hg _ (List.getElem_mem hi2)
            have he1 := hg e (by simp)
            have := hsep (fun j => ((e :: l)[i]).2.getD j 0) (fun j => e.2.getD j 0) _ _ (vecOp_ne_zero hA hs hx1.unit) (vecOp_ne_zero hA hs he1.unit) hx1.ladder he1.ladder hne
            apply hf3 i hi'
            rw [absGt_iff]
            push_cast
            exact this
        have hsub1 : ((e :: l).take jump).Sublist (e :: l) := List.take_sublist _ _
        have hsub2 : ((e :: l).drop jump).Sublist (e :: l) := List.drop_sublist _ _
        obtain ⟨a1, a2, a3⟩ := sparsify_group hnum hgroup (ho.sublist (hsub1.map _)) (fun x hx => hg x (hsub1.subset hx)) hv
        obtain ⟨b1, b2, b3⟩ := ih (ho.sublist (hsub2.map _)) (fun x hx => hg x (hsub2.subset hx)) hrest
        refine ⟨?_, ?_, ?_⟩
        · intro x hx
          rcases List.mem_append.mp hx with hx | hx
          · exact a1 x hx
          · exact b1 x hx
        · show List.map (·.1) (_ ++ rest) = _
          rw [List.map_append, a2, b2, ← List.map_append, List.take_append_drop]
        · exact pairSpan_split jump a3 b3
      · obtain ⟨rest, hrest, h⟩ := py_bind_ok h
        obtain rfl := Except.ok.inj h
        obtain ⟨b1, b2, b3⟩ := ih (ho.sublist ((List.sublist_cons_self e l).map _)) (fun x hx => hg x (List.mem_cons_of_mem _ hx)) hrest
        refine ⟨?_, by rw [List.map_cons, List.map_cons, b2], fun δ => ?_⟩
        · intro x hx
          rcases List.mem_cons.mp hx with rfl | hx
          · exact hg x (by simp)
          · exact b1 x hx
        · rw [show e :: l = [e] ++ l from rfl, show e :: rest = [e] ++ rest from rfl, pairSpan_append, pairSpan_append]
          exact sup_le_sup (le_refl _) (b3 δ)

theorem pairSpan_perm (den : OpString → 𝔸) (A : Basis) {l m : List (K × List K)} (h : l.Perm m) (δ : K) : pairSpan den A l δ = pairSpan den A m δ := by
  rw [pairSpan, pairSpan]; congr 1; ext x
  simp only [Set.mem_ofPred_eq, h.mem_iff]

/-- `_ladder_operators` on a closed basis -/
theorem ladderVectors_closed [Nontrivial 𝔸] (R : StrAlg K 𝔸) {num : LadderNumerics K} (hnum : IsLadderNumerics num) {A : Basis} (hA : A.Inv) (hs : ∀ s ∈ A.strs, R.Str s ∧ s.Canonical)
    {O : Operator K} (hO : O.WF) (hOs : ∀ s ∈ O.basis.strs, R.Str s) (hr : ∀ x ∈ O.coeffs, IsReal x) (hcl : ClosedUnder R.Str R.den A.strs O) {sp : Bool}
    (hsp : sp = true → WellSeparated (K := K) R.den A.strs (O.den R.den)) {tol : ℚ} (htol : 0 < tol) {l : List (K × List K)} (h : ladderVectors num A O sp tol = .ok l) :
    (∀ e ∈ l, GoodPair R A O tol e) ∧ (l.map (·.1)).Pairwise (fun x y => ‖toC x‖ ≤ ‖toC y‖) ∧ (sp = false → OrthonormalVectors A.len (l.map (·.2))) ∧
      ∀ (w : ℕ → K) (δ : K), IsReal δ → (tol : ℝ) < toR δ → IsLadder (O.den R.den) (linComb R.den A.strs w) δ → linComb R.den A.strs w ∈ pairSpan R.den A l δ := by
  obtain ⟨L, B, S, inA, inB, notB, h1, -, h2, h3⟩ := ladderVectors_inv R hA hs hO hOs hr h
  have hBA : ∀ t ∈ B.strs, t ∈ A.strs := fun t ht => hcl t (h1.reached t ht)
  have hc : ∀ c, c < B.len → c ∈ inB := by
    intro c hc
    have hc' : c < B.strs.length := hc
    have hm := h1.common.mem _ (hBA _ (List.getElem_mem hc')) (List.getElem_mem hc')
    obtain ⟨k, hk, e⟩ := List.getElem_of_mem hm
    have := h1.common.getB k hk
    rw [List.getElem?_eq_getElem hk, e] at this
    obtain ⟨p, q⟩ := List.getElem?_eq_some_iff.mp this
    have := (List.Nodup.getElem_inj_iff h1.extInv.2).mp q
    rw [← this]
    exact getD_inA_mem (by rw [h1.common.lenB]; exact hk)
  have hnotB : notB = [] := by
    rw [List.eq_nil_iff_forall_not_mem]
    intro i hi
    have := (h2 i).mp hi
    exact this.2 (hc i this.1)
  rcases h3 with ⟨rfl, rfl⟩ | ⟨valid, P, r, sorted, k1, k2, k3, k4⟩
  · refine ⟨by simp, by simp, fun _ => ⟨by simp, by simp, by simp⟩, fun w δ hδ hδt hlad => ?_⟩
    -- no common strings: the commutator vanishes
    have hB : B.strs = [] := by
      rw [List.eq_nil_iff_forall_not_mem]
      intro t ht
      simpa using h1.common.mem t (hBA t ht) ht
    have hδ0 : δ ≠ 0 := by
      rintro rfl
      have : (0 : ℝ) < tol := by exact_mod_cast htol
      simp [toR] at hδt
      linarith
    obtain ⟨v, hv1, hv2⟩ : ∃ v : List K, v.length = A.len ∧ ∀ j, j < A.len → v.getD j 0 = w j :=
      ⟨(List.range A.len).map w, by simp, fun j hj => by rw [List.getD_eq_getElem _ _ (by simpa using hj)]; simp⟩
    have hvw : vecOp R.den A v = linComb R.den A.strs w := by
      rw [vecOp, linComb, linComb]; exact Finset.sum_congr rfl fun j _ => by rw [hv2 j j.2]
    have := h1.act v
    rw [hvw, hlad, linComb_eq_sum R.den B, Finset.sum_eq_zero] at this
    · rcases smul_eq_zero.mp this with e | e
      · exact absurd e hδ0
      · rw [e]; exact Submodule.zero_mem _
    · intro c _
      exact absurd c.2 (by show ¬ (c : ℕ) < B.strs.length; rw [hB]; simp)
  · unfold ladderProject at k1
    rw [hnotB] at k1
    simp only [List.isEmpty_nil, if_true, Except.ok.injEq, Prod.mk.injEq] at k1
    obtain ⟨rfl, rfl⟩ := k1
    have hH := hermitianPart_hermitian (L.pick inB inA)
    have hnr : (L.pick inB inA).hermitianPart.nrows = S.length := by rw [hH.1]; exact h1.common.lenB
    obtain ⟨e1, e2⟩ := hnum.eigh _ _ (by rw [hH.1]; exact hH) k2
    rw [hnr] at e1 e2
    obtain ⟨a1, a2, a3⟩ := h1.closed_pairs hc (tol := tol) e1 e2 rfl
    obtain ⟨s1, s2⟩ := ladderSort_ok hnum.argsort k3
    have b1 : OrthonormalVectors A.len (sorted.map (·.2)) := a1.perm (s1.map _)
    have b2 : ∀ e ∈ sorted, GoodPair R A O tol e := fun e he => a2 e (s1.subset he)
    have b3 : ∀ δ, pairSpan R.den A sorted δ = _ := fun δ => pairSpan_perm R.den A s1 δ
    rcases k4 with ⟨rfl, rfl⟩ | ⟨rfl, again, g1, g2⟩
    · exact ⟨b2, List.pairwise_map.mpr s2, fun _ => b1, fun w δ q1 q2 q3 => by rw [b3]; exact a3 htol w δ q1 q2 q3⟩
    · obtain ⟨t1, t2⟩ := ladderSort_ok hnum.argsort g1
      obtain ⟨u1, u2, u3⟩ := ladderSparsify_ok hnum hA hs (hsp rfl) _ (b1.perm (t1.map _)) (fun e he => b2 e (t1.subset he)) g2
      refine ⟨u1, by rw [u2]; exact List.pairwise_map.mpr t2, by simp, fun w δ q1 q2 q3 => ?_⟩
      apply u3 δ
      rw [pairSpan_perm R.den A t1, b3]
      exact a3 htol w δ q1 q2 q3

end Qosy
