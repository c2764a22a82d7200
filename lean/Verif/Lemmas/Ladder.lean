import Verif.Lemmas.LadderHermitian
import Verif.Lemmas.LadderLinAlg

/-! # The vectors of `_ladder_operators` -/

namespace Qosy
open Coef RealOps
variable {K : Type} [Field K] [StarRing K] [Coef K] [RealCoef K]
variable {𝔸 : Type} [Ring 𝔸] [Algebra K 𝔸]

/-! ### scattering a vector -/

theorem foldl_setAll_length {α : Type} (l : List (ℕ × α)) (v : List α) : (l.foldl (fun v e => v.set e.1 e.2) v).length = v.length := by
  induction l generalizing v with
  | nil => rfl
  | cons e l ih => rw [List.foldl_cons, ih, List.length_set]

theorem foldl_setAll_notMem {inds : List ℕ} {u : List K} {v : List K} {j : ℕ} (hj : j ∉ inds) :
    ((inds.zip u).foldl (fun v e => v.set e.1 e.2) v).getD j 0 = v.getD j 0 := by
  induction inds generalizing u v with
  | nil => simp
  | cons i inds ih =>
    cases u with
    | nil => simp
    | cons x u =>
      rw [List.zip_cons_cons, List.foldl_cons, ih (fun h => hj (List.mem_cons_of_mem _ h))]
      have : i ≠ j := fun e => hj (by simp [e])
      simp [List.getD_eq_getElem?_getD, this]

theorem foldl_setAll_get {inds : List ℕ} (hn : inds.Nodup) {u v : List K} (hl : u.length = inds.length) (hr : ∀ i ∈ inds, i < v.length) {k : ℕ} (hk : k < inds.length) :
    ((inds.zip u).foldl (fun v e => v.set e.1 e.2) v).getD inds[k] 0 = u.getD k 0 := by
  induction inds generalizing u v k with
  | nil => simp at hk
  | cons i inds ih =>
    cases u with
    | nil => simp at hl
    | cons x u =>
      rw [List.zip_cons_cons, List.foldl_cons]
      rw [List.nodup_cons] at hn
      cases k with
      | zero =>
        rw [List.getElem_cons_zero, foldl_setAll_notMem hn.1]
        have := hr i (by simp)
        simp [List.getD_eq_getElem?_getD, this]
      | succ k =>
        rw [List.getElem_cons_succ, ih hn.2 (by simpa using hl) (by intro i' hi'; rw [List.length_set]; exact hr i' (by simp [hi'])) (by simpa using hk)]
        rfl

theorem scatterInto_length (n : ℕ) (inds : List ℕ) (u : List K) : (scatterInto n inds u).length = n := by
  rw [scatterInto, foldl_setAll_length, List.length_replicate]

theorem scatterInto_get {n : ℕ} {inds : List ℕ} (hn : inds.Nodup) (hr : ∀ i ∈ inds, i < n) {u : List K} (hl : u.length = inds.length) {k : ℕ} (hk : k < inds.length) :
    (scatterInto n inds u).getD inds[k] 0 = u.getD k 0 :=
  foldl_setAll_get hn hl (by simpa using hr) hk

theorem scatterInto_notMem {n : ℕ} {inds : List ℕ} {u : List K} {j : ℕ} (hj : j ∉ inds) : (scatterInto n inds u).getD j 0 = 0 := by
  rw [scatterInto, foldl_setAll_notMem hj, List.getD_eq_getElem?_getD, List.getElem?_replicate]
  split <;> rfl

/-- a sum over the entries of a vector that vanishes outside the given positions -/
theorem ladder_sum_support {M : Type} [AddCommMonoid M] {n : ℕ} {inds : List ℕ} (hn : inds.Nodup) (hr : ∀ i ∈ inds, i < n) {g : ℕ → M} (hg : ∀ j, j ∉ inds → g j = 0) :
    ∑ j : Fin n, g j = ∑ k : Fin inds.length, g inds[k] := by
  have e : ∑ k : Fin inds.length, g inds[k] = ∑ j ∈ inds.toFinset, g j := by
    rw [List.sum_toFinset _ hn]; exact Fin.sum_univ_fun_getElem inds g
  rw [Fin.sum_univ_eq_sum_range g n, e]
  symm
  apply Finset.sum_subset
  · intro i hi; exact Finset.mem_range.mpr (hr i (List.mem_toFinset.mp hi))
  · intro j _ hj; exact hg j (fun h => hj (List.mem_toFinset.mpr h))

theorem scatterInto_sum {M : Type} [AddCommMonoid M] [Module K M] {n : ℕ} {inds : List ℕ} (hn : inds.Nodup) (hr : ∀ i ∈ inds, i < n) {u : List K} (hl : u.length = inds.length)
    (x : ℕ → M) : ∑ j : Fin n, (scatterInto n inds u).getD j 0 • x j = ∑ k : Fin inds.length, u.getD k 0 • x inds[k] := by
  rw [ladder_sum_support hn hr (g := fun j => (scatterInto n inds u).getD j 0 • x j) (fun j hj => by rw [scatterInto_notMem hj, zero_smul])]
  exact Finset.sum_congr rfl fun k _ => by rw [show inds[k] = inds[(k : ℕ)] from rfl, scatterInto_get hn hr hl k.2]

theorem scatterInto_ip {n : ℕ} {inds : List ℕ} (hn : inds.Nodup) (hr : ∀ i ∈ inds, i < n) {u w : List K} (hu : u.length = inds.length) (hw : w.length = inds.length) :
    ip n (scatterInto n inds u) (scatterInto n inds w) = ip inds.length u w := by
  rw [ip, ladder_sum_support hn hr (g := fun j => star ((scatterInto n inds u).getD j 0) * (scatterInto n inds w).getD j 0)
    (fun j hj => by rw [scatterInto_notMem hj, scatterInto_notMem hj]; simp), ip]
  exact Finset.sum_congr rfl fun k _ => by
    rw [show inds[k] = inds[(k : ℕ)] from rfl, scatterInto_get hn hr hu k.2, scatterInto_get hn hr hw k.2]

/-! ### common strings -/

theorem filter_range_map {α : Type} (l : List α) (p : α → Bool) :
    ((List.range l.length).filter (fun i => (l[i]?).any p)).map (fun i => l[i]?) = (l.filter p).map some := by
  induction l using List.reverseRecOn with
  | nil => rfl
  | append_singleton l x ih =>
    rw [List.length_append, List.length_singleton, List.range_succ, List.filter_append, List.map_append, List.filter_append, List.map_append]
    congr 1
    · rw [← ih]
      have : ∀ i ∈ List.range l.length, (l ++ [x])[i]? = l[i]? := fun i hi => List.getElem?_append_left (List.mem_range.mp hi)
      rw [List.filter_congr (fun i hi => by rw [this i hi])]
      exact List.map_congr_left fun i hi => this i (List.mem_of_mem_filter hi)
    · by_cases h : p x = true <;> simp [h]

/-- the strings both bases have, with their positions -/
structure CommonStrings (A B : Basis) (S : List OpString) (inA inB : List ℕ) : Prop where
  nodup : S.Nodup
  subA : ∀ s ∈ S, s ∈ A.strs
  subB : ∀ s ∈ S, s ∈ B.strs
  mem : ∀ s, s ∈ A.strs → s ∈ B.strs → s ∈ S
  lenA : inA.length = S.length
  lenB : inB.length = S.length
  nodupA : inA.Nodup
  getA : ∀ k, k < S.length → A.strs[inA.getD k 0]? = S[k]?
  getB : ∀ k, k < S.length → B.strs[inB.getD k 0]? = S[k]?
  ltA : ∀ i ∈ inA, i < A.len
  nodupB : inB.Nodup
  ltB : ∀ i ∈ inB, i < B.len

theorem common_ok {A B : Basis} (hA : A.Inv) (hB : B.Inv) : ∃ inA, (B.strs.filter A.contains).mapM A.index = .ok inA ∧
    CommonStrings A B (B.strs.filter A.contains) inA ((List.range B.len).filter (fun i => (B.strs[i]?).any A.contains)) := by
  obtain ⟨h1, h2⟩ := hA
  have hc : ∀ s, A.contains s = decide (s ∈ A.strs) := fun s => by
    have := Basis.contains_ofList A.strs s
    rwa [← h1] at this
  have hi : ∀ s ∈ B.strs.filter A.contains, A.index s = .ok (A.strs.idxOf s) := by
    intro s hs
    have hm : s ∈ A.strs := by have := List.of_mem_filter hs; rw [hc] at this; simpa using this
    have := Basis.index_ofList A.strs s
    rw [← h1, if_pos hm] at this
    exact this
  have hmA : ∀ s ∈ B.strs.filter A.contains, s ∈ A.strs := fun s hs => by have := List.of_mem_filter hs; rw [hc] at this; simpa using this
  refine ⟨_, mapM_ok hi, ⟨hB.2.filter _, hmA, fun s hs => List.mem_of_mem_filter hs, fun s a b => List.mem_filter.mpr ⟨b, by rw [hc]; simpa using a⟩, by simp, ?_, ?_, ?_, ?_, ?_,
    List.nodup_range.filter _, fun i hi => List.mem_range.mp (List.mem_of_mem_filter hi)⟩⟩
  · have := congrArg List.length (filter_range_map B.strs A.contains)
    rw [List.length_map, List.length_map] at this
    exact this
  · refine List.Nodup.map_on ?_ (hB.2.filter _)
    intro s hs t ht e
    exact (List.idxOf_inj (hmA s hs)).mp e
  · intro k hk
    rw [List.getD_eq_getElem _ _ (by simpa using hk), List.getElem_map, List.getElem?_eq_getElem hk]
    rw [List.getElem?_eq_getElem (List.idxOf_lt_length_iff.mpr (hmA _ (List.getElem_mem hk))), List.getElem_idxOf]
  · intro k hk
    have h := filter_range_map B.strs A.contains
    have hl : ((List.range B.strs.length).filter (fun i => (B.strs[i]?).any A.contains)).length = (B.strs.filter A.contains).length := by
      have := congrArg List.length h; simpa using this
    have h' := congrArg (fun l => l[k]?) h
    simp only [List.getElem?_map] at h'
    have hk' : k < ((List.range B.strs.length).filter (fun i => (B.strs[i]?).any A.contains)).length := by rw [hl]; exact hk
    show B.strs[((List.range B.strs.length).filter (fun i => (B.strs[i]?).any A.contains)).getD k 0]? = _
    rw [List.getElem?_eq_getElem hk', List.getElem?_eq_getElem hk, Option.map_some, Option.map_some, Option.some.injEq] at h'
    rw [List.getD_eq_getElem _ _ hk', h', List.getElem?_eq_getElem hk]
  · intro i hi
    obtain ⟨s, hs, rfl⟩ := List.mem_map.mp hi
    exact List.idxOf_lt_length_iff.mpr (hmA s hs)

/-! ### the action of the operator -/

/-- the operator with the coefficients `v` in a basis -/
def vecOp (den : OpString → 𝔸) (A : Basis) (v : List K) : 𝔸 := linComb den A.strs (fun j => v.getD j 0)

/-- what is known about the matrix `L` and the common strings `S` -/
structure LadderSetup (R : StrAlg K 𝔸) (A : Basis) (O : Operator K) (L : Mat K) (B : Basis) (S : List OpString) (inA inB : List ℕ) : Prop where
  inv : A.Inv
  str : ∀ s ∈ A.strs, R.Str s ∧ s.Canonical
  extInv : B.Inv
  extStr : ∀ s ∈ B.strs, R.Str s ∧ s.Canonical
  reached : ∀ t ∈ B.strs, Reached R.Str R.den A.strs O none t
  common : CommonStrings A B S inA inB
  act : ∀ v : List K, bracketOf .commutator (O.den R.den) (vecOp R.den A v) = linComb R.den B.strs (fun c => ∑ j : Fin A.len, L.get c j * v.getD j 0)
  herm : ∀ k l, k < S.length → l < S.length → star (L.get (inB.getD k 0) (inA.getD l 0)) = -L.get (inB.getD k 0) (inA.getD l 0) ∧
    L.get (inB.getD l 0) (inA.getD k 0) = star (L.get (inB.getD k 0) (inA.getD l 0))

theorem linComb_eq_sum (den : OpString → 𝔸) (A : Basis) (v : ℕ → K) : linComb den A.strs v = ∑ j : Fin A.len, v j • ((A.strs[(j : ℕ)]?).map den).getD 0 := by
  refine Finset.sum_congr rfl fun j _ => ?_
  rw [List.getElem?_eq_getElem j.2]; rfl

theorem Operator.neg_ok {A : Operator K} (hA : A.WF) : ∃ C, A.neg = .ok C ∧ C.WF ∧ C.basis.strs = A.basis.strs ∧ C.coeffs = A.coeffs.map (· * -1) ∧
    ∀ den : OpString → 𝔸, C.den den = -A.den den := by
  obtain ⟨C, h1, h2, h3, h4, h5⟩ := Operator.smul_ok hA (-1)
  refine ⟨C, h1, h2, h4, ?_, fun den => ?_⟩
  · rw [Operator.smul, mkOperator_ok hA.basis.2 hA.type] at h1
    simp only [Except.ok.injEq] at h1
    rw [← h1]
  · rw [← neg_one_smul K (A.den den)]
    exact denT_smul den (-1) h5

theorem ladderSetup_ok [Nontrivial 𝔸] (R : StrAlg K 𝔸) {A : Basis} (hA : A.Inv) (hs : ∀ s ∈ A.strs, R.Str s ∧ s.Canonical) {O : Operator K} (hO : O.WF)
    (hOs : ∀ s ∈ O.basis.strs, R.Str s) (hr : ∀ x ∈ O.coeffs, IsReal x) :
    ∃ minus L B inA, O.neg = .ok minus ∧ liouvillianStrings A minus .commutator = .ok (L, B) ∧ (B.strs.filter A.contains).mapM A.index = .ok inA ∧
      LadderSetup R A O L B (B.strs.filter A.contains) inA ((List.range B.len).filter (fun i => (B.strs[i]?).any A.contains)) := by
  obtain ⟨m, h1, h2, h3, h4, h5⟩ := Operator.neg_ok (𝔸 := 𝔸) hO
  have hms : ∀ s ∈ m.basis.strs, R.Str s := by rw [h3]; exact hOs
  obtain ⟨L, B, k1, k2⟩ := R.liouvillianStrings_ok .commutator (fun s h => (hs s h).1) hms
  obtain ⟨inA, c1, c2⟩ := common_ok hA k2.ext_inv
  have hreach := R.liouvillianStrings_mem h2.len (fun s h => (hs s h).1) hms k1
  refine ⟨m, L, B, inA, h1, k1, c1, hA, hs, k2.ext_inv, k2.ext_str, ?_, c2, ?_, ?_⟩
  · intro t ht
    obtain ⟨g1, s, g2, o, g3, g4⟩ := hreach t ht
    refine ⟨g1, s, g2, o, ?_, g4⟩
    rw [Operator.termStrs, Operator.terms, List.map_snd_zip (le_of_eq h2.len.symm), h3] at g3
    rw [Operator.termStrs, Operator.terms, List.map_snd_zip (le_of_eq hO.len.symm)]
    exact g3
  · intro v
    have := k2.mulVec (fun j => v.getD j 0)
    rw [← linComb_eq_sum R.den A (fun j => v.getD j 0)] at this
    have e : bracketOf .commutator (O.den R.den) (vecOp R.den A v) = bracketOf .commutator (vecOp R.den A v) (m.den R.den) := by
      rw [h5]
      simp only [bracketOf, mul_neg, neg_mul, sub_neg_eq_add, neg_add_eq_sub]
    rw [e, vecOp, ← this]
    refine Finset.sum_congr rfl fun c _ => ?_
    congr 1
    show ∑ j : Fin L.ncols, _ = _
    rw [k2.ncols]
  · intro k l hk hl
    have hbk := c2.getB k hk
    have hbl := c2.getB l hl
    have hak := c2.getA k hk
    have hal := c2.getA l hl
    rw [List.getElem?_eq_getElem hk] at hbk hak
    rw [List.getElem?_eq_getElem hl] at hbl hal
    obtain ⟨p1, q1⟩ := List.getElem?_eq_some_iff.mp hbk
    obtain ⟨p2, q2⟩ := List.getElem?_eq_some_iff.mp hbl
    obtain ⟨p3, q3⟩ := List.getElem?_eq_some_iff.mp hak
    obtain ⟨p4, q4⟩ := List.getElem?_eq_some_iff.mp hal
    have hmr : ∀ x ∈ m.coeffs, star x = x := by
      rw [h4]
      intro x hx
      obtain ⟨y, hy, rfl⟩ := List.mem_map.mp hx
      rw [star_mul', hr y hy, star_neg, star_one]
    exact R.liouvillian_hermitian (fun s h => (hs s h).1) hms hmr k1 k2.ext_str p1 p2 p3 p4 (q1.trans q3.symm) (q2.trans q4.symm)

end Qosy
