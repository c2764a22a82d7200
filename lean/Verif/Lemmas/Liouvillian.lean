import Verif.Lemmas.StructureConstants
import Verif.Lemmas.Vector
import Mathlib.LinearAlgebra.Matrix.PosDef
import Mathlib.Analysis.Complex.Order

/-! # Liouvillian and commutant matrices -/

namespace Qosy
open Coef
open scoped ComplexOrder
variable {K : Type} [Field K] [StarRing K] [Coef K]
variable {𝔸 : Type} [Ring 𝔸] [Algebra K 𝔸]

/-! ### bilinearity of the bracket -/

theorem bracketOf_smul_left (mode : Mode) (a : K) (x y : 𝔸) : bracketOf mode (a • x) y = a • bracketOf mode x y := by
  have := bracketOf_smul mode a (1 : K) x y
  simpa using this

theorem bracketOf_smul_right (mode : Mode) (b : K) (x y : 𝔸) : bracketOf mode x (b • y) = b • bracketOf mode x y := by
  have := bracketOf_smul mode (1 : K) b x y
  simpa using this

theorem bracketOf_sum_left (mode : Mode) {ι : Type} (s : Finset ι) (f : ι → 𝔸) (y : 𝔸) :
    bracketOf mode (∑ i ∈ s, f i) y = ∑ i ∈ s, bracketOf mode (f i) y := by
  classical
  induction s using Finset.induction_on with
  | empty => simp [bracketOf_zero_left]
  | insert a s ha ih => rw [Finset.sum_insert ha, Finset.sum_insert ha, bracketOf_add_left, ih]

theorem bracketOf_denT_right (mode : Mode) (den : OpString → 𝔸) (x : 𝔸) (ts : List (K × OpString)) :
    bracketOf mode x (denT den ts) = (ts.map (fun t => t.1 • bracketOf mode x (den t.2))).sum := by
  induction ts with
  | nil => simp [bracketOf_zero_right]
  | cons t ts ih => rw [denT_cons, bracketOf_add_right, ih, bracketOf_smul_right, List.map_cons, List.sum_cons]

/-! ### the coefficients of a bracket reproduce it -/

theorem sum_single_of_nodup {M : Type} [AddCommMonoid M] {strs : List OpString} (hn : strs.Nodup) {C : OpString} (hC : C ∈ strs)
    (f : OpString → M) : ∑ c : Fin strs.length, (if strs[c] = C then f strs[c] else 0) = f C := by
  obtain ⟨i, hi, rfl⟩ := List.getElem_of_mem hC
  rw [Finset.sum_eq_single (⟨i, hi⟩ : Fin strs.length)]
  · simp
  · intro b _ hb
    rw [if_neg]
    intro e
    exact hb (Fin.ext ((List.Nodup.getElem_inj_iff hn).mp e))
  · simp

theorem StrAlg.scEntry_sum (R : StrAlg K 𝔸) (mode : Mode) {sA sB : OpString} (hA : R.Str sA) (hB : R.Str sB) {strs : List OpString}
    (hn : strs.Nodup) (hm : scMem K mode sA sB strs) :
    ∑ c : Fin strs.length, scEntry K mode sA sB strs[c] • R.den strs[c] = bracketOf mode (R.den sA) (R.den sB) := by
  rcases R.op_string mode hA hB with ⟨h1, h2⟩ | ⟨c, C, h1, h2, h3, _⟩
  · rw [h2]
    apply Finset.sum_eq_zero
    intro i _
    simp [scEntry, h1]
  · rw [h3, ← sum_single_of_nodup hn (hm c C h1) (fun D => c • R.den D)]
    apply Finset.sum_congr rfl
    intro i _
    by_cases e : C = strs[i]
    · simp only [scEntry, h1, e, if_true]
    · rw [if_neg (Ne.symm e)]; simp only [scEntry, h1]; rw [if_neg e, zero_smul]

/-- the strings of the extended basis are canonical -/
theorem StrAlg.scProd_res (R : StrAlg K 𝔸) {mode : Mode} {LA LB : List OpString} (hA : ∀ s ∈ LA, R.Str s) (hB : ∀ s ∈ LB, R.Str s)
    {C : OpString} (h : ScProd K mode LA LB C) : R.Str C ∧ C.Canonical := by
  obtain ⟨sA, h1, sB, h2, c, hc⟩ := h
  rcases R.op_string mode (hA sA h1) (hB sB h2) with ⟨g1, _⟩ | ⟨c', C', g1, g2, _, _, g5, _, g7⟩
  · rw [g1] at hc; simp at hc
  · rw [g1] at hc
    simp only [Except.ok.injEq, Prod.mk.injEq, Option.some.injEq] at hc
    rw [← hc.2]; exact ⟨g2, g5, g7⟩

theorem sum_list_smul {M : Type} [AddCommMonoid M] [Module K M] {n : ℕ} {α : Type} (f : Fin n → α → K) (x : Fin n → M) (ts : List α) :
    ∑ c, (ts.map (f c)).sum • x c = (ts.map (fun t => ∑ c, f c t • x c)).sum := by
  induction ts with
  | nil => simp
  | cons t ts ih => simp only [List.map_cons, List.sum_cons, add_smul, Finset.sum_add_distrib, ih]

/-! ### Liouvillian matrices -/

/-- what a Liouvillian matrix `L` with extended basis `ext` satisfies for the columns `x 0, …, x (n-1)` and the operator `y` -/
structure LiouvilleOK (den : OpString → 𝔸) (Str : OpString → Prop) (mode : Mode) (n : ℕ) (x : ℕ → 𝔸) (y : 𝔸) (L : Mat K) (ext : Basis) : Prop where
  nrows : L.nrows = ext.len
  ncols : L.ncols = n
  wf : L.WF
  ext_inv : ext.Inv
  ext_str : ∀ s ∈ ext.strs, Str s ∧ s.Canonical
  col : ∀ j, j < n → ∑ c : Fin ext.strs.length, L.get c j • den ext.strs[c] = bracketOf mode (x j) y

theorem LiouvilleOK.mulVec {den : OpString → 𝔸} {Str : OpString → Prop} {mode : Mode} {n : ℕ} {x : ℕ → 𝔸} {y : 𝔸} {L : Mat K} {ext : Basis}
    (h : LiouvilleOK den Str mode n x y L ext) (v : ℕ → K) :
    linComb den ext.strs (L.mulVec v) = bracketOf mode (∑ j : Fin n, v j • x j) y := by
  have hn := h.ncols
  subst hn
  rw [bracketOf_sum_left, linComb]
  simp only [Mat.mulVec, Finset.sum_smul]
  rw [Finset.sum_comm]
  apply Finset.sum_congr rfl
  intro j _
  rw [bracketOf_smul_left, ← h.col j j.2, Finset.smul_sum]
  apply Finset.sum_congr rfl
  intro c _
  rw [smul_smul, mul_comm]

theorem Operator.WF.mem_basis_of_terms {A : Operator K} {t : K × OpString} (h : t ∈ A.terms) : t.2 ∈ A.basis.strs := mem_terms h

theorem StrAlg.liouvillianStrings_ok (R : StrAlg K 𝔸) (mode : Mode) {A : Basis} {O : Operator K}
    (hA : ∀ s ∈ A.strs, R.Str s) (hO : ∀ s ∈ O.basis.strs, R.Str s) :
    ∃ L ext, liouvillianStrings A O mode = .ok (L, ext) ∧
      LiouvilleOK R.den R.Str mode A.len (fun j => ((A.strs[j]?).map R.den).getD 0) (O.den R.den) L ext := by
  obtain ⟨sc, strs, h1, h2, h3, h4, h5⟩ := R.structureConstants_ok mode (tol := 1 / 10 ^ 16) (by norm_num) (by norm_num) hA hO
  have hf : ∀ t ∈ O.terms, ∃ M : Mat K, sc.lookup t.2 = .ok M ∧ M.nrows = strs.length ∧ M.ncols = A.len ∧ M.WF ∧
      ScInv mode t.2 A.strs strs M.data := by
    intro t ht
    obtain ⟨D, g1, g2⟩ := h3 t.2 (mem_terms ht)
    exact ⟨⟨strs.length, A.len, D⟩, by rw [Dict.lookup, g1], rfl, rfl, g2.range, g2⟩
  obtain ⟨L, k1, k2, k3, k4, k5⟩ := matSum_ok (fun t : K × OpString => t.1) (fun t => sc.lookup t.2) O.terms
    (Mat.zero strs.length A.len) rfl rfl (by intro e he; simp [Mat.zero] at he)
    (fun t ht => by obtain ⟨M, g1, g2, g3, g4, _⟩ := hf t ht; exact ⟨M, g1, g2, g3, g4⟩)
  refine ⟨L, Basis.ofList strs, ?_, ?_⟩
  · simp only [liouvillianStrings, h1, bind, Except.bind, Basis.ofList_len]
    simp only [bind, Except.bind] at k1
    rw [k1]
  · refine ⟨k2, k3, k4, Basis.Inv.ofList h2, fun s hs => R.scProd_res hA hO (h5 s hs), ?_⟩
    intro j hj
    have hj' : j < A.strs.length := hj
    simp only [Basis.ofList_strs]
    have e0 : ∀ i, (Mat.zero strs.length A.len : Mat K).get i j = 0 := fun _ => rfl
    rw [Operator.den, bracketOf_denT_right]
    simp only [List.getElem?_eq_getElem hj', Option.map_some, Option.getD_some]
    have hterm : ∀ t ∈ O.terms, t.1 • bracketOf mode (R.den A.strs[j]) (R.den t.2) =
        ∑ c : Fin strs.length, (match sc.lookup t.2 with | .ok M => t.1 * M.get c j | .error _ => 0) • R.den strs[c] := by
      intro t ht
      obtain ⟨M, g1, _, _, _, g5⟩ := hf t ht
      rw [← R.scEntry_sum mode (hA _ (List.getElem_mem hj')) (hO _ (mem_terms ht)) h2 (g5.mem _ (List.getElem_mem hj')), Finset.smul_sum]
      apply Finset.sum_congr rfl
      intro c _
      rw [g1, smul_smul]
      congr 2
      rw [Mat.get_eq, g5.entry]
      simp [List.getElem?_eq_getElem hj']
    rw [List.map_congr_left hterm]
    simp only [k5, e0, zero_add]
    exact sum_list_smul _ _ _

/-! ### a list of operators as columns -/

theorem operatorsData_row {basis : List OpString} (j : ℕ) :
    ∀ (ts : List (K × OpString)) (D : List (ℕ × ℕ × K)), (∀ t ∈ ts, t.2 ∈ basis) →
    ∃ D', ts.foldlM (fun data t => do
        let i ← (Basis.ofList basis).index t.2
        Except.ok (data ++ [(i, j, t.1)])) D = (.ok (D ++ D') : Py _) ∧
      (∀ e ∈ D', e.1 < basis.length ∧ e.2.1 = j) ∧
      ∀ (i : ℕ) (hi : i < basis.length), basis.Nodup → tget D' i j = coefT ts basis[i] := by
  intro ts
  induction ts with
  | nil => intro D _; exact ⟨[], by simp; rfl, by simp, by simp⟩
  | cons t ts ih =>
    intro D h
    have ht := h t (List.mem_cons_self ..)
    obtain ⟨D', h1, h2, h3⟩ := ih (D ++ [(basis.idxOf t.2, j, t.1)]) (fun t' h' => h t' (List.mem_cons_of_mem _ h'))
    refine ⟨(basis.idxOf t.2, j, t.1) :: D', ?_, ?_, ?_⟩
    · rw [List.foldlM_cons, Basis.index_ofList, if_pos ht]
      simp only [bind, Except.bind] at h1 ⊢
      rw [h1]; simp
    · intro e he
      rcases List.mem_cons.mp he with rfl | he
      · exact ⟨List.idxOf_lt_length_of_mem ht, rfl⟩
      · exact h2 e he
    · intro i hi hn
      rw [tget_cons, h3 i hi hn, coefT_cons]
      congr 1
      by_cases e : t.2 = basis[i]
      · rw [if_pos e, if_pos]; exact ⟨by rw [e]; exact List.Nodup.idxOf_getElem hn _ hi, rfl⟩
      · rw [if_neg e, if_neg]
        rintro ⟨h', _⟩
        apply e
        subst h'
        exact (List.getElem_idxOf _).symm

theorem operatorsData_ok {basis : List OpString} (hn : basis.Nodup) :
    ∀ (ops : List (Operator K)) (k : ℕ) (D : List (ℕ × ℕ × K)), (∀ o ∈ ops, ∀ s ∈ o.basis.strs, s ∈ basis) →
    ∃ D', (ops.zipIdx k).foldlM (fun data o =>
      o.1.terms.foldlM (fun data t => do
        let i ← (Basis.ofList basis).index t.2
        Except.ok (data ++ [(i, o.2, t.1)])) data) D = (.ok (D ++ D') : Py _) ∧
      (∀ e ∈ D', e.1 < basis.length ∧ k ≤ e.2.1 ∧ e.2.1 < k + ops.length) ∧
      ∀ (i : ℕ) (hi : i < basis.length) (j : ℕ) (hj : j < ops.length), tget D' i (k + j) = coefT ops[j].terms basis[i] := by
  intro ops
  induction ops with
  | nil => intro k D _; exact ⟨[], by simp; rfl, by simp, by simp⟩
  | cons o ops ih =>
    intro k D h
    obtain ⟨D1, h1, h2, h3⟩ := operatorsData_row k o.terms D (fun t ht => h o (List.mem_cons_self ..) t.2 (mem_terms ht))
    obtain ⟨D2, k1, k2, k3⟩ := ih (k + 1) (D ++ D1) (fun o' h' => h o' (List.mem_cons_of_mem _ h'))
    refine ⟨D1 ++ D2, ?_, ?_, ?_⟩
    · rw [List.zipIdx_cons, List.foldlM_cons]
      simp only [bind, Except.bind] at h1 k1 ⊢
      rw [h1]
      simp only
      rw [k1, List.append_assoc]
    · intro e he
      rcases List.mem_append.mp he with he | he
      · have := h2 e he; simp; omega
      · have := k2 e he; simp; omega
    · intro i hi j hj
      rw [tget_append]
      cases j with
      | zero =>
        rw [add_zero, h3 i hi hn, tget_eq_zero (fun e he => Or.inr (by have := k2 e he; omega)), add_zero]; rfl
      | succ j =>
        have e1 : k + (j + 1) = (k + 1) + j := by omega
        rw [tget_eq_zero (D := D1) (fun e he => Or.inr (by have := h2 e he; omega)), zero_add, e1]
        exact k3 i hi j (by simpa using hj)

theorem foldl_iadd_ofList : ∀ (ops : List (Operator K)) (l : List OpString), l.Nodup →
    ∃ l', ops.foldl (fun b op => b.iadd op.basis) (Basis.ofList l) = Basis.ofList l' ∧ l'.Nodup ∧
      ∀ s, s ∈ l' ↔ s ∈ l ∨ ∃ o ∈ ops, s ∈ o.basis.strs := by
  intro ops
  induction ops with
  | nil => intro l h; exact ⟨l, rfl, h, by simp⟩
  | cons o ops ih =>
    intro l h
    obtain ⟨l', h1, h2, h3⟩ := ih (unionList l o.basis.strs) (unionList_nodup h _)
    refine ⟨l', ?_, h2, ?_⟩
    · rw [List.foldl_cons, Basis.iadd_ofList h]; exact h1
    · intro s
      rw [h3, mem_unionList]
      simp only [List.mem_cons, exists_eq_or_imp]
      tauto

/-- a linear combination as a sum over a list of distinct strings containing all of its strings -/
theorem denT_eq_sum {M : Type} [AddCommMonoid M] [Module K M] (den : OpString → M) {basis : List OpString} (hn : basis.Nodup)
    (ts : List (K × OpString)) (h : ∀ t ∈ ts, t.2 ∈ basis) :
    ∑ i : Fin basis.length, coefT ts basis[i] • den basis[i] = denT den ts := by
  induction ts with
  | nil => simp
  | cons t ts ih =>
    simp only [coefT_cons, add_smul, Finset.sum_add_distrib, denT_cons]
    rw [ih (fun t' h' => h t' (List.mem_cons_of_mem _ h'))]
    congr 1
    rw [← sum_single_of_nodup hn (h t (List.mem_cons_self ..)) (fun D => t.1 • den D)]
    apply Finset.sum_congr rfl
    intro i _
    by_cases e : t.2 = basis[i]
    · rw [if_pos e, if_pos e.symm]
    · rw [if_neg e, if_neg (Ne.symm e), zero_smul]

theorem StrAlg.liouvillianOperators_ok (R : StrAlg K 𝔸) (mode : Mode) {ops : List (Operator K)} {O : Operator K}
    (hA : ∀ o ∈ ops, ∀ s ∈ o.basis.strs, R.Str s) (hO : ∀ s ∈ O.basis.strs, R.Str s) :
    ∃ L ext, liouvillianOperators ops O mode = .ok (L, ext) ∧
      LiouvilleOK R.den R.Str mode ops.length (fun j => ((ops[j]?).map (fun o => o.den R.den)).getD 0) (O.den R.den) L ext := by
  obtain ⟨l, b1, b2, b3⟩ := foldl_iadd_ofList ops [] (by simp)
  simp only [List.not_mem_nil, false_or] at b3
  have hl : ∀ s ∈ (Basis.ofList l).strs, R.Str s := by
    intro s hs
    obtain ⟨o, ho, hso⟩ := (b3 s).mp hs
    exact hA o ho s hso
  obtain ⟨sc, strs, h1, h2, h3, h4, h5⟩ := R.structureConstants_ok mode (tol := 1 / 10 ^ 16) (by norm_num) (by norm_num) hl hO
  obtain ⟨D, d1, d2, d3⟩ := operatorsData_ok (K := K) b2 ops 0 [] (fun o ho s hs => (b3 s).mpr ⟨o, ho, hs⟩)
  simp only [List.nil_append, zero_add] at d1 d2 d3
  have hVwf : (⟨l.length, ops.length, D⟩ : Mat K).WF := fun e he => ⟨(d2 e he).1, (d2 e he).2.2⟩
  have hf : ∀ t ∈ O.terms, ∃ M : Mat K, (do let M ← sc.lookup t.2; M.dot ⟨l.length, ops.length, D⟩) = Except.ok M ∧ M.nrows = strs.length ∧
      M.ncols = ops.length ∧ M.WF ∧ ∃ N : Mat K, sc.lookup t.2 = .ok N ∧ ScInv mode t.2 l strs N.data ∧
        ∀ i j, M.get i j = ∑ k : Fin l.length, N.get i k * tget D k j := by
    intro t ht
    obtain ⟨E, g1, g2⟩ := h3 t.2 (mem_terms ht)
    obtain ⟨P, p1, p2, p3, p4, p5⟩ := Mat.dot_ok (M := ⟨strs.length, (Basis.ofList l).len, E⟩) (N := ⟨l.length, ops.length, D⟩) g2.range hVwf rfl
    refine ⟨P, ?_, p2, p3, p4, ⟨strs.length, (Basis.ofList l).len, E⟩, by rw [Dict.lookup, g1], g2, p5⟩
    rw [Dict.lookup, g1]
    exact p1
  obtain ⟨L, k1, k2, k3, k4, k5⟩ := matSum_ok (fun t : K × OpString => t.1)
    (fun t => do let M ← sc.lookup t.2; M.dot ⟨l.length, ops.length, D⟩) O.terms
    (Mat.zero strs.length ops.length) rfl rfl (by intro e he; simp [Mat.zero] at he)
    (fun t ht => by obtain ⟨M, g1, g2, g3, g4, _⟩ := hf t ht; exact ⟨M, g1, g2, g3, g4⟩)
  refine ⟨L, Basis.ofList strs, ?_, ?_⟩
  · have e0 : (emptyBasis : Basis) = Basis.ofList [] := rfl
    have hcsr : mkCsr D l.length ops.length = .ok ⟨l.length, ops.length, D⟩ := mkCsr_ok hVwf
    simp only [liouvillianOperators, operatorsData, e0, b1, h1, bind, Except.bind, Basis.ofList_len] at d1 ⊢
    rw [d1]
    simp only [hcsr]
    simp only [bind_assoc] at k1
    simp only [bind, Except.bind] at k1
    rw [k1]
  · refine ⟨k2, k3, k4, Basis.Inv.ofList h2, fun s hs => R.scProd_res hl hO (h5 s hs), ?_⟩
    intro j hj
    simp only [Basis.ofList_strs]
    have e0 : ∀ i, (Mat.zero strs.length ops.length : Mat K).get i j = 0 := fun _ => rfl
    rw [Operator.den, bracketOf_denT_right]
    simp only [List.getElem?_eq_getElem hj, Option.map_some, Option.getD_some]
    have hcol : ops[j].den R.den = ∑ k : Fin l.length, tget D k j • R.den l[k] := by
      rw [Operator.den, ← denT_eq_sum R.den b2 _ (fun t ht => (b3 _).mpr ⟨_, List.getElem_mem hj, mem_terms ht⟩)]
      apply Finset.sum_congr rfl
      intro k _
      rw [d3 k k.2 j hj]
      rfl
    have hterm : ∀ t ∈ O.terms, t.1 • bracketOf mode (ops[j].den R.den) (R.den t.2) =
        ∑ c : Fin strs.length, (match (do let M ← sc.lookup t.2; M.dot ⟨l.length, ops.length, D⟩ : Py (Mat K)) with
          | .ok M => t.1 * M.get c j | .error _ => 0) • R.den strs[c] := by
      intro t ht
      obtain ⟨M, g1, _, _, _, N, g5, g6, g7⟩ := hf t ht
      rw [g1, hcol, bracketOf_sum_left]
      simp only [g7, Finset.mul_sum, Finset.sum_smul]
      rw [Finset.sum_comm, Finset.smul_sum]
      apply Finset.sum_congr rfl
      intro k _
      have hk : R.Str l[k] := hl _ (List.getElem_mem k.2)
      rw [bracketOf_smul_left, ← R.scEntry_sum mode hk (hO _ (mem_terms ht)) h2 (g6.mem _ (List.getElem_mem k.2)), Finset.smul_sum, Finset.smul_sum]
      apply Finset.sum_congr rfl
      intro c _
      rw [smul_smul, smul_smul]
      congr 1
      rw [Mat.get_eq, g6.entry]
      simp
      ring
    rw [List.map_congr_left hterm]
    simp only [k5, e0, zero_add]
    exact sum_list_smul _ _ _

/-! ### summary -/

theorem StrAlg.isStructureConstants (R : StrAlg K 𝔸) (mode : Mode) {tol : ℚ} (h0 : 0 < tol) (h1 : tol ≤ 1) {A B : Basis}
    (hA : ∀ s ∈ A.strs, R.Str s) (hB : ∀ s ∈ B.strs, R.Str s) :
    ∃ (N : Dict (Mat K)) (ext : Basis), structureConstants A B mode tol = .ok (N, ext) ∧ IsStructureConstants R.den mode A B N ext ∧
      ∀ s ∈ ext.strs, R.Str s ∧ s.Canonical := by
  obtain ⟨sc, strs, h1, h2, h3, h4, h5⟩ := R.structureConstants_ok mode h0 h1 hA hB
  refine ⟨sc, Basis.ofList strs, h1, ⟨(Basis.Inv.ofList h2).indexedSet, ?_, ?_, ?_⟩, fun s hs => R.scProd_res hA hB (h5 s hs)⟩
  · intro s hs
    rw [← h4] at hs
    exact Dict.get?_eq_none.mpr hs
  · intro sB hsB
    obtain ⟨D, g1, g2⟩ := h3 sB hsB
    refine ⟨_, g1, rfl, rfl, ?_⟩
    intro a ha
    rw [← R.scEntry_sum mode (hA _ (List.getElem_mem ha)) (hB _ hsB) h2 (g2.mem _ (List.getElem_mem ha))]
    apply Finset.sum_congr rfl
    intro c _
    rw [Mat.get_eq, g2.entry]
    simp [List.getElem?_eq_getElem ha]
  · intro s hs
    obtain ⟨sA, g1, sB, g2, c, g3⟩ := h5 s hs
    refine ⟨sA, g1, sB, g2, c, ?_⟩
    rcases R.op_string mode (hA sA g1) (hB sB g2) with ⟨k1, _⟩ | ⟨c', C', k1, _, k3, k4, _⟩
    · rw [k1] at g3; simp at g3
    · rw [k1] at g3
      simp only [Except.ok.injEq, Prod.mk.injEq, Option.some.injEq] at g3
      obtain ⟨rfl, rfl⟩ := g3
      refine ⟨?_, k3⟩
      rintro rfl
      cases mode <;> simp [bracketFactor] at k4

theorem StrAlg.liouvillian_ok (R : StrAlg K 𝔸) (mode : Mode) {x : BasisArg K} {O : Operator K} (hx : x.All R.Str)
    (hne : x ≠ .operators []) (hO : ∀ s ∈ O.basis.strs, R.Str s) :
    ∃ L ext, liouvillianMatrix x O mode = .ok (L, ext) ∧
      LiouvilleOK R.den R.Str mode (x.den R.den).length (fun j => ((x.den R.den)[j]?).getD 0) (O.den R.den) L ext := by
  match x, hx, hne with
  | .strings b, hx, _ =>
    obtain ⟨L, ext, h1, h2⟩ := R.liouvillianStrings_ok mode hx hO
    refine ⟨L, ext, h1, ?_⟩
    simpa [BasisArg.den, Basis.len] using h2
  | .operators [], _, h => exact absurd rfl h
  | .operators (o :: l), hx, _ =>
    obtain ⟨L, ext, h1, h2⟩ := R.liouvillianOperators_ok mode hx hO
    refine ⟨L, ext, h1, ?_⟩
    simp only [BasisArg.den, List.length_map, List.getElem?_map]
    exact h2

theorem LiouvilleOK.isLiouvillian {den : OpString → 𝔸} {Str : OpString → Prop} {mode : Mode} {x : List 𝔸} {y : 𝔸} {L : Mat K} {ext : Basis}
    (h : LiouvilleOK den Str mode x.length (fun j => (x[j]?).getD 0) y L ext) : IsLiouvillian den mode x y L ext := by
  refine ⟨h.ext_inv.indexedSet, h.nrows, h.ncols, ?_⟩
  intro v
  rw [h.mulVec v]
  simp

theorem square_posSemidef {L C : Mat K} {n : ℕ} (h : ∀ i j, C.get i j = ∑ k : Fin L.nrows, star (L.get k i) * L.get k j) :
    (C.square n).PosSemidef := by
  let A : Matrix (Fin L.nrows) (Fin n) ℂ := fun k j => toC (L.get k j)
  have : C.square n = A.conjTranspose * A := by
    ext i j
    rw [Matrix.mul_apply]
    simp only [Mat.square, h, map_sum, map_mul, toC_star]
    rfl
  rw [this]
  exact Matrix.posSemidef_conjTranspose_mul_self A

theorem square_form {L C : Mat K} (h : ∀ i j, C.get i j = ∑ k : Fin L.nrows, star (L.get k i) * L.get k j) (v : ℕ → K) :
    ∑ i : Fin L.ncols, ∑ j : Fin L.ncols, star (v i) * C.get i j * v j = ∑ k : Fin L.nrows, star (L.mulVec v k) * L.mulVec v k := by
  simp only [h, Mat.mulVec, Finset.mul_sum, Finset.sum_mul, star_sum, star_mul']
  rw [Finset.sum_comm' (t' := Finset.univ) (s' := fun _ => Finset.univ) (by simp)]
  rw [Finset.sum_comm]
  conv_lhs => enter [2, i]; rw [Finset.sum_comm]
  rw [Finset.sum_comm]
  apply Finset.sum_congr rfl; intro k _
  rw [Finset.sum_comm]
  apply Finset.sum_congr rfl; intro i _
  apply Finset.sum_congr rfl; intro j _
  ring

theorem star_mul_sum_eq_zero {n : ℕ} {w : Fin n → K} (h : ∑ k, star (w k) * w k = 0) (k : Fin n) : w k = 0 := by
  have h' : ∑ k, Complex.normSq (toC (w k)) = 0 := by
    have := congrArg (toC (K := K)) h
    rw [map_sum, map_zero] at this
    have e : ∀ k, toC (star (w k) * w k) = ((Complex.normSq (toC (w k)) : ℝ) : ℂ) := by
      intro k
      rw [map_mul, toC_star, Complex.normSq_eq_conj_mul_self]; rfl
    simp only [e] at this
    exact_mod_cast this
  rw [Finset.sum_eq_zero_iff_of_nonneg (fun _ _ => Complex.normSq_nonneg _)] at h'
  have := h' k (Finset.mem_univ _)
  rw [Complex.normSq_eq_zero] at this
  apply toC_inj; simpa using this

theorem StrAlg.commutant_ok (R : StrAlg K 𝔸) (mode : Mode) {x : BasisArg K} {O : Operator K} (hx : x.All R.Str)
    (hne : x ≠ .operators []) (hO : ∀ s ∈ O.basis.strs, R.Str s) :
    ∃ L C ext, liouvillianMatrix x O mode = .ok (L, ext) ∧ commutantMatrix x O mode = .ok (C, ext) ∧
      LiouvilleOK R.den R.Str mode (x.den R.den).length (fun j => ((x.den R.den)[j]?).getD 0) (O.den R.den) L ext ∧
      C.nrows = (x.den R.den).length ∧ C.ncols = (x.den R.den).length ∧
      ∀ i j, C.get i j = ∑ k : Fin L.nrows, star (L.get k i) * L.get k j := by
  obtain ⟨L, ext, h1, h2⟩ := R.liouvillian_ok mode hx hne hO
  obtain ⟨P, p1, p2, p3, p4, p5⟩ := Mat.dot_ok (Mat.getH_wf h2.wf) h2.wf rfl
  refine ⟨L, P, ext, h1, ?_, h2, ?_, ?_, ?_⟩
  · rw [commutantMatrix, h1]
    simp only [bind, Except.bind, p1]
  · rw [p2]; exact h2.ncols
  · rw [p3]; exact h2.ncols
  · intro i j
    rw [p5]
    apply Finset.sum_congr rfl
    intro k _
    rw [Mat.getH_get]

theorem StrAlg.commutant_kernel (R : StrAlg K 𝔸) [Nontrivial 𝔸] {mode : Mode} {x : List 𝔸} {y : 𝔸} {L C : Mat K} {ext : Basis}
    (h : LiouvilleOK R.den R.Str mode x.length (fun j => (x[j]?).getD 0) y L ext)
    (hC : ∀ i j, C.get i j = ∑ k : Fin L.nrows, star (L.get k i) * L.get k j) (hc : C.ncols = x.length) (v : ℕ → K) :
    (∀ i : Fin x.length, C.mulVec v i = 0) ↔ bracketOf mode (∑ j : Fin x.length, v j • x[j]) y = 0 := by
  have hl := h.isLiouvillian.represents v
  rw [hl]
  have hn := h.ncols
  constructor
  · intro h0
    have hform := square_form hC v
    have : ∑ i : Fin L.ncols, ∑ j : Fin L.ncols, star (v i) * C.get i j * v j = 0 := by
      apply Finset.sum_eq_zero
      intro i _
      have := h0 ⟨i, by rw [← hn]; exact i.2⟩
      simp only [Mat.mulVec] at this
      simp only [mul_assoc]
      rw [← Finset.mul_sum]
      have e : C.ncols = L.ncols := hc.trans hn.symm
      rw [show (∑ j : Fin L.ncols, C.get i j * v j) = ∑ j : Fin C.ncols, C.get i j * v j by rw [e], this, mul_zero]
    rw [this] at hform
    have hz := star_mul_sum_eq_zero hform.symm
    rw [linComb]
    apply Finset.sum_eq_zero
    intro c _
    rw [hz ⟨c, by rw [h.nrows]; exact c.2⟩, zero_smul]
  · intro h0 i
    have hz := R.independent h.ext_inv.2 h.ext_str h0
    have : C.mulVec v i = ∑ k : Fin L.nrows, star (L.get k i) * L.mulVec v k := by
      have e : C.ncols = L.ncols := hc.trans hn.symm
      simp only [Mat.mulVec, hC, e, Finset.mul_sum, Finset.sum_mul]
      rw [show (∑ j : Fin C.ncols, ∑ k : Fin L.nrows, star (L.get k i) * L.get k j * v j) =
        ∑ j : Fin L.ncols, ∑ k : Fin L.nrows, star (L.get k i) * L.get k j * v j by rw [e]]
      rw [Finset.sum_comm]
      simp only [mul_assoc]
    rw [this]
    apply Finset.sum_eq_zero
    intro k _
    rw [hz k (by have := h.nrows; rw [Basis.len] at this; omega), mul_zero]

theorem StrAlg.isCommutant (R : StrAlg K 𝔸) [Nontrivial 𝔸] (mode : Mode) {x : BasisArg K} {O : Operator K} (hx : x.All R.Str)
    (hne : x ≠ .operators []) (hO : ∀ s ∈ O.basis.strs, R.Str s) :
    ∃ C ext, commutantMatrix x O mode = .ok (C, ext) ∧ IsCommutant R.den mode (x.den R.den) (O.den R.den) C ext := by
  obtain ⟨L, C, ext, h1, h2, h3, h4, h5, h6⟩ := R.commutant_ok mode hx hne hO
  refine ⟨C, ext, h2, h3.isLiouvillian.indexed, h4, h5, square_posSemidef h6, ?_, R.commutant_kernel h3 h6 h5⟩
  intro v
  refine ⟨L.mulVec v, h3.isLiouvillian.represents v, ?_⟩
  have e : L.nrows = ext.strs.length := h3.nrows
  have := square_form h6 v
  rw [h3.ncols, e] at this
  exact this

end Qosy
