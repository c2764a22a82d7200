import Verif.Lemmas.ManyOps
import Verif.Spec.ManyOps
import Verif.Lemmas.Heap

/-! # The loop of `selected_ci_greedy_many_ops2` -/

namespace Qosy
open Coef RealOps
variable {K : Type} [Field K] [StarRing K] [Coef K] [RealCoef K]
variable {𝔸 : Type} [Ring 𝔸] [Algebra K 𝔸]

/-! ### `selected_ci_greedy_many_ops2` -/

theorem py_bind_ok {α β : Type} {x : Py α} {f : α → Py β} {y : β} (h : (x >>= f) = .ok y) : ∃ a, x = .ok a ∧ f a = .ok y := by
  cases x with
  | error e => simp [bind, Except.bind] at h
  | ok a => exact ⟨a, rfl, h⟩

theorem mapM_ok_inv {α β : Type} {f : α → Py β} : ∀ {l : List α} {r : List β}, l.mapM f = .ok r → List.Forall₂ (fun a b => f a = .ok b) l r := by
  intro l
  induction l with
  | nil => intro r h; cases h; exact .nil
  | cons a l ih =>
    intro r h
    rw [List.mapM_cons] at h
    obtain ⟨b, h1, h⟩ := py_bind_ok h
    obtain ⟨bs, h2, h⟩ := py_bind_ok h
    cases h
    exact .cons h1 (ih h2)

theorem GoodBasis.iadd {R : StrAlg K 𝔸} {b c : Basis} (hb : GoodBasis R b) (hc : ∀ s ∈ c.strs, R.Str s) : GoodBasis R (b.iadd c) := by
  have h := Basis.iadd_ofList hb.1.2 c
  rw [← hb.1.1] at h
  rw [h]
  refine ⟨Basis.Inv.ofList (unionList_nodup hb.1.2 _), fun s hs => ?_⟩
  rcases mem_unionList.mp hs with hs | hs
  · exact hb.2 s hs
  · exact hc s hs

theorem foldl_iadd_good {R : StrAlg K 𝔸} (l : List (Operator K)) {b : Basis} (h : ∀ A ∈ l, ∀ s ∈ A.basis.strs, R.Str s) (hb : GoodBasis R b) :
    GoodBasis R (l.foldl (fun (b : Basis) op => b.iadd op.basis) b) := by
  induction l generalizing b with
  | nil => exact hb
  | cons A l ih => exact ih (fun A h' => h A (List.mem_cons_of_mem _ h')) (hb.iadd (h A (List.mem_cons_self ..)))

theorem mem_iadd {b c : Basis} (hb : b.Inv) {t : OpString} : t ∈ (b.iadd c).strs ↔ t ∈ b.strs ∨ t ∈ c.strs := by
  have hu := Basis.iadd_ofList hb.2 c
  rw [← hb.1] at hu
  rw [hu]
  exact mem_unionList

theorem mem_foldl_iadd {R : StrAlg K 𝔸} (l : List (Operator K)) {b : Basis} (hb : GoodBasis R b) (h : ∀ A ∈ l, ∀ s ∈ A.basis.strs, R.Str s) {t : OpString} :
    t ∈ (l.foldl (fun (b : Basis) op => b.iadd op.basis) b).strs ↔ t ∈ b.strs ∨ ∃ A ∈ l, t ∈ A.basis.strs := by
  induction l generalizing b with
  | nil => simp
  | cons A l ih =>
    rw [List.foldl_cons, ih (hb.iadd (h A (List.mem_cons_self ..))) (fun A h' => h A (List.mem_cons_of_mem _ h')), mem_iadd hb.1]
    simp only [List.mem_cons, exists_eq_or_imp, or_assoc]

theorem many2Insert_good {R : StrAlg K 𝔸} (num : ℕ) (b : Basis) {l : List OpString} (hl : ∀ s ∈ l, R.Str s) {new : Basis} (h : GoodBasis R new) (c : ℕ) :
    GoodBasis R (many2Insert num b l new c) := by
  induction l generalizing new c with
  | nil => exact h
  | cons s l ih =>
    have hs := hl s (List.mem_cons_self ..)
    have hl' : ∀ s ∈ l, R.Str s := fun s h => hl s (List.mem_cons_of_mem _ h)
    unfold many2Insert
    split
    · split
      · exact h
      · exact ih hl' h c
    · split
      · exact h.iaddString hs
      · exact ih hl' (h.iaddString hs) _

theorem many2Expand_ok (R : StrAlg K 𝔸) {num : Numerics K} (ha : IsArgsort num.argsort) {H : Operator K} (hH : ∀ s ∈ H.basis.strs, R.Str s)
    (hHn : H.basis.strs.Nodup) (numH : ℕ) {b new : Basis} (hb : GoodBasis R b) (hnew : GoodBasis R new) {O : Operator K} (hO : O.coeffs.length = b.len)
    {st : Explored K} (h : st.Coherent R (· ∈ H.termStrs)) :
    ∃ new' st', many2Expand num H numH b (new, st) O = .ok (new', st') ∧ GoodBasis R new' ∧ st'.Coherent R (· ∈ H.termStrs) := by
  obtain ⟨L, ext, st1, h1, h2, h3⟩ := explore_one R hH hHn h hb
  obtain ⟨w, w1, w2, _⟩ := dotVec_ok (M := L) (v := O.coeffs) (by rw [h3.ncols, hO])
  set inds := (num.argsort w).reverse.take (min (num.argsort w).reverse.length numH) with hinds
  have hlt : ∀ i ∈ inds, i < w.length := fun i hi => argsort_lt ha (List.mem_reverse.mp (List.mem_of_mem_take hi))
  have hnd : inds.Nodup := (List.nodup_reverse.mpr (argsort_nodup ha w)).sublist (List.take_sublist _ _)
  have hlt' : ∀ i ∈ inds, i < ext.strs.length := fun i hi => by
    have := hlt i hi
    rw [w2, h3.nrows] at this; exact this
  obtain ⟨strs, s1, s2⟩ := mapM_forall₂ (l := inds) (f := pyGet ext.strs) (Q := fun i s => ext.strs[i]? = some s) (by
    intro i hi
    exact ⟨_, pyGet_lt (hlt' i hi), List.getElem?_eq_getElem _⟩)
  obtain ⟨v, v1, v2⟩ := mapM_forall₂ (l := inds) (f := pyGet w) (Q := fun _ _ => True) (by
    intro i hi
    exact ⟨_, pyGet_lt (hlt i hi), trivial⟩)
  have hstr : ∀ s ∈ strs, R.Str s := fun s hs => by
    obtain ⟨i, _, h⟩ := forall₂_mem_right s2 hs
    exact (h3.ext_str _ (List.mem_of_getElem? h)).1
  have hsn : strs.Nodup := forall₂_nodup s2 hnd h3.ext_inv.2
  have hA : GoodBasis R (Basis.ofList strs) := ⟨Basis.Inv.ofList hsn, hstr⟩
  obtain ⟨L2, ext2, st2, g1, g2, g3⟩ := explore_one R hH hHn h2 hA
  obtain ⟨u, u1, u2, _⟩ := dotVec_ok (M := L2) (v := v) (by rw [g3.ncols, ← v2.length_eq, s2.length_eq]; rfl)
  obtain ⟨strs2, t1, t2⟩ := mapM_forall₂ (l := (num.argsort u).reverse) (f := pyGet ext2.strs) (Q := fun _ s => R.Str s) (by
    intro i hi
    have hi' : i < ext2.strs.length := by
      have := argsort_lt ha (List.mem_reverse.mp hi)
      rw [u2, g3.nrows] at this; exact this
    exact ⟨_, pyGet_lt hi', (g3.ext_str _ (List.getElem_mem _)).1⟩)
  refine ⟨many2Insert (min u.length numH) b strs2 new 0, st2, ?_, many2Insert_good _ _ (fun s hs => let ⟨_, _, h⟩ := forall₂_mem_right t2 hs; h) hnew _, g2⟩
  unfold many2Expand
  simp only [h1, w1, bind, Except.bind]
  rw [← hinds, s1]
  simp only [mkBasis_ok hsn, g1, v1, u1, t1]

theorem many2Fold_ok (R : StrAlg K 𝔸) {num : Numerics K} (ha : IsArgsort num.argsort) {args : ManyOps2Args K} (hH : ∀ s ∈ args.H.basis.strs, R.Str s)
    (hHn : args.H.basis.strs.Nodup) (step : ℕ) {b : Basis} (hb : GoodBasis R b) : ∀ {ops : List (Operator K)}, (∀ O ∈ ops, O.coeffs.length = b.len) →
    ∀ {acc r : Basis × Explored K}, GoodBasis R acc.1 → acc.2.Coherent R (· ∈ args.H.termStrs) →
    ops.foldlM (fun acc op => (do
      let numH ← args.numHTerms.at step
      many2Expand num args.H numH b acc op : Py (Basis × Explored K))) acc = .ok r → GoodBasis R r.1 ∧ r.2.Coherent R (· ∈ args.H.termStrs) := by
  intro ops
  induction ops with
  | nil => intro _ acc r h1 h2 h; cases h; exact ⟨h1, h2⟩
  | cons O ops ih =>
    intro hO acc r h1 h2 h
    rw [List.foldlM_cons] at h
    obtain ⟨acc', h3, h4⟩ := py_bind_ok h
    obtain ⟨numH, _, h5⟩ := py_bind_ok h3
    obtain ⟨new', st', e1, e2, e3⟩ := many2Expand_ok R ha hH hHn numH hb (new := acc.1) (st := acc.2) h1 (hO O (List.mem_cons_self ..)) h2
    rw [e1] at h5
    cases h5
    exact ih (fun O h => hO O (List.mem_cons_of_mem _ h)) e2 e3 h4

theorem greedyCommutant_ok (R : StrAlg K 𝔸) {H : Operator K} (hH : ∀ s ∈ H.basis.strs, R.Str s) (hHn : H.basis.strs.Nodup) {st : Explored K}
    (h : st.Coherent R (· ∈ H.termStrs)) {b : Basis} (hb : GoodBasis R b) :
    ∃ M st', greedyCommutant b H st = .ok (M, st') ∧ CommForm R H b M ∧ st'.Coherent R (· ∈ H.termStrs) := by
  obtain ⟨M, st', h1, h2, h3⟩ := greedyComMatrices_ok R hH hHn h hb
  unfold greedyComMatrices at h1
  obtain ⟨⟨C, st1⟩, e1, h1⟩ := py_bind_ok h1
  obtain ⟨comH, e2, h1⟩ := py_bind_ok h1
  obtain ⟨⟨M1, st2⟩, e3, h1⟩ := py_bind_ok h1
  cases e3
  cases h1
  refine ⟨C, st', e1, ?_, h3⟩
  unfold Mat.add at e2
  split at e2
  · simp at e2
  · rename_i hsh
    have : M = C := by
      cases e2
      obtain ⟨nr, nc, d⟩ := C
      simp [Mat.zero] at hsh ⊢
      exact hsh
    exact this ▸ h2

theorem many2Eig_ok {num : Numerics K} (hnum : IsNumerics num) {com : Mat K} {n : ℕ} (hc : com.IsHermitian n) {k : ℕ} {r : List K × List (List K)}
    (h : many2Eig num com n k = .ok r) : IsEigenpairs com n r ∧ ((∀ u, 0 ≤ toR (com.form n u)) → ∀ x ∈ r.1.head?, Rayleigh com n x) := by
  unfold many2Eig at h
  split at h
  · cases h
    obtain ⟨h1, h2, h3⟩ := hnum.eigh com n hc
    exact ⟨h1, fun _ => h3⟩
  · split at h
    · simp at h
    · split at h
      · simp at h
      · rename_i h1 h2 h3
        by_cases hn : n < 20
        · have hk : ¬ k < 20 := fun hk => h1 ⟨hn, hk⟩
          omega
        · obtain ⟨r', e1, e2, _, e3⟩ := greedyEig_ok hnum hc (k := k) (by omega)
          unfold greedyEig at e1
          rw [if_neg (by omega)] at e1
          have : r' = r := by
            have := e1.symm.trans h
            cases this; rfl
          subst this
          exact ⟨e2, e3⟩

/-- the operators of one step -/
structure OrthoRec (R : StrAlg K 𝔸) (H : Operator K) (n : ℕ) (ops : List (Operator K)) (norms : List K) : Prop where
  len : ops.length = n
  records : List.Forall₂ (GreedyRec R H False) ops norms
  orthogonal : ops.Pairwise Operator.Orthogonal
  least : ∀ O c, ops.head? = some O → norms.head? = some c → GreedyRec R H True O c

/-- the invariant of the loop -/
structure Many2Inv (R : StrAlg K 𝔸) (H : Operator K) (n : ℕ) (s : Many2State K) : Prop where
  cache : s.explored.Coherent R (· ∈ H.termStrs)
  good : GoodBasis R s.basis
  current : ∀ O ∈ s.current, O.coeffs.length = s.basis.len
  records : List.Forall₂ (OrthoRec R H n) s.operators s.comNorms

theorem mkOperator_none_inv {cs : List K} {l : List OpString} {A : Operator K} (h : mkOperator cs l none = .ok A) : A.coeffs = cs ∧ A.basis.strs = l ∧ l ≠ [] := by
  unfold mkOperator at h
  obtain ⟨B, h1, h2⟩ := py_bind_ok h
  obtain ⟨_, h3⟩ := mkBasis_inv h1
  obtain ⟨h4, h5⟩ := mkOperatorB_basis h2
  refine ⟨h5, by rw [h4, h3], fun h0 => ?_⟩
  unfold mkOperatorB at h2
  rw [h3, h0] at h2
  simp at h2

theorem range_mapM_pyGet {α : Type} {l r : List α} {n : ℕ} (h : (List.range n).mapM (pyGet l) = .ok r) : r = l.take n ∧ n ≤ l.length := by
  have h1 := mapM_ok_inv h
  have hlen : r.length = n := by rw [← h1.length_eq]; simp
  have key : ∀ i (hi : i < n), l[i]? = r[i]? := by
    intro i hi
    have := (List.forall₂_iff_get.mp h1).2 i (by simpa using hi) (by omega)
    simp only [List.get_eq_getElem, List.getElem_range] at this
    unfold pyGet at this
    rw [List.getElem?_eq_getElem (show i < r.length by omega)]
    split at this
    · rename_i x hx; cases this; exact hx
    · simp at this
  have hn : n ≤ l.length := by
    by_contra hc
    have := key (n - 1) (by omega)
    rw [List.getElem?_eq_none (by omega), List.getElem?_eq_getElem (show n - 1 < r.length by omega)] at this
    simp at this
  refine ⟨?_, hn⟩
  apply List.ext_getElem?
  intro i
  by_cases hi : i < n
  · rw [List.getElem?_take_of_lt hi, key i hi]
  · rw [List.getElem?_eq_none (by omega), List.getElem?_eq_none (by simp; omega)]

theorem eq_map_of_forall₂ {α β : Type} {f : α → β} {l : List α} {r : List β} (h : List.Forall₂ (fun a b => b = f a) l r) : r = l.map f := by
  induction h with
  | nil => rfl
  | cons h _ ih => rw [h, ih]; rfl

theorem many2Truncate_good {R : StrAlg K 𝔸} {num : Numerics K} (hnum : IsNumerics num) {args : ManyOps2Args K} {step : ℕ} {b : Basis} (hb : GoodBasis R b)
    {vecs : List (List K)} (hv : ∀ v ∈ vecs, v.length = b.len) {small : Basis} (h : many2Truncate num args step b vecs = .ok small) : GoodBasis R small := by
  unfold many2Truncate at h
  have key : ∀ (l : List (List K × ℕ)) (acc : List K), (∀ e ∈ l, e.1.length = b.len) → acc.length = b.len →
      (l.foldl (fun (acc : List K) e => List.zipWith (fun x y => x + (2 * args.rand step e.2 - 1) * y) acc e.1) acc).length = b.len := by
    intro l
    induction l with
    | nil => intro acc _ h; exact h
    | cons e l ih =>
      intro acc h1 h2
      rw [List.foldl_cons]
      exact ih _ (fun e h => h1 e (List.mem_cons_of_mem _ h)) (by rw [List.length_zipWith, h2, h1 e (List.mem_cons_self ..), min_self])
  have hl := key vecs.zipIdx (List.replicate b.len 0) (fun e he => hv _ (List.fst_mem_of_mem_zipIdx he)) (by simp)
  simp only [] at h
  generalize List.foldl _ _ _ = w at h hl
  obtain ⟨size, _, h⟩ := py_bind_ok h
  split at h
  · cases h
    exact ⟨Basis.Inv.ofList List.nodup_nil, fun s hs => by simp [emptyBasis] at hs⟩
  · obtain ⟨strs, t1, t2, t3⟩ := truncateBasis_ok hnum.argsort hb.1.2 (filterFun := none) (vector := w.map (· / num.sqrt (innerL w w)))
      (vec := w.map (· / num.sqrt (innerL w w))) rfl (by rw [List.length_map]; exact hl) args.threshold size
    rw [t1] at h
    cases h
    exact ⟨Basis.Inv.ofList t2, fun t ht => hb.2 t (t3.above t ht).1⟩

theorem many2Finish_ok {R : StrAlg K 𝔸} {num : Numerics K} (hnum : IsNumerics num) {args : ManyOps2Args K} {step : ℕ} {s : Many2State K}
    (hs : List.Forall₂ (OrthoRec R args.H args.initialOperators.length) s.operators s.comNorms)
    {b : Basis} (hb : GoodBasis R b) {st : Explored K} (hst : st.Coherent R (· ∈ args.H.termStrs)) {M : Mat K} (hM : CommForm R args.H b M)
    {evals : List K} {evecs : List (List K)} (hE : IsEigenpairs M b.len (evals, evecs)) (hR : ∀ x ∈ evals.head?, Rayleigh M b.len x) {s' : Many2State K}
    (h : many2Finish num args step s b st evals evecs = .ok s') :
    Many2Inv R args.H args.initialOperators.length s' ∧ ∃ best, s'.operators = s.operators ++ [best] ∧ ∀ O ∈ best, O.basis = b := by
  unfold many2Finish at h
  obtain ⟨_, _, h⟩ := py_bind_ok h
  obtain ⟨_, _, h⟩ := py_bind_ok h
  obtain ⟨vecs, e1, h⟩ := py_bind_ok h
  obtain ⟨best, e2, h⟩ := py_bind_ok h
  obtain ⟨small, e3, h⟩ := py_bind_ok h
  obtain ⟨current, e4, h⟩ := py_bind_ok h
  cases h
  obtain ⟨hvecs, hn⟩ := range_mapM_pyGet e1
  have hsub : ∀ v ∈ vecs, v ∈ evecs := fun v hv => by rw [hvecs] at hv; exact List.mem_of_mem_take hv
  have hgood := many2Truncate_good hnum hb (fun v hv => hE.dim v (hsub v hv)) e3
  have hbest : best = vecs.map (fun v => (⟨v, b, R.type⟩ : Operator K)) := by
    have h1 := mapM_ok_inv e2
    have : List.Forall₂ (fun v (O : Operator K) => O = ⟨v, b, R.type⟩) vecs best := h1.imp fun v O hO => by
      have hne := (mkOperator_none_inv hO).2.2
      have := mkOperator_none_ok (cs := v) (t := R.type) hne hb.1.2 (fun s hs => R.str_type s (hb.2 s hs))
      rw [this] at hO
      cases hO
      rw [← hb.1.1]
    exact eq_map_of_forall₂ this
  have hvec : ∀ e ∈ evals.zip evecs, VecOK M b.len e.2 e.1 := fun e he =>
    ⟨hE.dim _ (List.of_mem_zip he).2, hE.realVectors (fun i j _ _ => hM.real i j) _ (List.of_mem_zip he).2, hE.unit _ (List.of_mem_zip he).2, hE.value he⟩
  have hlen : evals.length = evecs.length := hE.len
  have hstep : OrthoRec R args.H args.initialOperators.length best (evals.take args.initialOperators.length) := by
    refine ⟨?_, ?_, ?_, ?_⟩
    · rw [hbest, hvecs, List.length_map, List.length_take]; exact min_eq_left hn
    · rw [hbest, hvecs]
      rw [List.forall₂_iff_get]
      refine ⟨by simp; omega, fun i h1 h2 => ?_⟩
      simp only [List.get_eq_getElem, List.getElem_map, List.getElem_take]
      refine ((hvec (evals[i]'(by simp at h2; omega), evecs[i]'(by simp at h1; omega)) ?_).record hb hM False.elim)
      rw [List.mem_iff_getElem]
      exact ⟨i, by simp at h1 h2 ⊢; omega, by simp⟩
    · rw [hbest, hvecs]
      rw [List.pairwise_map]
      have hp : evecs.Pairwise (fun v w => ip b.len v w = 0) := hE.orthogonal
      have hd : ∀ v ∈ evecs, v.length = b.len := hE.dim
      refine List.Pairwise.sublist (List.take_sublist _ _) (hp.imp_of_mem fun {v w} hv hw hvw => ⟨rfl, ?_⟩)
      have := innerL_eq (hd v hv) (hd w hw)
      unfold innerL at this
      rw [show (⟨v, b, R.type⟩ : Operator K).coeffs = v from rfl, show (⟨w, b, R.type⟩ : Operator K).coeffs = w from rfl, this]
      exact hvw
    · intro O c hO hc
      rw [hbest, hvecs] at hO
      cases hk : args.initialOperators.length with
      | zero => rw [hk] at hO; simp at hO
      | succ k =>
        rw [hk] at hO hc
        cases hv : evecs with
        | nil => rw [hv] at hO; simp at hO
        | cons v l =>
          cases hx : evals with
          | nil => rw [hx] at hc; simp at hc
          | cons x l' =>
            rw [hv] at hO; rw [hx] at hc
            simp only [List.take_succ_cons, List.map_cons, List.head?_cons, Option.some.injEq] at hO hc
            subst hO hc
            exact (hvec (x, v) (by rw [hv, hx]; simp)).record hb hM fun _ => hR x (by rw [hx]; rfl)
  refine ⟨⟨hst, hgood, ?_, List.rel_append hs (.cons hstep .nil)⟩, best, rfl, fun O hO => ?_⟩
  rotate_left
  · rw [hbest] at hO
    obtain ⟨v, _, rfl⟩ := List.mem_map.mp hO
    rfl
  intro O hO
  obtain ⟨v, _, hv⟩ := forall₂_mem_right (mapM_ok_inv e4) hO
  obtain ⟨cs, c1, c2⟩ := py_bind_ok hv
  rw [(mkOperator_none_inv c2).1, ← (mapM_ok_inv c1).length_eq]
  rfl

theorem many2Loop_ok (R : StrAlg K 𝔸) {num : Numerics K} (hnum : IsNumerics num) {args : ManyOps2Args K} (hH : ∀ s ∈ args.H.basis.strs, R.Str s)
    (hHn : args.H.basis.strs.Nodup) (ho : args.orthOps = none) : ∀ (m step : ℕ) {s s' : Many2State K}, Many2Inv R args.H args.initialOperators.length s →
    many2Loop num args m step s = .ok s' →
    List.Forall₂ (OrthoRec R args.H args.initialOperators.length) s'.operators s'.comNorms ∧ ∃ extra, s'.operators = s.operators ++ extra ∧ extra.length ≤ m ∧
      ∀ best ∈ extra.head?, ∀ O ∈ best, ∀ t ∈ s.basis.strs, t ∈ O.basis.strs := by
  intro m
  induction m with
  | zero =>
    intro step s s' hs h
    cases h
    exact ⟨hs.records, [], by simp, le_rfl, by simp⟩
  | succ m ih =>
    intro step s s' hs h
    unfold many2Loop at h
    obtain ⟨⟨new, st⟩, h1, h⟩ := py_bind_ok h
    obtain ⟨g1, g2⟩ := many2Fold_ok R hnum.argsort hH hHn step hs.good hs.current ⟨Basis.Inv.ofList List.nodup_nil, fun s hs => by simp [emptyBasis] at hs⟩ hs.cache h1
    have hb : GoodBasis R (s.basis.iadd new) := hs.good.iadd g1.2
    simp only [] at h
    split at h
    · cases h
      exact ⟨hs.records, [], by simp, by simp, by simp⟩
    · obtain ⟨⟨r, st2⟩, h2, h⟩ := py_bind_ok h
      obtain ⟨s1, h3, h5⟩ := py_bind_ok h
      unfold many2Solve at h2
      obtain ⟨⟨M, st3⟩, k1, h2⟩ := py_bind_ok h2
      obtain ⟨M', st4, c1, c2, c3⟩ := greedyCommutant_ok R hH hHn g2 hb
      rw [c1] at k1
      cases k1
      simp only [ManyOps2Args.penalise, ManyOps2Args.recompute, ho, bind, Except.bind] at h2
      cases k2 : many2Eig num M (s.basis.iadd new).len args.initialOperators.length with
      | error e => simp [k2] at h2
      | ok r' =>
        simp only [k2, Except.ok.injEq, Prod.mk.injEq] at h2
        obtain ⟨rfl, rfl⟩ := h2
        obtain ⟨q1, q2⟩ := many2Eig_ok hnum c2.herm k2
        obtain ⟨p1, best, p2, p3⟩ := many2Finish_ok hnum hs.records hb c3 c2 q1 (q2 c2.nonneg) h3
        obtain ⟨i1, extra, i2, i3, _⟩ := ih (step + 1) p1 h5
        refine ⟨i1, best :: extra, by rw [i2, p2]; simp, by simpa using i3, ?_⟩
        intro best' hb' O hO t ht
        cases hb'
        rw [p3 O hO]
        exact (mem_iadd hs.good.1).mpr (Or.inl ht)

theorem manyOps2_ok (R : StrAlg K 𝔸) {num : Numerics K} (hnum : IsNumerics num) {args : ManyOps2Args K} (hH : ∀ s ∈ args.H.basis.strs, R.Str s)
    (hHn : args.H.basis.strs.Nodup) (ho : args.orthOps = none) (hx : args.explored.Coherent R (· ∈ args.H.termStrs))
    (hi : ∀ A ∈ args.initialOperators, ∀ s ∈ A.basis.strs, R.Str s) {ops : List (List (Operator K))} {norms : List (List K)}
    (h : manyOps2 num args = .ok (ops, norms)) :
    List.Forall₂ (OrthoRec R args.H args.initialOperators.length) ops norms ∧ ops.length ≤ args.numSteps ∧
      ∀ best ∈ ops.head?, ∀ O ∈ best, ∀ A ∈ args.initialOperators, ∀ t ∈ A.basis.strs, t ∈ O.basis.strs := by
  unfold manyOps2 at h
  split at h
  · simp at h
  · simp only [] at h
    obtain ⟨current, h1, h⟩ := py_bind_ok h
    obtain ⟨s, h2, h⟩ := py_bind_ok h
    cases h
    have hbase := foldl_iadd_good args.initialOperators (b := emptyBasis) hi ⟨Basis.Inv.ofList List.nodup_nil, fun s hs => by simp [emptyBasis] at hs⟩
    have hcur : ∀ O ∈ current, O.coeffs.length = (args.initialOperators.foldl (fun (b : Basis) op => b.iadd op.basis) emptyBasis).len := by
      intro O hO
      obtain ⟨A, _, hv⟩ := forall₂_mem_right (mapM_ok_inv h1) hO
      unfold many2Vector at hv
      obtain ⟨v, v1, v2⟩ := py_bind_ok hv
      rw [(mkOperator_none_inv v2).1]
      have key : ∀ (b : Basis) (l : List (K × OpString)) (v w : List K), l.foldlM (fun (v : List K) t => (do
          let i ← b.index t.2
          .ok (v.set i t.1) : Py (List K))) v = .ok w → w.length = v.length := by
        intro b l
        induction l with
        | nil => intro v w h; cases h; rfl
        | cons t l ih =>
          intro v w h
          rw [List.foldlM_cons] at h
          obtain ⟨u, h1, h2⟩ := py_bind_ok h
          obtain ⟨i, _, h3⟩ := py_bind_ok h1
          cases h3
          rw [ih _ _ h2, List.length_set]
      rw [key _ _ _ _ v1, List.length_replicate]
    obtain ⟨r1, extra, r2, r3, r4⟩ := many2Loop_ok R hnum hH hHn ho args.numSteps 0 ⟨hx, hbase, hcur, .nil⟩ h2
    simp only [List.nil_append] at r2
    rw [r2]
    refine ⟨r2 ▸ r1, r3, fun best hbest O hO A hA t ht => r4 best hbest O hO t ?_⟩
    exact (mem_foldl_iadd args.initialOperators ⟨Basis.Inv.ofList List.nodup_nil, fun s hs => by simp [emptyBasis] at hs⟩ hi).mpr (Or.inr ⟨A, hA, ht⟩)

end Qosy
