import Verif.Spec.Adjoint
import Verif.Lemmas.Covariance
import Verif.Lemmas.LadderHermitian

/-! # Coordinates of brackets -/

namespace Qosy
open Coef RealOps
variable {K : Type} [Field K] [StarRing K] [Coef K]
variable {𝔸 : Type} [Ring 𝔸] [Algebra K 𝔸]

/-- the terms of a column -/
def colTerms (L : Mat K) (ext : Basis) (j : ℕ) : List (K × OpString) := ext.strs.zipIdx.map fun e => (L.get e.2 j, e.1)

omit [Coef K] in
theorem coefT_zipIdx {l : List OpString} (hn : l.Nodup) (w : ℕ → K) (s : OpString) :
    coefT (l.zipIdx.map fun e => (w e.2, e.1)) s = if s ∈ l then w (l.idxOf s) else 0 := by
  have e : (l.zipIdx.map fun e => (w e.2, e.1)) = ((List.range l.length).map w).zip l := by
    refine List.ext_getElem (by simp) fun i h1 h2 => ?_
    simp
  rw [e, coefT_zip (by simp) hn]
  split_ifs with h
  · have := List.idxOf_lt_length_iff.mpr h
    rw [List.getD_eq_getElem _ _ (by simpa using this)]
    simp
  · rfl

theorem coefT_colTerms {L : Mat K} {ext : Basis} (h : ext.strs.Nodup) (j : ℕ) (s : OpString) : coefT (colTerms L ext j) s = L.coefAt ext j s :=
  coefT_zipIdx h (fun c => L.get c j) s

theorem denT_colTerms {M : Type} [AddCommGroup M] [Module K M] (d : OpString → M) (L : Mat K) (ext : Basis) (j : ℕ) :
    denT d (colTerms L ext j) = ∑ c : Fin ext.strs.length, L.get c j • d ext.strs[c] :=
  (linComb_terms d ext.strs (fun c => L.get c j)).symm

theorem mem_colTerms {L : Mat K} {ext : Basis} {j : ℕ} {t : K × OpString} (h : t ∈ colTerms L ext j) : t.2 ∈ ext.strs := by
  obtain ⟨e, he, rfl⟩ := List.mem_map.mp h
  exact List.fst_mem_of_mem_zipIdx he

omit [StarRing K] [Coef K] in
theorem denT_map_smul {M : Type} [AddCommGroup M] [Module K M] (x : K) (τ : OpString → M) (l : List (K × OpString)) :
    denT τ (l.map fun t => (x * t.1, t.2)) = x • denT τ l := by
  induction l with
  | nil => simp [denT]
  | cons a l ih => rw [List.map_cons, denT_cons, denT_cons, ih, smul_add, mul_smul]

omit [StarRing K] [Coef K] in
theorem coefT_map_smul (x : K) (l : List (K × OpString)) (s : OpString) : coefT (l.map fun t => (x * t.1, t.2)) s = x * coefT l s := by
  induction l with
  | nil => simp
  | cons a l ih => rw [List.map_cons, coefT_cons, coefT_cons, ih, mul_add]; simp

/-- equal values have equal coefficients -/
theorem StrAlg.coefT_eq [Nontrivial 𝔸] (R : StrAlg K 𝔸) {ts us : List (K × OpString)} (ht : ∀ t ∈ ts, R.Can t.2) (hu : ∀ t ∈ us, R.Can t.2)
    (h : denT R.den ts = denT R.den us) (s : OpString) : coefT ts s = coefT us s := by
  have one (l : List (K × OpString)) : denT (fun u => if u = s then (1 : K) else 0) l = coefT l s := by
    induction l with
    | nil => simp [denT]
    | cons a l ih => rw [denT_cons, coefT_cons, ih]; simp
  have key := R.relation_any (fun u => if u = s then (1 : K) else 0) (ts ++ us.map fun t => (-t.1, t.2)) (fun t h => by
      rcases List.mem_append.mp h with h | h
      · exact ht _ h
      · obtain ⟨u, hu', rfl⟩ := List.mem_map.mp h
        exact hu u hu') (by rw [denT_append, denT_neg, h, add_neg_cancel])
  rw [denT_append, denT_neg, one, one] at key
  exact add_neg_eq_zero.mp key

/-- the (at most one) term of the bracket of two strings -/
def scTerms (K : Type) [Field K] [StarRing K] [Coef K] (mode : Mode) (a o : OpString) : List (K × OpString) :=
  match (operationOpString mode a o : Py (K × Option OpString)) with
  | .ok (c, some C) => [(c, C)]
  | _ => []

theorem coefT_scTerms (mode : Mode) (a o s : OpString) : coefT (scTerms K mode a o) s = scEntry K mode a o s := by
  rw [scTerms, scEntry]
  rcases (operationOpString mode a o : Py (K × Option OpString)) with e | ⟨c, _ | C⟩ <;> simp

theorem StrAlg.scTerms (R : StrAlg K 𝔸) (mode : Mode) {a o : OpString} (ha : R.Str a) (ho : R.Str o) :
    denT R.den (Qosy.scTerms K mode a o) = bracketOf mode (R.den a) (R.den o) ∧ ∀ t ∈ Qosy.scTerms K mode a o, R.Can t.2 := by
  rw [Qosy.scTerms]
  rcases R.op_string mode ha ho with ⟨g1, g2⟩ | ⟨c, C, g1, g2, g3, -, g5, -, g7⟩
  · rw [g1]; simp [denT, g2]
  · rw [g1]; simpa [denT, g3] using ⟨g2, g5, g7⟩

/-- the entries of a column of the matrix of a bracket -/
theorem StrAlg.coefAt_eq [Nontrivial 𝔸] (R : StrAlg K 𝔸) {mode : Mode} {a : OpString} {O : Operator K} (ha : R.Str a) (hO : ∀ s ∈ O.basis.strs, R.Str s)
    {L : Mat K} {ext : Basis} (hn : ext.strs.Nodup) (hext : ∀ s ∈ ext.strs, R.Can s) {j : ℕ}
    (h : ∑ c : Fin ext.strs.length, L.get c j • R.den ext.strs[c] = bracketOf mode (R.den a) (O.den R.den)) (s : OpString) :
    L.coefAt ext j s = (O.terms.map fun t => t.1 * scEntry K mode a t.2 s).sum := by
  rw [← coefT_colTerms hn]
  rw [R.coefT_eq (us := O.terms.flatMap fun t => (Qosy.scTerms K mode a t.2).map fun u => (t.1 * u.1, u.2)) (fun t ht => hext _ (mem_colTerms ht)) (fun t ht => by
      obtain ⟨u, hu, hu'⟩ := List.mem_flatMap.mp ht
      obtain ⟨v, hv, rfl⟩ := List.mem_map.mp hu'
      exact (R.scTerms mode ha (hO _ (mem_terms hu))).2 v hv) (by
      rw [denT_colTerms, h, Operator.den, bracketOf_denT_right, denT_flatMap]
      congr 1
      refine List.map_congr_left fun t ht => ?_
      rw [denT_map_smul, (R.scTerms mode ha (hO _ (mem_terms ht))).1])]
  induction O.terms with
  | nil => simp
  | cons t l ih => rw [List.flatMap_cons, coefT_append, ih, coefT_map_smul, coefT_scTerms, List.map_cons, List.sum_cons]

/-- the Liouvillian matrix over strings -/
theorem StrAlg.liouvillian_strings (R : StrAlg K 𝔸) (mode : Mode) {b : Basis} (hb : ∀ s ∈ b.strs, R.Str s) {O : Operator K} (hO : ∀ s ∈ O.basis.strs, R.Str s) :
    ∃ L ext, liouvillianMatrix (.strings b) O mode = .ok (L, ext) ∧ L.nrows = ext.strs.length ∧ L.ncols = b.strs.length ∧ L.WF ∧ ext.strs.Nodup ∧
      (∀ s ∈ ext.strs, R.Can s) ∧
      ∀ j (hj : j < b.strs.length), ∑ c : Fin ext.strs.length, L.get c j • R.den ext.strs[c] = bracketOf mode (R.den b.strs[j]) (O.den R.den) := by
  obtain ⟨L, ext, h1, h2⟩ := R.liouvillian_ok mode (x := .strings b) (O := O) hb (by simp) hO
  have hl : (BasisArg.den R.den (.strings b : BasisArg K)).length = b.strs.length := by simp [BasisArg.den]
  refine ⟨L, ext, h1, h2.nrows, h2.ncols.trans hl, h2.wf, h2.ext_inv.2, h2.ext_str, fun j hj => ?_⟩
  rw [h2.col j (by rw [hl]; exact hj)]
  simp [BasisArg.den, hj]

/-- the matrices of a nested bracket -/
theorem StrAlg.nested (R : StrAlg K 𝔸) {mode mode' : Mode} {b : Basis} (hb : ∀ s ∈ b.strs, R.Str s) {A B : Operator K} (hA : ∀ s ∈ A.basis.strs, R.Str s)
    (hB : ∀ s ∈ B.basis.strs, R.Str s) :
    ∃ L e M f P, liouvillianMatrix (.strings b) A mode = .ok (L, e) ∧ liouvillianMatrix (.strings e) B mode' = .ok (M, f) ∧ M.dot L = .ok P ∧
      f.strs.Nodup ∧ (∀ s ∈ f.strs, R.Can s) ∧ ∀ j (hj : j < b.strs.length), ∑ c : Fin f.strs.length, P.get c j • R.den f.strs[c] =
        bracketOf mode' (bracketOf mode (R.den b.strs[j]) (A.den R.den)) (B.den R.den) := by
  obtain ⟨L, e, l1, l2, l3, l4, l5, l6, l7⟩ := R.liouvillian_strings mode hb hA
  obtain ⟨M, f, m1, m2, m3, m4, m5, m6, m7⟩ := R.liouvillian_strings mode' (b := e) (fun s hs => (l6 s hs).1) hB
  obtain ⟨P, p1, -, -, -, p5⟩ := Mat.dot_ok m4 l4 (m3.trans l2.symm)
  refine ⟨L, e, M, f, P, l1, m1, p1, m5, m6, fun j hj => ?_⟩
  rw [← l7 j hj, bracketOf_sum_left]
  simp only [p5, Finset.sum_smul]
  rw [Finset.sum_comm, ← (finCongr m3).symm.sum_comp]
  refine Finset.sum_congr rfl fun k _ => ?_
  rw [bracketOf_smul_left, show bracketOf mode' (R.den e.strs[k]) (B.den R.den) = _ from (m7 k k.2).symm, Finset.smul_sum]
  refine Finset.sum_congr rfl fun c _ => ?_
  rw [smul_smul, mul_comm]
  rfl

omit [StarRing K] [Coef K] in
theorem jacobi_bracket (x a b : 𝔸) : bracketOf .commutator x (bracketOf .commutator a b) =
    bracketOf .commutator (bracketOf .commutator x a) b - bracketOf .commutator (bracketOf .commutator x b) a := by
  simp only [bracketOf]; noncomm_ring

/-- the matrix of the commutator with a commutator -/
theorem StrAlg.jacobi [Nontrivial 𝔸] (R : StrAlg K 𝔸) {b : Basis} (hb : ∀ s ∈ b.strs, R.Str s) {A B X : Operator K} (hA : ∀ s ∈ A.basis.strs, R.Str s)
    (hB : ∀ s ∈ B.basis.strs, R.Str s) (hX : ∀ s ∈ X.basis.strs, R.Str s) (hAB : X.den R.den = bracketOf .commutator (A.den R.den) (B.den R.den)) :
    ∃ N g L e M f P L' e' M' f' Q, liouvillianMatrix (.strings b) X .commutator = .ok (N, g) ∧
      liouvillianMatrix (.strings b) A .commutator = .ok (L, e) ∧ liouvillianMatrix (.strings e) B .commutator = .ok (M, f) ∧ M.dot L = .ok P ∧
      liouvillianMatrix (.strings b) B .commutator = .ok (L', e') ∧ liouvillianMatrix (.strings e') A .commutator = .ok (M', f') ∧ M'.dot L' = .ok Q ∧
      ∀ j < b.strs.length, ∀ s, N.coefAt g j s = P.coefAt f j s - Q.coefAt f' j s := by
  obtain ⟨N, g, n1, -, -, -, n5, n6, n7⟩ := R.liouvillian_strings .commutator hb hX
  obtain ⟨L, e, M, f, P, l1, l2, l3, l4, l5, l6⟩ := R.nested (mode := .commutator) (mode' := .commutator) hb hA hB
  obtain ⟨L', e', M', f', Q, k1, k2, k3, k4, k5, k6⟩ := R.nested (mode := .commutator) (mode' := .commutator) hb hB hA
  refine ⟨N, g, L, e, M, f, P, L', e', M', f', Q, n1, l1, l2, l3, k1, k2, k3, fun j hj s => ?_⟩
  have := R.coefT_eq (ts := colTerms N g j) (us := colTerms P f j ++ (colTerms Q f' j).map fun t => (-1 * t.1, t.2)) (fun t ht => n6 _ (mem_colTerms ht))
    (fun t ht => by
      rcases List.mem_append.mp ht with h | h
      · exact l5 _ (mem_colTerms h)
      · obtain ⟨u, hu, rfl⟩ := List.mem_map.mp h
        exact k5 u.2 (mem_colTerms hu)) (by
      rw [denT_append, denT_map_smul, denT_colTerms, denT_colTerms, denT_colTerms, n7 j hj, l6 j hj, k6 j hj, hAB, jacobi_bracket, neg_smul, one_smul, sub_eq_add_neg]) s
  rw [coefT_append, coefT_map_smul, coefT_colTerms n5, coefT_colTerms l4, coefT_colTerms k4] at this
  rw [this]; ring

/-- nested brackets of strings -/
def scTerms2 (K : Type) [Field K] [StarRing K] [Coef K] (a b c : OpString) : List (K × OpString) :=
  (scTerms K .commutator a b).flatMap fun u => (scTerms K .commutator u.2 c).map fun v => (u.1 * v.1, v.2)

theorem StrAlg.scTerms2 (R : StrAlg K 𝔸) {a b c : OpString} (ha : R.Str a) (hb : R.Str b) (hc : R.Str c) :
    denT R.den (Qosy.scTerms2 K a b c) = bracketOf .commutator (bracketOf .commutator (R.den a) (R.den b)) (R.den c) ∧ ∀ t ∈ Qosy.scTerms2 K a b c, R.Can t.2 := by
  obtain ⟨h1, h2⟩ := R.scTerms .commutator ha hb
  constructor
  · rw [Qosy.scTerms2, denT_flatMap, ← h1]
    have : ∀ l : List (K × OpString), (∀ t ∈ l, R.Can t.2) → (l.map fun u => denT R.den ((Qosy.scTerms K .commutator u.2 c).map fun v => (u.1 * v.1, v.2))).sum =
        bracketOf .commutator (denT R.den l) (R.den c) := by
      intro l hl
      induction l with
      | nil => simp [denT, bracketOf_zero_left]
      | cons u l ih =>
        rw [List.map_cons, List.sum_cons, ih fun t ht => hl t (List.mem_cons_of_mem _ ht), denT_cons, bracketOf_add_left, denT_map_smul,
          (R.scTerms .commutator (hl u List.mem_cons_self).1 hc).1, bracketOf_smul_left]
    exact this _ h2
  · intro t ht
    obtain ⟨u, hu, hu'⟩ := List.mem_flatMap.mp ht
    obtain ⟨v, hv, rfl⟩ := List.mem_map.mp hu'
    exact (R.scTerms .commutator (h2 u hu).1 hc).2 v hv

/-- a sum over a set of strings that contains the bracket -/
theorem sum_scEntry {l : List OpString} (hn : l.Nodup) {a b c : OpString} (h : ∀ t ∈ scTerms K .commutator a b, t.2 ∈ l) (s : OpString) :
    ∑ m : Fin l.length, scEntry K .commutator a b l[m] * scEntry K .commutator l[m] c s = coefT (scTerms2 K a b c) s := by
  have : ∀ ts : List (K × OpString), (∀ t ∈ ts, t.2 ∈ l) → ∑ m : Fin l.length, coefT ts l[m] * scEntry K .commutator l[m] c s =
      coefT (ts.flatMap fun u => (scTerms K .commutator u.2 c).map fun v => (u.1 * v.1, v.2)) s := by
    intro ts hts
    induction ts with
    | nil => simp
    | cons u ts ih =>
      rw [List.flatMap_cons, coefT_append, ← ih fun t ht => hts t (List.mem_cons_of_mem _ ht), coefT_map_smul, coefT_scTerms]
      simp only [coefT_cons, add_mul, Finset.sum_add_distrib]
      congr 1
      obtain ⟨i, hi, e⟩ := List.getElem_of_mem (hts u List.mem_cons_self)
      rw [Finset.sum_eq_single (⟨i, hi⟩ : Fin l.length)]
      · show (if u.2 = l[i] then u.1 else 0) * scEntry K .commutator l[i] c s = _
        rw [if_pos e.symm, e]
      · intro m _ hm
        rw [if_neg, zero_mul]
        intro e'
        exact hm (Fin.ext ((hn.getElem_inj_iff).mp (e'.symm.trans e.symm)))
      · simp
  rw [scTerms2, ← this _ h]
  exact Finset.sum_congr rfl fun m _ => by rw [coefT_scTerms]

/-- the Jacobi identity of structure constants -/
theorem StrAlg.scTerms2_jacobi [Nontrivial 𝔸] (R : StrAlg K 𝔸) {a b c : OpString} (ha : R.Str a) (hb : R.Str b) (hc : R.Str c) (s : OpString) :
    coefT (Qosy.scTerms2 K a b c) s + coefT (Qosy.scTerms2 K b c a) s + coefT (Qosy.scTerms2 K c a b) s = 0 := by
  have h1 := R.scTerms2 ha hb hc
  have h2 := R.scTerms2 hb hc ha
  have h3 := R.scTerms2 hc ha hb
  rw [← coefT_append, ← coefT_append]
  refine (R.coefT_eq (us := []) (fun t ht => ?_) (by simp) ?_ s).trans (by simp)
  · rcases List.mem_append.mp ht with ht | ht
    · rcases List.mem_append.mp ht with ht | ht
      exacts [h1.2 t ht, h2.2 t ht]
    · exact h3.2 t ht
  · rw [denT_append, denT_append, h1.1, h2.1, h3.1, denT_nil]
    simp only [bracketOf]
    noncomm_ring

theorem StrAlg.scEntry_swap [Nontrivial 𝔸] (R : StrAlg K 𝔸) {a b : OpString} (ha : R.Str a) (hb : R.Str b) (s : OpString) :
    scEntry K .commutator b a s = -scEntry K .commutator a b s := by
  have h1 := R.scTerms .commutator ha hb
  have h2 := R.scTerms .commutator hb ha
  rw [← coefT_scTerms, ← coefT_scTerms]
  refine (R.coefT_eq (us := (Qosy.scTerms K .commutator a b).map fun t => (-1 * t.1, t.2)) h2.2 (fun t ht => ?_) ?_ s).trans ?_
  · obtain ⟨v, hv, rfl⟩ := List.mem_map.mp ht
    exact h1.2 v hv
  · rw [denT_map_smul, h1.1, h2.1]; simp [bracketOf]
  · rw [coefT_map_smul]; ring

/-- the entries of `structure_constants` -/
theorem StrAlg.structure_entry [Nontrivial 𝔸] (R : StrAlg K 𝔸) (mode : Mode) {tol : ℚ} (h0 : 0 < tol) (h1 : tol ≤ 1) {A B : Basis}
    (hA : ∀ s ∈ A.strs, R.Str s) (hB : ∀ s ∈ B.strs, R.Str s) :
    ∃ (N : Dict (Mat K)) (ext : Basis), structureConstants A B mode tol = .ok (N, ext) ∧
      (∀ i (hi : i < A.strs.length), ∀ u ∈ B.strs, ∃ M, N.get? u = some M ∧ ∀ s, M.coefAt ext i s = scEntry K mode A.strs[i] u s) ∧
      ∀ a ∈ A.strs, ∀ u ∈ B.strs, ∀ t ∈ Qosy.scTerms K mode a u, t.2 ∈ ext.strs := by
  obtain ⟨N, ext, g1, g2, g3⟩ := R.isStructureConstants mode h0 h1 hA hB
  have key : ∀ i (hi : i < A.strs.length), ∀ u ∈ B.strs, ∃ M, N.get? u = some M ∧ ∀ s, M.coefAt ext i s = scEntry K mode A.strs[i] u s := by
    intro i hi u hu
    obtain ⟨M, m1, -, -, m4⟩ := g2.expand u hu
    refine ⟨M, m1, fun s => ?_⟩
    obtain ⟨t1, t2⟩ := R.scTerms mode (hA _ (List.getElem_mem hi)) (hB u hu)
    rw [← coefT_colTerms g2.indexed.nodup, ← coefT_scTerms]
    exact R.coefT_eq (fun t ht => g3 _ (mem_colTerms ht)) t2 (by rw [denT_colTerms, ← m4 i hi, t1]) s
  refine ⟨N, ext, g1, key, fun a ha u hu t ht => ?_⟩
  obtain ⟨i, hi, rfl⟩ := List.getElem_of_mem ha
  obtain ⟨M, -, m2⟩ := key i hi u hu
  by_contra hne
  have h := m2 t.2
  rw [Mat.coefAt, if_neg hne, ← coefT_scTerms] at h
  rw [Qosy.scTerms] at ht h
  rcases R.op_string mode (hA _ (List.getElem_mem hi)) (hB u hu) with ⟨e1, -⟩ | ⟨c, C, e1, -, -, e4, -⟩
  · rw [e1] at ht; simp at ht
  · rw [e1] at ht h
    simp only [List.mem_singleton] at ht
    subst ht
    simp at h
    rw [← h] at e4
    cases mode <;> simp [bracketFactor] at e4

end Qosy
