import Verif.Lemmas.SymmetryMatrix
import Verif.Props.Transformation
import Verif.Lemmas.MatOf
import Mathlib.LinearAlgebra.Matrix.NonsingularInverse

/-! # Property C41: symmetry matrices -/

namespace Qosy
open Coef
variable {K : Type} [Field K] [StarRing K] [Coef K]
variable {t : OpType} {S : Set ℤ}

/-- every coefficient in the images of basis strings is zero or exceeds the tolerance -/
def Significant (T : Transformation K) (b : List OpString) (tol : ℚ) : Prop :=
  ∀ s ∈ b, ∀ s' ∈ b, T.entry s' s = 0 ∨ absGt (T.entry s' s) tol = true

/-- **C41** (entries): `symmetry_matrix(basis, T)` is square and entry `(i, j)` is the coefficient of the `i`-th string in the image of
the `j`-th string, or zero if that coefficient does not exceed the tolerance.  The basis need not be closed under `T`. -/
theorem C41_entries {b : Basis} (hb : b.Inv) {T : Transformation K} {tol : ℚ} (h : ∀ s ∈ b.strs, ∃ O, T s = .ok O ∧ O.WF) :
    ∃ M, symmetryMatrix b T tol = .ok M ∧ M.nrows = b.len ∧ M.ncols = b.len ∧
      ∀ i j (hi : i < b.strs.length) (hj : j < b.strs.length), ∃ O, T b.strs[j] = .ok O ∧
        M.get i j = if absGt (O.coef b.strs[i]) tol then O.coef b.strs[i] else 0 := by
  obtain ⟨M, h1, h2, h3, -, h4⟩ := symmetryMatrix_ok (tol := tol) hb.2 h
  rw [← hb.1] at h1
  refine ⟨M, h1, h2, h3, fun i j hi hj => ?_⟩
  obtain ⟨O, o1, -⟩ := h _ (List.getElem_mem hj)
  refine ⟨O, o1, ?_⟩
  rw [h4 i j hi hj, entry_eq o1, dropSmall]

/-- **C41** (coordinates): if the basis is closed under `T` then multiplying the coordinates of an Operator by the symmetry matrix
gives the coordinates of the transformed Operator, and the transformed Operator is made of basis strings. -/
theorem C41_coordinates {b : Basis} (hb : b.Inv) {T : Transformation K} {tol : ℚ} (hT : T.Maps t (· ∈ b.strs)) (hs : Significant T b.strs tol)
    {A : Operator K} (hA : A.On t (· ∈ b.strs)) :
    ∃ M B, symmetryMatrix b T tol = .ok M ∧ T.apply A = .ok B ∧ (∀ s ∈ B.basis.strs, s ∈ b.strs) ∧
      ∀ i (hi : i < b.strs.length), B.coef b.strs[i] = ∑ j : Fin b.strs.length, M.get i j * A.coef b.strs[j] := by
  obtain ⟨M, h1, h2, h3, -, h4⟩ := symmetryMatrix_ok (tol := tol) hb.2 (fun s hs => by
    obtain ⟨O, o1, o2, -⟩ := hT.ok s hs; exact ⟨O, o1, o2⟩)
  rw [← hb.1] at h1
  obtain ⟨B, k1, k2, k3⟩ := apply_ok hT hA
  refine ⟨M, B, h1, k1, k2.mem, fun i hi => ?_⟩
  rw [k3, sum_terms_basis hb.2 hA.mem (fun s => T.entry b.strs[i] s)]
  apply Finset.sum_congr rfl
  intro j _
  rw [h4 i j hi j.2, dropSmall_eq (hs _ (List.getElem_mem j.2) _ (List.getElem_mem hi)), mul_comm]
  rfl

/-- **C41** (products): on a basis closed under both transformations, the matrix of `T * U` is the product of the matrices. -/
theorem C41_mul {b : Basis} (hb : b.Inv) {T U : Transformation K} {tol : ℚ} (hT : T.Maps t (· ∈ b.strs)) (hU : U.Maps t (· ∈ b.strs))
    (hd : NoDrop T U (· ∈ b.strs)) (sT : Significant T b.strs tol) (sU : Significant U b.strs tol) (sTU : Significant (T.mul U) b.strs tol) :
    ∃ M N P, symmetryMatrix b T tol = .ok M ∧ symmetryMatrix b U tol = .ok N ∧ symmetryMatrix b (T.mul U) tol = .ok P ∧
      ∀ i j (_ : i < b.strs.length) (_ : j < b.strs.length), P.get i j = ∑ k : Fin b.strs.length, M.get i k * N.get k j := by
  have key : ∀ {W : Transformation K}, W.Maps t (· ∈ b.strs) → Significant W b.strs tol → ∃ M, symmetryMatrix b W tol = .ok M ∧
      ∀ i j (hi : i < b.strs.length) (hj : j < b.strs.length), M.get i j = W.entry b.strs[i] b.strs[j] := by
    intro W hW sW
    obtain ⟨M, h1, h2, h3, -, h4⟩ := symmetryMatrix_ok (tol := tol) hb.2 (fun s hs => by
      obtain ⟨O, o1, o2, -⟩ := hW.ok s hs; exact ⟨O, o1, o2⟩)
    rw [← hb.1] at h1
    exact ⟨M, h1, fun i j hi hj => by rw [h4 i j hi hj, dropSmall_eq (sW _ (List.getElem_mem hj) _ (List.getElem_mem hi))]⟩
  obtain ⟨M, m1, m2⟩ := key hT sT
  obtain ⟨N, n1, n2⟩ := key hU sU
  obtain ⟨P, p1, p2⟩ := key (mul_maps hT hU hd) sTU
  refine ⟨M, N, P, m1, n1, p1, fun i j hi hj => ?_⟩
  obtain ⟨O, o1, o2, o3, o4⟩ := hU.ok _ (List.getElem_mem hj)
  rw [p2 i j hi hj, mul_entry hT hU hd (List.getElem_mem hj) o1, sum_terms_basis hb.2 o4]
  apply Finset.sum_congr rfl
  intro k _
  rw [m2 i k hi k.2, n2 k j k.2 hj, entry_eq o1, mul_comm]
  rfl

/-- **C41** (signed permutation matrices): if `T` sends basis strings to plus or minus basis strings, injectively, then the matrix has
exactly one non-zero entry, plus or minus one, in every column, and it is unitary. -/
theorem C41_signed {b : Basis} (hb : b.Inv) {T : Transformation K} {ε : OpString → K} {f : OpString → OpString} {tol : ℚ} (htol : tol < 1)
    (h : SignRule T t (· ∈ b.strs) ε f) (hinj : Set.InjOn f {s | s ∈ b.strs}) :
    ∃ M, symmetryMatrix b T tol = .ok M ∧
      (∀ i j (hi : i < b.strs.length) (hj : j < b.strs.length), M.get i j = if f b.strs[j] = b.strs[i] then ε b.strs[j] else 0) ∧
      (M.rect b.strs.length b.strs.length).conjTranspose * M.rect b.strs.length b.strs.length = 1 ∧ M.rect b.strs.length b.strs.length * (M.rect b.strs.length b.strs.length).conjTranspose = 1 := by
  obtain ⟨M, h1, h2, h3, -, h4⟩ := symmetryMatrix_ok (tol := tol) hb.2 (fun s hs => by
    obtain ⟨O, o1, o2, -⟩ := h.maps.ok s hs; exact ⟨O, o1, o2⟩)
  rw [← hb.1] at h1
  have hg : ∀ i j (hi : i < b.strs.length) (hj : j < b.strs.length), M.get i j = if f b.strs[j] = b.strs[i] then ε b.strs[j] else 0 := by
    intro i j hi hj
    rw [h4 i j hi hj, Sends.entry (h.sends _ (List.getElem_mem hj)), dropSmall_eq]
    split
    · right
      rw [absGt_iff]
      rcases h.sign _ (List.getElem_mem hj) with h' | h' <;> rw [h'] <;> simp <;> exact_mod_cast htol
    · left; rfl
  have hu : (M.rect b.strs.length b.strs.length).conjTranspose * M.rect b.strs.length b.strs.length = 1 := by
    ext ⟨j, hj⟩ ⟨k, hk⟩
    rw [Matrix.mul_apply]
    have hmem : f b.strs[j] ∈ b.strs := h.mem _ (List.getElem_mem hj)
    obtain ⟨m, hm, hme⟩ := List.getElem_of_mem hmem
    have hidx : ∀ i : Fin b.strs.length, f b.strs[j] = b.strs[(i : ℕ)] ↔ i = ⟨m, hm⟩ := by
      intro i
      rw [← hme]
      constructor
      · intro he; exact Fin.ext ((hb.2.getElem_inj_iff).mp he.symm)
      · rintro rfl; rfl
    rw [Finset.sum_eq_single (⟨m, hm⟩ : Fin b.strs.length)]
    · simp only [Matrix.conjTranspose_apply, Mat.rect]
      rw [hg m j hm hj, hg m k hm hk, if_pos hme.symm, sign_star (h.sign _ (List.getElem_mem hj)), Matrix.one_apply]
      by_cases hjk : j = k
      · subst hjk
        rw [if_pos hme.symm, if_pos rfl, sign_mul_self (h.sign _ (List.getElem_mem hj))]
      · rw [if_neg (fun h => hjk (Fin.mk.inj h)), if_neg, mul_zero]
        intro he
        rw [hme] at he
        have := hinj (List.getElem_mem hk) (List.getElem_mem hj) he
        exact hjk ((hb.2.getElem_inj_iff).mp this).symm
    · intro i _ hi
      simp only [Matrix.conjTranspose_apply, Mat.rect]
      rw [hg i j i.2 hj, if_neg (fun he => hi ((hidx i).mp he)), star_zero, zero_mul]
    · simp
  exact ⟨M, h1, hg, hu, mul_eq_one_comm.mp hu⟩

/-- **C41** (label permutations): for a basis of Pauli or Majorana strings with ascending labels that is closed under the permutation,
the symmetry matrix is a signed permutation matrix and unitary. -/
theorem C41_permutation {p : List ℕ} (hp : IsPermArray p) {b : Basis} (hb : b.Inv) {tol : ℚ} (htol : tol < 1)
    (hV : ∀ s ∈ b.strs, TypedString t (siteLabels p.length) s ∧ s.Canonical)
    (hcl : ∀ s ∈ b.strs, ∀ O : Operator K, labelPermutation (labelsOf p) s = .ok O → ∀ s' ∈ O.basis.strs, s' ∈ b.strs) :
    ∃ M : Mat K, symmetryMatrix b (labelPermutation (labelsOf p)) tol = .ok M ∧
      (∀ j (_ : j < b.strs.length), ∃ i < b.strs.length, (M.get i j = 1 ∨ M.get i j = -1) ∧ ∀ k < b.strs.length, k ≠ i → M.get k j = 0) ∧
      (M.rect b.strs.length b.strs.length).conjTranspose * M.rect b.strs.length b.strs.length = 1 ∧ M.rect b.strs.length b.strs.length * (M.rect b.strs.length b.strs.length).conjTranspose = 1 := by
  have hr := labelPermutation_signRule (K := K) hp t
  have hmem : ∀ s ∈ b.strs, relabelString (relabelMap (labelsOf p)) s ∈ b.strs := by
    intro s hs
    exact hcl s hs _ (hr.sends s (hV s hs).1) _ (by simp [Basis.ofList])
  have h : SignRule (labelPermutation (labelsOf p) : Transformation K) t (· ∈ b.strs)
      (fun s => ((relabelSign (relabelMap (labelsOf p)) s : ℤ) : K)) (relabelString (relabelMap (labelsOf p))) :=
    ⟨fun s hs => (hV s hs).1.type, fun s hs => hr.sends s (hV s hs).1, fun s hs => hr.sign s (hV s hs).1, hmem⟩
  have hinj : Set.InjOn (relabelString (relabelMap (labelsOf p))) {s | s ∈ b.strs} := by
    have he := relabelMap_inj hp
    let g := Function.invFunOn (relabelMap (labelsOf p)) (siteLabels p.length)
    have hg : ∀ l ∈ siteLabels p.length, g (relabelMap (labelsOf p) l) = l := fun l hl => he.leftInvOn_invFunOn hl
    have hgi : Set.InjOn g (relabelMap (labelsOf p) '' siteLabels p.length) := by
      rintro _ ⟨x, hx, rfl⟩ _ ⟨y, hy, rfl⟩ h
      rw [hg x hx, hg y hy] at h; rw [h]
    have hback : ∀ s ∈ b.strs, relabelString g (relabelString (relabelMap (labelsOf p)) s) = s := by
      intro s hs
      obtain ⟨v1, v2⟩ := hV s hs
      rw [(relabel_comp v1 he (Set.mapsTo_image _ _) hgi).1]
      exact (relabel_id v1 v2 (fun l hl => hg l hl)).1
    intro s hs s' hs' he'
    rw [← hback s hs, he', hback s' hs']
  obtain ⟨M, h1, h2, h3, h4⟩ := C41_signed hb htol h hinj
  refine ⟨M, h1, ?_, h3, h4⟩
  intro j hj
  obtain ⟨i, hi, hie⟩ := List.getElem_of_mem (hmem _ (List.getElem_mem hj))
  refine ⟨i, hi, ?_, ?_⟩
  · rw [h2 i j hi hj, if_pos hie.symm]; exact h.sign _ (List.getElem_mem hj)
  · intro k hk hki
    rw [h2 k j hk hj, if_neg]
    intro he
    rw [← hie] at he
    exact hki ((hb.2.getElem_inj_iff).mp he).symm

/-- **C41** (list of Operators): suppose `pinv` satisfies the Penrose equation `C P C = C` and the images of the Operators are linear
combinations of the Operators.  Then the symmetry matrix `M` gives such linear combinations: the image of the `a`-th Operator is
`∑_c M_ca O_c`. -/
theorem C41_operators {V : OpString → Prop} {T : Transformation K} {tol : ℚ} (hT : T.Maps t V) {ops : List (Operator K)} (hne : ops ≠ [])
    (hops : ∀ o ∈ ops, o.On t V)
    (hsig : ∀ s s', V s → V s' → T.entry s' s = 0 ∨ absGt (T.entry s' s) tol = true)
    (pinv : Mat K → Py (Mat K))
    (hpinv : ∀ C : Mat K, C.WF → ∃ P, pinv C = .ok P ∧ P.WF ∧ P.nrows = C.ncols ∧ P.ncols = C.nrows ∧ 
      C.toMatrix * P.rect C.ncols C.nrows * C.toMatrix = C.toMatrix)
    (hspan : ∀ o ∈ ops, ∃ (B : Operator K) (x : Fin ops.length → K), T.apply o = .ok B ∧ ∀ s, B.coef s = ∑ c, x c * ops[c].coef s) :
    ∃ M, symmetryMatrixOf pinv (.operators ops) T tol = .ok M ∧ M.nrows = ops.length ∧ M.ncols = ops.length ∧
      ∀ a (ha : a < ops.length), ∃ B, T.apply ops[a] = .ok B ∧ ∀ s, B.coef s = ∑ c : Fin ops.length, M.get c a * ops[c].coef s := by
  obtain ⟨l, b1, b2, b3⟩ := foldl_iadd_ofList ops [] (by simp)
  have b1' : ops.foldl (fun b op => b.iadd op.basis) emptyBasis = Basis.ofList l := b1
  have hl : ∀ s ∈ l, V s := by
    intro s hs
    rcases (b3 s).mp hs with h | ⟨o, ho, h⟩
    · simp at h
    · exact (hops o ho).mem s h
  have hin : ∀ o ∈ ops, ∀ s ∈ o.basis.strs, s ∈ l := fun o ho s hs => (b3 s).mpr (Or.inr ⟨o, ho, hs⟩)
  obtain ⟨D, d1, d2, d3⟩ := operatorsData_ok b2 ops 0 [] hin
  have hC : (⟨l.length, ops.length, D⟩ : Mat K).WF := fun e he => by have := d2 e he; exact ⟨this.1, by simpa using this.2.2⟩
  have hCg : ∀ (i : ℕ) (hi : i < l.length) (j : ℕ) (hj : j < ops.length), (⟨l.length, ops.length, D⟩ : Mat K).get i j = ops[j].coef l[i] := by
    intro i hi j hj
    rw [Mat.get_eq]
    have := d3 i hi j hj
    rw [Nat.zero_add] at this
    exact this
  obtain ⟨P, p1, p2, p3, p4, p5⟩ := hpinv _ hC
  obtain ⟨S, s1, s2, s3, s4, s5⟩ := symmetryMatrix_ok (T := T) (tol := tol) b2 (fun s hs => by
    obtain ⟨O, o1, o2, -⟩ := hT.ok s (hl s hs); exact ⟨O, o1, o2⟩)
  obtain ⟨SC, c1, c2, c3, c4, c5⟩ := Mat.dot_ok s4 hC s3
  obtain ⟨M, m1, m2, m3, m4, m5⟩ := Mat.dot_ok p2 c4 (by rw [p4, c2, s2])
  refine ⟨M, ?_, by rw [m2, p3], by rw [m3, c3], ?_⟩
  · obtain ⟨o, os, rfl⟩ := List.exists_cons_of_ne_nil hne
    show symmetryMatrixOperators pinv (o :: os) T tol = _
    have hod : operatorsData (Basis.ofList l) (o :: os) = .ok D := by
      rw [operatorsData]; simpa using d1
    unfold symmetryMatrixOperators
    simp only [b1', hod, bind, Except.bind, show (Basis.ofList l).len = l.length from rfl, mkCsr_ok hC, p1, s1, c1, m1]
  · intro a ha
    obtain ⟨B, x, hB, hx⟩ := hspan _ (List.getElem_mem ha)
    refine ⟨B, hB, fun s => ?_⟩
    obtain ⟨B', h1, h2, h3⟩ := apply_ok hT (hops _ (List.getElem_mem ha))
    rw [hB] at h1
    obtain rfl : B = B' := by simpa using h1
    by_cases hs : s ∈ l
    · obtain ⟨i, hi, rfl⟩ := List.getElem_of_mem hs
      -- the column of `S C` is the coordinate vector of the image, which is `C x`
      have hSC : ∀ k (hk : k < l.length), SC.get k a = ∑ c : Fin ops.length, (⟨l.length, ops.length, D⟩ : Mat K).get k c * x c := by
        intro k hk
        rw [c5]
        have e1 : B.coef l[k] = ∑ j : Fin S.ncols, S.get k j * (⟨l.length, ops.length, D⟩ : Mat K).get j a := by
          rw [h3, sum_terms_basis b2 (hin _ (List.getElem_mem ha)), s3]
          apply Finset.sum_congr rfl
          intro j _
          rw [s5 k j hk j.2, dropSmall_eq (hsig _ _ (hl _ (List.getElem_mem j.2)) (hl _ (List.getElem_mem hk))), hCg j j.2 a ha, mul_comm]
          rfl
        rw [← e1, hx]
        apply Finset.sum_congr rfl
        intro c _
        rw [hCg k hk c c.2, mul_comm]; rfl
      rw [hx]
      have hpen := congrFun (congrArg (fun Q : Matrix (Fin l.length) (Fin ops.length) K => Q.mulVec x) p5) ⟨i, hi⟩
      have e2 : ((⟨l.length, ops.length, D⟩ : Mat K).toMatrix.mulVec x) ⟨i, hi⟩ = ∑ c, x c * ops[c].coef l[i] := by
        simp only [Matrix.mulVec, dotProduct, Mat.toMatrix, Mat.rect]
        apply Finset.sum_congr rfl
        intro c _
        rw [hCg i hi c c.2, mul_comm]; rfl
      rw [← e2, ← hpen]
      simp only
      rw [← Matrix.mulVec_mulVec, ← Matrix.mulVec_mulVec]
      simp only [Matrix.mulVec, dotProduct, Mat.toMatrix, Mat.rect]
      apply Finset.sum_congr rfl
      intro c _
      rw [hCg i hi c c.2, mul_comm]
      congr 1
      rw [m5, p4]
      apply Finset.sum_congr rfl
      intro k _
      rw [hSC k k.2]
    · rw [hx]
      have hz : ∀ c : Fin ops.length, ops[c].coef s = 0 := by
        intro c
        apply coefT_of_not_mem
        intro hm
        obtain ⟨y, hy, rfl⟩ := List.mem_map.mp hm
        exact hs (hin _ (List.getElem_mem c.2) _ (mem_terms hy))
      simp only [hz, mul_zero, Finset.sum_const_zero]

/-- an empty list of Operators raises IndexError -/
theorem C41_empty (pinv : Mat K → Py (Mat K)) (T : Transformation K) (tol : ℚ) : symmetryMatrixOf pinv (.operators []) T tol = .error .indexError := rfl

/-- the hypothesis on `pinv` can be met -/
example : ∃ pinv : Mat QI → Py (Mat QI), ∀ C : Mat QI, C.WF → ∃ P, pinv C = .ok P ∧ P.WF ∧ P.nrows = C.ncols ∧
    P.ncols = C.nrows ∧ C.toMatrix * P.rect C.ncols C.nrows * C.toMatrix = C.toMatrix := exists_pinv QI

private def aa (i j : ℤ) : OpString := ⟨[.A, .A], [i, j], .majorana, .imag⟩

example : (symmetryMatrix (Basis.ofList [aa 0 1, aa 0 2, aa 1 2]) (labelPermutation (K := QI) [1, 2, 0])).bind
    (fun M => .ok [[M.get 0 0, M.get 0 1, M.get 0 2], [M.get 1 0, M.get 1 1, M.get 1 2], [M.get 2 0, M.get 2 1, M.get 2 2]]) =
    (.ok [[0, -1, 0], [0, 0, -1], [1, 0, 0]] : Py (List (List QI))) := by decide +kernel

/-- a basis that is not closed: the matrix is not unitary -/
example : (symmetryMatrix (Basis.ofList [aa 0 1, aa 0 2]) (labelPermutation (K := QI) [1, 2, 0])).bind
    (fun M => .ok [[M.get 0 0, M.get 0 1], [M.get 1 0, M.get 1 1]]) = (.ok [[0, -1], [0, 0]] : Py (List (List QI))) := by decide +kernel

/-- the signs of the built-in transformations are significant -/
theorem SignRule.significant {T : Transformation K} {b : List OpString} {ε : OpString → K} {f : OpString → OpString} (h : SignRule T t (· ∈ b) ε f) :
    Significant T b tolTransformation := by
  intro s hs s' _
  rw [Sends.entry (h.sends s hs)]
  split
  · exact Or.inr (sign_kept (h.sign s hs))
  · exact Or.inl rfl

example : Significant (timeReversal : Transformation QI) [aa 0 1, aa 0 2] tolTransformation := by
  have h := timeReversal_signRule (K := QI) .majorana (siteLabels 3)
  have hm : ∀ s ∈ [aa 0 1, aa 0 2], TypedString .majorana (siteLabels 3) s := by
    intro s hs
    simp only [List.mem_cons, List.not_mem_nil, or_false] at hs
    rcases hs with rfl | rfl <;> exact Or.inr ⟨rfl, rfl, by simp [aa], rfl, by simp [aa], by simp [aa, siteLabels], by decide⟩
  exact SignRule.significant (t := .majorana) (f := id) (ε := trSign QI)
    ⟨fun s hs => h.type s (hm s hs), fun s hs => h.sends s (hm s hs), fun s hs => h.sign s (hm s hs), fun s hs => hs⟩

end Qosy
