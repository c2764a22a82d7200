import Verif.Lemmas.Heap
import Verif.Props.Operator

/-! # Properties of live objects: Basis histories (C09) and in-place updates (C08) -/

namespace Qosy
variable {K : Type} [Field K] [StarRing K] [CoefOps K]

/-! ## C09 -/

/-- **C09** (constructor): a list of distinct strings gives a basis with exactly these strings in this order, and it is an
indexed set; a list with a repeated string raises ValueError. -/
theorem C09_constructor (l : List OpString) :
    (l.Nodup → ∃ B, mkBasis l = .ok B ∧ B.strs = l ∧ IndexedSet B) ∧ (¬ l.Nodup → mkBasis l = .error .valueError) :=
  ⟨fun h => ⟨_, mkBasis_ok h, rfl, (Basis.Inv.ofList h).indexedSet⟩, mkBasis_error⟩

/-- **C09**: `b[i]` and `b[i - len(b)]` are the string whose `index` is `i`; every other integer raises IndexError. -/
theorem C09_getitem (B : Basis) (hB : IndexedSet B) :
    (∀ (i : ℕ) (s : OpString), i < B.len →
      (B.index s = .ok i ↔ B.getItem i = .ok s) ∧ (B.index s = .ok i ↔ B.getItem ((i : ℤ) - B.len) = .ok s)) ∧
    (∀ i : ℤ, i < -(B.len : ℤ) ∨ (B.len : ℤ) ≤ i → B.getItem i = .error .indexError) := by
  constructor
  · intro i s hi
    have hi' : i < B.strs.length := hi
    rw [hB.index_iff]
    have h1 : B.getItem i = .ok B.strs[i] := by
      have e : ¬ ((i : ℤ) < 0) := by omega
      rw [Basis.getItem]
      simp only [if_neg e, Int.toNat_natCast, List.getElem?_eq_getElem hi']
    have h2 : B.getItem ((i : ℤ) - B.len) = .ok B.strs[i] := by
      have e : ((i : ℤ) - B.len) < 0 := by omega
      have e2 : (i : ℤ) - B.len + B.strs.length = i := by rw [Basis.len]; omega
      rw [Basis.getItem]
      simp only [if_pos e, e2]
      simp [List.getElem?_eq_getElem hi']
    rw [h1, h2, List.getElem?_eq_getElem hi']
    simp
  · intro i hi
    rw [Basis.getItem]
    have hl : B.len = B.strs.length := rfl
    by_cases h0 : i < 0
    · have : i + B.strs.length < 0 := by omega
      simp [if_pos h0, if_pos this]
    · have : B.strs.length ≤ i.toNat := by omega
      simp [if_neg h0, List.getElem?_eq_none this]

/-- The full property C09: after every history of constructions, additions and in-place additions every live Basis is an
indexed set. -/
def C09_Full : Prop := ∀ (cmds : List (Cmd QI)) (r : ℕ) (B : Basis), (Heap.run Heap.empty cmds).basis r = some B → IndexedSet B

private def sX1 : OpString := ⟨[.X], [1], .pauli, .float1⟩
private def sZ1 : OpString := ⟨[.Z], [1], .pauli, .float1⟩

/-- L = ['X 1']; B0 = Basis(L); B1 = Basis(L); B0 += 'Z 1' -/
private def sharedList : List (Cmd QI) := [.newList [sX1], .basisOf 0, .basisOf 0, .basisIaddString 0 sZ1]

/-- **C09** is false of the code: `Basis(L)` keeps the caller's list, so two bases built from one list share it while each
has its own dictionary.  After `B0 += 'Z 1'` the string 'Z 1' is in the list of `B1` but not in its index. -/
theorem C09_refuted : ¬ C09_Full := by
  intro h
  have hb : (Heap.run Heap.empty sharedList).basis 1 = some ⟨[sX1, sZ1], [(sX1, 0)]⟩ := by decide +kernel
  have := (h sharedList 1 _ hb).contains_iff sZ1
  exact absurd (this.mpr (by decide)) (by decide +kernel)

/-- **C09** for every history that hands no list to more than one live Basis: every live Basis is an indexed set.
Missing from the full statement: histories sharing one list between bases, where it is false (`C09_refuted`). -/
theorem C09_histories_partial (cmds : List (Cmd K)) (hc : GuardedFrom Heap.empty cmds) (r : ℕ) (B : Basis)
    (hB : (Heap.run Heap.empty cmds).basis r = some B) : IndexedSet B :=
  ((Heap.Good.empty.run cmds hc).inv r B hB).indexedSet

/-- **C09**: in such a history `b += c` and `b += 'string'` succeed and leave `b` with the union of the strings. -/
theorem C09_inplace_union_partial (cmds : List (Cmd K)) (hc : GuardedFrom Heap.empty cmds) (b c : ℕ) (B C : Basis) (s : OpString)
    (hb : (Heap.run Heap.empty cmds).basis b = some B) (hc' : (Heap.run Heap.empty cmds).basis c = some C) :
    (∃ h', Heap.step (Heap.run Heap.empty cmds) (.basisIadd b c) = (h', none) ∧
      ∃ B', h'.basis b = some B' ∧ B'.strs = B.strs ++ C.strs.filter (fun s => decide (s ∉ B.strs)) ∧
      ∀ r, r ≠ b → h'.basis r = (Heap.run Heap.empty cmds).basis r) ∧
    (∃ h', Heap.step (Heap.run Heap.empty cmds) (.basisIaddString b s) = (h', none) ∧
      ∃ B', h'.basis b = some B' ∧ B'.strs = (if s ∈ B.strs then B.strs else B.strs ++ [s]) ∧
      ∀ r, r ≠ b → h'.basis r = (Heap.run Heap.empty cmds).basis r) := by
  have hg := Heap.Good.empty.run cmds hc
  have hbl := Heap.basis_lt hb
  have hB := hg.inv b B hb
  have hC := hg.inv c C hc'
  constructor
  · refine ⟨(Heap.run Heap.empty cmds).setBasis b (B.iadd C), by simp only [Heap.step, hb, hc'], B.iadd C, ?_, ?_, ?_⟩
    · rw [hg.toSep.setBasis_basis hbl, if_pos rfl]
    · rw [hB.1, Basis.iadd_ofList hB.2]
      exact unionList_eq_filter _ hC.2
    · intro r hr
      rw [hg.toSep.setBasis_basis hbl, if_neg hr]
  · refine ⟨(Heap.run Heap.empty cmds).setBasis b (B.iaddString s), by simp only [Heap.step, hb], B.iaddString s, ?_, ?_, ?_⟩
    · rw [hg.toSep.setBasis_basis hbl, if_pos rfl]
    · rw [hB.1, Basis.iaddString_ofList]
      show unionList _ [s] = _
      rw [unionList_eq_filter _ (by simp)]
      by_cases hs : s ∈ B.strs <;> simp [hs]
    · intro r hr
      rw [hg.toSep.setBasis_basis hbl, if_neg hr]

/-! ## C08 -/

/-- The full property C08: after any history, `x += y` and `x -= y` leave the value of every other Operator and every Basis
other than the one belonging to `x` unchanged. -/
def C08_Full : Prop :=
  ∀ (cmds : List (Cmd QI)) (x y : ℕ) (c : Cmd QI), (c = .opIadd x y ∨ c = .opIsub x y) →
    let h := Heap.run Heap.empty cmds
    let h' := (h.step c).1
    (∀ z, z ≠ x → z < h.ops.length → h'.op z = h.op z) ∧
    (∀ e, h.ops[x]? = some e → ∀ r, r ≠ e.2.1 → r < h.bases.length → h'.basis r = h.basis r)

/-- B = Basis(['X 1']); A0 = Operator([1], B); A1 = Operator([2], B); A2 = Operator([1], ['Z 1']) -/
private def sharedBasis : List (Cmd QI) :=
  [.newList [sX1], .basisOf 0, .opOfBasis [1] 0 none, .opOfBasis [⟨2, 0⟩] 0 none, .newList [sZ1], .opOfList [1] 1 none]

/-- **C08** is false of the code: an Operator keeps a passed Basis by reference, so `A0 += A2` enlarges the basis of `A1`,
which then has two basis strings and only one coefficient. -/
theorem C08_refuted : ¬ C08_Full := by
  intro h
  have h1 := (h sharedBasis 0 2 _ (Or.inl rfl)).1 1 (by decide) (by decide +kernel)
  have e1 : (Heap.run Heap.empty sharedBasis).op 1 = some ⟨[⟨2, 0⟩], ⟨[sX1], [(sX1, 0)]⟩, .pauli⟩ := by decide +kernel
  have e2 : (Heap.step (Heap.run Heap.empty sharedBasis) (.opIadd 0 2)).1.op 1 =
      some ⟨[⟨2, 0⟩], ⟨[sX1, sZ1], [(sX1, 0), (sZ1, 1)]⟩, .pauli⟩ := by decide +kernel
  rw [e1, e2] at h1
  exact absurd h1 (by decide +kernel)

/-- **C08** (frame): in every history that hands no list to more than one live Basis, `x += y` and `x -= y` leave every
Basis other than the one `x` holds, and every other Operator that does not hold the very same Basis object, unchanged,
whether or not the statement raises an exception.  Missing from the full statement: Operators sharing the Basis object
of `x`, where it is false (`C08_refuted`). -/
theorem C08_frame_partial (cmds : List (Cmd K)) (hc : GuardedFrom Heap.empty cmds) (x y : ℕ) (c : Cmd K)
    (hcmd : c = .opIadd x y ∨ c = .opIsub x y) (cs : List K) (b : ℕ) (t : OpType)
    (hx : (Heap.run Heap.empty cmds).ops[x]? = some (cs, b, t)) :
    (∀ r, r ≠ b → r < (Heap.run Heap.empty cmds).bases.length →
      ((Heap.run Heap.empty cmds).step c).1.basis r = (Heap.run Heap.empty cmds).basis r) ∧
    (∀ z cs' b' t', z ≠ x → (Heap.run Heap.empty cmds).ops[z]? = some (cs', b', t') → b' ≠ b →
      ((Heap.run Heap.empty cmds).step c).1.op z = (Heap.run Heap.empty cmds).op z) := by
  have hg := Heap.Good.empty.run cmds hc
  generalize Heap.run Heap.empty cmds = h at hg hx ⊢
  rcases hcmd with rfl | rfl
  · have := hg.iaddOp_frame (y := y) hx
    exact ⟨fun r hr _ => this.1 r hr, this.2.1⟩
  · simp only [Heap.step]
    split
    · split
      · rename_i B hB N hN
        have hg2 := hg.allocOp (mkOperator_inv hN)
        have hxl := (List.getElem?_eq_some_iff.mp hx).1
        have hx2 : (h.allocOp N).ops[x]? = some (cs, b, t) := by
          simp only [Heap.allocOp, Heap.allocBasis]
          rw [List.getElem?_append_left hxl]; exact hx
        have := hg2.iaddOp_frame (y := h.ops.length) hx2
        refine ⟨fun r hr hrl => ?_, fun z cs' b' t' hz h1 h2 => ?_⟩
        · rw [this.1 r hr]
          show (h.allocBasis N.basis).basis r = _
          rw [hg.toSep.allocBasis_basis, if_neg (by omega)]
        · have hzl := (List.getElem?_eq_some_iff.mp h1).1
          rw [this.2.1 z cs' b' t' hz ?_ h2, Heap.allocOp_op_old hg.toSep _ hzl]
          simp only [Heap.allocOp, Heap.allocBasis]
          rw [List.getElem?_append_left hzl]; exact h1
      · exact ⟨fun _ _ _ => rfl, fun _ _ _ _ _ _ _ => rfl⟩
    · exact ⟨fun _ _ _ => rfl, fun _ _ _ _ _ _ _ => rfl⟩

/-- **C08** for every disciplined history (no list handed to two live Bases, no Basis handed to two live Operators): `x += y`
and `x -= y` leave every other Operator unchanged. -/
theorem C08_histories_partial (cmds : List (Cmd K)) (hc : GuardedFrom Heap.empty cmds) (ho : OwnedFrom Heap.empty cmds)
    (x y : ℕ) (c : Cmd K) (hcmd : c = .opIadd x y ∨ c = .opIsub x y) (z : ℕ) (hz : z ≠ x)
    (hzl : z < (Heap.run Heap.empty cmds).ops.length) :
    ((Heap.run Heap.empty cmds).step c).1.op z = (Heap.run Heap.empty cmds).op z := by
  have hown : (Heap.run (Heap.empty : Heap K) cmds).Owned :=
    Heap.Owned.run (by simp [Heap.Owned, Heap.empty]) Heap.Good.empty cmds hc ho
  by_cases hxl : x < (Heap.run Heap.empty cmds).ops.length
  · rcases hx : (Heap.run Heap.empty cmds).ops[x] with ⟨cs, b, t⟩
    rcases hzz : (Heap.run Heap.empty cmds).ops[z] with ⟨cs', b', t'⟩
    have h1 : (Heap.run Heap.empty cmds).ops[x]? = some (cs, b, t) := by rw [List.getElem?_eq_getElem hxl, hx]
    have h2 : (Heap.run Heap.empty cmds).ops[z]? = some (cs', b', t') := by rw [List.getElem?_eq_getElem hzl, hzz]
    exact (C08_frame_partial cmds hc x y c hcmd cs b t h1).2 z cs' b' t' hz h2 (hown.ne hz h1 h2)
  · -- `x` does not exist: NameError
    have hg := Heap.Good.empty.run cmds hc
    generalize Heap.run Heap.empty cmds = h at hxl hzl hg ⊢
    rcases hcmd with rfl | rfl
    · simp only [Heap.step, Heap.iaddOp, List.getElem?_eq_none (by omega : h.ops.length ≤ x)]
    · simp only [Heap.step]
      split
      · split
        · rename_i B hB N hN
          by_cases hx2 : x = h.ops.length
          · subst hx2
            have hnew : (h.allocOp N).ops[h.ops.length]? = some (N.coeffs, h.bases.length, N.opType) := by
              simp [Heap.allocOp, Heap.allocBasis]
            have := (hg.allocOp (mkOperator_inv hN)).iaddOp_frame (y := h.ops.length) hnew
            rcases hzz : h.ops[z] with ⟨cs', b', t'⟩
            have h2 : h.ops[z]? = some (cs', b', t') := by rw [List.getElem?_eq_getElem hzl, hzz]
            have hb' : b' < h.bases.length := hg.bref _ (List.mem_of_getElem? h2)
            rw [this.2.1 z cs' b' t' hz ?_ (by omega), Heap.allocOp_op_old hg.toSep _ hzl]
            simp only [Heap.allocOp, Heap.allocBasis]
            rw [List.getElem?_append_left hzl]; exact h2
          · have : (h.allocOp N).ops[x]? = none := by
              apply List.getElem?_eq_none
              simp [Heap.allocOp, Heap.allocBasis]; omega
            simp only [Heap.iaddOp, this]
            exact Heap.allocOp_op_old hg.toSep _ hzl
        · rfl
      · rfl

/-- **C08** (effect): in a guarded history, `x += y` for well-formed Operators of one type succeeds, and the object `x` then
has the value of the sum: the same coefficient of every string, hence the same element of the algebra. -/
theorem C08_effect (cmds : List (Cmd K)) (hc : GuardedFrom Heap.empty cmds) (x y : ℕ) (A B : Operator K)
    (hA : (Heap.run Heap.empty cmds).op x = some A) (hB : (Heap.run Heap.empty cmds).op y = some B)
    (hwA : A.WF) (hwB : B.WF) (ht : A.opType = B.opType) :
    ∃ h' C, (Heap.run Heap.empty cmds).step (.opIadd x y) = (h', none) ∧ h'.op x = some C ∧ C.WF ∧
      ∀ s, C.coef s = A.coef s + B.coef s := by
  have hg := Heap.Good.empty.run cmds hc
  obtain ⟨h', C, h1, h2, h3⟩ := hg.iaddOp_effect hA hB hwA hwB ht
  obtain ⟨C', k1, k2, k3⟩ := Operator.iadd_ok hwA hwB ht
  rw [h2] at k1
  simp only [Except.ok.injEq] at k1
  subst k1
  exact ⟨h', C, h1, h3, k2, by simpa using k3.2.2⟩

/-- **C08** (failure): in a guarded history, if `x += y` raises, the object `x` is still consistent, with as many coefficients as strings, and has the
coefficients it had: the strings added before the exception have the coefficient zero. -/
theorem C08_failed (cmds : List (Cmd K)) (hc : GuardedFrom Heap.empty cmds) (x y : ℕ) (A : Operator K)
    (hA : (Heap.run Heap.empty cmds).op x = some A) (hwA : A.WF) {h' : Heap K} {e : PyErr}
    (he : (Heap.run Heap.empty cmds).step (.opIadd x y) = (h', some e)) :
    ∃ C, h'.op x = some C ∧ C.basis.Inv ∧ C.coeffs.length = C.basis.strs.length ∧ C.opType = A.opType ∧ ∀ s, C.coef s = A.coef s := by
  have hg := Heap.Good.empty.run cmds hc
  generalize Heap.run Heap.empty cmds = h at *
  obtain ⟨b, h1, h2⟩ := Heap.op_eq_some.mp hA
  have hb := Heap.basis_lt h2
  have same : h' = h → ∃ C, h'.op x = some C ∧ C.basis.Inv ∧ C.coeffs.length = C.basis.strs.length ∧ C.opType = A.opType ∧ ∀ s, C.coef s = A.coef s := by
    rintro rfl
    exact ⟨A, hA, hwA.basis, hwA.len, rfl, fun _ => rfl⟩
  change h.iaddOp x y = _ at he
  cases hB : h.op y with
  | none =>
    simp only [Heap.iaddOp, h1, hA, hB, Prod.mk.injEq] at he
    exact same he.1.symm
  | some B =>
    by_cases ht : A.opType = B.opType
    · have hu : A.basis.iadd B.basis = Basis.ofList (unionList A.basis.strs B.basis.strs) := by
        conv_lhs => rw [hwA.basis.1]
        exact Basis.iadd_ofList hwA.basis.2 _
      have hx := (List.getElem?_eq_some_iff.mp h1).1
      obtain ⟨tl, htl⟩ : ∃ tl, unionList A.basis.strs B.basis.strs = A.basis.strs ++ tl := unionList_prefix _ _
      have hn : (unionList A.basis.strs B.basis.strs).Nodup := unionList_nodup hwA.basis.2 _
      have hlen : (A.coeffs ++ List.replicate ((A.basis.iadd B.basis).len - A.basis.len) (0 : K)).length = (unionList A.basis.strs B.basis.strs).length := by
        simp only [hu, Basis.len, Basis.ofList_strs, htl, List.length_append, List.length_replicate, hwA.len]
        omega
      simp only [Heap.iaddOp, h1, hA, hB, ht, ne_eq, not_true_eq_false, if_false] at he
      rw [hg.toSep.setBasis_basis hb, if_pos rfl] at he
      cases hy : (h.setBasis b (A.basis.iadd B.basis)).op y with
      | none =>
        simp only [hy, Prod.mk.injEq] at he
        exact same he.1.symm
      | some B' =>
        simp only [hy] at he
        cases htail : addTail A.coeffs (A.basis.iadd B.basis) A.basis.len B' with
        | ok cs => simp [htail] at he
        | error e' =>
          simp only [htail, Prod.mk.injEq] at he
          obtain ⟨rfl, -⟩ := he
          refine ⟨⟨A.coeffs ++ List.replicate ((A.basis.iadd B.basis).len - A.basis.len) 0, A.basis.iadd B.basis, A.opType⟩,
            Heap.op_eq_some.mpr ⟨b, by simp [hx, ht], ?_⟩, ?_, ?_, rfl, fun s => ?_⟩
          · show (h.setBasis b (A.basis.iadd B.basis)).basis b = _
            rw [hg.toSep.setBasis_basis hb, if_pos rfl]
          · exact hwA.basis.iadd _
          · show _ = (A.basis.iadd B.basis).strs.length
            rw [hlen, hu, Basis.ofList_strs]
          · show coefT ((A.coeffs ++ List.replicate ((A.basis.iadd B.basis).len - A.basis.len) (0 : K)).zip (A.basis.iadd B.basis).strs) s = coefT (A.coeffs.zip A.basis.strs) s
            rw [show (A.basis.iadd B.basis).strs = A.basis.strs ++ tl by rw [hu, Basis.ofList_strs, htl], List.zip_append hwA.len]
            simp only [coefT, List.map_append, List.sum_append]
            rw [add_eq_left]
            refine List.sum_eq_zero fun c hc => ?_
            obtain ⟨u, hu', rfl⟩ := List.mem_map.mp hc
            have : u.1 = 0 := List.eq_of_mem_replicate (List.of_mem_zip hu').1
            simp [this]
    · simp only [Heap.iaddOp, h1, hA, hB, ht, ne_eq, not_false_eq_true, if_true, Prod.mk.injEq] at he
      exact same he.1.symm

/-! ### Non-vacuity -/

/-- L = ['X 1']; B0 = Basis(L); A0 = Operator([1], B0); M = ['Z 1', 'X 1']; A1 = Operator([3, i], M); A1 += A0; A2 = A0 - A1;
B0 += 'Z 1' -/
private def exHistory : List (Cmd QI) :=
  [.newList [sX1], .basisOf 0, .opOfBasis [1] 0 none, .newList [sZ1, sX1], .opOfList [⟨3, 0⟩, ⟨0, 1⟩] 1 none, .opIadd 1 0,
    .opSub 0 1]

private theorem exHistory_guarded : GuardedFrom Heap.empty exHistory ∧ OwnedFrom Heap.empty exHistory := by
  simp only [exHistory, GuardedFrom, OwnedFrom, Heap.Guard, Heap.OwnGuard, true_and, and_true]
  decide +kernel

example : (Heap.run Heap.empty exHistory).op 1 = some ⟨[⟨3, 0⟩, ⟨1, 1⟩], ⟨[sZ1, sX1], [(sZ1, 0), (sX1, 1)]⟩, .pauli⟩ ∧
    (Heap.run Heap.empty exHistory).op 2 = some ⟨[⟨0, -1⟩, ⟨-3, 0⟩], ⟨[sX1, sZ1], [(sX1, 0), (sZ1, 1)]⟩, .pauli⟩ := by
  decide +kernel

/-- the frame property on this history: `A2 += A1` leaves A0 and A1 alone -/
example : ((Heap.run Heap.empty exHistory).step (.opIadd 2 1)).1.op 0 = (Heap.run Heap.empty exHistory).op 0 :=
  C08_histories_partial exHistory exHistory_guarded.1 exHistory_guarded.2 2 1 _ (Or.inl rfl) 0 (by decide) (by decide +kernel)

/-- B0 = Basis(['X 1', 'Z 1']); A0 = Operator([1, 1], B0); A1 = Operator([1], ['X 1']); B0 += 'Y 1'; now A0 is inconsistent and A1 += A0 raises -/
private def failing : List (Cmd QI) :=
  [.newList [sX1, sZ1], .basisOf 0, .opOfBasis [1, 1] 0 none, .newList [sX1], .opOfList [1] 1 none, .basisIaddString 0 ⟨[.Y], [1], .pauli, .float1⟩]

example : GuardedFrom Heap.empty failing ∧ ((Heap.run Heap.empty failing).step (.opIadd 1 0)).2 = some .valueError ∧
    ((Heap.run Heap.empty failing).step (.opIadd 1 0)).1.op 1 = some ⟨[1, 0, 0], Basis.ofList [sX1, sZ1, ⟨[.Y], [1], .pauli, .float1⟩], .pauli⟩ := by
  refine ⟨?_, by decide +kernel, by decide +kernel⟩
  simp only [failing, GuardedFrom, Heap.Guard, true_and, and_true]
  decide +kernel

end Qosy
