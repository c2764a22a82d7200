import Verif.Spec.Histories
import Verif.Lemmas.Vector

/-! # Lemmas about the heap of `Basis` and `Operator` objects -/

namespace Qosy
variable {K : Type}

/-- references are valid and no two Basis objects share a list -/
structure Heap.Sep (h : Heap K) : Prop where
  lref : ∀ e ∈ h.bases, e.1 < h.lists.length
  nodup : (h.bases.map Prod.fst).Nodup
  bref : ∀ e ∈ h.ops, e.2.1 < h.bases.length

/-- the heap invariant -/
structure Heap.Good (h : Heap K) : Prop extends Heap.Sep h where
  inv : ∀ r B, h.basis r = some B → B.Inv

theorem Heap.basis_eq_some {h : Heap K} {r : ℕ} {B : Basis} :
    h.basis r = some B ↔ ∃ l, h.bases[r]? = some (l, B.idx) ∧ h.lists[l]? = some B.strs := by
  unfold Heap.basis
  constructor
  · intro hB
    split at hB
    · rename_i l d hr
      split at hB
      · rename_i ss hl
        simp only [Option.some.injEq] at hB
        subst hB
        exact ⟨l, hr, hl⟩
      · simp at hB
    · simp at hB
  · rintro ⟨l, h1, h2⟩
    rw [h1]; simp only [h2]

theorem Heap.basis_isSome {h : Heap K} (hl : ∀ e ∈ h.bases, e.1 < h.lists.length) {r : ℕ} (hr : r < h.bases.length) :
    ∃ B, h.basis r = some B := by
  rcases hb : h.bases[r] with ⟨l, d⟩
  have h1 : l < h.lists.length := by
    have := hl h.bases[r] (List.getElem_mem hr); rw [hb] at this; exact this
  exact ⟨⟨h.lists[l], d⟩, Heap.basis_eq_some.mpr ⟨l, by rw [List.getElem?_eq_getElem hr, hb], by simp [h1]⟩⟩

theorem Heap.basis_lt {h : Heap K} {r : ℕ} {B : Basis} (hB : h.basis r = some B) : r < h.bases.length := by
  obtain ⟨l, h1, _⟩ := Heap.basis_eq_some.mp hB
  exact (List.getElem?_eq_some_iff.mp h1).1

theorem Heap.basis_none {h : Heap K} {r : ℕ} (hr : ¬ r < h.bases.length) : h.basis r = none := by
  unfold Heap.basis
  rw [List.getElem?_eq_none (by omega)]

/-! ### writing a basis -/

theorem Heap.setBasis_eq {h : Heap K} {r : ℕ} (hr : r < h.bases.length) (B : Basis) :
    h.setBasis r B = { h with lists := h.lists.set h.bases[r].1 B.strs, bases := h.bases.set r (h.bases[r].1, B.idx) } := by
  unfold Heap.setBasis
  rw [List.getElem?_eq_getElem hr]

@[simp] theorem Heap.setBasis_ops (h : Heap K) (r : ℕ) (B : Basis) : (h.setBasis r B).ops = h.ops := by
  unfold Heap.setBasis; split <;> rfl

@[simp] theorem Heap.setBasis_bases_length (h : Heap K) (r : ℕ) (B : Basis) :
    (h.setBasis r B).bases.length = h.bases.length := by
  unfold Heap.setBasis; split <;> simp

theorem Heap.Sep.setBasis_basis {h : Heap K} (hs : h.Sep) {r : ℕ} (hr : r < h.bases.length) (B : Basis) (r' : ℕ) :
    (h.setBasis r B).basis r' = if r' = r then some B else h.basis r' := by
  rw [Heap.setBasis_eq hr]
  have hl := hs.lref _ (List.getElem_mem hr)
  by_cases e : r' = r
  · subst e
    rw [if_pos rfl]
    exact Heap.basis_eq_some.mpr ⟨h.bases[r'].1, by simp [hr], by simp [hl]⟩
  · rw [if_neg e]
    by_cases hr' : r' < h.bases.length
    · have hne : h.bases[r].1 ≠ h.bases[r'].1 := by
        intro he
        have := (List.Nodup.getElem_inj_iff (i := r) (j := r') hs.nodup (hi := by simpa using hr) (hj := by simpa using hr')).mp (by simpa using he)
        exact e this.symm
      unfold Heap.basis
      simp only [List.getElem?_set_ne (Ne.symm e), List.getElem?_eq_getElem hr', List.getElem?_set_ne hne]
    · rw [Heap.basis_none hr', Heap.basis_none (by simpa using hr')]

theorem Heap.Sep.setBasis {h : Heap K} (hs : h.Sep) {r : ℕ} (hr : r < h.bases.length) (B : Basis) : (h.setBasis r B).Sep := by
  have e : ((h.setBasis r B).bases.map Prod.fst) = h.bases.map Prod.fst := by
    rw [Heap.setBasis_eq hr]
    apply List.ext_getElem
    · simp
    · intro i h1 h2
      simp only [List.getElem_map, List.getElem_set]
      split
      · rename_i h3; subst h3; rfl
      · rfl
  constructor
  · intro x hx
    have hm : x.1 ∈ h.bases.map Prod.fst := by rw [← e]; exact List.mem_map_of_mem hx
    obtain ⟨y, hy, hxy⟩ := List.mem_map.mp hm
    rw [Heap.setBasis_eq hr, List.length_set, ← hxy]
    exact hs.lref y hy
  · rw [e]; exact hs.nodup
  · simp only [Heap.setBasis_ops, Heap.setBasis_bases_length]; exact hs.bref

theorem Heap.Good.setBasis {h : Heap K} (hg : h.Good) {r : ℕ} (hr : r < h.bases.length) {B : Basis} (hB : B.Inv) :
    (h.setBasis r B).Good := by
  refine ⟨hg.toSep.setBasis hr B, ?_⟩
  intro r' B' h'
  rw [hg.toSep.setBasis_basis hr] at h'
  split at h'
  · simp only [Option.some.injEq] at h'; subst h'; exact hB
  · exact hg.inv r' B' h'

/-! ### allocation -/

theorem Heap.Sep.allocBasis_basis {h : Heap K} (hs : h.Sep) (B : Basis) (r : ℕ) :
    (h.allocBasis B).basis r = if r = h.bases.length then some B else h.basis r := by
  unfold Heap.allocBasis
  by_cases e : r = h.bases.length
  · subst e
    rw [if_pos rfl]
    exact Heap.basis_eq_some.mpr ⟨h.lists.length, by simp, by simp⟩
  · rw [if_neg e]
    by_cases hr : r < h.bases.length
    · have hl := hs.lref _ (List.getElem_mem hr)
      unfold Heap.basis
      simp only [List.getElem?_append_left hr, List.getElem?_eq_getElem hr, List.getElem?_append_left hl]
    · rw [Heap.basis_none hr, Heap.basis_none (by simp; omega)]

theorem Heap.Sep.allocBasis {h : Heap K} (hs : h.Sep) (B : Basis) : (h.allocBasis B).Sep := by
  unfold Heap.allocBasis
  constructor
  · intro e he
    simp only [List.mem_append, List.mem_singleton, List.length_append, List.length_singleton] at he ⊢
    rcases he with he | rfl
    · have := hs.lref e he; omega
    · simp
  · simp only [List.map_append, List.map_cons, List.map_nil]
    refine hs.nodup.append (by simp) ?_
    simp only [List.disjoint_singleton, List.mem_map, not_exists, not_and]
    intro x hx hxe
    have := hs.lref x hx; omega
  · intro e he
    have := hs.bref e he
    simp; omega

theorem Heap.Good.allocBasis {h : Heap K} (hg : h.Good) {B : Basis} (hB : B.Inv) : (h.allocBasis B).Good := by
  refine ⟨hg.toSep.allocBasis B, ?_⟩
  intro r B' h'
  rw [hg.toSep.allocBasis_basis] at h'
  split at h'
  · simp only [Option.some.injEq] at h'; subst h'; exact hB
  · exact hg.inv r B' h'

theorem Heap.Good.withOps {h : Heap K} (hg : h.Good) {ops : List (List K × ℕ × OpType)}
    (ho : ∀ e ∈ ops, e.2.1 < h.bases.length) : ({ h with ops := ops } : Heap K).Good :=
  ⟨⟨hg.lref, hg.nodup, ho⟩, hg.inv⟩

theorem Heap.Good.setOp {h : Heap K} (hg : h.Good) {x : ℕ} {e : List K × ℕ × OpType} (he : e.2.1 < h.bases.length) :
    ({ h with ops := h.ops.set x e } : Heap K).Good := by
  apply hg.withOps
  intro e' he'
  rcases List.mem_or_eq_of_mem_set he' with h1 | rfl
  · exact hg.bref e' h1
  · exact he

theorem Heap.Good.allocOp {h : Heap K} (hg : h.Good) {A : Operator K} (hA : A.basis.Inv) : (h.allocOp A).Good := by
  unfold Heap.allocOp
  apply (hg.allocBasis hA).withOps
  intro e he
  simp only [Heap.allocBasis, List.mem_append, List.mem_singleton, List.length_append, List.length_singleton] at he ⊢
  rcases he with he | rfl
  · have := hg.bref e he; omega
  · simp

theorem Heap.op_eq_some {h : Heap K} {r : ℕ} {A : Operator K} :
    h.op r = some A ↔ ∃ b, h.ops[r]? = some (A.coeffs, b, A.opType) ∧ h.basis b = some A.basis := by
  unfold Heap.op
  constructor
  · intro hA
    split at hA
    · rename_i c b t hr
      split at hA
      · rename_i B hb
        simp only [Option.some.injEq] at hA
        subst hA
        exact ⟨b, hr, hb⟩
      · simp at hA
    · simp at hA
  · rintro ⟨b, h1, h2⟩
    rw [h1]; simp only [h2]

theorem Heap.allocOp_op_old {h : Heap K} (hs : h.Sep) (A : Operator K) {r : ℕ} (hr : r < h.ops.length) :
    (h.allocOp A).op r = h.op r := by
  unfold Heap.op
  have e : (h.allocOp A).ops[r]? = h.ops[r]? := by
    simp only [Heap.allocOp, Heap.allocBasis]
    rw [List.getElem?_append_left hr]
  rw [e]
  cases h1 : h.ops[r]? with
  | none => rfl
  | some x =>
    obtain ⟨c, b, t⟩ := x
    have hb : b < h.bases.length := hs.bref _ (List.mem_of_getElem? h1)
    have : (h.allocOp A).basis b = h.basis b := by
      show (h.allocBasis A.basis).basis b = h.basis b
      rw [hs.allocBasis_basis, if_neg (by omega)]
    simp only [this]

theorem Heap.allocOp_op_new {h : Heap K} (hs : h.Sep) (A : Operator K) :
    (h.allocOp A).op h.ops.length = some A := by
  refine Heap.op_eq_some.mpr ⟨h.bases.length, by simp [Heap.allocOp, Heap.allocBasis], ?_⟩
  show (h.allocBasis A.basis).basis _ = _
  rw [hs.allocBasis_basis, if_pos rfl]

section
variable [Field K] [StarRing K] [CoefOps K]

/-! ### values built by the operations satisfy the basis invariant -/

theorem mkBasis_inv {l : List OpString} {B : Basis} (h : mkBasis l = .ok B) : B.Inv ∧ B.strs = l := by
  by_cases hn : l.Nodup
  · rw [mkBasis_ok hn] at h
    simp only [Except.ok.injEq] at h
    subst h; exact ⟨Basis.Inv.ofList hn, rfl⟩
  · rw [mkBasis_error hn] at h; simp at h

theorem mkOperatorB_basis {cs : List K} {b : Basis} {t : Option OpType} {A : Operator K} (h : mkOperatorB cs b t = .ok A) :
    A.basis = b ∧ A.coeffs = cs := by
  unfold mkOperatorB at h
  split at h <;> simp only [Except.ok.injEq, reduceCtorEq] at h <;> subst h <;> exact ⟨rfl, rfl⟩

theorem mkOperator_inv {cs : List K} {l : List OpString} {t : Option OpType} {A : Operator K} (h : mkOperator cs l t = .ok A) :
    A.basis.Inv := by
  rw [mkOperator] at h
  cases hb : mkBasis l with
  | error e => rw [hb] at h; simp [bind, Except.bind] at h
  | ok B =>
    rw [hb] at h
    simp only [bind, Except.bind] at h
    rw [(mkOperatorB_basis h).1]; exact (mkBasis_inv hb).1

theorem Basis.Inv.iadd {a : Basis} (ha : a.Inv) (b : Basis) : (a.iadd b).Inv := by
  rw [ha.1, Basis.iadd_ofList ha.2]; exact Basis.Inv.ofList (unionList_nodup ha.2 _)

theorem Basis.Inv.iaddString {a : Basis} (ha : a.Inv) (s : OpString) : (a.iaddString s).Inv := by
  rw [ha.1, Basis.iaddString_ofList]; exact Basis.Inv.ofList (unionList_nodup ha.2 _)

theorem addInto_basis {cs : List K} {a : Basis} {n : ℕ} {B : Operator K} {r : List K × Basis} (h : addInto cs a n B = .ok r) :
    r.2 = a.iadd B.basis := by
  unfold addInto at h
  cases ht : addTail cs (a.iadd B.basis) n B with
  | error e => simp [ht, bind, Except.bind] at h
  | ok x => simp [ht, bind, Except.bind] at h; rw [← h]

theorem Operator.add_inv {A B C : Operator K} (h : A.add B = .ok C) : C.basis.Inv := by
  rw [Operator.add] at h
  split at h
  · simp at h
  · cases hn : mkOperator A.coeffs A.basis.strs (some A.opType) with
    | error e => rw [hn] at h; simp [bind, Except.bind] at h
    | ok N =>
      rw [hn] at h
      simp only [bind, Except.bind] at h
      cases hi : addInto N.coeffs N.basis A.basis.len B with
      | error e => rw [hi] at h; simp at h
      | ok r =>
        rw [hi] at h
        simp only [Except.ok.injEq] at h
        rw [← h]
        show r.2.Inv
        rw [addInto_basis hi]
        exact (mkOperator_inv hn).iadd _

theorem Operator.sub_inv {A B C : Operator K} (h : A.sub B = .ok C) : C.basis.Inv := by
  rw [Operator.sub] at h
  cases hn : B.smul (-1) with
  | error e => rw [hn] at h; simp [bind, Except.bind] at h
  | ok N => rw [hn] at h; exact Operator.add_inv h

theorem Operator.removeZeros_inv {A C : Operator K} {tol : ℚ} (h : A.removeZeros tol = .ok C) : C.basis.Inv := by
  rw [Operator.removeZeros] at h
  simp only [bind, Except.bind] at h
  split at h
  · simp at h
  · exact mkOperator_inv h

/-! ### the invariant is preserved -/

theorem Heap.Good.newOp {h : Heap K} (hg : h.Good) {r : Py (Operator K)} (hr : ∀ A, r = .ok A → A.basis.Inv) :
    (h.newOp r).1.Good := by
  cases r with
  | error e => exact hg
  | ok A => exact hg.allocOp (hr A rfl)

theorem Heap.Good.iaddOp {h : Heap K} (hg : h.Good) (x y : ℕ) : (h.iaddOp x y).1.Good := by
  unfold Heap.iaddOp
  split
  · rename_i cs b t A B h1 h2 h3
    split
    · exact hg
    · have hb : b < h.bases.length := hg.bref _ (List.mem_of_getElem? h1)
      obtain ⟨b', h4, h5⟩ := Heap.op_eq_some.mp h2
      have hA : A.basis.Inv := hg.inv _ _ h5
      have hg1 : (h.setBasis b (A.basis.iadd B.basis)).Good := hg.setBasis hb (hA.iadd _)
      simp only
      split
      · split
        · exact hg1.setOp (by simpa using hb)
        · exact hg1.setOp (by simpa using hb)
      · exact hg
  · exact hg

theorem Heap.Good.step {h : Heap K} (hg : h.Good) (c : Cmd K) (hc : h.Guard c) : (h.step c).1.Good := by
  cases c with
  | newList ss =>
    refine ⟨⟨?_, hg.nodup, hg.bref⟩, ?_⟩
    · intro e he; have := hg.lref e he; simp [Heap.step]; omega
    · intro r B hB
      apply hg.inv r B
      obtain ⟨l, h1, h2⟩ := Heap.basis_eq_some.mp hB
      refine Heap.basis_eq_some.mpr ⟨l, h1, ?_⟩
      have := hg.lref _ (List.mem_of_getElem? h1)
      simp only [Heap.step] at h2
      rwa [List.getElem?_append_left this] at h2
  | basisOf l =>
    simp only [Heap.step]
    split
    · exact hg
    · rename_i ss hl
      split
      · rename_i B hB
        have hlt := (List.getElem?_eq_some_iff.mp hl).1
        refine ⟨⟨?_, ?_, ?_⟩, ?_⟩
        · intro e he
          simp only [List.mem_append, List.mem_singleton] at he
          rcases he with he | rfl
          · exact hg.lref e he
          · exact hlt
        · simp only [List.map_append, List.map_cons, List.map_nil]
          exact hg.nodup.append (by simp) (by rw [List.disjoint_singleton]; exact hc)
        · intro e he
          have := hg.bref e he
          simp; omega
        · intro r B' h'
          obtain ⟨l', h1, h2⟩ := Heap.basis_eq_some.mp h'
          by_cases hr : r < h.bases.length
          · apply hg.inv r
            refine Heap.basis_eq_some.mpr ⟨l', ?_, h2⟩
            simpa [List.getElem?_append_left hr] using h1
          · have hr2 : r = h.bases.length := by
              have := (List.getElem?_eq_some_iff.mp h1).1
              simp at this; omega
            subst hr2
            simp only [List.getElem?_concat_length, Option.some.injEq, Prod.mk.injEq] at h1
            simp only [← h1.1, hl, Option.some.injEq] at h2
            obtain ⟨k1, k2⟩ := mkBasis_inv hB
            have : B' = B := by
              obtain ⟨s1, d1⟩ := B'; obtain ⟨s2, d2⟩ := B
              simp only at h1 h2 k2
              rw [h1.2, ← h2, k2]
            rw [this]; exact k1
      · exact hg
  | basisEmpty => exact hg.allocBasis (by exact Basis.Inv.ofList (l := []) (by simp))
  | basisAdd b c =>
    simp only [Heap.step]
    split
    · split
      · rename_i D hD
        exact hg.allocBasis (mkBasis_inv hD).1
      · exact hg
    · exact hg
  | basisAddString b s =>
    simp only [Heap.step]
    split
    · split
      · rename_i D hD
        exact hg.allocBasis (mkBasis_inv hD).1
      · exact hg
    · exact hg
  | basisIadd b c =>
    simp only [Heap.step]
    split
    · rename_i B C h1 h2
      exact hg.setBasis (Heap.basis_lt h1) ((hg.inv _ _ h1).iadd _)
    · exact hg
  | basisIaddString b s =>
    simp only [Heap.step]
    split
    · rename_i B h1
      exact hg.setBasis (Heap.basis_lt h1) ((hg.inv _ _ h1).iaddString _)
    · exact hg
  | opOfList cs l t =>
    simp only [Heap.step]
    split
    · exact hg.newOp (fun A hA => mkOperator_inv hA)
    · exact hg
  | opOfBasis cs b t =>
    simp only [Heap.step]
    split
    · rename_i B hB
      split
      · apply hg.withOps
        intro e he
        simp only [List.mem_append, List.mem_singleton] at he
        rcases he with he | rfl
        · exact hg.bref e he
        · exact Heap.basis_lt hB
      · exact hg
    · exact hg
  | opAdd x y =>
    simp only [Heap.step]
    split
    · exact hg.newOp (fun A hA => Operator.add_inv hA)
    · exact hg
  | opSub x y =>
    simp only [Heap.step]
    split
    · exact hg.newOp (fun A hA => Operator.sub_inv hA)
    · exact hg
  | opSmul x c =>
    simp only [Heap.step]
    split
    · exact hg.newOp (fun A hA => mkOperator_inv hA)
    · exact hg
  | opRemoveZeros x tol =>
    simp only [Heap.step]
    split
    · exact hg.newOp (fun A hA => Operator.removeZeros_inv hA)
    · exact hg
  | opIadd x y => exact hg.iaddOp x y
  | opIsub x y =>
    simp only [Heap.step]
    split
    · split
      · rename_i N hN
        exact (hg.allocOp (mkOperator_inv hN)).iaddOp _ _
      · exact hg
    · exact hg
  | opRescale x c =>
    simp only [Heap.step]
    split
    · rename_i cs b t h1
      have hb : b < h.bases.length := hg.bref _ (List.mem_of_getElem? h1)
      exact hg.setOp hb
    · exact hg

theorem Heap.Good.empty : (Heap.empty : Heap K).Good :=
  ⟨⟨by simp [Heap.empty], by simp [Heap.empty], by simp [Heap.empty]⟩, by simp [Heap.empty, Heap.basis]⟩

theorem Heap.Good.run {h : Heap K} (hg : h.Good) (cmds : List (Cmd K)) (hc : GuardedFrom h cmds) : (h.run cmds).Good := by
  induction cmds generalizing h with
  | nil => exact hg
  | cons c cs ih => exact ih (hg.step c hc.1) hc.2

/-! ### the effect of `x += y` -/

/-- For well-formed, valid operands of one type: the object `x` gets the value of the value-level sum; every other object
that does not share the Basis object of `x` keeps its value. -/
theorem Heap.Good.iaddOp_effect {h : Heap K} (hg : h.Good) {x y : ℕ} {A B : Operator K}
    (hA : h.op x = some A) (hB : h.op y = some B) (hwA : A.WF) (hwB : B.WF) (ht : A.opType = B.opType) :
    ∃ h' C, h.iaddOp x y = (h', none) ∧ A.iadd B = .ok C ∧ h'.op x = some C := by
  obtain ⟨b, h1, h2⟩ := Heap.op_eq_some.mp hA
  obtain ⟨b2, k1, k2⟩ := Heap.op_eq_some.mp hB
  have hb := Heap.basis_lt h2
  obtain ⟨cs', t1, t2, t3⟩ := addInto_ok (t := A.opType) hwA.basis.2 hwA.len hwB
  have hbA : A.basis = Basis.ofList A.basis.strs := hwA.basis.1
  have hinto : addInto A.coeffs A.basis A.basis.len B = .ok (cs', A.basis.iadd B.basis) := by
    have : A.basis.iadd B.basis = Basis.ofList (unionList A.basis.strs B.basis.strs) := by
      conv_lhs => rw [hbA]
      exact Basis.iadd_ofList hwA.basis.2 _
    rw [this]
    conv_lhs => rw [hbA]
    exact t1
  have htail : addTail A.coeffs (A.basis.iadd B.basis) A.basis.len B = .ok cs' := by
    unfold addInto at hinto
    cases e : addTail A.coeffs (A.basis.iadd B.basis) A.basis.len B with
    | error e' => simp [e, bind, Except.bind] at hinto
    | ok r => simp [e, bind, Except.bind] at hinto; rw [hinto]
  -- the value of `y` after the basis of `x` was enlarged
  have hy : (h.setBasis b (A.basis.iadd B.basis)).op y =
      some (if b2 = b then ⟨B.coeffs, A.basis.iadd B.basis, B.opType⟩ else B) := by
    refine Heap.op_eq_some.mpr ⟨b2, ?_, ?_⟩
    · rw [Heap.setBasis_ops, k1]; split <;> rfl
    · rw [hg.toSep.setBasis_basis hb]; split
      · rfl
      · exact k2
  have hsame : b2 = b → (⟨B.coeffs, A.basis.iadd B.basis, B.opType⟩ : Operator K) = B := by
    intro e
    subst e
    rw [k2] at h2
    simp only [Option.some.injEq] at h2
    have : A.basis.iadd B.basis = B.basis := by
      rw [h2]
      conv_lhs => rw [hbA]
      rw [Basis.iadd_ofList hwA.basis.2, unionList_eq_filter _ (by exact hwA.basis.2)]
      simp only [Basis.ofList_strs]
      rw [List.filter_eq_nil_iff.mpr (by simp), List.append_nil, ← hbA]
    rw [this]
  have hy' : (h.setBasis b (A.basis.iadd B.basis)).op y = some B := by
    rw [hy]; split
    · rw [hsame (by assumption)]
    · rfl
  refine ⟨{ h.setBasis b (A.basis.iadd B.basis) with ops := (h.setBasis b (A.basis.iadd B.basis)).ops.set x (cs', b, A.opType) },
    ⟨cs', A.basis.iadd B.basis, A.opType⟩, ?_, ?_, ?_⟩
  · unfold Heap.iaddOp
    simp only [h1, hA, hB, ht, ne_eq, not_true_eq_false, if_false]
    rw [hg.toSep.setBasis_basis hb, if_pos rfl]
    simp only [hy', htail]
  · rw [Operator.iadd, if_neg (not_not.mpr ht), hinto]; rfl
  · refine Heap.op_eq_some.mpr ⟨b, ?_, ?_⟩
    · have hx := (List.getElem?_eq_some_iff.mp h1).1
      simp [hx, ht]
    · show (h.setBasis b (A.basis.iadd B.basis)).basis b = _
      rw [hg.toSep.setBasis_basis hb, if_pos rfl]

/-- `x += y` leaves every Basis object other than the one of `x`, and every Operator other than `x` that does not share
the Basis object of `x`, exactly as it was, even if it raises. -/
theorem Heap.Good.iaddOp_frame {h : Heap K} (hg : h.Good) {x y : ℕ} {c : List K} {b : ℕ} {t : OpType}
    (hx : h.ops[x]? = some (c, b, t)) :
    (∀ r, r ≠ b → (h.iaddOp x y).1.basis r = h.basis r) ∧
    (∀ z c' b' t', z ≠ x → h.ops[z]? = some (c', b', t') → b' ≠ b → (h.iaddOp x y).1.op z = h.op z) ∧
    (∀ z, z ≠ x → (h.iaddOp x y).1.ops[z]? = h.ops[z]?) ∧ (h.iaddOp x y).1.bases.length = h.bases.length := by
  have hb : b < h.bases.length := hg.bref _ (List.mem_of_getElem? hx)
  have key : (∀ r, r ≠ b → (h.iaddOp x y).1.basis r = h.basis r) ∧ (∀ z, z ≠ x → (h.iaddOp x y).1.ops[z]? = h.ops[z]?)
      ∧ (h.iaddOp x y).1.bases.length = h.bases.length := by
    unfold Heap.iaddOp
    split
    · rename_i cs b1 t1 A B h1 h2 h3
      rw [hx] at h1
      simp only [Option.some.injEq, Prod.mk.injEq] at h1
      obtain ⟨rfl, rfl, rfl⟩ := h1
      split
      · exact ⟨fun _ _ => rfl, fun _ _ => rfl, rfl⟩
      · have hset : ∀ e, (∀ r, r ≠ b → ({ h.setBasis b (A.basis.iadd B.basis) with ops := (h.setBasis b (A.basis.iadd B.basis)).ops.set x e } : Heap K).basis r = h.basis r) ∧
            (∀ z, z ≠ x → ({ h.setBasis b (A.basis.iadd B.basis) with ops := (h.setBasis b (A.basis.iadd B.basis)).ops.set x e } : Heap K).ops[z]? = h.ops[z]?) := by
          intro e
          refine ⟨fun r hr => ?_, fun z hz => ?_⟩
          · show (h.setBasis b (A.basis.iadd B.basis)).basis r = _
            rw [hg.toSep.setBasis_basis hb, if_neg hr]
          · simp [List.getElem?_set_ne (Ne.symm hz)]
        simp only
        split
        · split
          · exact ⟨(hset _).1, (hset _).2, by simp⟩
          · exact ⟨(hset _).1, (hset _).2, by simp⟩
        · exact ⟨fun _ _ => rfl, fun _ _ => rfl, rfl⟩
    · exact ⟨fun _ _ => rfl, fun _ _ => rfl, rfl⟩
  refine ⟨key.1, ?_, key.2.1, key.2.2⟩
  intro z c' b' t' hz hop hne
  unfold Heap.op
  rw [key.2.1 z hz, hop]
  simp only [key.1 b' hne]

/-! ### operators with their own Basis -/

/-- no two operators hold the same Basis object -/
def Heap.Owned (h : Heap K) : Prop := (h.ops.map (fun e => e.2.1)).Nodup

theorem map_set_same {α β : Type} (f : α → β) (l : List α) (i : ℕ) (x : α) (hx : ∀ y, l[i]? = some y → f y = f x) :
    (l.set i x).map f = l.map f := by
  apply List.ext_getElem
  · simp
  · intro j h1 h2
    simp only [List.getElem_map, List.getElem_set]
    split
    · rename_i h3
      subst h3
      exact (hx _ (List.getElem?_eq_getElem (by simpa using h2))).symm
    · rfl

theorem Heap.iaddOp_refs (h : Heap K) (x y : ℕ) : (h.iaddOp x y).1.ops.map (fun e => e.2.1) = h.ops.map (fun e => e.2.1) := by
  unfold Heap.iaddOp
  split
  · rename_i cs b t A B h1 h2 h3
    split
    · rfl
    · simp only
      split
      · split
        · simp only [Heap.setBasis_ops]
          exact map_set_same _ _ _ _ (fun y hy => by rw [h1] at hy; simp only [Option.some.injEq] at hy; rw [← hy])
        · simp only [Heap.setBasis_ops]
          exact map_set_same _ _ _ _ (fun y hy => by rw [h1] at hy; simp only [Option.some.injEq] at hy; rw [← hy])
      · rfl
  · rfl

theorem Heap.Owned.allocOp {h : Heap K} (ho : h.Owned) (hg : h.Sep) (A : Operator K) : (h.allocOp A).Owned := by
  unfold Heap.Owned Heap.allocOp Heap.allocBasis
  simp only [List.map_append, List.map_cons, List.map_nil]
  refine List.Nodup.append ho (by simp) ?_
  simp only [List.disjoint_singleton, List.mem_map, not_exists, not_and]
  intro x hx hxe
  have := hg.bref x hx; omega

theorem Heap.Owned.newOp {h : Heap K} (ho : h.Owned) (hg : h.Sep) (r : Py (Operator K)) : (h.newOp r).1.Owned := by
  cases r with
  | error e => exact ho
  | ok A => exact ho.allocOp hg A

theorem Heap.Owned.step {h : Heap K} (ho : h.Owned) (hg : h.Sep) (c : Cmd K) (hc : h.OwnGuard c) : (h.step c).1.Owned := by
  cases c with
  | newList ss => exact ho
  | basisOf l =>
    simp only [Heap.step]
    split
    · exact ho
    · split <;> exact ho
  | basisEmpty => exact ho
  | basisAdd b c =>
    simp only [Heap.step]
    split
    · split <;> exact ho
    · exact ho
  | basisAddString b s =>
    simp only [Heap.step]
    split
    · split <;> exact ho
    · exact ho
  | basisIadd b c =>
    simp only [Heap.step]
    split
    · unfold Heap.Owned; simp only [Heap.setBasis_ops]; exact ho
    · exact ho
  | basisIaddString b s =>
    simp only [Heap.step]
    split
    · unfold Heap.Owned; simp only [Heap.setBasis_ops]; exact ho
    · exact ho
  | opOfList cs l t =>
    simp only [Heap.step]
    split
    · exact ho.newOp hg _
    · exact ho
  | opOfBasis cs b t =>
    simp only [Heap.step]
    split
    · split
      · unfold Heap.Owned
        simp only [List.map_append, List.map_cons, List.map_nil]
        exact List.Nodup.append ho (by simp) (by rw [List.disjoint_singleton]; exact hc)
      · exact ho
    · exact ho
  | opAdd x y =>
    simp only [Heap.step]
    split
    · exact ho.newOp hg _
    · exact ho
  | opSub x y =>
    simp only [Heap.step]
    split
    · exact ho.newOp hg _
    · exact ho
  | opSmul x c =>
    simp only [Heap.step]
    split
    · exact ho.newOp hg _
    · exact ho
  | opRemoveZeros x tol =>
    simp only [Heap.step]
    split
    · exact ho.newOp hg _
    · exact ho
  | opIadd x y =>
    show ((h.iaddOp x y).1.ops.map _).Nodup
    rw [Heap.iaddOp_refs]; exact ho
  | opIsub x y =>
    simp only [Heap.step]
    split
    · split
      · show (((h.allocOp _).iaddOp x _).1.ops.map _).Nodup
        rw [Heap.iaddOp_refs]; exact ho.allocOp hg _
      · exact ho
    · exact ho
  | opRescale x c =>
    simp only [Heap.step]
    split
    · rename_i cs b t h1
      show ((h.ops.set x _).map _).Nodup
      rw [map_set_same _ _ _ _ (fun y hy => by rw [h1] at hy; simp only [Option.some.injEq] at hy; rw [← hy])]
      exact ho
    · exact ho

theorem Heap.Owned.run {h : Heap K} (ho : h.Owned) (hg : h.Good) (cmds : List (Cmd K)) (hc : GuardedFrom h cmds)
    (hc' : OwnedFrom h cmds) : (h.run cmds).Owned := by
  induction cmds generalizing h with
  | nil => exact ho
  | cons c cs ih => exact ih (ho.step hg.toSep c hc'.1) (hg.step c hc.1) hc.2 hc'.2

theorem Heap.Owned.ne {h : Heap K} (ho : h.Owned) {x z : ℕ} (hz : z ≠ x) {c c' : List K} {b b' : ℕ} {t t' : OpType}
    (h1 : h.ops[x]? = some (c, b, t)) (h2 : h.ops[z]? = some (c', b', t')) : b' ≠ b := by
  intro e
  obtain ⟨p1, q1⟩ := List.getElem?_eq_some_iff.mp h1
  obtain ⟨p2, q2⟩ := List.getElem?_eq_some_iff.mp h2
  apply hz
  refine (List.Nodup.getElem_inj_iff (i := z) (j := x) ho (hi := by simpa using p2) (hj := by simpa using p1)).mp ?_
  simp only [List.getElem_map, q1, q2, e]

end
end Qosy
