import Verif.Lemmas.Heap
import Verif.Spec.Histories

/-! # Statements that build new objects change no other object -/

namespace Qosy
variable {K : Type}

/-- all references point to existing objects -/
structure Heap.Refs (h : Heap K) : Prop where
  lists : ∀ e ∈ h.bases, e.1 < h.lists.length
  bases : ∀ e ∈ h.ops, e.2.1 < h.bases.length

/-- `h'` has more objects than `h`, and those of `h` are unchanged -/
structure Heap.Extends (h h' : Heap K) : Prop where
  lists : h.lists <+: h'.lists
  bases : h.bases <+: h'.bases
  ops : h.ops <+: h'.ops

theorem Heap.Extends.refl (h : Heap K) : h.Extends h := ⟨List.prefix_rfl, List.prefix_rfl, List.prefix_rfl⟩

theorem prefix_getElem? {α : Type} {l m : List α} (h : l <+: m) {i : ℕ} (hi : i < l.length) : m[i]? = l[i]? := by
  obtain ⟨t, rfl⟩ := h
  exact List.getElem?_append_left hi

theorem Heap.Extends.basis {h h' : Heap K} (he : h.Extends h') (hr : h.Refs) {r : ℕ} (hl : r < h.bases.length) : h'.basis r = h.basis r := by
  unfold Heap.basis
  rw [prefix_getElem? he.bases hl, List.getElem?_eq_getElem hl]
  have := hr.lists _ (List.getElem_mem hl)
  rcases hb : h.bases[r] with ⟨l, d⟩
  rw [hb] at this
  simp only
  rw [prefix_getElem? he.lists this]

theorem Heap.Extends.op {h h' : Heap K} (he : h.Extends h') (hr : h.Refs) {x : ℕ} (hl : x < h.ops.length) : h'.op x = h.op x := by
  unfold Heap.op
  rw [prefix_getElem? he.ops hl, List.getElem?_eq_getElem hl]
  have := hr.bases _ (List.getElem_mem hl)
  rcases hb : h.ops[x] with ⟨c, b, t⟩
  rw [hb] at this
  simp only
  rw [he.basis hr this]

theorem Heap.extends_allocBasis (h : Heap K) (B : Basis) : h.Extends (h.allocBasis B) :=
  ⟨List.prefix_append _ _, List.prefix_append _ _, List.prefix_rfl⟩

theorem Heap.extends_allocOp (h : Heap K) (A : Operator K) : h.Extends (h.allocOp A) :=
  ⟨List.prefix_append _ _, List.prefix_append _ _, List.prefix_append _ _⟩

theorem Heap.Refs.allocBasis {h : Heap K} (hr : h.Refs) (B : Basis) : (h.allocBasis B).Refs := by
  constructor
  · intro e he
    simp only [Heap.allocBasis, List.mem_append, List.mem_singleton, List.length_append, List.length_singleton] at he ⊢
    rcases he with he | rfl
    · have := hr.lists e he; omega
    · simp
  · intro e he
    have := hr.bases e he
    simp only [Heap.allocBasis, List.length_append, List.length_singleton]; omega

theorem Heap.Refs.allocOp {h : Heap K} (hr : h.Refs) (A : Operator K) : (h.allocOp A).Refs := by
  constructor
  · exact (hr.allocBasis A.basis).lists
  · intro e he
    simp only [Heap.allocOp, Heap.allocBasis, List.mem_append, List.mem_singleton, List.length_append, List.length_singleton] at he ⊢
    rcases he with he | rfl
    · have := hr.bases e he; omega
    · simp

theorem Heap.Refs.setBasis {h : Heap K} (hr : h.Refs) (r : ℕ) (B : Basis) : (h.setBasis r B).Refs := by
  unfold Heap.setBasis
  split
  · rename_i l d hl
    constructor
    · intro e he
      simp only [List.length_set] at he ⊢
      rcases List.mem_or_eq_of_mem_set he with h1 | rfl
      · exact hr.lists e h1
      · exact hr.lists (l, d) (List.mem_of_getElem? hl)
    · intro e he
      have := hr.bases e he
      simpa using this
  · exact hr

theorem Heap.Refs.setOp {h : Heap K} (hr : h.Refs) {x : ℕ} {e : List K × ℕ × OpType} (he : e.2.1 < h.bases.length) :
    ({ h with ops := h.ops.set x e } : Heap K).Refs := by
  refine ⟨hr.lists, fun e' he' => ?_⟩
  rcases List.mem_or_eq_of_mem_set he' with h1 | rfl
  · exact hr.bases e' h1
  · exact he

variable [Field K] [StarRing K] [CoefOps K]

theorem Heap.Refs.newOp {h : Heap K} (hr : h.Refs) (r : Py (Operator K)) : (h.newOp r).1.Refs := by
  cases r with
  | error e => exact hr
  | ok A => exact hr.allocOp A

theorem Heap.extends_newOp (h : Heap K) (r : Py (Operator K)) : h.Extends (h.newOp r).1 := by
  cases r with
  | error e => exact .refl h
  | ok A => exact h.extends_allocOp A

theorem Heap.Refs.iaddOp {h : Heap K} (hr : h.Refs) (x y : ℕ) : (h.iaddOp x y).1.Refs := by
  unfold Heap.iaddOp
  split
  · rename_i cs b t A B h1 h2 h3
    split
    · exact hr
    · have hb : b < h.bases.length := hr.bases _ (List.mem_of_getElem? h1)
      simp only
      split
      · split
        · exact (hr.setBasis _ _).setOp (by simpa using hb)
        · exact (hr.setBasis _ _).setOp (by simpa using hb)
      · exact hr
  · exact hr

theorem Heap.extends_step (h : Heap K) {c : Cmd K} (hc : c.BuildsNew) : h.Extends (h.step c).1 := by
  cases c <;> simp only [Cmd.BuildsNew] at hc <;> simp only [Heap.step] <;> (repeat' split) <;>
    first
    | exact .refl h
    | exact h.extends_newOp _
    | exact h.extends_allocBasis _
    | exact ⟨List.prefix_append _ _, List.prefix_rfl, List.prefix_rfl⟩
    | exact ⟨List.prefix_rfl, List.prefix_append _ _, List.prefix_rfl⟩
    | exact ⟨List.prefix_rfl, List.prefix_rfl, List.prefix_append _ _⟩

theorem Heap.Refs.step {h : Heap K} (hr : h.Refs) (c : Cmd K) : (h.step c).1.Refs := by
  cases c with
  | newList ss => exact ⟨fun e he => by have := hr.lists e he; simp [Heap.step]; omega, hr.bases⟩
  | basisOf l =>
    simp only [Heap.step]
    split
    · exact hr
    · rename_i ss hl
      split
      · refine ⟨fun e he => ?_, fun e he => ?_⟩
        · simp only [List.mem_append, List.mem_singleton] at he
          rcases he with he | rfl
          · exact hr.lists e he
          · exact (List.getElem?_eq_some_iff.mp hl).1
        · have := hr.bases e he
          simp; omega
      · exact hr
  | opOfBasis cs b t =>
    simp only [Heap.step]
    split
    · rename_i B hB
      split
      · refine ⟨hr.lists, fun e he => ?_⟩
        simp only [List.mem_append, List.mem_singleton] at he
        rcases he with he | rfl
        · exact hr.bases e he
        · exact Heap.basis_lt hB
      · exact hr
    · exact hr
  | opRescale x c =>
    simp only [Heap.step]
    split
    · rename_i cs b t hx
      exact hr.setOp (hr.bases (cs, b, t) (List.mem_of_getElem? hx))
    · exact hr
  | opIsub x y =>
    simp only [Heap.step]
    split
    · split
      · exact (hr.allocOp _).iaddOp _ _
      · exact hr
    · exact hr
  | opIadd x y => exact hr.iaddOp x y
  | _ =>
    simp only [Heap.step]
    repeat' split
    all_goals first
      | exact hr
      | exact hr.allocBasis _
      | exact hr.newOp _
      | exact hr.setBasis _ _

theorem Heap.Refs.run {h : Heap K} (hr : h.Refs) (cmds : List (Cmd K)) : (h.run cmds).Refs := by
  induction cmds generalizing h with
  | nil => exact hr
  | cons c cmds ih => exact ih (hr.step c)

theorem Heap.Refs.empty : (Heap.empty : Heap K).Refs := ⟨by simp [Heap.empty], by simp [Heap.empty]⟩

end Qosy
