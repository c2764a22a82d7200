import Verif.Lemmas.HeapPure
import Verif.Props.Heap

/-! # Properties of live objects: `+`, `-`, `*` and `remove_zeros` leave their operands unchanged (C08, C10, C12, C13)

Unlike the in-place updates these need no discipline about shared lists and bases. -/

namespace Qosy
variable {K : Type} [Field K] [StarRing K] [CoefOps K]

/-- **C08** (the operations that are not in place): after any history whatever, a statement that builds a new object leaves
the value of every existing Basis, Operator and list unchanged. -/
theorem C08_new_objects (cmds : List (Cmd K)) (c : Cmd K) (hc : c.BuildsNew) :
    (∀ l < (Heap.run Heap.empty cmds).lists.length,
      ((Heap.run Heap.empty cmds).step c).1.lists[l]? = (Heap.run Heap.empty cmds).lists[l]?) ∧
    (∀ r < (Heap.run Heap.empty cmds).bases.length,
      ((Heap.run Heap.empty cmds).step c).1.basis r = (Heap.run Heap.empty cmds).basis r) ∧
    ∀ x < (Heap.run Heap.empty cmds).ops.length,
      ((Heap.run Heap.empty cmds).step c).1.op x = (Heap.run Heap.empty cmds).op x := by
  have hr := Heap.Refs.empty.run cmds
  have he := (Heap.run Heap.empty cmds).extends_step hc
  exact ⟨fun l hl => prefix_getElem? he.lists hl, fun r hl => he.basis hr hl, fun x hl => he.op hr hl⟩

/-- **C10** (operands): after any history, `b + c` yields a new Basis object with the value of the union, and all existing
Basis and Operator objects, the operands among them, keep their values. -/
theorem C10_unchanged (cmds : List (Cmd K)) (b c : ℕ) (B C D : Basis) (hB : (Heap.run Heap.empty cmds).basis b = some B)
    (hC : (Heap.run Heap.empty cmds).basis c = some C) (hD : B.add C = .ok D) :
    ∃ h' : Heap K, (Heap.run Heap.empty cmds).step (.basisAdd b c) = (h', none) ∧
      h'.basis (Heap.run Heap.empty cmds).bases.length = some D ∧
      (∀ r < (Heap.run Heap.empty cmds).bases.length, h'.basis r = (Heap.run Heap.empty cmds).basis r) ∧
      ∀ x < (Heap.run Heap.empty cmds).ops.length, h'.op x = (Heap.run Heap.empty cmds).op x := by
  have hs : (Heap.run Heap.empty cmds).step (.basisAdd b c) = ((Heap.run Heap.empty cmds).allocBasis D, none) := by
    simp only [Heap.step, hB, hC, hD]
  have hu := C08_new_objects cmds (.basisAdd b c) trivial
  rw [hs] at hu
  exact ⟨_, hs, by simp [Heap.basis, Heap.allocBasis], hu.2.1, hu.2.2⟩

/-- **C10** (operands, single string): the same for `b + s`. -/
theorem C10_unchanged_string (cmds : List (Cmd K)) (b : ℕ) (s : OpString) (B D : Basis)
    (hB : (Heap.run Heap.empty cmds).basis b = some B) (hD : B.addString s = .ok D) :
    ∃ h' : Heap K, (Heap.run Heap.empty cmds).step (.basisAddString b s) = (h', none) ∧
      h'.basis (Heap.run Heap.empty cmds).bases.length = some D ∧
      (∀ r < (Heap.run Heap.empty cmds).bases.length, h'.basis r = (Heap.run Heap.empty cmds).basis r) ∧
      ∀ x < (Heap.run Heap.empty cmds).ops.length, h'.op x = (Heap.run Heap.empty cmds).op x := by
  have hs : (Heap.run Heap.empty cmds).step (.basisAddString b s) = ((Heap.run Heap.empty cmds).allocBasis D, none) := by
    simp only [Heap.step, hB, hD]
  have hu := C08_new_objects cmds (.basisAddString b s) trivial
  rw [hs] at hu
  exact ⟨_, hs, by simp [Heap.basis, Heap.allocBasis], hu.2.1, hu.2.2⟩

/-- **C12** (operand): after any history, `x.remove_zeros(tol)` yields a new Operator object with the value computed by
`removeZeros`, and all existing Basis and Operator objects, `x` among them, keep their values. -/
theorem C12_unchanged (cmds : List (Cmd K)) (x : ℕ) (tol : ℚ) (A C : Operator K)
    (hA : (Heap.run Heap.empty cmds).op x = some A) (hC : A.removeZeros tol = .ok C) :
    ∃ h', (Heap.run Heap.empty cmds).step (.opRemoveZeros x tol) = (h', none) ∧
      h'.op (Heap.run Heap.empty cmds).ops.length = some C ∧
      (∀ r < (Heap.run Heap.empty cmds).bases.length, h'.basis r = (Heap.run Heap.empty cmds).basis r) ∧
      ∀ z < (Heap.run Heap.empty cmds).ops.length, h'.op z = (Heap.run Heap.empty cmds).op z := by
  have hs : (Heap.run Heap.empty cmds).step (.opRemoveZeros x tol) = ((Heap.run Heap.empty cmds).allocOp C, none) := by
    simp only [Heap.step, hA, hC, Heap.newOp]
  have hu := C08_new_objects cmds (.opRemoveZeros x tol) trivial
  rw [hs] at hu
  exact ⟨_, hs, by simp [Heap.op, Heap.basis, Heap.allocOp, Heap.allocBasis], hu.2.1, hu.2.2⟩

/-- **C13** (in place): after any history, dividing the coefficients of the Operator `x` by a number, as `x.normalize()`
does, changes the coefficients of `x` in this way and leaves every Basis and every other Operator unchanged. -/
theorem C13_unchanged (cmds : List (Cmd K)) (x : ℕ) (c : K) (A : Operator K) (hA : (Heap.run Heap.empty cmds).op x = some A) :
    ∃ h', (Heap.run Heap.empty cmds).step (.opRescale x c) = (h', none) ∧
      h'.op x = some { A with coeffs := A.coeffs.map (· / c) } ∧
      (∀ r, h'.basis r = (Heap.run Heap.empty cmds).basis r) ∧
      ∀ z ≠ x, h'.op z = (Heap.run Heap.empty cmds).op z := by
  generalize Heap.run Heap.empty cmds = h at hA ⊢
  obtain ⟨cs, B, t⟩ := A
  obtain ⟨b, h1, h2⟩ := Heap.op_eq_some.mp hA
  simp only at h1 h2
  have hb : ∀ r, ({ h with ops := h.ops.set x (cs.map (· / c), b, t) } : Heap K).basis r = h.basis r := fun r => rfl
  refine ⟨{ h with ops := h.ops.set x (cs.map (· / c), b, t) }, by simp only [Heap.step, h1], ?_, hb, ?_⟩
  · have hx : x < h.ops.length := (List.getElem?_eq_some_iff.mp h1).1
    simp only [Heap.op, List.getElem?_set_self hx, hb, h2]
  · intro z hz
    simp only [Heap.op, List.getElem?_set_ne (Ne.symm hz), hb]

/-! ### Non-vacuity -/

private def sX1 : OpString := ⟨[.X], [1], .pauli, .float1⟩
private def sZ1 : OpString := ⟨[.Z], [1], .pauli, .float1⟩

/-- L = ['X 1']; B0 = Basis(L); B1 = Basis(L), sharing the list; A0 = Operator([1], B0); B1 += 'Z 1', which damages B0 -/
private def sharedHistory : List (Cmd QI) :=
  [.newList [sX1], .basisOf 0, .basisOf 0, .opOfBasis [1] 0 none, .basisIaddString 1 sZ1]

example : ∃ h', (Heap.run Heap.empty sharedHistory).step (.opRemoveZeros 0 (1 / 2)) = (h', none) ∧
    h'.op 1 = some ⟨[1], ⟨[sX1], [(sX1, 0)]⟩, .pauli⟩ ∧ h'.op 0 = (Heap.run Heap.empty sharedHistory).op 0 := by
  obtain ⟨h', h1, h2, -, h3⟩ := C12_unchanged sharedHistory 0 (1 / 2) ⟨[1], ⟨[sX1, sZ1], [(sX1, 0)]⟩, .pauli⟩
    ⟨[1], ⟨[sX1], [(sX1, 0)]⟩, .pauli⟩ (by decide +kernel) (by decide +kernel)
  exact ⟨h', h1, h2, h3 0 (by decide +kernel)⟩

example : ∃ h', (Heap.run Heap.empty sharedHistory).step (.basisAdd 1 1) = (h', none) ∧
    h'.basis 2 = some ⟨[sX1, sZ1], [(sX1, 0), (sZ1, 1)]⟩ ∧ h'.basis 0 = (Heap.run Heap.empty sharedHistory).basis 0 := by
  obtain ⟨h', h1, h2, h3, -⟩ := C10_unchanged sharedHistory 1 1 ⟨[sX1, sZ1], [(sX1, 0), (sZ1, 1)]⟩
    ⟨[sX1, sZ1], [(sX1, 0), (sZ1, 1)]⟩ ⟨[sX1, sZ1], [(sX1, 0), (sZ1, 1)]⟩ (by decide +kernel) (by decide +kernel)
    (by decide +kernel)
  exact ⟨h', h1, h2, h3 0 (by decide +kernel)⟩

end Qosy
