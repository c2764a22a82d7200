import Verif.Props.Operator

/-! # Properties of `==` on strings, bases and operators (C96) -/

namespace Qosy

theorem pyListEq_length : ∀ {l m : List OpString}, pyListEq l m = true → l.length = m.length
  | [], [], _ => rfl
  | _ :: _, _ :: _, h => by
    simp only [pyListEq, Bool.and_eq_true] at h
    simp [pyListEq_length h.2]
  | [], _ :: _, h => by simp [pyListEq] at h
  | _ :: _, [], h => by simp [pyListEq] at h

theorem pyListEq_refl : ∀ l : List OpString, pyListEq l l = true
  | [] => rfl
  | s :: l => by simp [pyListEq, pyListEq_refl l, pyEq_iff]

/-- **C96** (strings): two strings are `==` iff they have the same operators on the same labels and the same type (the
prefactor is not compared). -/
theorem C96_strings (S T : OpString) : S.pyEq T = true ↔ S.ops = T.ops ∧ S.labels = T.labels ∧ S.opType = T.opType := pyEq_iff

/-- **C96** (bases): two bases are `==` iff they hold the same strings in the same order. -/
theorem C96_bases {b c : Basis} (hb : b.Inv) (hc : c.Inv) : b.pyEq c = true ↔ b.strs = c.strs := by
  constructor
  · intro h
    simp only [Basis.pyEq, Bool.and_eq_true, List.all_eq_true, beq_iff_eq] at h
    obtain ⟨h1, -, h2⟩ := h
    have hl := pyListEq_length h1
    apply List.ext_getElem? 
    intro i
    by_cases hi : i < b.strs.length
    · have hm : (b.strs[i], i) ∈ b.idx := by
        rw [show b.idx = b.strs.zipIdx from congrArg Basis.idx hb.1]
        simp [List.mem_zipIdx_iff_getElem?]
      have hg := h2 _ hm
      have hx := (hc.indexedSet.index_iff b.strs[i] i).mp (by simp only [Basis.index]; simp only at hg; rw [hg])
      rw [hx, List.getElem?_eq_getElem hi]
    · rw [List.getElem?_eq_none (by omega), List.getElem?_eq_none (by omega)]
  · intro h
    have he : b = c := by rw [hb.1, hc.1, h]
    subst he
    simp only [Basis.pyEq, Bool.and_eq_true, List.all_eq_true, beq_iff_eq, pyListEq_refl, true_and]
    rintro ⟨s, i⟩ hm
    rw [show b.idx = b.strs.zipIdx from congrArg Basis.idx hb.1] at hm
    have hx := (hb.indexedSet.index_iff s i).mpr (by simpa [List.mem_zipIdx_iff_getElem?] using hm)
    simp only [Basis.index] at hx
    split at hx
    · rename_i j hj
      simp only [Except.ok.injEq] at hx
      rw [hj, hx]
    · exact absurd hx (by simp)

section
variable {K : Type} [Field K] [StarRing K] [CoefOps K] [DecidableEq K]

/-- **C96** (operators): two operators are `==` iff they have the same type and the same terms, coefficient by coefficient,
in the same order. -/
theorem C96_operators {A B : Operator K} (hA : A.WF) (hB : B.WF) :
    A.pyEq B = true ↔ A.opType = B.opType ∧ A.terms = B.terms := by
  have hb := C96_bases hA.basis hB.basis
  simp only [Operator.pyEq, Bool.and_eq_true, beq_iff_eq, hb]
  constructor
  · rintro ⟨⟨⟨h1, -⟩, h2⟩, h3⟩
    exact ⟨h1, by rw [Operator.terms, Operator.terms, h2, h3]⟩
  · rintro ⟨h1, h2⟩
    have e1 : A.coeffs = B.coeffs := by
      have := congrArg (List.map Prod.fst) h2
      rwa [Operator.terms, Operator.terms, List.map_fst_zip hA.len.le, List.map_fst_zip hB.len.le] at this
    have e2 : A.basis.strs = B.basis.strs := by
      have := congrArg (List.map Prod.snd) h2
      rwa [Operator.terms, Operator.terms, List.map_snd_zip hA.len.ge, List.map_snd_zip hB.len.ge] at this
    exact ⟨⟨⟨h1, by rw [e1]⟩, e1⟩, e2⟩

/-- **C96**: `==` is an equivalence relation on bases and on operators. -/
theorem C96_equivalence :
    (∀ {a : Basis}, a.Inv → a.pyEq a = true) ∧
    (∀ {a b : Basis}, a.Inv → b.Inv → a.pyEq b = true → b.pyEq a = true) ∧
    (∀ {a b c : Basis}, a.Inv → b.Inv → c.Inv → a.pyEq b = true → b.pyEq c = true → a.pyEq c = true) ∧
    (∀ {A : Operator K}, A.WF → A.pyEq A = true) ∧
    (∀ {A B : Operator K}, A.WF → B.WF → A.pyEq B = true → B.pyEq A = true) ∧
    ∀ {A B C : Operator K}, A.WF → B.WF → C.WF → A.pyEq B = true → B.pyEq C = true → A.pyEq C = true := by
  refine ⟨fun h => (C96_bases h h).mpr rfl, fun h1 h2 h => (C96_bases h2 h1).mpr ((C96_bases h1 h2).mp h).symm,
    fun h1 h2 h3 h h' => (C96_bases h1 h3).mpr (((C96_bases h1 h2).mp h).trans ((C96_bases h2 h3).mp h')),
    fun h => (C96_operators h h).mpr ⟨rfl, rfl⟩, fun h1 h2 h => ?_, fun h1 h2 h3 h h' => ?_⟩
  · obtain ⟨e1, e2⟩ := (C96_operators h1 h2).mp h
    exact (C96_operators h2 h1).mpr ⟨e1.symm, e2.symm⟩
  · obtain ⟨e1, e2⟩ := (C96_operators h1 h2).mp h
    obtain ⟨f1, f2⟩ := (C96_operators h2 h3).mp h'
    exact (C96_operators h1 h3).mpr ⟨e1.trans f1, e2.trans f2⟩

/-- **C96**: equal operators are the same combination of the same strings, whatever the strings denote. -/
theorem C96_denotes {A B : Operator K} (hA : A.WF) (hB : B.WF) (h : A.pyEq B = true) :
    (∀ s, A.coef s = B.coef s) ∧
    ∀ {M : Type} [AddCommMonoid M] [Module K M] (den : OpString → M), A.den den = B.den den := by
  obtain ⟨-, h2⟩ := (C96_operators hA hB).mp h
  exact ⟨fun s => by rw [Operator.coef, Operator.coef, h2], fun den => by rw [Operator.den, Operator.den, h2]⟩

end

private def sX1 : OpString := ⟨[.X], [1], .pauli, .float1⟩
private def sZ1 : OpString := ⟨[.Z], [1], .pauli, .float1⟩

/-- The converse of `C96_denotes` fails, as the documentation of `==` says: X + Z and Z + X are the same operator, but not
`==`, while X + Z is `==` to itself. -/
example :
    let A : Operator QI := ⟨[1, 1], Basis.ofList [sX1, sZ1], .pauli⟩
    let B : Operator QI := ⟨[1, 1], Basis.ofList [sZ1, sX1], .pauli⟩
    A.WF ∧ B.WF ∧ A.pyEq A = true ∧ A.pyEq B = false ∧ A.coef sX1 = B.coef sX1 ∧ A.coef sZ1 = B.coef sZ1 := by
  refine ⟨⟨Basis.Inv.ofList (by decide), rfl, by decide⟩, ⟨Basis.Inv.ofList (by decide), rfl, by decide⟩, ?_, ?_, ?_, ?_⟩ <;>
    decide +kernel

end Qosy
