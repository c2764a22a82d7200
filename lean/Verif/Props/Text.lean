import Verif.Lemmas.Text
import Verif.Lemmas.Cluster

/-!
# C33, C34, C35: text format, equality and hashes, and validation of operator strings

Texts are lists of characters; `S.name` is `str(S)`.
-/

namespace Qosy

/-- the operators of a type, as documented -/
def opsOf : OpType → List Op
  | .pauli => [.X, .Y, .Z]
  | .majorana => [.A, .B, .D]
  | .fermion => [.CDag, .C]
  | .other _ => []

/-- well-formed constructor arguments: one label for each operator, operators of the right kind -/
structure GoodArgs (ops : List Op) (labels : List ℤ) (t : OpType) : Prop where
  len : ops.length = labels.length
  kind : ∀ o ∈ ops, o ∈ opsOf t

theorem opsOf_valid {t : OpType} {o : Op} (h : o ∈ opsOf t) : o ∈ validOps := by
  cases t <;> simp [opsOf] at h <;> rcases h with rfl | rfl | rfl <;> decide

theorem deduceType_eq {ops : List Op} {t : OpType} (h : ∀ o ∈ ops, o ∈ opsOf t) (hne : ops ≠ []) : deduceType ops = .ok t := by
  rw [deduceType, List.getLast?_eq_getLast_of_ne_nil hne]
  have := h _ (List.getLast_mem hne)
  revert this
  generalize ops.getLast hne = o
  intro ho
  cases t <;> simp [opsOf] at ho <;> rcases ho with rfl | rfl | rfl <;> rfl

theorem opstringBuild_eq {ops : List Op} {labels : List ℤ} {t : OpType} (h : GoodArgs ops labels t) (hne : ops ≠ []) (p : Pref)
    {ty : Option OpType} (hty : ty = none ∨ ty = some t) :
    opstringBuild (everySecond (wordList ops labels)) (everySecond ((wordList ops labels).drop 1)) p ty = mkOpString ops labels t (some p) := by
  obtain ⟨h1, h2⟩ := everySecond_wordList h.len
  rw [opstringBuild, h1, h2, map_ofText (fun o ho => opsOf_valid (h.kind o ho)), parseLabels_intText, deduceType_eq h.kind hne]
  simp only [bind, Except.bind]
  rw [if_neg]
  rcases hty with rfl | rfl <;> simp

/-! ### C33: text round trip -/

/-- **C33** (parsing): the text of the operators and labels, without a prefactor, gives exactly the string built by the constructor. -/
theorem C33_parse {ops : List Op} {labels : List ℤ} {t : OpType} (h : GoodArgs ops labels t) (hne : ops ≠ [])
    {ty : Option OpType} (hty : ty = none ∨ ty = some t) : opstring (wordText ops labels) ty = mkOpString ops labels t := by
  have hv := fun o ho => opsOf_valid (h.kind o ho)
  rw [opstring, splitWords_wordText hv]
  obtain ⟨o, os, rfl⟩ := List.exists_cons_of_ne_nil hne
  cases labels with
  | nil => exact absurd h.len (by simp)
  | cons l ls =>
    have ho := hv o (List.mem_cons_self ..)
    have := opstringBuild_eq h hne .float1 hty
    rw [wordList] at this ⊢
    simp only
    rw [if_neg (by simp), if_pos (by rw [(valid_text ho).1]; exact ho)]
    exact this

/-- the white space of Python's `str.split()`: the ASCII characters and those Unicode calls white space -/
def pythonSpaces : List ℕ := [9, 10, 11, 12, 13, 28, 29, 30, 31, 32, 133, 160, 5760, 8192, 8193, 8194, 8195, 8196, 8197, 8198, 8199, 8200, 8201, 8202, 8232, 8233, 8239, 8287, 12288]

/-- the words of a text, each after a gap -/
def layout : List (List Char) → List (List Char) → List Char
  | gap :: gaps, word :: words => gap ++ word ++ layout gaps words
  | _, _ => []

theorem isSpace_iff (c : Char) : isSpace c = true ↔ c.toNat ∈ pythonSpaces := by
  simp only [isSpace, pythonSpaces, Bool.or_eq_true, Bool.and_eq_true, decide_eq_true_eq, beq_iff_eq, List.mem_cons, List.not_mem_nil, or_false]
  omega

theorem splitGo_gap {g : List Char} (hg : ∀ c ∈ g, c.toNat ∈ pythonSpaces) (rest : List Char) : splitGo (g ++ rest) [] = splitGo rest [] := by
  induction g with
  | nil => rfl
  | cons c g ih =>
    rw [List.cons_append, splitGo, if_pos ((isSpace_iff c).mpr (hg c (List.mem_cons_self ..))), if_pos rfl]
    exact ih fun c hc => hg c (List.mem_cons_of_mem _ hc)

theorem splitGo_gap_word {g : List Char} (hg : ∀ c ∈ g, c.toNat ∈ pythonSpaces) (hne : g ≠ []) {w : List Char} (hw : w ≠ []) (rest : List Char) :
    splitGo (g ++ rest) w = w :: splitGo rest [] := by
  obtain ⟨c, g, rfl⟩ := List.exists_cons_of_ne_nil hne
  rw [List.cons_append, splitGo, if_pos ((isSpace_iff c).mpr (hg c (List.mem_cons_self ..))), if_neg hw, splitGo_gap fun c hc => hg c (List.mem_cons_of_mem _ hc)]

theorem splitGo_layout {gaps words : List (List Char)} (hl : gaps.length = words.length) (hg : ∀ g ∈ gaps, g ≠ [] ∧ ∀ c ∈ g, c.toNat ∈ pythonSpaces)
    (hw : ∀ w ∈ words, w ≠ [] ∧ ∀ c ∈ w, isSpace c = false) {last : List Char} (hlast : ∀ c ∈ last, c.toNat ∈ pythonSpaces) {cur : List Char} (hcur : cur ≠ []) :
    splitGo (layout gaps words ++ last) cur = cur :: words := by
  induction gaps generalizing words cur with
  | nil =>
    obtain rfl : words = [] := List.length_eq_zero_iff.mp hl.symm
    rw [show layout [] [] = [] from rfl, List.nil_append]
    by_cases h0 : last = []
    · rw [h0, splitGo, if_neg hcur]
    · rw [← List.append_nil last, splitGo_gap_word hlast h0 hcur]; simp [splitGo]
  | cons g gaps ih =>
    cases words with
    | nil => simp at hl
    | cons w words =>
      obtain ⟨g1, g2⟩ := hg g (by simp)
      obtain ⟨w1, w2⟩ := hw w (by simp)
      rw [layout, List.append_assoc, List.append_assoc, splitGo_gap_word g2 g1 hcur, splitGo_word w2, List.nil_append,
        ih (by simpa using hl) (fun g hg' => hg g (by simp [hg'])) (fun w hw' => hw w (by simp [hw'])) w1]

theorem wordList_words {ops : List Op} (h : ∀ o ∈ ops, o ∈ validOps) (labels : List ℤ) : ∀ w ∈ wordList ops labels, w ≠ [] ∧ ∀ c ∈ w, isSpace c = false := by
  induction ops generalizing labels with
  | nil => cases labels <;> simp [wordList]
  | cons o ops ih =>
    cases labels with
    | nil => simp [wordList]
    | cons l ls =>
      intro w hw
      rw [wordList, List.mem_cons, List.mem_cons] at hw
      obtain ⟨-, h2, h3⟩ := valid_text (h o (List.mem_cons_self ..))
      rcases hw with rfl | rfl | hw
      · exact ⟨h3, h2⟩
      · exact ⟨intText_ne_nil l, intText_not_space l⟩
      · exact ih (fun x hx => h x (List.mem_cons_of_mem _ hx)) ls w hw

/-- **C33** (white space): operators and labels may be separated by white space of any kind and length, also before and after the text. -/
theorem C33_spacing {ops : List Op} {labels : List ℤ} {t : OpType} (h : GoodArgs ops labels t) (hne : ops ≠ []) {ty : Option OpType} (hty : ty = none ∨ ty = some t)
    {first last : List Char} {gaps : List (List Char)} (hl : (first :: gaps).length = (wordList ops labels).length)
    (hg : ∀ g ∈ gaps, g ≠ [] ∧ ∀ c ∈ g, c.toNat ∈ pythonSpaces) (hf : ∀ c ∈ first, c.toNat ∈ pythonSpaces) (hlast : ∀ c ∈ last, c.toNat ∈ pythonSpaces) :
    opstring (layout (first :: gaps) (wordList ops labels) ++ last) ty = mkOpString ops labels t := by
  have hv := fun o ho => opsOf_valid (h.kind o ho)
  rw [← C33_parse h hne hty, opstring, opstring]
  have : splitWords (layout (first :: gaps) (wordList ops labels) ++ last) = splitWords (wordText ops labels) := by
    rw [splitWords_wordText hv]
    have hw := wordList_words hv labels
    cases hwl : wordList ops labels with
    | nil => rw [hwl] at hl; simp at hl
    | cons w words =>
      rw [hwl] at hl hw
      rw [layout, splitWords, List.append_assoc, List.append_assoc, splitGo_gap hf, splitGo_word (hw w (by simp)).2, List.nil_append,
        splitGo_layout (by simpa using hl) hg (fun w hw' => hw w (by simp [hw'])) hlast (hw w (by simp)).1]
  rw [this]

/-- non-vacuity: a line break, a tabulator and a no-break space -/
example : opstring ("\n X\t1 \u00a0Y 2 ".toList) none = .ok ⟨[.X, .Y], [1, 2], .pauli, .float1⟩ :=
  C33_spacing (ops := [.X, .Y]) (labels := [1, 2]) (t := .pauli) ⟨rfl, by decide⟩ (by simp) (.inl rfl) (first := "\n ".toList) (last := " ".toList)
    (gaps := ["\t".toList, " \u00a0".toList, " ".toList]) (by decide) (by decide) (by decide) (by decide)

/-- **C33** (round trip): for every string the constructor builds from well-formed arguments, unless its prefactor is stored as the
complex number `1+0j` and unless it is the identity with prefactor `i`, `opstring(str(S), S.op_type)` is an equal string with a
numerically equal prefactor.  The type may be omitted if the string is not the identity. -/
theorem C33_roundtrip_partial {ops : List Op} {labels : List ℤ} {t : OpType} {p : Option Pref} {S : OpString} (h : GoodArgs ops labels t)
    (hS : mkOpString ops labels t p = .ok S) (hp : S.pref ≠ .complex1) (hid : ops ≠ [] ∨ S.pref ≠ .imag) :
    ∃ T, opstring S.name (some t) = .ok T ∧ T.pyEq S = true ∧ (T.pref = .imag ↔ S.pref = .imag) ∧
      (ops ≠ [] → opstring S.name none = .ok T) := by
  have hop : S.ops = ops ∧ S.labels = labels ∧ S.opType = t := by
    exact mkOpString_fields hS
  obtain ⟨e1, e2, e3⟩ := hop
  have hv := fun o ho => opsOf_valid (h.kind o ho)
  have hps : (∀ c ∈ S.pref.text, isSpace c = false) ∧ S.pref.text ≠ [] := by cases S.pref <;> decide
  have hw : splitWords S.name = S.pref.text :: wordList ops labels := by
    rw [OpString.name, splitWords_word hps.1 hps.2, e1, e2, splitWords_wordText hv]
  -- the string `opstring` builds from a prefactor
  have hmk : ∃ T, mkOpString ops labels t (some (if S.pref = .imag then .imag else .complex1)) = .ok T ∧ T.pyEq S = true ∧
      (T.pref = .imag ↔ S.pref = .imag) := by
    have hpy : ∀ q, (⟨ops, labels, t, q⟩ : OpString).pyEq S = true := fun q => pyEq_iff.mpr ⟨e1.symm, e2.symm, e3.symm⟩
    cases t with
    | pauli =>
      have : S.pref ≠ .imag := by
        intro h0
        rcases p with _ | _ | _ | _ | _ <;> simp [mkOpString, bind, Except.bind, pure, Except.pure] at hS <;> subst hS <;> simp at h0
      rw [if_neg this]
      exact ⟨⟨ops, labels, .pauli, .complex1⟩, by simp [mkOpString, bind, Except.bind, pure, Except.pure], hpy _, by simp [this]⟩
    | majorana =>
      rw [mkOpString, if_pos rfl, labelsAB_spec h.len] at hS ⊢
      simp only [bind, Except.bind, pure, Except.pure] at hS ⊢
      split at hS
      · rename_i hodd
        rw [if_pos hodd]
        simp at hS
        subst hS
        exact ⟨_, rfl, hpy _, by simp⟩
      · rename_i hodd
        rw [if_neg hodd]
        by_cases hi : S.pref = .imag
        · rw [if_pos hi]; exact ⟨_, rfl, hpy _, by simp [hi]⟩
        · rw [if_neg hi]; exact ⟨_, rfl, hpy _, by simp [hi]⟩
    | fermion =>
      rw [mkOpString_fermion]
      by_cases hi : S.pref = .imag
      · rw [if_pos hi]; exact ⟨_, rfl, hpy _, by simp [hi]⟩
      · rw [if_neg hi]; exact ⟨_, rfl, hpy _, by simp [hi]⟩
    | other s =>
      by_cases hi : S.pref = .imag
      · rw [if_pos hi]; exact ⟨⟨ops, labels, .other s, .imag⟩, by simp [mkOpString, bind, Except.bind, pure, Except.pure], hpy _, by simp [hi]⟩
      · rw [if_neg hi]; exact ⟨⟨ops, labels, .other s, .complex1⟩, by simp [mkOpString, bind, Except.bind, pure, Except.pure], hpy _, by simp [hi]⟩
  obtain ⟨T, hT1, hT2, hT3⟩ := hmk
  by_cases hne : ops = []
  · -- the identity
    subst hne
    have hl : labels = [] := List.length_eq_zero_iff.mp h.len.symm
    subst hl
    have hi : S.pref ≠ .imag := by simpa using hid
    have h1 : S.pref.text = ['1'] ∨ S.pref.text = ['1', '.', '0'] := by
      revert hp hi; cases S.pref <;> simp [Pref.text]
    have h0 : mkOpString [] [] t = .ok ⟨[], [], t, .float1⟩ := by
      cases t <;> simp [mkOpString, labelsAB, bind, Except.bind, pure, Except.pure]
    refine ⟨⟨[], [], t, .float1⟩, ?_, pyEq_iff.mpr ⟨e1.symm, e2.symm, e3.symm⟩, by simp [hi], by simp⟩
    rw [opstring, hw]
    simp only [wordList]
    rw [if_pos ⟨trivial, h1.elim Or.inl (fun h => Or.inr (Or.inl h))⟩, opstringIdentity, h0]
  · have hty : ∀ ty, ty = none ∨ ty = some t → opstring S.name ty = .ok T := by
      intro ty hty
      rw [opstring, hw]
      obtain ⟨o, os, rfl⟩ := List.exists_cons_of_ne_nil hne
      cases labels with
      | nil => exact absurd h.len (by simp)
      | cons l ls =>
        have ho := hv o (List.mem_cons_self ..)
        have hb := opstringBuild_eq h hne (if S.pref = .imag then .imag else .complex1) hty
        rw [wordList] at hb ⊢
        simp only
        rw [if_neg (by simp), if_neg (by cases S.pref <;> decide)]
        have hpt : prefOfText S.pref.text = some (if S.pref = .imag then .imag else .complex1) := by
          revert hp; cases S.pref <;> simp <;> decide
        rw [hpt]
        simp only
        rw [if_pos (by rw [(valid_text ho).1]; exact ho), ← hT1, ← hb]
        rfl
    exact ⟨T, hty _ (Or.inr rfl), hT2, hT3, fun _ => hty _ (Or.inl rfl)⟩

-- `1j A 1 B -3`
example : GoodArgs [.A, .B] [1, -3] .majorana ∧ mkOpString [.A, .B] [1, -3] .majorana = .ok ⟨[.A, .B], [1, -3], .majorana, .imag⟩ :=
  ⟨⟨rfl, by decide⟩, rfl⟩
example : (⟨[.A, .B], [1, -30], .majorana, .imag⟩ : OpString).name = "1j A 1 B -30 ".toList := by decide
example : opstring "1j CDag 10 \t CDag 2 C 3 ".toList none = .ok ⟨[.CDag, .CDag, .C], [10, 2, 3], .fermion, .imag⟩ := by decide

/-- **C33**, the negation: the string `opstring('1.0 X 1')`, an example of the documentation, has the text `(1+0j) X 1 `, which
`opstring` rejects. -/
theorem C33_refuted : ∃ S, opstring "1.0 X 1".toList none = .ok S ∧ S.name = "(1+0j) X 1 ".toList ∧ opstring S.name (some S.opType) = .error .valueError :=
  ⟨⟨[.X], [1], .pauli, .complex1⟩, by decide, by decide, by decide⟩

/-- **C33**, the negation: the identity Fermion string with prefactor `i` has the text `1j `, which raises IndexError. -/
theorem C33_identity_refuted : ∃ S, mkOpString [] [] .fermion (some .imag) = .ok S ∧ opstring S.name (some .fermion) = .error .indexError :=
  ⟨⟨[], [], .fermion, .imag⟩, by decide, by decide⟩

/-- **C33**, the negation: an accepted Pauli string whose last operator is a Majorana operator is not accepted back. -/
theorem C33_mixed_refuted : ∃ S, mkOpString [.X, .A] [1, 2] .pauli = .ok S ∧ opstring S.name (some .pauli) = .error .valueError :=
  ⟨⟨[.X, .A], [1, 2], .pauli, .float1⟩, by decide, by decide⟩

/-! ### C34: equality and hashes -/

/-- **C34** (partial): equal strings whose prefactors are stored as the same object have the same name, hence the same hash for every
hash function on texts; in particular strings built from the same prefactor argument. -/
theorem C34_equal_hash_partial {ops ops' : List Op} {labels labels' : List ℤ} {t t' : OpType} {p : Option Pref} {S T : OpString}
    (hS : mkOpString ops labels t p = .ok S) (hT : mkOpString ops' labels' t' p = .ok T) (h : S.pyEq T = true) {H : Type} (hash : List Char → H) :
    hash S.name = hash T.name := by
  obtain ⟨h1, h2, h3⟩ := pyEq_iff.mp h
  have key : ∀ {ops : List Op} {labels : List ℤ} {t : OpType} {S : OpString}, mkOpString ops labels t p = .ok S →
      S.ops = ops ∧ S.labels = labels ∧ S.opType = t := by
    intro ops labels t S hS
    exact mkOpString_fields hS
  obtain ⟨a1, a2, a3⟩ := key hS
  obtain ⟨b1, b2, b3⟩ := key hT
  have e1 : ops = ops' := by rw [← a1, ← b1, h1]
  have e2 : labels = labels' := by rw [← a2, ← b2, h2]
  have e3 : t = t' := by rw [← a3, ← b3, h3]
  subst e1; subst e2; subst e3
  rw [hS] at hT
  rw [Except.ok.inj hT]

/-- **C34** (converse): a name determines a well-formed string of a given type, so different strings never have equal names. -/
theorem C34_names_distinct {S T : OpString} (hS : GoodArgs S.ops S.labels S.opType) (hT : GoodArgs T.ops T.labels T.opType)
    (ht : S.opType = T.opType) (h : S.name = T.name) : S = T := by
  have key : ∀ {S : OpString}, GoodArgs S.ops S.labels S.opType → splitWords S.name = S.pref.text :: wordList S.ops S.labels := by
    intro S hS
    have hps : (∀ c ∈ S.pref.text, isSpace c = false) ∧ S.pref.text ≠ [] := by cases S.pref <;> decide
    rw [OpString.name, splitWords_word hps.1 hps.2, splitWords_wordText (fun o ho => opsOf_valid (hS.kind o ho))]
  have hw := key hS
  rw [h, key hT, List.cons.injEq] at hw
  have hp : S.pref = T.pref := by
    have := hw.1; revert this; cases S.pref <;> cases T.pref <;> decide
  obtain ⟨s1, s2⟩ := everySecond_wordList hS.len
  obtain ⟨t1, t2⟩ := everySecond_wordList hT.len
  have ho : S.ops = T.ops := by
    rw [← map_ofText (fun o ho => opsOf_valid (hS.kind o ho)), ← map_ofText (fun o ho => opsOf_valid (hT.kind o ho)), ← s1, ← t1, hw.2]
  have hl : S.labels = T.labels := by
    have := parseLabels_intText S.labels
    rw [← s2, ← hw.2, t2, parseLabels_intText] at this
    exact (Except.ok.inj this).symm
  cases S; cases T; simp_all

/-- **C34**, the negation: `opstring('1.0 X 1') == opstring('X 1')`, but their names and hence their hashes differ, so a
dictionary keeps both. -/
theorem C34_refuted : ∃ S T, opstring "1.0 X 1".toList none = .ok S ∧ opstring "X 1".toList none = .ok T ∧ S.pyEq T = true ∧
    S.name ≠ T.name ∧ mkBasis [S, T] = .ok ⟨[S, T], [(S, 0), (T, 1)]⟩ :=
  ⟨⟨[.X], [1], .pauli, .complex1⟩, ⟨[.X], [1], .pauli, .float1⟩, by decide, by decide, by decide, by decide, by decide⟩

/-- **C34**, the negation: two Fermion strings that denote different operators compare equal. -/
theorem C34_fermion_refuted : ∃ S T, opstring "1j CDag 1 C 2".toList none = .ok S ∧ opstring "CDag 1 C 2".toList none = .ok T ∧
    S.pyEq T = true ∧ S.pref ≠ T.pref ∧ S.name ≠ T.name :=
  ⟨⟨[.CDag, .C], [1, 2], .fermion, .imag⟩, ⟨[.CDag, .C], [1, 2], .fermion, .float1⟩, by decide, by decide, by decide, by decide, by decide⟩

/-! ### C35: validation -/

/-- **C35** (constructor, exact): with as many operators as labels, the constructor
* accepts a Pauli string exactly with a prefactor equal to 1,
* accepts a Fermion string exactly with a prefactor equal to 1 or `i`,
* gives a Majorana string the prefactor `i` when `n(n-1)/2` is odd (`n` the number of `A` and `B` operators), whatever prefactor was
  given, and otherwise accepts exactly prefactors equal to 1 or `i`;
an accepted string has the given operators, labels and type. -/
theorem C35_constructor {ops : List Op} {labels : List ℤ} (hl : ops.length = labels.length) (p : Option Pref) :
    mkOpString ops labels .pauli p = (match p with
      | none => .error .valueError
      | some .imag => .error .valueError
      | some q => .ok ⟨ops, labels, .pauli, q⟩) ∧
    mkOpString ops labels .fermion p = (match p with
      | none => .error .valueError
      | some q => .ok ⟨ops, labels, .fermion, q⟩) ∧
    mkOpString ops labels .majorana p =
      (if Odd ((ops.filter (fun o => o = .A ∨ o = .B)).length.choose 2) then .ok ⟨ops, labels, .majorana, .imag⟩
      else match p with
        | none => .error .valueError
        | some q => .ok ⟨ops, labels, .majorana, q⟩) := by
  refine ⟨?_, ?_, ?_⟩
  · rcases p with _ | _ | _ | _ | _ <;> simp [mkOpString, bind, Except.bind, pure, Except.pure]
  · rcases p with _ | _ | _ | _ | _ <;> simp [mkOpString, bind, Except.bind, pure, Except.pure]
  · have e := length_filter_zip (fun op => decide (op = .A ∨ op = .B)) hl
    simp only [mkOpString, if_true, labelsAB_spec hl, bind, Except.bind, pure, Except.pure, List.length_map]
    rw [e]
    simp only [← Nat.choose_two_right, Nat.odd_iff]
    split
    · rfl
    · rcases p with _ | _ | _ | _ | _ <;> rfl

/-- **C35** (texts, sound): a text accepted by `opstring` is either an identity with the given type, or consists of an optional
prefactor `1`, `1.0` or `1j` followed by words at even positions naming the operators, the first and the last of them valid, and
integers at odd positions; the type is that of the last operator and agrees with the given one. -/
theorem C35_opstring_sound {text : List Char} {ty : Option OpType} {S : OpString} (h : opstring text ty = .ok S) :
    (S.ops = [] ∧ S.labels = [] ∧ ty = some S.opType) ∨
    ∃ pre w rest, splitWords text = pre ++ w :: rest ∧ (pre = [] ∨ pre = [['1']] ∨ pre = [['1', '.', '0']] ∨ pre = [['1', 'j']]) ∧
      S.ops = (everySecond (w :: rest)).map Op.ofText ∧ Op.ofText w ∈ validOps ∧
      (everySecond rest).map parseInt = S.labels.map some ∧ (∃ o, S.ops.getLast? = some o ∧ o ∈ opsOf S.opType) ∧
      (ty = none ∨ ty = some S.opType) := by
  have hmk : ∀ {ops : List Op} {labels : List ℤ} {t : OpType} {p : Option Pref} {S : OpString}, mkOpString ops labels t p = .ok S →
      S.ops = ops ∧ S.labels = labels ∧ S.opType = t := by
    intro ops labels t p S hS
    exact mkOpString_fields hS
  have hid : opstringIdentity ty = .ok S → S.ops = [] ∧ S.labels = [] ∧ ty = some S.opType := by
    intro h
    unfold opstringIdentity at h
    split at h
    · simp at h
    · obtain ⟨h1, h2, h3⟩ := hmk h
      exact ⟨h1, h2, by rw [h3]⟩
  have hlab : ∀ (ws : List (List Char)) (ls : List ℤ), parseLabels ws = .ok ls → ws.map parseInt = ls.map some := by
    intro ws
    unfold parseLabels
    induction ws with
    | nil => intro ls h; simp [pure, Except.pure] at h; subst h; rfl
    | cons w ws ih =>
      intro ls h
      rw [List.mapM_cons] at h
      cases hp : parseInt w with
      | none => rw [hp] at h; simp [bind, Except.bind] at h
      | some n =>
        rw [hp] at h
        simp only [bind, Except.bind] at h
        split at h
        · simp at h
        · rename_i ls' heq
          simp [pure, Except.pure] at h
          subst h
          rw [List.map_cons, List.map_cons, hp, ih ls' heq]
  have hbuild : ∀ {ow lw : List (List Char)} {p : Pref}, opstringBuild ow lw p ty = .ok S →
      S.ops = ow.map Op.ofText ∧ lw.map parseInt = S.labels.map some ∧ (∃ o, S.ops.getLast? = some o ∧ o ∈ opsOf S.opType) ∧
      (ty = none ∨ ty = some S.opType) := by
    intro ow lw p h
    unfold opstringBuild at h
    simp only [bind, Except.bind] at h
    split at h
    · simp at h
    · rename_i ls hls
      split at h
      · simp at h
      · rename_i t ht
        split at h
        · simp at h
        · rename_i hty
          obtain ⟨h1, h2, h3⟩ := hmk h
          refine ⟨h1, by rw [h2]; exact hlab _ _ hls, ?_, ?_⟩
          · rw [h1, h3]
            unfold deduceType at ht
            split at ht
            · simp at ht
            · rename_i o ho
              refine ⟨o, ho, ?_⟩
              split at ht
              · rename_i hm; simp at ht; subst ht; exact hm
              · split at ht
                · rename_i hm; simp at ht; subst ht; exact hm
                · split at ht
                  · rename_i hm; simp at ht; subst ht; exact hm
                  · simp at ht
          · by_contra hc
            push Not at hc
            apply hty
            refine ⟨hc.1, ?_⟩
            rw [← h3]; exact hc.2
  unfold opstring at h
  split at h
  · exact Or.inl (hid h)
  · rename_i w rest hw
    split at h
    · exact Or.inl (hid h)
    · split at h
      · rename_i hv
        obtain ⟨h1, h2, h3, h4⟩ := hbuild h
        exact Or.inr ⟨[], w, rest, hw, Or.inl rfl, h1, hv, h2, h3, h4⟩
      · split at h
        · simp at h
        · rename_i p hp
          split at h
          · simp at h
          · rename_i w1 rest' _
            split at h
            · rename_i hv
              obtain ⟨h1, h2, h3, h4⟩ := hbuild h
              refine Or.inr ⟨[w], w1, rest', hw, ?_, h1, hv, h2, h3, h4⟩
              unfold prefOfText at hp
              split at hp
              · rename_i h'; rcases h' with rfl | rfl <;> simp
              · split at hp
                · rename_i h'; subst h'; simp
                · simp at hp
            · simp at h

/-- **C35** (texts, errors): `opstring` rejects with ValueError a text that does not begin with an operator, a prefactor or an
identity, and a text whose last operator has another type than the given one. -/
theorem C35_opstring_errors {text : List Char} {w : List Char} {rest : List (List Char)} (hw : splitWords text = w :: rest) (ty : Option OpType) :
    (Op.ofText w ∉ validOps → w ≠ ['1'] → w ≠ ['1', '.', '0'] → w ≠ ['1', 'j'] → w ≠ ['I'] → opstring text ty = .error .valueError) ∧
    (∀ {o t t'}, Op.ofText w ∈ validOps → ((everySecond (w :: rest)).map Op.ofText).getLast? = some o → o ∈ opsOf t → ty = some t' → t' ≠ t →
      opstring text ty = .error .valueError) := by
  constructor
  · intro h1 h2 h3 h4 h5
    rw [opstring, hw]
    simp only
    rw [if_neg (by simp [h2, h3, h5]), if_neg h1]
    simp [prefOfText, h2, h3, h4]
  · intro o t t' hv ho hot hty hne
    rw [opstring, hw]
    simp only
    rw [if_neg (by
      rintro ⟨-, h⟩
      revert hv
      rcases h with rfl | rfl | rfl <;> decide), if_pos hv, opstringBuild]
    simp only [bind, Except.bind]
    split
    · rename_i e he
      have : e = .valueError := by
        revert he
        unfold parseLabels
        generalize everySecond rest = ws
        induction ws with
        | nil => simp [pure, Except.pure]
        | cons x xs ih =>
          rw [List.mapM_cons]
          cases hp : parseInt x with
          | none => simp [bind, Except.bind]; exact fun h => h.symm
          | some n =>
            simp only [bind, Except.bind]
            split
            · rename_i e' he'
              intro h
              simp at h
              subst h
              exact ih he'
            · simp [pure, Except.pure]
      rw [this]
    · have : deduceType ((everySecond (w :: rest)).map Op.ofText) = .ok t := by
        rw [deduceType, ho]
        cases t <;> simp [opsOf] at hot <;> rcases hot with rfl | rfl | rfl <;> rfl
      rw [this]
      simp only
      rw [if_pos ⟨by simp [hty], by simp [hty, hne]⟩]

example : splitWords "W 1".toList = [['W'], ['1']] ∧ Op.ofText ['W'] ∉ validOps := by decide
example : opstring "X 1 Y 2".toList (some .majorana) = .error .valueError := by decide
example : opstring "X 1 Y b".toList none = .error .valueError := by decide

/-- **C35**, the negation: a string of an unknown type is accepted. -/
theorem C35_unknown_type_refuted : ∃ S, mkOpString [.X] [1] (.other "Spin".toList) = .ok S := ⟨_, rfl⟩

/-- **C35**, the negation: a Pauli string with a Fermion operator or a misspelt operator is accepted. -/
theorem C35_wrong_kind_refuted : (∃ S, mkOpString [.X, .CDag] [1, 2] .pauli = .ok S) ∧
    (∃ S, opstring "X 1 W 2 Z 3".toList none = .ok S ∧ Op.other ['W'] ∈ S.ops) :=
  ⟨⟨_, rfl⟩, ⟨⟨[.X, .other ['W'], .Z], [1, 2, 3], .pauli, .float1⟩, by decide, by decide⟩⟩

/-- **C35**, the negation: different numbers of operators and labels are accepted, also from texts. -/
theorem C35_length_refuted : (∃ S, mkOpString [.X, .Y] [1] .pauli = .ok S) ∧ (∃ S, mkOpString [.X] [1, 2] .pauli = .ok S) ∧
    (∃ S, opstring "X 1 Y".toList none = .ok S ∧ S.ops.length ≠ S.labels.length) :=
  ⟨⟨_, rfl⟩, ⟨_, rfl⟩, ⟨⟨[.X, .Y], [1], .pauli, .float1⟩, by decide, by decide⟩⟩

/-- **C35**, the negation: the prefactor argument of a Majorana string is not checked when it is replaced, and the prefactor `i` is
accepted for the single operator `A`, which makes it anti-Hermitian. -/
theorem C35_prefactor_refuted : (∃ S, mkOpString [.A, .B] [1, 2] .majorana none = .ok S) ∧
    (∃ S, mkOpString [.A] [1] .majorana (some .imag) = .ok S ∧ S.pref = .imag) := ⟨⟨_, rfl⟩, ⟨_, rfl, rfl⟩⟩

end Qosy
