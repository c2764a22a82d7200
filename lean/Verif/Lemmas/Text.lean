import Verif.Model.Text
import Verif.Lemmas.Basis
import Mathlib.Tactic.IntervalCases

/-! # Lemmas about the text format -/

namespace Qosy

theorem splitGo_word {w : List Char} (hw : ∀ c ∈ w, isSpace c = false) (rest cur : List Char) :
    splitGo (w ++ rest) cur = splitGo rest (cur ++ w) := by
  induction w generalizing cur with
  | nil => simp
  | cons c w ih =>
    rw [List.cons_append, splitGo, hw c (List.mem_cons_self ..)]
    simp only [Bool.false_eq_true, if_false]
    rw [ih (fun x hx => hw x (List.mem_cons_of_mem _ hx))]
    simp

theorem splitWords_word {w : List Char} (hw : ∀ c ∈ w, isSpace c = false) (hne : w ≠ []) (rest : List Char) :
    splitWords (w ++ ' ' :: rest) = w :: splitWords rest := by
  rw [splitWords, splitGo_word hw, List.nil_append, splitGo, if_pos (by decide), if_neg hne]
  rfl

theorem digitVal_digit {d : Nat} (h : d < 10) : digitVal (Char.ofNat (48 + d)) = some d := by
  interval_cases d <;> decide

theorem digit_ne_underscore {d : Nat} (h : d < 10) : Char.ofNat (48 + d) ≠ '_' := by
  interval_cases d <;> decide

theorem digit_not_space {d : Nat} (h : d < 10) : isSpace (Char.ofNat (48 + d)) = false := by
  interval_cases d <;> decide

theorem digit_ne_sign {d : Nat} (h : d < 10) : Char.ofNat (48 + d) ≠ '-' ∧ Char.ofNat (48 + d) ≠ '+' := by
  interval_cases d <;> decide

/-- a word of decimal digits -/
def IsDigits (w : List Char) : Prop := ∀ c ∈ w, ∃ d < 10, c = Char.ofNat (48 + d)

theorem natDigits_digits (fuel n : Nat) : IsDigits (natDigits fuel n) := by
  induction fuel generalizing n with
  | zero => simp [natDigits, IsDigits]
  | succ f ih =>
    rw [natDigits]
    split
    · rename_i h
      intro c hc
      rw [List.mem_singleton] at hc
      exact ⟨n, h, hc⟩
    · intro c hc
      rw [List.mem_append, List.mem_singleton] at hc
      rcases hc with hc | hc
      · exact ih _ c hc
      · exact ⟨n % 10, Nat.mod_lt _ (by omega), hc⟩

theorem natDigits_ne_nil (fuel n : Nat) : natDigits (fuel + 1) n ≠ [] := by
  rw [natDigits]; split <;> simp

theorem parseDigits_append {v w : List Char} (hv : IsDigits v) (us : Bool) (acc : Nat) (h : v ≠ []) :
    ∃ m, parseDigits (v ++ w) us acc = parseDigits w false m ∧ parseDigits v us acc = some m := by
  induction v generalizing us acc with
  | nil => exact absurd rfl h
  | cons c v ih =>
    obtain ⟨d, hd, rfl⟩ := hv c (List.mem_cons_self ..)
    have hv' : IsDigits v := fun c hc => hv c (List.mem_cons_of_mem _ hc)
    rw [List.cons_append, parseDigits, if_neg (digit_ne_underscore hd), digitVal_digit hd, parseDigits, if_neg (digit_ne_underscore hd),
      digitVal_digit hd]
    by_cases h0 : v = []
    · subst h0; exact ⟨acc * 10 + d, rfl, rfl⟩
    · exact ih hv' false _ h0

theorem parseDigits_natDigits (fuel n : Nat) (h : n < fuel) : parseDigits (natDigits fuel n) true 0 = some n := by
  induction fuel generalizing n with
  | zero => omega
  | succ f ih =>
    rw [natDigits]
    split
    · rename_i h10
      rw [parseDigits, if_neg (digit_ne_underscore h10), digitVal_digit h10]
      simp [parseDigits]
    · rename_i h10
      have h1 := ih (n / 10) (by omega)
      have hne : natDigits f (n / 10) ≠ [] := by
        cases f with
        | zero => omega
        | succ f => exact natDigits_ne_nil f _
      obtain ⟨m, e1, e2⟩ := parseDigits_append (w := [Char.ofNat (48 + n % 10)]) (natDigits_digits f (n / 10)) true 0 hne
      rw [e2] at h1
      obtain rfl := Option.some.inj h1
      have hd : n % 10 < 10 := Nat.mod_lt _ (by omega)
      rw [e1, parseDigits, if_neg (digit_ne_underscore hd), digitVal_digit hd]
      simp only [parseDigits]
      congr 1
      omega

theorem natText_ne_nil (n : Nat) : natText n ≠ [] := natDigits_ne_nil _ _

theorem parseInt_intText (n : Int) : parseInt (intText n) = some n := by
  cases n with
  | ofNat n =>
    have h1 : parseDigits (natText n) true 0 = some n := parseDigits_natDigits (n + 1) n (by omega)
    have h2 := natDigits_digits (n + 1) n
    change parseInt (natText n) = _
    rw [show natDigits (n + 1) n = natText n from rfl] at h2
    obtain ⟨c, w, hw⟩ := List.exists_cons_of_ne_nil (natText_ne_nil n)
    rw [hw] at h1 h2 ⊢
    obtain ⟨d, hd, rfl⟩ := h2 c (List.mem_cons_self ..)
    have := digit_ne_sign hd
    unfold parseInt
    split
    · rename_i heq; simp only [List.cons.injEq] at heq; exact absurd heq.1 this.1
    · rename_i heq; simp only [List.cons.injEq] at heq; exact absurd heq.1 this.2
    · rw [h1]; rfl
  | negSucc n =>
    have h1 : parseDigits (natText (n + 1)) true 0 = some (n + 1) := parseDigits_natDigits (n + 2) (n + 1) (by omega)
    change parseInt ('-' :: natText (n + 1)) = _
    rw [parseInt, h1]
    simp [Int.negSucc_eq]

theorem natText_not_space (n : Nat) : ∀ c ∈ natText n, isSpace c = false := by
  intro c hc
  obtain ⟨d, hd, rfl⟩ := natDigits_digits (n + 1) n c hc
  exact digit_not_space hd

theorem intText_not_space (n : Int) : ∀ c ∈ intText n, isSpace c = false := by
  cases n with
  | ofNat n => exact natText_not_space n
  | negSucc n =>
    intro c hc
    rw [intText, List.mem_cons] at hc
    rcases hc with rfl | hc
    · decide
    · exact natText_not_space _ c hc

theorem intText_ne_nil (n : Int) : intText n ≠ [] := by
  cases n with
  | ofNat n => exact natText_ne_nil n
  | negSucc n => simp [intText]

theorem valid_text {o : Op} (h : o ∈ validOps) : Op.ofText o.text = o ∧ (∀ c ∈ o.text, isSpace c = false) ∧ o.text ≠ [] := by
  simp only [validOps, pauliOps, majoranaOps, fermionOps, List.cons_append, List.nil_append, List.mem_cons, List.not_mem_nil, or_false] at h
  rcases h with rfl | rfl | rfl | rfl | rfl | rfl | rfl | rfl <;> decide

/-- the words of a string -/
def wordList : List Op → List Int → List (List Char)
  | op :: ops, l :: ls => op.text :: intText l :: wordList ops ls
  | _, _ => []

theorem splitWords_wordText {ops : List Op} (h : ∀ o ∈ ops, o ∈ validOps) (labels : List Int) :
    splitWords (wordText ops labels) = wordList ops labels := by
  induction ops generalizing labels with
  | nil => cases labels <;> rfl
  | cons o ops ih =>
    cases labels with
    | nil => rfl
    | cons l ls =>
      obtain ⟨-, h2, h3⟩ := valid_text (h o (List.mem_cons_self ..))
      rw [wordText, List.append_assoc, List.cons_append, splitWords_word h2 h3, splitWords_word (intText_not_space l) (intText_ne_nil l),
        ih (fun x hx => h x (List.mem_cons_of_mem _ hx)), wordList]

theorem everySecond_wordList {ops : List Op} {labels : List Int} (h : ops.length = labels.length) :
    everySecond (wordList ops labels) = ops.map Op.text ∧ everySecond ((wordList ops labels).drop 1) = labels.map intText := by
  induction ops generalizing labels with
  | nil => cases labels with
    | nil => exact ⟨rfl, rfl⟩
    | cons => simp at h
  | cons o ops ih =>
    cases labels with
    | nil => simp at h
    | cons l ls =>
      obtain ⟨i1, i2⟩ := ih (labels := ls) (by simpa using h)
      refine ⟨by rw [wordList, everySecond, i1]; rfl, ?_⟩
      rw [wordList, List.drop_one, List.tail_cons]
      rw [List.map_cons, ← i2]
      cases h' : wordList ops ls with
      | nil => rfl
      | cons x xs => rfl

theorem parseLabels_intText (labels : List Int) : parseLabels (labels.map intText) = .ok labels := by
  unfold parseLabels
  induction labels with
  | nil => rfl
  | cons l ls ih =>
    rw [List.map_cons, List.mapM_cons, ih, parseInt_intText]
    rfl

theorem map_ofText {ops : List Op} (h : ∀ o ∈ ops, o ∈ validOps) : (ops.map Op.text).map Op.ofText = ops := by
  rw [List.map_map]
  conv_rhs => rw [← List.map_id ops]
  exact List.map_congr_left (fun o ho => (valid_text (h o ho)).1)

/-- an accepted string has the given operators, labels and type -/
theorem mkOpString_fields {ops : List Op} {labels : List Int} {t : OpType} {p : Option Pref} {S : OpString}
    (h : mkOpString ops labels t p = .ok S) : S.ops = ops ∧ S.labels = labels ∧ S.opType = t := by
  cases t with
  | majorana =>
    simp only [mkOpString, if_true, bind, Except.bind, pure, Except.pure] at h
    cases hl : labelsAB ops labels with
    | error e => rw [hl] at h; simp at h
    | ok ab =>
      rw [hl] at h
      simp only at h
      split at h
      · simp at h; subst h; exact ⟨rfl, rfl, rfl⟩
      · rcases p with _ | p
        · simp at h
        · simp at h; subst h; exact ⟨rfl, rfl, rfl⟩
  | pauli =>
    rcases p with _ | _ | _ | _ | _ <;> simp [mkOpString, bind, Except.bind, pure, Except.pure] at h <;> subst h <;> exact ⟨rfl, rfl, rfl⟩
  | fermion =>
    rcases p with _ | _ | _ | _ | _ <;> simp [mkOpString, bind, Except.bind, pure, Except.pure] at h <;> subst h <;> exact ⟨rfl, rfl, rfl⟩
  | other s =>
    rcases p with _ | _ | _ | _ | _ <;> simp [mkOpString, bind, Except.bind, pure, Except.pure] at h <;> subst h <;> exact ⟨rfl, rfl, rfl⟩

end Qosy
