import Verif.Model.Visualization
import Verif.Spec.Visualization
import Verif.Lemmas.Text
import Verif.Lemmas.Lattice
import Verif.Props.Names

/-! # Lemmas on `relabel_orbitals` -/

namespace Qosy

theorem IsDigits.isDigit {w : List Char} (h : IsDigits w) : ∀ c ∈ w, IsDigit c := by
  intro c hc
  obtain ⟨d, hd, rfl⟩ := h c hc
  unfold IsDigit
  interval_cases d <;> decide

theorem natText_digits (n : ℕ) : ∀ c ∈ natText n, IsDigit c := (natDigits_digits _ _).isDigit

theorem natText_inj {m n : ℕ} (h : natText m = natText n) : m = n := by
  have h1 := parseInt_intText (m : ℤ)
  have h2 := parseInt_intText (n : ℤ)
  change parseInt (natText m) = _ at h1
  change parseInt (natText n) = _ at h2
  rw [h, h2] at h1
  exact_mod_cast (Option.some.inj h1).symm

theorem digit_of_key {l : ℕ} {t : List Char} (h : ' ' :: natText l <+: t) : ∃ c, IsDigit c ∧ [' ', c] <+: t := by
  have h0 := natText_ne_nil l
  have hd := natText_digits l
  cases hn : natText l with
  | nil => exact absurd hn h0
  | cons c cs =>
    rw [hn] at h hd
    exact ⟨c, hd c (by simp), List.IsPrefix.trans ⟨cs, rfl⟩ h⟩

/-- the keys of the substitutions -/
def LabelKeys (subs : List (List Char × List Char)) : Prop := ∀ k ∈ subs.map Prod.fst, ∃ l, k = ' ' :: natText l

theorem substituted_piece {subs : List (List Char × List Char)} (hs : LabelKeys subs) {r t : List Char} (hr : ∀ c ∈ r.head?, ¬ IsDigit c)
    (h : Substituted subs r t) : ∀ p : List Char, NoLabel p → Substituted subs (p ++ r) (p ++ t)
  | [], _ => h
  | c :: p, hp => by
    have ih := substituted_piece hs hr h p (fun d hd hi => hp d hd (hi.trans (List.suffix_cons c p).isInfix))
    refine .char (fun k hk hpre => ?_) ih
    obtain ⟨l, rfl⟩ := hs k hk
    obtain ⟨d, hd, hq⟩ := digit_of_key hpre
    change [' ', d] <+: c :: (p ++ r) at hq
    rw [List.cons_prefix_cons] at hq
    obtain ⟨rfl, hq⟩ := hq
    clear hpre
    have hpre := hq
    cases p with
    | nil =>
      rw [List.nil_append] at hpre
      cases r with
      | nil => simp at hpre
      | cons x xs =>
        rw [List.cons_prefix_cons] at hpre
        exact hr x (by simp) (hpre.1 ▸ hd)
    | cons x xs =>
      rw [List.cons_append, List.cons_prefix_cons] at hpre
      exact hp d hd ⟨[], xs, by simp [hpre.1]⟩

theorem digits_prefix_length {w v s : List Char} (hv : ∀ c ∈ v, IsDigit c) (hs : ∀ c ∈ s.head?, ¬ IsDigit c) (h : v <+: w ++ s) : v.length ≤ w.length := by
  by_contra hlt
  push Not at hlt
  obtain ⟨x, hx⟩ := h
  have h1 : (v ++ x)[w.length]? = s.head? := by
    rw [hx, List.getElem?_append_right (le_refl _), Nat.sub_self, List.head?_eq_getElem?]
  rw [List.getElem?_append_left hlt, List.getElem?_eq_getElem hlt] at h1
  exact hs _ (by rw [← h1]; simp) (hv _ (List.getElem_mem hlt))

theorem substituted_label {subs : List (List Char × List Char)} (hs : LabelKeys subs) {l : ℕ} {v r t : List Char} (hl : (' ' :: natText l, v) ∈ subs)
    (hr : ∀ c ∈ r.head?, ¬ IsDigit c) (h : Substituted subs r t) : Substituted subs (' ' :: natText l ++ r) (v ++ t) := by
  refine .key hl (by simp) (fun k' hk' hp => ?_) h
  obtain ⟨l', rfl⟩ := hs k' hk'
  rw [List.cons_append, List.cons_prefix_cons] at hp
  simpa using digits_prefix_length (natText_digits l') hr hp.2

theorem space_not_digit : ¬ IsDigit ' ' := by unfold IsDigit; decide

theorem mentions_head {pieces : List (List Char × ℕ)} {last : List Char} (h : ∀ p ∈ pieces, ∀ c ∈ p.1.head?, ¬ IsDigit c)
    (hl : ∀ c ∈ last.head?, ¬ IsDigit c) : ∀ c ∈ (mentions (fun l => ' ' :: natText l) pieces last).head?, ¬ IsDigit c := by
  intro c hc
  cases pieces with
  | nil => exact hl c (by simpa [mentions] using hc)
  | cons p ps =>
    cases hp : p.1 with
    | nil =>
      simp only [mentions, List.flatMap_cons, hp, List.nil_append, List.cons_append, List.head?_cons, Option.mem_def, Option.some.injEq] at hc
      rw [← hc]; exact space_not_digit
    | cons x xs =>
      refine h p (by simp) c ?_
      simpa [mentions, hp] using hc

theorem substituted_mentions {subs : List (List Char × List Char)} (hs : LabelKeys subs) {mention : ℕ → List Char} :
    ∀ {pieces : List (List Char × ℕ)} {last : List Char}, Pieces pieces last → (∀ p ∈ pieces, (' ' :: natText p.2, mention p.2) ∈ subs) →
      Substituted subs (mentions (fun l => ' ' :: natText l) pieces last) (mentions mention pieces last)
  | [], last, h, _ => by
    have := substituted_piece hs (r := []) (by simp) .nil last h.lastNoLabel
    simpa [mentions] using this
  | p :: ps, last, h, hm => by
    have ht : Pieces ps last := ⟨fun q hq => h.noLabel q (List.mem_cons_of_mem _ hq), h.lastNoLabel,
      fun q hq => h.head q (List.mem_of_mem_tail hq), h.lastHead⟩
    have ih := substituted_mentions hs ht fun q hq => hm q (List.mem_cons_of_mem _ hq)
    have h1 := substituted_label hs (hm p (by simp)) (mentions_head h.head h.lastHead) ih
    have h2 := substituted_piece hs (by
      intro c hc; simp only [List.cons_append, List.head?_cons, Option.mem_def, Option.some.injEq] at hc
      rw [← hc]; exact space_not_digit) h1 p.1 (h.noLabel p (by simp))
    simpa [mentions] using h2

theorem label_prefix_left {subs : List (List Char × List Char)} (hs : LabelKeys subs) {k : List Char} (hk : k ∈ subs.map Prod.fst) {b : List Char}
    (hb : ∀ c ∈ b.head?, ¬ IsDigit c) {a : List Char} (ha : a ≠ []) (h : k <+: a ++ b) : k <+: a := by
  obtain ⟨l, rfl⟩ := hs k hk
  cases a with
  | nil => exact absurd rfl ha
  | cons c a =>
    rw [List.cons_append, List.cons_prefix_cons] at h
    rw [List.cons_prefix_cons]
    exact ⟨h.1, List.prefix_of_prefix_length_le h.2 (List.prefix_append a b) (digits_prefix_length (natText_digits l) hb h.2)⟩

theorem substituted_append {subs : List (List Char × List Char)} (hs : LabelKeys subs) {b b' : List Char} (hb : ∀ c ∈ b.head?, ¬ IsDigit c)
    (h : Substituted subs b b') {a a' : List Char} (ha : Substituted subs a a') : Substituted subs (a ++ b) (a' ++ b') := by
  induction ha with
  | nil => exact h
  | @key k v s t hk h0 hmax _ ih =>
    rw [List.append_assoc, List.append_assoc]
    refine .key hk h0 (fun k' hk' hp => ?_) ih
    refine hmax k' hk' ?_
    rw [← List.append_assoc] at hp
    exact label_prefix_left hs hk' hb (fun h => h0 (List.append_eq_nil_iff.mp h).1) hp
  | @char c s t hno _ ih =>
    refine .char (fun k hk hp => ?_) ih
    exact hno k hk (label_prefix_left hs hk hb (by simp) (a := c :: s) hp)

theorem noLabel_of_no_space {p : List Char} (h : ' ' ∉ p) : NoLabel p := by
  rintro c _ ⟨x, y, rfl⟩
  exact h (by simp)

theorem substituted_space {subs : List (List Char × List Char)} (hs : LabelKeys subs) {r t : List Char} (hr : ∀ c ∈ r.head?, ¬ IsDigit c)
    (h : Substituted subs r t) : Substituted subs (' ' :: r) (' ' :: t) := by
  refine substituted_piece hs hr h [' '] ?_
  rintro c _ ⟨x, y, hxy⟩
  have := congrArg List.length hxy
  simp at this
  omega

theorem valid_no_space {o : Op} (h : o ∈ validOps) : ' ' ∉ o.text ∧ ∀ c ∈ o.text.head?, ¬ IsDigit c := by
  unfold IsDigit
  simp only [validOps, pauliOps, majoranaOps, fermionOps, List.cons_append, List.nil_append, List.mem_cons, List.not_mem_nil, or_false] at h
  rcases h with rfl | rfl | rfl | rfl | rfl | rfl | rfl | rfl <;> decide

theorem wordText_eq : ∀ (ops : List Op) (labels : List ℤ), wordText ops labels = (ops.zip labels).flatMap fun x => x.1.text ++ ' ' :: intText x.2 ++ [' ']
  | [], _ => rfl
  | _ :: _, [] => rfl
  | o :: ops, l :: labels => by simp [wordText, wordText_eq ops labels]

theorem substituted_word {subs : List (List Char × List Char)} (hs : LabelKeys subs) {mention : ℕ → List Char} {n : ℕ}
    (hm : ∀ l < n, (' ' :: natText l, mention l) ∈ subs) : ∀ (ops : List Op) (labels : List ℤ), (∀ o ∈ ops, o ∈ validOps) →
      (∀ l ∈ labels, 0 ≤ l ∧ l < n) → Substituted subs (wordText ops labels)
        ((ops.zip labels).flatMap fun x => x.1.text ++ mention x.2.toNat ++ [' ']) ∧ ∀ c ∈ (wordText ops labels).head?, ¬ IsDigit c
  | [], labels, _, _ => by simpa [wordText] using Substituted.nil
  | o :: ops, [], _, _ => by simpa [wordText] using Substituted.nil
  | o :: ops, l :: labels, ho, hl => by
    obtain ⟨ih, ihd⟩ := substituted_word hs hm ops labels (fun x hx => ho x (List.mem_cons_of_mem _ hx)) (fun x hx => hl x (List.mem_cons_of_mem _ hx))
    obtain ⟨h0, h1⟩ := hl l (by simp)
    obtain ⟨m, rfl⟩ := Int.eq_ofNat_of_zero_le h0
    obtain ⟨v1, v2⟩ := valid_no_space (ho o (by simp))
    have a1 := substituted_space hs ihd ih
    have a2 := substituted_label hs (hm m (by omega)) (by simp [space_not_digit]) a1
    have a3 := substituted_piece hs (by simp [space_not_digit]) a2 o.text (noLabel_of_no_space v1)
    refine ⟨?_, ?_⟩
    · simpa [wordText, intText] using a3
    · rw [wordText]
      cases ht : o.text with
      | nil => simp [space_not_digit]
      | cons c cs => rw [ht] at v2; simpa using v2

theorem substituted_string {subs : List (List Char × List Char)} (hs : LabelKeys subs) {mention : ℕ → List Char} {n : ℕ}
    (hm : ∀ l < n, (' ' :: natText l, mention l) ∈ subs) {s : OpString} (ho : ∀ o ∈ s.ops, o ∈ validOps) (hl : ∀ l ∈ s.labels, 0 ≤ l ∧ l < n) :
    Substituted subs s.name (stringText (fun l => mention l.toNat) s) := by
  obtain ⟨h1, h2⟩ := substituted_word hs hm s.ops s.labels ho hl
  refine substituted_piece hs (by simp [space_not_digit]) (substituted_space hs h2 h1) _ (noLabel_of_no_space ?_)
  cases s.pref <;> decide

/-! ### Places -/

section
variable {α β : Type}

theorem getElem?_flatMap_const {n : ℕ} (hn : 0 < n) {f : α → List β} (hf : ∀ a, (f a).length = n) : ∀ (l : List α) (i : ℕ),
    (l.flatMap f)[i]? = (l[i / n]?).bind fun a => (f a)[i % n]?
  | [], i => by simp
  | a :: l, i => by
    rw [List.flatMap_cons]
    by_cases h : i < n
    · rw [List.getElem?_append_left (by rw [hf]; exact h), Nat.div_eq_of_lt h, Nat.mod_eq_of_lt h]; rfl
    · push Not at h
      rw [List.getElem?_append_right (by rw [hf]; exact h), hf, getElem?_flatMap_const hn hf l (i - n)]
      obtain ⟨k, rfl⟩ := Nat.exists_eq_add_of_le h
      rw [Nat.add_sub_cancel_left, Nat.add_mod_left, Nat.add_div_left k hn]; rfl
end

/-- atom and name of the orbitals of one cell, beginning with atom `a` -/
def cellPlaces : ℕ → List (List (List Char)) → List (ℕ × List Char)
  | _, [] => []
  | a, o :: os => o.map (fun x => (a, x)) ++ cellPlaces (a + 1) os

theorem cellPlaces_length : ∀ (a : ℕ) (os : List (List (List Char))), (cellPlaces a os).length = (os.map List.length).sum
  | _, [] => rfl
  | a, o :: os => by simp [cellPlaces, cellPlaces_length (a + 1) os]

theorem cellPlaces_eq : ∀ (a : ℕ) (os : List (List (List Char))),
    cellPlaces a os = (List.range os.length).flatMap fun i => (os.getD i []).map fun x => (a + i, x)
  | _, [] => rfl
  | a, o :: os => by
    rw [cellPlaces, cellPlaces_eq (a + 1) os, List.length_cons, List.range_succ_eq_map, List.flatMap_cons, List.flatMap_map]
    simp [Nat.add_assoc, Nat.add_comm 1]

theorem atomIndexLoop_ok : ∀ (os : List (List (List Char))) (b a i : ℕ) (x : ℕ × List Char), (cellPlaces a os)[i]? = some x →
    atomIndexLoop (b + i) (os.dropLast.map List.length) b a = x.1
  | [], _, _, _, _, h => by simp [cellPlaces] at h
  | [o], b, a, i, x, h => by
    simp only [cellPlaces, List.append_nil, List.getElem?_map, Option.map_eq_some_iff] at h
    obtain ⟨_, _, rfl⟩ := h
    simp [atomIndexLoop]
  | o :: o' :: os, b, a, i, x, h => by
    rw [List.dropLast_cons_cons, List.map_cons, atomIndexLoop]
    rw [cellPlaces] at h
    by_cases hi : i < o.length
    · rw [if_pos ⟨by omega, by omega⟩]
      rw [List.getElem?_append_left (by simpa using hi), List.getElem?_map, Option.map_eq_some_iff] at h
      obtain ⟨_, _, rfl⟩ := h
      rfl
    · rw [if_neg (by omega)]
      rw [List.getElem?_append_right (by simpa using hi), List.length_map] at h
      have := atomIndexLoop_ok (o' :: os) (b + o.length) (a + 1) (i - o.length) x h
      rwa [show b + o.length + (i - o.length) = b + i by omega] at this

variable {F ν : Type}

theorem places_eq (u : UnitCell F (List Char)) (N : List ℕ) : places u N = (gridCells N).flatMap fun c => (cellPlaces 0 u.orbitals).map fun x => ⟨c, x.1, x.2⟩ := by
  unfold places
  congr 1
  funext c
  rw [cellPlaces_eq, List.map_flatMap]
  simp [Function.comp_def]

theorem places_triples (u : UnitCell F (List Char)) (N : List ℕ) : orbitalTriples u N = (places u N).map fun p => (p.cell, p.atom, p.name) := by
  unfold places orbitalTriples
  simp [List.map_flatMap, Function.comp_def]

/-- the label of a place determines the atom as the loop finds it -/
theorem places_atom {u : UnitCell F (List Char)} {N : List ℕ} {l : ℕ} {p : Place} (h : (places u N)[l]? = some p) :
    atomIndexLoop (l % (u.orbitals.map List.length).sum) (u.orbitals.dropLast.map List.length) 0 0 = p.atom := by
  rcases Nat.eq_zero_or_pos (u.orbitals.map List.length).sum with h0 | h0
  · have : (places u N).length = 0 := by
      rw [places_eq, List.length_flatMap]; simp [cellPlaces_length, h0]
    rw [List.length_eq_zero_iff.mp this] at h
    simp at h
  · rw [places_eq, getElem?_flatMap_const h0 (by intro c; simp [cellPlaces_length])] at h
    obtain ⟨c, _, h⟩ := Option.bind_eq_some_iff.mp h
    rw [List.getElem?_map, Option.map_eq_some_iff] at h
    obtain ⟨x, hx, rfl⟩ := h
    have := atomIndexLoop_ok u.orbitals 0 0 _ x hx
    rwa [Nat.zero_add] at this

variable [Field F] [LinearOrder F] [DecidableEq ν]

theorem mkLattice_fields {u : UnitCell F (List Char)} {N : List ℕ} {periodic : Option (List Bool)} {tol : F} {render : List F → ν}
    {L : Lattice F (List Char) ν} (h : mkLattice u N periodic tol render = .ok L) : L.unitCell = u ∧ L.numCells = N := by
  simp only [mkLattice, bind, Except.bind] at h
  split at h
  · cases h
  · split at h
    · cases h
    · rw [← Except.ok.inj h]; exact ⟨rfl, rfl⟩

theorem orbitalSubstitutions_ok {u : UnitCell F (List Char)} {N : List ℕ} (hu : u.WF N.length) {periodic : Option (List Bool)}
    {tol : F} {render : List F → ν} {L : Lattice F (List Char) ν} (h : mkLattice u N periodic tol render = .ok L)
    (hb : L.Built u N periodic tol render) : LabelKeys (orbitalSubstitutions L) ∧ ((orbitalSubstitutions L).map Prod.fst).Nodup ∧
      ∀ l < L.orbitals.length, (' ' :: natText l, placeMention u N tupleText l) ∈ orbitalSubstitutions L := by
  obtain ⟨h1, h2⟩ := mkLattice_fields h
  have ho : L.orbitals = (places u N).map fun p => (cleanPosition tol (List.ofFn (u.point N.length (cellVec N.length p.cell) p.atom)), p.name, p.cell) := by
    rw [hb.orbitals_eq, latticeOrbitals_eq hu, places_triples, List.map_map]; rfl
  refine ⟨fun k hk => ?_, ?_, fun l hl => ?_⟩
  · simp only [orbitalSubstitutions, List.map_map, List.mem_map, Function.comp] at hk
    obtain ⟨x, _, rfl⟩ := hk
    exact ⟨_, rfl⟩
  · rw [orbitalSubstitutions, List.map_map, List.map_reverse, List.nodup_reverse,
      show (Prod.fst ∘ fun o : Orbital F (List Char) × ℕ => (' ' :: natText o.2, '_' :: orbitalInfo L o.2 o.1)) = (fun n => ' ' :: natText n) ∘ Prod.snd from rfl,
      ← List.map_map, List.zipIdx_map_snd]
    exact (List.nodup_range' ..).map fun a b h => natText_inj (List.cons.inj h).2
  · obtain ⟨p, hp⟩ : ∃ p, (places u N)[l]? = some p := by
      rw [ho, List.length_map] at hl
      exact ⟨_, List.getElem?_eq_getElem hl⟩
    have hlen := hb.length hu
    have hpos : 0 < N.prod := by
      rcases Nat.eq_zero_or_pos N.prod with h0 | h0
      · rw [hlen, h0] at hl; simp at hl
      · exact h0
    refine List.mem_map.mpr ⟨(L.orbitals[l], l), List.mem_reverse.mpr ?_, ?_⟩
    · rw [List.mem_zipIdx_iff_getElem?]; exact List.getElem?_eq_getElem hl
    · have hx : L.orbitals[l]? = some (L.orbitals[l]) := List.getElem?_eq_getElem hl
      generalize L.orbitals[l] = x at hx ⊢
      rw [ho, List.getElem?_map, hp] at hx
      obtain rfl := Option.some.inj hx
      have hatom := places_atom hp
      rw [placeMention, hp]
      simp only [orbitalInfo, h1, h2, hlen, Nat.mul_div_cancel_left _ hpos, hatom, Place.text]
      by_cases c1 : N.prod = 1 <;> by_cases c2 : p.name = [] <;> simp [c1, c2]


theorem relabel_of_substituted {u : UnitCell F (List Char)} {N : List ℕ} (hu : u.WF N.length) {periodic : Option (List Bool)}
    {tol : F} {render : List F → ν} {L : Lattice F (List Char) ν} (h : mkLattice u N periodic tol render = .ok L)
    (hb : L.Built u N periodic tol render) (hne : L.orbitals ≠ []) {s t : List Char} (hs : Substituted (orbitalSubstitutions L) s t) :
    relabelOrbitals s L = .ok t := by
  obtain ⟨h1, h2, -⟩ := orbitalSubstitutions_ok hu h hb
  rw [relabelOrbitals, C71_replace _ h2 _]
  · exact hs
  · simpa [orbitalSubstitutions] using hne
  · intro k hk
    obtain ⟨l, hl⟩ := h1 k.1 (List.mem_map.mpr ⟨k, hk, rfl⟩)
    rw [hl]; simp

theorem splitLines_line {l : List Char} (h : '\n' ∉ l) (s : List Char) : splitLines (l ++ '\n' :: s) = l :: splitLines s := by
  induction l with
  | nil => simp [splitLines]
  | cons c l ih =>
    have hc : c ≠ '\n' := fun e => h (by simp [e])
    rw [List.cons_append, splitLines, if_neg hc, ih (fun hm => h (List.mem_cons_of_mem _ hm))]

theorem keepLines_lines {ks : List (List Char)} (hk : [] ∉ ks) : ∀ {lines : List (List Char)}, (∀ l ∈ lines, '\n' ∉ l) →
    keepLines ks (lines.flatMap (· ++ ['\n'])) = (lines.filter fun l => ks.any fun k => occursIn k l).flatMap (· ++ ['\n'])
  | [], _ => by
    have : ks.any (fun k => occursIn k []) = false := by
      rw [List.any_eq_false]
      intro k hk' ho
      cases k with
      | nil => exact hk hk'
      | cons c k => simp [occursIn] at ho
    simpa [keepLines, splitLines] using this
  | l :: lines, h => by
    have ih := keepLines_lines hk (lines := lines) fun x hx => h x (List.mem_cons_of_mem _ hx)
    unfold keepLines at ih ⊢
    rw [List.flatMap_cons, List.append_assoc, List.singleton_append, splitLines_line (h l (by simp)), List.flatMap_cons, ih, List.filter_cons]
    by_cases hl : (ks.any fun k => occursIn k l) = true
    · rw [if_pos hl, if_pos hl, List.flatMap_cons]
    · rw [if_neg hl, if_neg hl]; rfl

theorem stringText_no_newline {s : OpString} {mention : ℤ → List Char} (ho : ∀ o ∈ s.ops, o ∈ validOps) (hm : ∀ l ∈ s.labels, '\n' ∉ mention l) :
    '\n' ∉ stringText mention s := by
  have h1 : '\n' ∉ s.pref.text := by cases s.pref <;> decide
  have h2 : ∀ o ∈ validOps, '\n' ∉ o.text := by decide
  intro h
  rw [stringText, List.mem_append, List.mem_cons, List.mem_flatMap] at h
  rcases h with h | h | ⟨x, hx, h⟩
  · exact h1 h
  · exact absurd h (by decide)
  · obtain ⟨a, b⟩ := List.of_mem_zip hx
    simp only [List.mem_append, List.mem_singleton] at h
    rcases h with (h | h) | h
    · exact h2 _ (ho _ a) h
    · exact hm _ b h
    · exact absurd h (by decide)

end Qosy
