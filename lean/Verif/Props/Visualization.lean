import Verif.Lemmas.Visualization
import Verif.Lemmas.LatticeConcrete
import Verif.Lemmas.Vector
import Verif.Props.Operator
import Verif.Props.Text
import Verif.Props.Conversion

/-!
# C78, C79: `relabel_orbitals`, `print_operators`, `print_vectors`

In the theorems a lattice is what `Lattice(unit_cell, num_cells, …)` builds.
-/

namespace Qosy
open Coef
variable {F ν : Type} [Field F] [LinearOrder F] [DecidableEq ν]

/-- **C78** (`relabel_orbitals`): in a text that mentions orbitals of the lattice, every mention ` l` is replaced by `_{cell; atom; name}` of the orbital
with label `l`, whose position is that of the atom; nothing else is changed. -/
theorem C78_relabel {u : UnitCell F (List Char)} {N : List ℕ} (hu : u.WF N.length) {periodic : Option (List Bool)}
    (hp : ∀ p, periodic = some p → p.length = N.length) (tol : F) (render : List F → ν) (hne : places u N ≠ []) :
    ∃ L, mkLattice u N periodic tol render = .ok L ∧ L.orbitals = (places u N).map (fun p =>
        (cleanPosition tol (List.ofFn (u.point N.length (fun i => (p.cell.getD i 0 : ℕ)) p.atom)), p.name, p.cell)) ∧
      ∀ (pieces : List (List Char × ℕ)) (last : List Char), Pieces pieces last → (∀ p ∈ pieces, p.2 < L.orbitals.length) →
        relabelOrbitals (mentions (fun l => ' ' :: natText l) pieces last) L = .ok (mentions (placeMention u N tupleText) pieces last) := by
  obtain ⟨L, h1, h2⟩ := mkLattice_ok hu hp tol render
  have ho := h2.orbitals_eq
  rw [latticeOrbitals_eq hu, places_triples, List.map_map] at ho
  obtain ⟨k1, -, k3⟩ := orbitalSubstitutions_ok hu h1 h2
  refine ⟨L, h1, ho, fun pieces last hpc hlt => ?_⟩
  exact relabel_of_substituted hu h1 h2 (by rw [ho]; simpa using hne) (substituted_mentions k1 hpc fun p hp => k3 p.2 (hlt p hp))

/-- **C78** (coordinates): the text of the coordinates of a cell is `()`, `(n,)` or the numbers separated by a comma and a space, in parentheses. -/
theorem C78_coordinates : tupleText [] = "()".toList ∧ (∀ n, tupleText [n] = "(".toList ++ natText n ++ ",)".toList) ∧
    ∀ ns, 2 ≤ ns.length → tupleText ns = "(".toList ++ ", ".toList.intercalate (ns.map natText) ++ ")".toList := by
  refine ⟨rfl, fun n => rfl, fun ns hns => ?_⟩
  have h : ∀ ns, commaText ns = ", ".toList.intercalate (ns.map natText) := by
    intro ns
    induction ns with
    | nil => rfl
    | cons n ns ih =>
      cases ns with
      | nil => simp [commaText, List.intercalate]
      | cons m ms =>
        rw [commaText, ih]
        · simp [List.intercalate, List.intersperse]
        · simp
  match ns, hns with
  | n :: m :: ms, _ => rw [tupleText, h]; rfl; simp

/-- **C78** (operators): in the text of an operator the labels of all operator strings are replaced, and nothing else. -/
theorem C78_operator {K : Type} {u : UnitCell F (List Char)} {N : List ℕ} (hu : u.WF N.length) {periodic : Option (List Bool)}
    (hp : ∀ p, periodic = some p → p.length = N.length) (tol : F) (render : List F → ν) (hne : places u N ≠ [])
    {number : K → List Char} (hn : ∀ x, ' ' ∉ number x) {A : Operator K} (hA : A.coeffs.length ≤ A.basis.strs.length)
    (hs : ∀ s ∈ A.basis.strs, (∀ o ∈ s.ops, o ∈ validOps) ∧ ∀ l ∈ s.labels, 0 ≤ l ∧ l < (places u N).length) :
    ∃ L text, mkLattice u N periodic tol render = .ok L ∧ A.text number = .ok text ∧
      relabelOrbitals text L = .ok (A.terms.flatMap fun t => number t.1 ++ " (".toList ++ stringText (fun l => placeMention u N tupleText l.toNat) t.2 ++ ")\n".toList) := by
  obtain ⟨L, h1, h2⟩ := mkLattice_ok hu hp tol render
  have ho := h2.orbitals_eq
  rw [latticeOrbitals_eq hu, places_triples, List.map_map] at ho
  obtain ⟨k1, -, k3⟩ := orbitalSubstitutions_ok hu h1 h2
  have hlen : L.orbitals.length = (places u N).length := by rw [ho, List.length_map]
  refine ⟨L, _, h1, if_neg (not_lt.mpr hA), relabel_of_substituted hu h1 h2 (by rw [ho]; simpa using hne) ?_⟩
  have ht : ∀ t ∈ A.terms, t.2 ∈ A.basis.strs := fun t ht => (List.of_mem_zip ht).2
  generalize A.terms = terms at ht ⊢
  induction terms with
  | nil => exact .nil
  | cons t ts ih =>
    obtain ⟨s1, s2⟩ := hs t.2 (ht t (by simp))
    have a1 := ih fun t' ht' => ht t' (List.mem_cons_of_mem _ ht')
    have d1 : ¬ IsDigit '\n' := by unfold IsDigit; decide
    have d2 : ¬ IsDigit ')' := by unfold IsDigit; decide
    have n1 : NoLabel [')'] := noLabel_of_no_space (by decide)
    have a2 : Substituted (orbitalSubstitutions L) _ _ := .char (c := '\n') (fun k hk hp => by
      obtain ⟨l, rfl⟩ := k1 k hk
      rw [List.cons_prefix_cons] at hp
      exact absurd hp.1 (by decide)) a1
    have a3 := substituted_piece k1 (by simp [d1]) a2 [')'] n1
    have a4 := substituted_append k1 (by simp [d2]) a3 (substituted_string k1 (by rw [hlen] at k3; exact k3) s1 s2)
    have a5 := substituted_piece k1 (r := '(' :: _) (by simp; unfold IsDigit; decide) (.char (c := '(') (fun k hk hp => by
      obtain ⟨l, rfl⟩ := k1 k hk
      rw [List.cons_prefix_cons] at hp
      exact absurd hp.1 (by decide)) a4) [' '] (fun c _ ⟨x, y, hxy⟩ => by have := congrArg List.length hxy; simp at this; omega)
    have a6 := substituted_piece k1 (by simp [space_not_digit]) a5 (number t.1) (noLabel_of_no_space (hn _))
    simpa using a6

/-- **C78** (operator strings) -/
theorem C78_string {u : UnitCell F (List Char)} {N : List ℕ} (hu : u.WF N.length) {periodic : Option (List Bool)}
    (hp : ∀ p, periodic = some p → p.length = N.length) (tol : F) (render : List F → ν) (hne : places u N ≠ []) {s : OpString}
    (hs : (∀ o ∈ s.ops, o ∈ validOps) ∧ ∀ l ∈ s.labels, 0 ≤ l ∧ l < (places u N).length) :
    ∃ L, mkLattice u N periodic tol render = .ok L ∧ s.name = stringText (fun l => ' ' :: intText l) s ∧
      relabelOrbitals s.name L = .ok (stringText (fun l => placeMention u N tupleText l.toNat) s) := by
  obtain ⟨L, h1, h2⟩ := mkLattice_ok hu hp tol render
  have ho := h2.orbitals_eq
  rw [latticeOrbitals_eq hu, places_triples, List.map_map] at ho
  obtain ⟨k1, -, k3⟩ := orbitalSubstitutions_ok hu h1 h2
  have hlen : L.orbitals.length = (places u N).length := by rw [ho, List.length_map]
  refine ⟨L, h1, ?_, relabel_of_substituted hu h1 h2 (by rw [ho]; simpa using hne) (substituted_string k1 (by rw [hlen] at k3; exact k3) hs.1 hs.2)⟩
  rw [OpString.name, stringText, wordText_eq]

/-- **C78** (no orbitals): for a lattice without orbitals KeyError is raised, whatever the text. -/
theorem C78_empty (L : Lattice F (List Char) ν) (h : L.orbitals = []) (s : List Char) : relabelOrbitals s L = .error .keyError := by
  rw [relabelOrbitals, orbitalSubstitutions, h]; rfl

/-! ### C79 -/

/-- how orbitals are shown: by their label without a lattice, by their place with a lattice; the last argument says which labels there are -/
inductive Shows : Option (Lattice F (List Char) ν) → (ℤ → List Char) → (ℤ → Prop) → Prop
  | label : Shows none (fun l => ' ' :: intText l) fun _ => True
  | place {u : UnitCell F (List Char)} {N : List ℕ} {periodic : Option (List Bool)} {tol : F} {render : List F → ν} {L : Lattice F (List Char) ν}
      (hu : u.WF N.length) (hp : ∀ p, periodic = some p → p.length = N.length) (hne : places u N ≠ [])
      (hL : mkLattice u N periodic tol render = .ok L) :
      Shows (some L) (fun l => placeMention u N tupleText l.toNat) fun l => 0 ≤ l ∧ l < (places u N).length

/-- the line of a term -/
def termLine (number : ℂ → List Char) (mention : ℤ → List Char) (t : ℂ × OpString) : List Char :=
  number t.1 ++ " (".toList ++ stringText mention t.2 ++ ")".toList

open Classical in
/-- the lines shown: all of them, or those that contain one of the keywords -/
noncomputable def shownLines (keywords : Option (List (List Char))) (lines : List (List Char)) : List (List Char) :=
  match keywords with
  | none => lines
  | some ks => lines.filter fun l => ∃ k ∈ ks, k <:+: l

/-- **C79** (the text of one operator): one line for every term with a coefficient above the tolerance, in order; all of these coefficients are multiplied
by one positive number that makes the norm 1; with keywords only the lines that contain one of them are shown. -/
theorem C79_text {lattice : Option (Lattice F (List Char) ν)} {mention : ℤ → List Char} {known : ℤ → Prop} (hsh : Shows lattice mention known)
    {number : ℂ → List Char} (hn : ∀ x, ' ' ∉ number x ∧ '\n' ∉ number x) (keywords : Option (List (List Char)))
    (hk : ∀ ks, keywords = some ks → [] ∉ ks ∧ ∀ l, known l → '\n' ∉ mention l) (order : NormOrder) {tol : ℚ} (ht : 0 ≤ tol) {A : Operator ℂ} (hA : A.WF)
    (hs : ∀ s ∈ A.basis.strs, (∀ o ∈ s.ops, o ∈ validOps) ∧ ∀ l ∈ s.labels, known l) (hbig : ∃ t ∈ A.terms, (tol : ℝ) < ‖t.1‖) :
    ∃ (B : Operator ℂ) (r : ℝ), 0 < r ∧ B.norm order = 1 ∧
      B.terms = (A.terms.filter fun t => absGt t.1 tol).map (fun t => (t.1 * (r : ℂ), t.2)) ∧ (∀ t ∈ A.terms, absGt t.1 tol = true ↔ (tol : ℝ) < ‖t.1‖) ∧
      printedText number lattice keywords order tol A = .ok ((shownLines keywords (B.terms.map (termLine number mention))).flatMap (· ++ ['\n'])) := by
  obtain ⟨C, c1, c2, c3, c4⟩ := Operator.removeZeros_ok hA tol
  have habs : ∀ x : ℂ, absGt x tol = true ↔ (tol : ℝ) < ‖x‖ := fun x => by rw [absGt_iff]; rfl
  have hCne : ∃ c ∈ C.coeffs, c ≠ 0 := by
    obtain ⟨t, h1, h2⟩ := hbig
    have : t ∈ C.terms := by rw [c4, List.mem_filter]; exact ⟨h1, (habs _).mpr h2⟩
    refine ⟨t.1, (List.of_mem_zip this).1, fun h0 => ?_⟩
    rw [h0, norm_zero] at h2
    have : (0 : ℝ) ≤ tol := by exact_mod_cast ht
    linarith
  obtain ⟨B, r, b1, b2, b3, b4, b5, b6, -⟩ := C13_normalize C order hCne
  have hB : B.terms = C.terms.map fun t => (t.1 * (r : ℂ), t.2) := by
    rw [Operator.terms, b3, b4, Operator.terms, List.zip_map_left]; rfl
  have hlen : B.coeffs.length ≤ B.basis.strs.length := by rw [b3, b4, List.length_map, c2.len]
  have hsub : ∀ s ∈ B.basis.strs, s ∈ A.basis.strs := by
    intro s hs'
    rw [b4, ← c2.terms_snd] at hs'
    obtain ⟨t, h1, rfl⟩ := List.mem_map.mp hs'
    rw [c4] at h1
    exact (List.of_mem_zip (List.mem_of_mem_filter h1)).2
  have hline : ∀ f : ℤ → List Char, (B.terms.flatMap fun t => number t.1 ++ " (".toList ++ stringText f t.2 ++ ")\n".toList) =
      (B.terms.map (termLine number f)).flatMap (· ++ ['\n']) := by
    intro f
    rw [List.flatMap_map]
    congr 1
    funext t
    simp [termLine]
  refine ⟨B, r, b2, b6, by rw [hB, c4], fun t _ => habs _, ?_⟩
  have htext : ∃ text, B.text number = .ok text ∧ (match lattice with
        | none => .ok text
        | some L => relabelOrbitals text L) = Except.ok ((B.terms.map (termLine number mention)).flatMap (· ++ ['\n'])) := by
    cases hsh with
    | label =>
      refine ⟨_, if_neg (not_lt.mpr hlen), ?_⟩
      rw [← hline]
      refine congrArg Except.ok ?_
      congr 1
      funext t
      rw [stringText, OpString.name, wordText_eq]
      simp
    | @place u N periodic tol render L hu hp hne hL =>
      obtain ⟨L', text, k1, k2, k3⟩ := C78_operator hu hp tol render hne (fun x => (hn x).1) hlen (fun s hs' => hs s (hsub s hs'))
      rw [hL] at k1
      obtain rfl := Except.ok.inj k1
      exact ⟨text, k2, by rw [← hline]; exact k3⟩
  obtain ⟨text, t1, t2⟩ := htext
  have hcoef : C.coeffs ≠ [] := by
    obtain ⟨c, hc, _⟩ := hCne
    exact List.ne_nil_of_mem hc
  have hkeep : (match keywords with
      | none => (B.terms.map (termLine number mention)).flatMap (· ++ ['\n'])
      | some ks => keepLines ks ((B.terms.map (termLine number mention)).flatMap (· ++ ['\n']))) =
      (shownLines keywords (B.terms.map (termLine number mention))).flatMap (· ++ ['\n']) := by
    cases keywords with
    | none => rfl
    | some ks =>
      obtain ⟨k1, k2⟩ := hk ks rfl
      simp only [shownLines]
      rw [keepLines_lines k1]
      · congr 1
        refine List.filter_congr fun l _ => ?_
        rw [Bool.eq_iff_iff, decide_eq_true_iff, List.any_eq_true]
        simp only [occursIn_iff]
      · intro l hl
        obtain ⟨t, h1, rfl⟩ := List.mem_map.mp hl
        obtain ⟨s1, s2⟩ := hs _ (hsub _ (List.of_mem_zip h1).2)
        have := stringText_no_newline s1 fun l hl => k2 l (s2 l hl)
        have := (hn t.1).2
        simp [termLine, *]
  simp only [printedText, c1, bind, Except.bind, hcoef, and_false, if_false, b1, t1]
  cases lattice with
  | none =>
    simp only at t2 ⊢
    rw [Except.ok.inj t2, ← hkeep]
    cases keywords <;> rfl
  | some L =>
    simp only at t2 ⊢
    rw [t2, ← hkeep]
    cases keywords <;> rfl

theorem printedPage_eq (heading : List Char) (texts : List (List Char)) : printedPage heading texts =
    (List.range texts.length).flatMap fun i => heading ++ natText (i + 1) ++ " = \n".toList ++ texts.getD i [] ++ "\n".toList := by
  rw [printedPage]
  have : texts.zipIdx 1 = (List.range texts.length).map fun i => (texts.getD i [], i + 1) := by
    apply List.ext_getElem (by simp)
    intro i h1 h2
    simp only [List.length_zipIdx] at h1
    simp [List.getElem?_eq_getElem h1, Nat.add_comm]
  rw [this, List.flatMap_map]
  simp

/-- **C79** (`print_operators`): a heading with the number of the operator, counted from one, is followed by its text and an empty line. -/
theorem C79_operators {lattice : Option (Lattice F (List Char) ν)} {number : ℂ → List Char} {keywords : Option (List (List Char))} {order : NormOrder}
    {tol : ℚ} {ops : List (Operator ℂ)} {texts : List (List Char)} (h : List.Forall₂ (fun A t => printedText number lattice keywords order tol A = .ok t) ops texts) :
    printOperators number ops lattice keywords none order tol =
      .ok ((List.range texts.length).flatMap fun i => "operator ".toList ++ natText (i + 1) ++ " = \n".toList ++ texts.getD i [] ++ "\n".toList) := by
  have h1 : ops.mapM (printedText number lattice keywords order tol) = .ok texts := by
    induction h with
    | nil => rfl
    | cons h _ ih => rw [List.mapM_cons, h, ih]; rfl
  simp only [printOperators, convertAll, bind, Except.bind, h1]
  refine congrArg Except.ok ?_
  exact printedPage_eq _ _

/-- **C79** (`print_vectors`): the columns are printed as the operators with these coefficients; an array of another height is a ValueError. -/
theorem C79_vectors {lattice : Option (Lattice F (List Char) ν)} {number : ℂ → List Char} {keywords : Option (List (List Char))} {order : NormOrder}
    {tol : ℚ} {b : Basis} {rows : ℕ} {columns : List (List ℂ)} {texts : List (List Char)} :
    (b.len ≠ rows → printVectors number b rows columns lattice keywords none order tol = .error .valueError) ∧
    (b.len = rows → List.Forall₂ (fun v t => ∃ A, mkOperator v b.strs none = .ok A ∧ printedText number lattice keywords order tol A = .ok t) columns texts →
      printVectors number b rows columns lattice keywords none order tol =
        .ok ((List.range texts.length).flatMap fun i => "vector ".toList ++ natText (i + 1) ++ " = \n".toList ++ texts.getD i [] ++ "\n".toList)) := by
  refine ⟨fun h => if_pos h, fun h h' => ?_⟩
  obtain ⟨ops, h1, h2⟩ : ∃ ops, columns.mapM (fun v => mkOperator v b.strs none) = .ok ops ∧
      ops.mapM (printedText number lattice keywords order tol) = .ok texts := by
    induction h' with
    | nil => exact ⟨[], rfl, rfl⟩
    | cons h _ ih =>
      obtain ⟨A, a1, a2⟩ := h
      obtain ⟨ops, e1, e2⟩ := ih
      exact ⟨A :: ops, by rw [List.mapM_cons, a1, e1]; rfl, by rw [List.mapM_cons, a2, e2]; rfl⟩
  rw [printVectors, if_neg (not_not.mpr h)]
  simp only [convertAll, bind, Except.bind, h1, h2]
  exact congrArg Except.ok (printedPage_eq _ _)

/-- **C79** (`convert_to`): what is printed are the converted operators, in the same order. -/
theorem C79_converted {lattice : Option (Lattice F (List Char) ν)} {number : ℂ → List Char} {keywords : Option (List (List Char))} {order : NormOrder}
    {tol : ℚ} {ops conv : List (Operator ℂ)} {t : OpType} (h : List.Forall₂ (fun A B => convertOperator A t false = .ok B) ops conv) :
    printOperators number ops lattice keywords (some t) order tol = printOperators number conv lattice keywords none order tol ∧
    ∀ {b : Basis} {columns : List (List ℂ)}, List.Forall₂ (fun v A => mkOperator v b.strs none = .ok A) columns ops → ∀ texts,
      conv.mapM (printedText number lattice keywords order tol) = .ok texts →
      printVectors number b b.len columns lattice keywords (some t) order tol =
        .ok ((List.range texts.length).flatMap fun i => "vector ".toList ++ natText (i + 1) ++ " = \n".toList ++ texts.getD i [] ++ "\n".toList) := by
  have h1 : ops.mapM (fun A => convertOperator A t false) = .ok conv := by
    induction h with
    | nil => rfl
    | cons h _ ih => rw [List.mapM_cons, h, ih]; rfl
  refine ⟨by simp only [printOperators, convertAll, bind, Except.bind, h1], fun {b columns} hc texts ht => ?_⟩
  have h2 : columns.mapM (fun v => mkOperator v b.strs none) = .ok ops := by
    clear h h1
    induction hc with
    | nil => rfl
    | cons h _ ih => rw [List.mapM_cons, h, ih]; rfl
  rw [printVectors, if_neg (not_not.mpr rfl)]
  simp only [convertAll, bind, Except.bind, h1, h2, ht]
  exact congrArg Except.ok (printedPage_eq _ _)

/-- **C79** (nothing to print): an operator without coefficients above the tolerance is printed as an empty text, but with the maximum norm ValueError is
raised. -/
theorem C79_nothing {number : ℂ → List Char} {tol : ℚ} {A : Operator ℂ} (hA : A.WF) (h : ∀ t ∈ A.terms, ‖t.1‖ ≤ (tol : ℝ)) :
    printedText (F := F) (ν := ν) number none none .l2 tol A = .ok [] ∧
    printedText (F := F) (ν := ν) number none none .inf tol A = .error .valueError := by
  obtain ⟨C, c1, c2, c3, c4⟩ := Operator.removeZeros_ok hA tol
  have h0 : C.terms = [] := by
    rw [c4, List.filter_eq_nil_iff]
    intro t ht
    rw [absGt_iff]
    exact not_lt.mpr (h t ht)
  have h1 : C.coeffs = [] := by
    have := congrArg List.length h0
    rw [Operator.terms, List.length_zip, c2.len, Nat.min_self, ← c2.len] at this
    exact List.length_eq_zero_iff.mp this
  constructor
  · simp [printedText, c1, bind, Except.bind, Operator.normalize, h1, Operator.text, Operator.terms]
  · simp [printedText, c1, bind, Except.bind, h1]

/-- two sites with one atom each and spin orbitals -/
def upDownChain : UnitCell ℚ (List Char) := cubicCell ℚ 1 ["Up".toList, "Dn".toList]

example : (places upDownChain [2]).map (Place.text 2 tupleText) =
    ["{(0,); 0; Up}".toList, "{(0,); 0; Dn}".toList, "{(1,); 0; Up}".toList, "{(1,); 0; Dn}".toList] := by decide

/-- the hypotheses of `C78_string` hold for a string on two sites -/
example : ∃ L, mkLattice upDownChain [2] none 0 (decimals 8) = .ok L ∧
    relabelOrbitals "1.0 X 0 Z 3 ".toList L = .ok "1.0 X_{(0,); 0; Up} Z_{(1,); 0; Dn} ".toList := by
  obtain ⟨L, h1, _, h3⟩ := C78_string (u := upDownChain) (N := [2]) (periodic := none) (cubicCell_wf 1 _) (by simp) 0 (decimals 8) (by decide)
    (s := ⟨[.X, .Z], [0, 3], .pauli, .float1⟩) (by decide)
  exact ⟨L, h1, h3⟩

/-- **C78**, the negation: a label that is not in the lattice is not left alone but read as a shorter one. -/
theorem C78_refuted : ∃ L, mkLattice upDownChain [2] none 0 (decimals 8) = .ok L ∧ L.orbitals.length = 4 ∧
    relabelOrbitals "X 12 ".toList L = .ok "X_{(0,); 0; Dn}2 ".toList := ⟨_, rfl, by decide +kernel, by decide +kernel⟩

/-- `3 X_0 - 4 Z_3` -/
noncomputable def printExample : Operator ℂ := ⟨[3, -4], Basis.ofList [⟨[.X], [0], .pauli, .float1⟩, ⟨[.Z], [3], .pauli, .float1⟩], .pauli⟩

/-- how `3 X_0 - 4 Z_3` is printed, for any text of numbers without spaces -/
example (number : ℂ → List Char) (hn : ∀ x, ' ' ∉ number x ∧ '\n' ∉ number x) : ∃ L : Lattice ℚ (List Char) _, mkLattice upDownChain [2] none 0 (decimals 8) = .ok L ∧
    ∃ r : ℝ, 0 < r ∧ printOperators number [printExample] (some L) none none .l2 0 =
      .ok ("operator 1 = \n".toList ++ (number (3 * r) ++ " (1.0 X_{(0,); 0; Up} )\n".toList) ++ (number (-4 * r) ++ " (1.0 Z_{(1,); 0; Dn} )\n".toList) ++ "\n".toList) := by
  obtain ⟨L, hL, -⟩ := mkLattice_ok (u := upDownChain) (N := [2]) (cubicCell_wf 1 _) (periodic := none) (by simp) 0 (decimals 8)
  have hWF : printExample.WF := ⟨⟨rfl, by decide⟩, rfl, by decide⟩
  obtain ⟨B, r, h1, h2, h3, h4, h5⟩ := C79_text (.place (cubicCell_wf 1 _) (by simp) (by decide) hL) hn none (by simp) .l2 (le_refl 0) hWF (by decide)
    ⟨(3, _), List.mem_cons_self, by norm_num⟩
  refine ⟨L, hL, r, h1, ?_⟩
  rw [C79_operators (.cons h5 .nil), h3]
  have e : (printExample.terms.filter fun t => absGt t.1 0) = printExample.terms := by
    rw [List.filter_eq_self]
    intro t ht
    rw [h4 t ht]
    simp only [printExample, Operator.terms, Basis.ofList, List.zip_cons_cons, List.zip_nil_right, List.mem_cons, List.not_mem_nil, or_false] at ht
    rcases ht with rfl | rfl <;> norm_num
  rw [e]
  have e1 : stringText (fun l => placeMention upDownChain [2] tupleText l.toNat) ⟨[.X], [0], .pauli, .float1⟩ = "1.0 X_{(0,); 0; Up} ".toList := by decide
  have e2 : stringText (fun l => placeMention upDownChain [2] tupleText l.toNat) ⟨[.Z], [3], .pauli, .float1⟩ = "1.0 Z_{(1,); 0; Dn} ".toList := by decide
  simp [printExample, Operator.terms, Basis.ofList, shownLines, termLine, e1, e2]
  rw [show natText 1 = [Char.ofNat 49] from rfl]
  rfl

/-- non-vacuity of `C79_converted`: `3 X_0 - 4 Z_3` is converted to Majorana strings before it is printed -/
example (number : ℂ → List Char) : ∃ C, convertOperator printExample .majorana false = .ok C ∧ C.opType = .majorana ∧
    printOperators (F := ℚ) (ν := List Char) number [printExample] none none (some .majorana) .l2 0 = printOperators (F := ℚ) (ν := List Char) number [C] none none none .l2 0 := by
  obtain ⟨C, k, h1, h2, -⟩ := C32_operator (S := Set.univ) (A := printExample) ⟨⟨rfl, by decide⟩, rfl, by decide⟩ (by
    intro s hs
    simp only [printExample, Basis.ofList, List.mem_cons, List.not_mem_nil, or_false] at hs
    rcases hs with rfl | rfl
    all_goals refine .inl ⟨by decide, by decide, by decide, by decide, by simp [jwLabels], by decide⟩) (tgt := .majorana) (by simp) false (by
      intro s hs hf
      simp only [printExample, Basis.ofList, List.mem_cons, List.not_mem_nil, or_false] at hs
      rcases hs with rfl | rfl <;> cases hf)
  exact ⟨C, h1, h2, (C79_converted (.cons h1 .nil)).1⟩

/-- lines with a keyword -/
example : keepLines ["Dn".toList, "Z".toList] "1 (X_Up)\n2 (X_Dn)\n3 (Z_Up)\n".toList = "2 (X_Dn)\n3 (Z_Up)\n".toList := by decide

/-- **C33** (bases): the text of a Basis has one line for every string, in order, and `opstring` of a line gives back the string of that line. -/
theorem C33_basis_partial {b : Basis} {t : OpType} (h : ∀ S ∈ b.strs, ∃ ops labels p, GoodArgs ops labels t ∧ mkOpString ops labels t p = .ok S ∧
      S.pref ≠ .complex1 ∧ (ops ≠ [] ∨ S.pref ≠ .imag)) :
    ∃ lines, splitLines b.text = lines ++ [[]] ∧
      List.Forall₂ (fun line S => line = S.name ∧ ∃ T, opstring line (some t) = .ok T ∧ T.pyEq S = true ∧ (T.pref = .imag ↔ S.pref = .imag)) lines b.strs := by
  have nl : ∀ S ∈ b.strs, '\n' ∉ S.name := by
    intro S hS
    obtain ⟨ops, labels, p, h1, h2, -⟩ := h S hS
    obtain ⟨e1, -, -⟩ := mkOpString_fields h2
    rw [show S.name = stringText (fun l => ' ' :: intText l) S by rw [stringText, OpString.name, wordText_eq]]
    exact stringText_no_newline (fun o ho => opsOf_valid (h1.kind o (e1 ▸ ho))) (fun l _ => by
      intro hm
      rcases List.mem_cons.mp hm with e | e
      · exact absurd e (by decide)
      · exact absurd (intText_not_space l _ e) (by decide))
  refine ⟨b.strs.map OpString.name, ?_, ?_⟩
  · rw [Basis.text]
    clear h
    generalize b.strs = strs at nl
    induction strs with
    | nil => rfl
    | cons S l ih =>
      rw [List.flatMap_cons, List.append_assoc, List.singleton_append, splitLines_line (nl S (by simp)), ih (fun S' hS' => nl S' (by simp [hS'])),
        List.map_cons, List.cons_append]
  · rw [List.forall₂_map_left_iff, List.forall₂_same]
    intro S hS
    obtain ⟨ops, labels, p, h1, h2, h3, h4⟩ := h S hS
    obtain ⟨T, k1, k2, k3, -⟩ := C33_roundtrip_partial h1 h2 h3 h4
    exact ⟨rfl, T, k1, k2, k3⟩

example : splitLines (Basis.ofList [⟨[.X, .Y], [1, 2], .pauli, .float1⟩, ⟨[.Z], [-3], .pauli, .float1⟩]).text =
    ["1.0 X 1 Y 2 ".toList, "1.0 Z -3 ".toList, []] := by decide

end Qosy
