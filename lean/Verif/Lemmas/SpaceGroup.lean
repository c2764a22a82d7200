import Verif.Model.SpaceGroup
import Verif.Spec.SpaceGroup
import Verif.Lemmas.Names
import Verif.Lemmas.PermGroup
import Verif.Lemmas.LatticeDistance
import Verif.Lemmas.Distance
import Verif.Lemmas.Conversion
import Verif.Props.Lattice
import Mathlib.Tactic.NoncommRing

/-! # Lemmas about space groups, spin flips, spin parity and spinful time reversal -/

namespace Qosy
open Coef
variable {F ω ν : Type} [Field F] [LinearOrder F]
variable {K : Type} [Field K] [StarRing K] [Coef K]

theorem mapM_getElem {α β : Type} {g : α → Py β} {l : List α} {r : List β} (hl : r.length = l.length)
    (h : ∀ (i : ℕ) (x : α) (y : β), l[i]? = some x → r[i]? = some y → g x = .ok y) : l.mapM g = .ok r := by
  induction l generalizing r with
  | nil =>
    obtain rfl : r = [] := List.length_eq_zero_iff.mp (by simpa using hl)
    rfl
  | cons x l ih =>
    cases r with
    | nil => simp at hl
    | cons y r =>
      rw [List.mapM_cons, h 0 x y rfl rfl, ih (by simpa using hl) (fun i a b ha hb => h (i + 1) a b (by simpa using ha) (by simpa using hb))]
      rfl

/-- a list of labels is a permutation if it is injective -/
theorem isPermArray_of_inj {p : List ℕ} (h1 : ∀ i ∈ p, i < p.length) (h2 : ∀ (i j k : ℕ), p[i]? = some k → p[j]? = some k → i = j) : IsPermArray p := by
  have hn : p.Nodup := by
    rw [List.nodup_iff_injective_getElem]
    intro i j h
    have := h2 i j p[j] (by rw [List.getElem?_eq_getElem i.2]; exact congrArg some h) (List.getElem?_eq_getElem j.2)
    exact Fin.ext this
  refine (List.Subperm.perm_of_length_le ?_ (by simp))
  exact hn.subperm (fun i hi => List.mem_range.mpr (h1 i hi))

theorem checkedPermutation_ok (p : List ℕ) : (checkedPermutation (labelsOf p) : Py (Transformation K)) = .ok (labelPermutation (labelsOf p)) := by
  rw [checkedPermutation, if_neg]
  rw [labelsOf, List.mem_map]
  rintro ⟨a, -, ha⟩
  simp only [Int.ofNat_eq_natCast] at ha
  omega

theorem labelsOf_get {p : List ℕ} {i : ℕ} {y : ℤ} (h : (labelsOf p)[i]? = some y) : ∃ j : ℕ, p[i]? = some j ∧ y = j := by
  rw [labelsOf, List.getElem?_map, Option.map_eq_some_iff] at h
  obtain ⟨j, h1, h2⟩ := h
  exact ⟨j, h1, h2.symm⟩

theorem relabelMap_get {p : List ℕ} {i j : ℕ} (h : p[i]? = some j) : relabelMap (labelsOf p) i = j := by
  simp [relabelMap, labelsOf, List.getD_eq_getElem?_getD, h]

section
variable [DecidableEq ω] [DecidableEq ν]

theorem Lattice.Indexed.inj {L : Lattice F ω ν} (hL : L.Indexed) {i j : ℕ} {x y : Orbital F ω} (hi : L.orbitals[i]? = some x)
    (hj : L.orbitals[j]? = some y) (h1 : x.1 = y.1) (h2 : x.2.1 = y.2.1) : i = j := by
  have := hL i x hi
  rw [h1, h2, hL j y hj] at this
  simpa using this.symm

/-! ### space groups -/

theorem UnitCell.shift_add (u : UnitCell F ω) (d : ℕ) (M : Fin d → ℕ) (c c' : Fin d → ℤ) : u.shift d M (c + c') = u.shift d M c + u.shift d M c' := by
  simp only [UnitCell.shift]
  rw [← Finset.sum_add_distrib]
  refine Finset.sum_congr rfl fun l _ => ?_
  rw [Pi.add_apply, Int.cast_add, add_mul, add_smul]

theorem UnitCell.shift_neg (u : UnitCell F ω) (d : ℕ) (M : Fin d → ℕ) (c : Fin d → ℤ) : u.shift d M (-c) = -u.shift d M c := by
  rw [UnitCell.shift, UnitCell.shift, ← Finset.sum_neg_distrib]
  refine Finset.sum_congr rfl fun l _ => ?_
  rw [Pi.neg_apply, Int.cast_neg, neg_mul, neg_smul]

theorem rowDot_field {d : ℕ} (x y : Fin d → F) : rowDot (List.ofFn x) (List.ofFn y) = .ok (∑ i, x i * y i) := by
  rw [rowDot, if_pos (by simp)]
  congr 1
  rw [← List.sum_ofFn]
  congr 1
  apply List.ext_getElem (by simp)
  intro i h1 h2
  simp

theorem rowsVec_field {d : ℕ} (R : Matrix (Fin d) (Fin d) F) (x : Fin d → F) :
    rowsVec (List.ofFn fun i => List.ofFn (R i)) (List.ofFn x) = .ok (List.ofFn fun i => ∑ j, R i j * x j) := by
  rw [rowsVec, mapM_getElem (r := List.ofFn fun i => ∑ j, R i j * x j) (by simp)]
  intro i a b ha hb
  obtain ⟨h1, rfl⟩ := List.getElem?_eq_some_iff.mp ha
  obtain ⟨h2, rfl⟩ := List.getElem?_eq_some_iff.mp hb
  rw [List.getElem_ofFn, List.getElem_ofFn, rowDot_field]

/-- the image of an orbital -/
theorem spaceGroup_image [IsStrictOrderedRing F] {d : ℕ} (R : Matrix (Fin d) (Fin d) F) (t x : Fin d → F) :
    (do
      let p ← rowsVec (List.ofFn fun i => List.ofFn (R i)) (List.ofFn x)
      vadd p (List.ofFn t) : Py (List F)) = .ok (List.ofFn fun i => ∑ j, R i j * x j + t i) := by
  rw [rowsVec_field]
  simp only [bind, Except.bind]
  rw [vadd_ofFn _ (by simp), vec_ofFn]
  rfl
end

section
variable [IsStrictOrderedRing F] [DecidableEq ω] [DecidableEq ν]
variable {L : Lattice F ω ν} {u : UnitCell F ω} {N : List ℕ} {periodic : Option (List Bool)} {tol : F} {render : List F → ν}

/-- the labels of the images of the orbitals -/
theorem spaceGroupLabels_ok (h : L.Built u N periodic tol render) (hu : u.WF N.length) (hprim : u.Primitive N.length)
    (hres : u.Resolved N.length tol render (fun _ => True)) {R : Matrix (Fin N.length) (Fin N.length) F} {t : Fin N.length → F}
    (hmap : u.MapsOrbitals N periodic R t) (hinj : ∀ x, u.IsPeriod N periodic (R.mulVec x) → u.IsPeriod N periodic x) :
    ∃ p : List ℕ, IsPermArray p ∧ p.length = L.orbitals.length ∧
      spaceGroupLabels L (List.ofFn fun i => List.ofFn (R i)) (List.ofFn t) = .ok (labelsOf p) ∧
      ∀ (i : ℕ) (x : Orbital F ω), L.orbitals[i]? = some x → ∃ (j : ℕ) (y : Orbital F ω) (c : Fin N.length → ℤ), p[i]? = some j ∧
        L.orbitals[j]? = some y ∧ y.2.1 = x.2.1 ∧ Period periodic c ∧
        R.mulVec (vec N.length x.1) + t = vec N.length y.1 + u.shift N.length (sizes N) c := by
  have hstep : ∀ i : Fin L.orbitals.length, ∃ j : ℕ, ∃ (y : Orbital F ω) (c : Fin N.length → ℤ), L.orbitals[j]? = some y ∧
      y.2.1 = L.orbitals[i].2.1 ∧ Near c ∧ Period periodic c ∧
      R.mulVec (vec N.length L.orbitals[i].1) + t = vec N.length y.1 + u.shift N.length (sizes N) c := by
    intro i
    obtain ⟨m, a, ha, hm, ho, hx⟩ := h.orbital hu hres (fun _ _ => trivial) (List.getElem_mem i.2)
    obtain ⟨m', c, b, hb, hm', hc1, hc2, hob, he⟩ := hmap m hm a ha _ ho
    obtain ⟨j, hj, hjx⟩ := List.getElem_of_mem (h.orbital_mem hu hres (fun _ _ => trivial) hm' hb hob)
    refine ⟨j, _, c, List.getElem?_eq_some_iff.mpr ⟨hj, hjx⟩, rfl, hc1, hc2, ?_⟩
    rw [show (L.orbitals[i]).1 = List.ofFn (u.point N.length m a) from congrArg Prod.fst hx, vec_ofFn, vec_ofFn, ← he]
    rfl
  choose f y c h1 h2 h3 h4 h5 using hstep
  have hget : ∀ (i : ℕ) (k : ℕ), (List.ofFn f)[i]? = some k → ∃ hi : i < L.orbitals.length, k = f ⟨i, hi⟩ := by
    intro i k hk
    obtain ⟨hi, hk⟩ := List.getElem?_eq_some_iff.mp hk
    rw [List.getElem_ofFn] at hk
    exact ⟨by simpa using hi, hk.symm⟩
  refine ⟨List.ofFn f, isPermArray_of_inj ?_ ?_, by simp, mapM_getElem (by simp [labelsOf]) ?_, ?_⟩
  · intro k hk
    rw [List.mem_ofFn] at hk
    obtain ⟨i, rfl⟩ := hk
    have := (List.getElem?_eq_some_iff.mp (h1 i)).1
    simpa using this
  · intro i j k hi hj
    obtain ⟨hi, e1⟩ := hget i k hi
    obtain ⟨hj, e2⟩ := hget j k hj
    set I : Fin L.orbitals.length := ⟨i, hi⟩
    set J : Fin L.orbitals.length := ⟨j, hj⟩
    have hy : y I = y J := Option.some.inj ((h1 I).symm.trans (by rw [← e1, e2, h1 J]))
    have ho : L.orbitals[I].2.1 = L.orbitals[J].2.1 := by rw [← h2 I, hy, h2 J]
    obtain ⟨m, a, ha, hm, hoa, hx⟩ := h.orbital hu hres (fun _ _ => trivial) (List.getElem_mem hi)
    obtain ⟨m', b, hb, hm', hob, hx'⟩ := h.orbital hu hres (fun _ _ => trivial) (List.getElem_mem hj)
    have hper : u.IsPeriod N periodic (R.mulVec (vec N.length L.orbitals[I].1 - vec N.length L.orbitals[J].1)) := by
      refine ⟨c I + -c J, fun l hl => ?_, ?_⟩
      · rw [Pi.add_apply, Pi.neg_apply, h4 I l hl, h4 J l hl]; simp
      · rw [Matrix.mulVec_sub, UnitCell.shift_add, UnitCell.shift_neg]
        have e3 := h5 I
        have e4 := h5 J
        rw [hy] at e3
        have : R.mulVec (vec N.length L.orbitals[I].1) - R.mulVec (vec N.length L.orbitals[J].1) =
            (R.mulVec (vec N.length L.orbitals[I].1) + t) - (R.mulVec (vec N.length L.orbitals[J].1) + t) := by abel
        rw [this, e3, e4]; abel
    obtain ⟨c', hc', he⟩ := hinj _ hper
    have e5 : vec N.length (L.orbitals[I]).1 = u.point N.length m a := by
      rw [show (L.orbitals[I]).1 = List.ofFn (u.point N.length m a) from congrArg Prod.fst hx, vec_ofFn]
    have e6 : vec N.length (L.orbitals[J]).1 = u.point N.length m' b := by
      rw [show (L.orbitals[J]).1 = List.ofFn (u.point N.length m' b) from congrArg Prod.fst hx', vec_ofFn]
    rw [e5, e6, sub_eq_iff_eq_add', UnitCell.point_add_shift] at he
    change L.orbitals[i].2.1 = L.orbitals[j].2.1 at ho
    rw [← ho] at hob
    obtain ⟨rfl, hmm⟩ := UnitCell.point_inj hprim ha hb hoa hob he
    have hc0 := inCells_unique hm' (hmm ▸ hm)
    have : m = m' := by
      rw [hmm, hc0]
      funext l; simp
    subst this
    have hnd := h.orbitals_nodup hu hprim hres (fun _ _ => trivial)
    refine (hnd.getElem_inj_iff (hi := hi) (hj := hj)).mp ?_
    rw [hx, hx', ho]
  · intro i x z hi hz
    obtain ⟨j, hj, rfl⟩ := labelsOf_get hz
    obtain ⟨hi', e1⟩ := hget i j hj
    obtain ⟨hlt, rfl⟩ := List.getElem?_eq_some_iff.mp hi
    obtain ⟨m, a, ha, hm, hoa, hx⟩ := h.orbital hu hres (fun _ _ => trivial) (List.getElem_mem hlt)
    have hx1 : L.orbitals[i].1 = List.ofFn (u.point N.length m a) := congrArg Prod.fst hx
    have himg := spaceGroup_image R t (u.point N.length m a)
    rw [← hx1] at himg
    have h6 := h5 ⟨i, hlt⟩
    have h7 : (fun i => ∑ j, R i j * u.point N.length m a j + t i) = vec N.length (y ⟨i, hlt⟩).1 + u.shift N.length (sizes N) (c ⟨i, hlt⟩) := by
      rw [← h6]
      show _ = R.mulVec (vec N.length L.orbitals[i].1) + t
      rw [hx1, vec_ofFn]; rfl
    rw [h7] at himg
    have hidx := h.index_shift hu hprim hres (h4 ⟨i, hlt⟩) (fun _ _ => trivial) (fun _ _ _ _ _ => trivial) (h1 ⟨i, hlt⟩)
    rw [if_pos (h3 ⟨i, hlt⟩), h2 ⟨i, hlt⟩] at hidx
    rw [e1]
    refine Eq.trans ?_ hidx
    have : ∀ {α β γ : Type} (x : Py α) (f : α → Py β) (g : β → Py γ), (do let p ← x; let q ← f p; g q) = (do let q ← (do let p ← x; f p); g q) := by
      intro α β γ x f g; cases x <;> rfl
    rw [this, himg]
    rfl
  · intro i x hi
    obtain ⟨hlt, rfl⟩ := List.getElem?_eq_some_iff.mp hi
    exact ⟨f ⟨i, hlt⟩, y ⟨i, hlt⟩, c ⟨i, hlt⟩, by rw [List.getElem?_eq_getElem (by simpa using hlt), List.getElem_ofFn], h1 ⟨i, hlt⟩, h2 ⟨i, hlt⟩, h4 ⟨i, hlt⟩, h5 ⟨i, hlt⟩⟩
end

/-! ### spin flips -/

theorem infix_append {A x s : List Char} (h : A <:+: x ++ s) : A <:+: s ∨ ∃ y, y <:+ x ∧ y ≠ [] ∧ A <+: y ++ s := by
  induction x with
  | nil => exact Or.inl h
  | cons c x ih =>
    rw [List.cons_append, List.infix_cons_iff] at h
    rcases h with h | h
    · exact Or.inr ⟨c :: x, List.suffix_refl _, by simp, h⟩
    · rcases ih h with h | ⟨y, h1, h2, h3⟩
      · exact Or.inl h
      · exact Or.inr ⟨y, h1.trans (List.suffix_cons _ _), h2, h3⟩

/-- a text that contains one name is turned into one that contains the other -/
theorem Swapped.contains {A B : List Char} (hAB : OverlapFree A B) {s t : List Char} (h : Swapped A B s t) : A <:+: s → B <:+: t := by
  induction h with
  | nil => intro h; exact absurd (List.eq_nil_of_infix_nil h) hAB.left
  | @left s t _ ih => intro _; exact (List.prefix_append B t).isInfix
  | @right s t _ ih =>
    intro h
    rcases infix_append h with h | ⟨y, h1, h2, h3⟩
    · exact (ih h).trans (List.suffix_append A t).isInfix
    · exfalso
      rcases List.prefix_or_prefix_of_prefix h3 (List.prefix_append y s) with h4 | h4
      · exact hAB.ab (h4.isInfix.trans h1.isInfix)
      · by_cases he : y = B
        · subst he; exact hAB.ba h4.isInfix
        · exact hAB.proper B (by simp) A (by simp) y h1 h2 he h4
  | @char c s t h1 _ _ ih =>
    intro h
    rw [List.infix_cons_iff] at h
    exact (ih (h.resolve_left h1)).trans (List.suffix_cons c t).isInfix

theorem Swapped.comm {A B : List Char} {s t : List Char} (h : Swapped A B s t) : Swapped B A s t := by
  induction h with
  | nil => exact .nil
  | left _ ih => exact .right ih
  | right _ ih => exact .left ih
  | char h1 h2 _ ih => exact .char h2 h1 ih

theorem Swapped.contains_iff {A B : List Char} (hAB : OverlapFree A B) {s t : List Char} (h : Swapped A B s t) : B <:+: t ↔ A <:+: s :=
  ⟨fun hb => (h.back hAB).comm.contains hAB.comm hb, h.contains hAB⟩

section
variable [DecidableEq ν] {L : Lattice F (List Char) ν} {up dn : List Char}

theorem spinFlipLabels_ok (hL : L.Indexed) (ho : OverlapFree up dn) (hup : Plain up) (hdn : Plain dn) (hn : ∀ x ∈ L.orbitals, '(' ∉ x.2.1)
    (hpairs : L.SpinPairs up dn) : ∃ p : List ℕ, IsPermArray p ∧ p.length = L.orbitals.length ∧ spinFlipLabels L up dn = .ok (labelsOf p) ∧
      L.Flips up dn (relabelMap (labelsOf p)) ∧ ∀ i j : ℕ, p[i]? = some j → p[j]? = some i := by
  have hstep : ∀ i : Fin L.orbitals.length, ∃ j : ℕ, ∃ y : Orbital F (List Char), L.orbitals[j]? = some y ∧ y.1 = (L.orbitals[i.1]).1 ∧
      Swapped up dn (L.orbitals[i.1]).2.1 y.2.1 := by
    intro i
    obtain ⟨o, h⟩ := Swapped.exists up dn ho.left ho.right (L.orbitals[i.1]).2.1
    obtain ⟨y, hy, h1, h2⟩ := hpairs _ (List.getElem_mem i.2) o h
    obtain ⟨j, hj, e⟩ := List.getElem_of_mem hy
    exact ⟨j, y, List.getElem?_eq_some_iff.mpr ⟨hj, e⟩, h1, h2 ▸ h⟩
  choose f y h1 h2 h3 using hstep
  have hget : ∀ (i : ℕ) (k : ℕ), (List.ofFn f)[i]? = some k → ∃ hi : i < L.orbitals.length, k = f ⟨i, hi⟩ := by
    intro i k hk
    obtain ⟨hi, hk⟩ := List.getElem?_eq_some_iff.mp hk
    rw [List.getElem_ofFn] at hk
    exact ⟨by simpa using hi, hk.symm⟩
  have hidx : ∀ i : Fin L.orbitals.length, L.index (L.orbitals[i.1]).1 (swapNames (L.orbitals[i.1]).2.1 up dn) = .ok (f i : ℤ) := by
    intro i
    rw [swapNames_eq ho.apart hup hdn (hn _ (List.getElem_mem i.2)) (h3 i), ← h2 i, hL _ _ (h1 i)]
  have hinv : ∀ i j : ℕ, (List.ofFn f)[i]? = some j → (List.ofFn f)[j]? = some i := by
    intro i j hij
    obtain ⟨hi, rfl⟩ := hget i j hij
    obtain ⟨hj, hyj⟩ := List.getElem?_eq_some_iff.mp (h1 ⟨i, hi⟩)
    rw [List.getElem?_eq_getElem (by simpa using hj), List.getElem_ofFn]
    congr 1
    have hs := (h3 ⟨i, hi⟩).back ho
    have e1 := hidx ⟨f ⟨i, hi⟩, hj⟩
    simp only [hyj] at e1
    have hp : '(' ∉ (y ⟨i, hi⟩).2.1 := by rw [← hyj]; exact hn _ (List.getElem_mem hj)
    rw [swapNames_eq ho.apart hup hdn hp hs, h2 ⟨i, hi⟩] at e1
    rw [hL i _ (List.getElem?_eq_getElem hi)] at e1
    simpa using e1.symm
  refine ⟨List.ofFn f, isPermArray_of_inj ?_ ?_, by simp, mapM_getElem (by simp [labelsOf]) ?_, ?_, hinv⟩
  · intro k hk
    rw [List.mem_ofFn] at hk
    obtain ⟨i, rfl⟩ := hk
    simpa using (List.getElem?_eq_some_iff.mp (h1 i)).1
  · intro i j k hi hj
    exact Option.some.inj ((hinv i k hi).symm.trans (hinv j k hj))
  · intro i x z hi hz
    obtain ⟨j, hj, rfl⟩ := labelsOf_get hz
    obtain ⟨hi', rfl⟩ := hget i j hj
    obtain ⟨hlt, rfl⟩ := List.getElem?_eq_some_iff.mp hi
    exact hidx ⟨i, hlt⟩
  · intro i x hi
    obtain ⟨hlt, rfl⟩ := List.getElem?_eq_some_iff.mp hi
    exact ⟨f ⟨i, hlt⟩, y ⟨i, hlt⟩, relabelMap_get (by rw [List.getElem?_eq_getElem (by simpa using hlt), List.getElem_ofFn]), h1 ⟨i, hlt⟩, h2 ⟨i, hlt⟩, h3 ⟨i, hlt⟩⟩

/-- the labels of the orbitals with a spin -/
theorem spinLabels_ok (hL : L.Indexed) (name : List Char) : ∃ l, spinLabels L name = .ok l ∧ ∀ i, i ∈ l ↔ i ∈ L.named name := by
  suffices h : ∀ (os : List (Orbital F (List Char))) (k : ℕ), (∀ (i : ℕ) x, os[i]? = some x → L.index x.1 x.2.1 = .ok ((i + k : ℕ) : ℤ)) →
      ∃ l : List ℤ, ((os.filter fun o => occursIn name o.2.1).mapM fun o => L.index o.1 o.2.1) = .ok l ∧
        ∀ j : ℤ, j ∈ l ↔ ∃ (i : ℕ) (x : Orbital F (List Char)), j = ((i + k : ℕ) : ℤ) ∧ os[i]? = some x ∧ name <:+: x.2.1 by
    obtain ⟨l, h1, h2⟩ := h L.orbitals 0 (fun i x hx => by simpa using hL i x hx)
    exact ⟨l, h1, fun i => by simpa [Lattice.named] using h2 i⟩
  intro os
  induction os with
  | nil => intro k _; exact ⟨[], rfl, by simp⟩
  | cons o os ih =>
    intro k hk
    obtain ⟨l, h1, h2⟩ := ih (k + 1) (fun i x hx => by rw [hk (i + 1) x (by simpa using hx)]; congr 2; omega)
    have tail : ∀ j : ℤ, (∃ (i : ℕ) (x : Orbital F (List Char)), j = ((i + k : ℕ) : ℤ) ∧ (o :: os)[i]? = some x ∧ name <:+: x.2.1) ↔
        (j = (k : ℤ) ∧ name <:+: o.2.1) ∨ j ∈ l := by
      intro j
      rw [h2]
      constructor
      · rintro ⟨i, x, rfl, hx, hn⟩
        cases i with
        | zero =>
          obtain rfl : o = x := by simpa using hx
          exact Or.inl ⟨by simp, hn⟩
        | succ i => exact Or.inr ⟨i, x, by push_cast; ring, by simpa using hx, hn⟩
      · rintro (⟨rfl, hn⟩ | ⟨i, x, rfl, hx, hn⟩)
        · exact ⟨0, o, by simp, rfl, hn⟩
        · exact ⟨i + 1, x, by push_cast; ring, by simpa using hx, hn⟩
    by_cases ho : occursIn name o.2.1 = true
    · refine ⟨(k : ℤ) :: l, ?_, fun j => ?_⟩
      · rw [List.filter_cons_of_pos (p := fun o : Orbital F (List Char) => occursIn name o.2.1) ho, List.mapM_cons, hk 0 o rfl, h1]
        simp only [Nat.zero_add]
        rfl
      · rw [tail, List.mem_cons, ← occursIn_iff, ho]; simp
    · refine ⟨l, ?_, fun j => ?_⟩
      · rw [List.filter_cons_of_neg (p := fun o : Orbital F (List Char) => occursIn name o.2.1) ho, h1]
      · rw [tail, ← occursIn_iff]; simp [ho]
end

/-! ### signs of the spins -/

section
variable {𝔸 : Type} [Ring 𝔸] [Algebra K 𝔸] {S : Set ℤ}

open Classical in
/-- the number of Majorana operators `A`, `B` in a set of orbitals -/
noncomputable def numOn (D : Set ℤ) (ops : List Op) (labels : List ℤ) : ℕ := (ops.zip labels).countP fun x => decide (x.1 ≠ .D ∧ x.2 ∈ D)

/-- the sign of a string under spin parity -/
noncomputable def szSign (K : Type) [Field K] (D : Set ℤ) (s : OpString) : K := (-1) ^ numOn D s.ops s.labels

theorem szSign_cases (D : Set ℤ) (s : OpString) : szSign K D s = 1 ∨ szSign K D s = -1 := neg_one_pow_eq_or K _

theorem szCount_ok {up dn : List ℤ} {D : Set ℤ} (hD : ∀ l, l ∈ dn ↔ l ∈ D) : ∀ {ops : List Op} {labels : List ℤ}, ops.length = labels.length →
    (∀ o ∈ ops, o = .A ∨ o = .B ∨ o = .D) → ∀ n : ℕ × ℕ, ∃ u v, szCount up dn ops labels n = .ok (u, v) ∧ v % 2 = (n.2 + numOn D ops labels) % 2
  | [], [], _, _, n => ⟨n.1, n.2, by rw [szCount], by simp [numOn]⟩
  | o :: ops, l :: labels, hl, h, n => by
    have key : ∀ n : ℕ × ℕ, ∃ u v, szCount up dn ops labels n = .ok (u, v) ∧ v % 2 = (n.2 + numOn D ops labels) % 2 :=
      szCount_ok hD (by simpa using hl) (fun o ho => h o (List.mem_cons_of_mem _ ho))
    by_cases hm : l ∈ D
    · have hm' := (hD l).mpr hm
      rcases h o (List.mem_cons_self ..) with rfl | rfl | rfl
      · obtain ⟨u, v, h1, h2⟩ := key (n.1 + (if l ∈ up then 1 else 0), n.2 + (if l ∈ dn then 1 else 0))
        refine ⟨u, v, by rw [szCount, h1], ?_⟩
        simp only [if_pos hm'] at h2
        simp only [numOn, List.zip_cons_cons, List.countP_cons] at h2 ⊢
        simp [hm] at h2 ⊢; omega
      · obtain ⟨u, v, h1, h2⟩ := key (n.1 + (if l ∈ up then 1 else 0), n.2 + (if l ∈ dn then 1 else 0))
        refine ⟨u, v, by rw [szCount, h1], ?_⟩
        simp only [if_pos hm'] at h2
        simp only [numOn, List.zip_cons_cons, List.countP_cons] at h2 ⊢
        simp [hm] at h2 ⊢; omega
      · obtain ⟨u, v, h1, h2⟩ := key (n.1 + (if l ∈ up then 2 else 0), n.2 + (if l ∈ dn then 2 else 0))
        refine ⟨u, v, by rw [szCount, h1], ?_⟩
        simp only [if_pos hm'] at h2
        simp only [numOn, List.zip_cons_cons, List.countP_cons] at h2 ⊢
        simp at h2 ⊢; omega
    · have hm' := mt (hD l).mp hm
      rcases h o (List.mem_cons_self ..) with rfl | rfl | rfl
      · obtain ⟨u, v, h1, h2⟩ := key (n.1 + (if l ∈ up then 1 else 0), n.2 + (if l ∈ dn then 1 else 0))
        refine ⟨u, v, by rw [szCount, h1], ?_⟩
        simp only [if_neg hm'] at h2
        simp only [numOn, List.zip_cons_cons, List.countP_cons] at h2 ⊢
        simp [hm] at h2 ⊢; omega
      · obtain ⟨u, v, h1, h2⟩ := key (n.1 + (if l ∈ up then 1 else 0), n.2 + (if l ∈ dn then 1 else 0))
        refine ⟨u, v, by rw [szCount, h1], ?_⟩
        simp only [if_neg hm'] at h2
        simp only [numOn, List.zip_cons_cons, List.countP_cons] at h2 ⊢
        simp [hm] at h2 ⊢; omega
      · obtain ⟨u, v, h1, h2⟩ := key (n.1 + (if l ∈ up then 2 else 0), n.2 + (if l ∈ dn then 2 else 0))
        refine ⟨u, v, by rw [szCount, h1], ?_⟩
        simp only [if_neg hm'] at h2
        simp only [numOn, List.zip_cons_cons, List.countP_cons] at h2 ⊢
        simp at h2 ⊢; omega

theorem szRule_majorana {up dn : List ℤ} {D : Set ℤ} (hD : ∀ l, l ∈ dn ↔ l ∈ D) {s : OpString} (h : MajoranaString S s) :
    (szRule up dn : Transformation K).Sends s (szSign K D s) s := by
  obtain ⟨u, v, h1, h2⟩ := szCount_ok (up := up) hD h.len h.ops (0, 0)
  unfold Transformation.Sends szRule
  simp only [h.type, h1, bind, Except.bind]
  rw [mkOperator_none_ok (t := .majorana) (by simp) (by simp) (by simp [h.type]), flipIf_odd]
  have : (-1 : K) ^ v = (-1) ^ numOn D s.ops s.labels := by
    rw [neg_one_pow_eq_pow_mod_two, h2, Nat.zero_add, ← neg_one_pow_eq_pow_mod_two]
  rw [this, mul_one]; rfl

theorem szRule_signRule {up dn : List ℤ} {D : Set ℤ} (hD : ∀ l, l ∈ dn ↔ l ∈ D) (S : Set ℤ) :
    SignRule (szRule up dn : Transformation K) .majorana (TypedString .majorana S) (szSign K D) id := by
  refine ⟨fun _ h => h.type, fun s h => ?_, fun s _ => szSign_cases D s, fun _ h => h⟩
  rcases h with ⟨h, -⟩ | ⟨-, h⟩
  · cases h
  · exact szRule_majorana hD h

theorem wordProd_signs (p : Op × ℤ → Bool) (f g : Op → ℤ → 𝔸) : ∀ {ops : List Op} {labels : List ℤ}, ops.length = labels.length →
    (∀ o ∈ ops, ∀ l ∈ labels, f o l = (if p (o, l) then (-1 : K) else 1) • g o l) →
    wordProd f ops labels = ((-1 : K) ^ ((ops.zip labels).countP p)) • wordProd g ops labels
  | [], [], _, _ => by simp [wordProd]
  | o :: ops, l :: labels, hl, h => by
    have ih := wordProd_signs p f g (ops := ops) (labels := labels) (by simpa using hl)
      (fun o ho l hl => h o (List.mem_cons_of_mem _ ho) l (List.mem_cons_of_mem _ hl))
    rw [wordProd, wordProd, ih, h o (List.mem_cons_self ..) l (List.mem_cons_self ..), List.zip_cons_cons, List.countP_cons, smul_mul_smul_comm]
    congr 1
    by_cases hp : p (o, l) <;> simp [hp, pow_succ]

theorem MajoranaRep.negOn_den (R : MajoranaRep K 𝔸 S) (D : Set ℤ) {s : OpString} (h : MajoranaString S s) :
    (R.negOn D).den s = szSign K D s • R.den s := by
  classical
  rw [MajoranaRep.den, MajoranaRep.den, wordProd_signs (K := K) (fun x => decide (x.1 ≠ .D ∧ x.2 ∈ D)) (R.negOn D).site R.site h.len, smul_comm]
  · congr 2
  · intro o ho l hl
    rcases h.ops o ho with rfl | rfl | rfl
    · by_cases hm : l ∈ D <;> simp [MajoranaRep.site, MajoranaRep.negOn, hm]
    · by_cases hm : l ∈ D <;> simp [MajoranaRep.site, MajoranaRep.negOn, hm]
    · by_cases hm : l ∈ D <;> simp [MajoranaRep.site, MajoranaRep.d, MajoranaRep.negOn, hm]

/-- an antilinear map that sends one family of Majorana operators to another one -/
theorem Antilinear.majorana_two (τ : Antilinear K 𝔸) (R R' : MajoranaRep K 𝔸 S) (hτ : ∀ i ∈ S, τ.toFun (R.a i) = R'.a i ∧ τ.toFun (R.b i) = -R'.b i)
    {s : OpString} (h : MajoranaString S s) : τ.toFun (R.den s) = trSign K s • R'.den s := by
  rw [MajoranaRep.den, τ.smul, map_wordProd,
    wordProd_sign (K := K) (fun o => o = .B) (fun o l => τ.toFun (R.site o l)) R'.site h.len, star_pref h]
  · simp only [trSign, h.type, if_true, smul_smul, numB, MajoranaRep.den]; congr 1; ring
  · intro o ho l hl
    obtain ⟨h1, h2⟩ := hτ l (h.mem l hl)
    rcases h.ops o ho with rfl | rfl | rfl
    · simpa [MajoranaRep.site] using h1
    · simpa [MajoranaRep.site] using h2
    · simp only [MajoranaRep.site, MajoranaRep.d]
      rw [map_neg, τ.smul, map_mul, h1, h2, star_I]; simp

/-- spinful time reversal of a string -/
theorem Antilinear.spinful (τ : Antilinear K 𝔸) (R : MajoranaRep K 𝔸 S) {e : ℤ → ℤ} {D : Set ℤ} (he : Set.InjOn e S) (hm : Set.MapsTo e S S)
    (hτ : τ.ReversesSpinful R e D) {s : OpString} (h : MajoranaString S s) :
    τ.toFun (R.den s) = (trSign K s * szSign K D s * ((relabelSign e s : ℤ) : K)) • R.den (relabelString e s) := by
  rw [τ.majorana_two R ((R.relabelOn e he hm).negOn D) (fun i hi => ?_) h, MajoranaRep.negOn_den _ _ h, R.den_relabel he hm h, smul_smul, smul_smul]
  obtain ⟨h1, h2⟩ := hτ i hi
  by_cases hD : i ∈ D
  · obtain ⟨h3, h4⟩ := h2 hD
    exact ⟨by simp [MajoranaRep.negOn, MajoranaRep.relabelOn, hD, h3], by simp [MajoranaRep.negOn, MajoranaRep.relabelOn, hD, h4]⟩
  · obtain ⟨h3, h4⟩ := h1 hD
    exact ⟨by simp [MajoranaRep.negOn, MajoranaRep.relabelOn, hD, h3], by simp [MajoranaRep.negOn, MajoranaRep.relabelOn, hD, h4]⟩

theorem trSign_relabel (e : ℤ → ℤ) {s : OpString} (h : MajoranaString S s) : trSign K (relabelString e s) = trSign K s := by
  have hp : (relabelString e s).ops.Perm s.ops := map_fst_sortPair (by simpa using h.len)
  have ht : (relabelString e s).opType = s.opType := rfl
  rw [trSign, trSign, ht, numAB_perm hp, if_pos h.type, if_pos h.type, numB, numB, hp.countP_eq]

/-- two spin flips count every `A` and `B` once, if every orbital has a spin -/
theorem szSign_relabel {e : ℤ → ℤ} {D : Set ℤ} (hD : ∀ i ∈ S, e i ∈ D ↔ i ∉ D) {s : OpString} (h : MajoranaString S s) :
    szSign K D s * szSign K D (relabelString e s) = (-1) ^ numAB s.ops := by
  classical
  have hw : (relabelString e s).ops.zip (relabelString e s).labels = sortPair (s.ops.zip (s.labels.map e)) := relabelString_word e s
  rw [szSign, szSign, ← pow_add]
  congr 1
  unfold numOn
  rw [hw, (sortPair_perm _).countP_eq, map_zip_right, List.countP_map]
  have key : ∀ (ops : List Op) (labels : List ℤ), ops.length = labels.length → (∀ o ∈ ops, o = .A ∨ o = .B ∨ o = .D) → (∀ l ∈ labels, l ∈ S) →
      (ops.zip labels).countP (fun x => decide (x.1 ≠ .D ∧ x.2 ∈ D)) +
        (ops.zip labels).countP ((fun x : Op × ℤ => decide (x.1 ≠ .D ∧ x.2 ∈ D)) ∘ fun x => (x.1, e x.2)) = numAB ops := by
    intro ops
    induction ops with
    | nil => intro labels _ _ _; simp [numAB]
    | cons o ops ih =>
      intro labels hl ho hm
      cases labels with
      | nil => simp at hl
      | cons l labels =>
        have := ih labels (by simpa using hl) (fun o h => ho o (List.mem_cons_of_mem _ h)) (fun l h => hm l (List.mem_cons_of_mem _ h))
        have hd := hD l (hm l (List.mem_cons_self ..))
        simp only [List.zip_cons_cons, List.countP_cons]
        rcases ho o (List.mem_cons_self ..) with rfl | rfl | rfl
        · by_cases hml : l ∈ D
          · simp [hml, hd, numAB] at this ⊢; omega
          · simp [hml, hd, numAB] at this ⊢; omega
        · by_cases hml : l ∈ D
          · simp [hml, hd, numAB] at this ⊢; omega
          · simp [hml, hd, numAB] at this ⊢; omega
        · simp [numAB] at this ⊢; omega
  have := key s.ops s.labels h.len h.ops h.mem
  convert this using 3

end

/-! ### relabellings -/

theorem labelPermutation_relabels {p : List ℕ} (hp : IsPermArray p) :
    (labelPermutation (labelsOf p) : Transformation K).Relabels p.length (relabelMap (labelsOf p)) := by
  refine ⟨relabelMap_inj hp, relabelMap_mapsTo hp, fun s hs => ?_, fun s hs => ?_⟩
  · have h := labelPermutation_sends (K := K) hp (Or.inl ⟨rfl, hs⟩ : TypedString .pauli _ s)
    have hsgn : relabelSign (relabelMap (labelsOf p)) s = 1 := by simp [relabelSign, hs.type]
    rw [hsgn, Int.cast_one] at h
    refine ⟨_, h, hs.relabel (relabelMap_inj hp) (relabelMap_mapsTo hp), fun R => ?_⟩
    rw [R.den_relabel (relabelMap_inj hp) (relabelMap_mapsTo hp) hs, hsgn, Int.cast_one, one_smul]
  · exact ⟨_, _, labelPermutation_sends (K := K) hp (Or.inr ⟨rfl, hs⟩ : TypedString .majorana _ s), hs.relabel (relabelMap_inj hp) (relabelMap_mapsTo hp),
      fun R => R.den_relabel (relabelMap_inj hp) (relabelMap_mapsTo hp) hs⟩

/-! ### rotations of pairs of Majorana operators -/

section
variable {𝔸 : Type} [Ring 𝔸] {ι : Type}

/-- conjugation with `1 + γ_d γ_u` sends `γ_u` to `γ_d` and `γ_d` to `-γ_u` -/
theorem exists_turn (K : Type) [Field K] [StarRing K] [Coef K] [Algebra K 𝔸] {γ : ι → 𝔸} {I : Set ι} (hsq : ∀ i ∈ I, γ i * γ i = 1) (hanti : ∀ i ∈ I, ∀ j ∈ I, i ≠ j → γ i * γ j = -(γ j * γ i)) :
    ∀ {pairs : List (ι × ι)}, (pairs.flatMap fun p => [p.1, p.2]).Nodup → (∀ p ∈ pairs, p.1 ∈ I ∧ p.2 ∈ I) →
    ∃ w v : 𝔸, w * v = 1 ∧ v * w = 1 ∧ (∀ p ∈ pairs, w * γ p.1 * v = γ p.2 ∧ w * γ p.2 * v = -γ p.1) ∧
      ∀ i ∈ I, i ∉ (pairs.flatMap fun p => [p.1, p.2]) → w * γ i * v = γ i
  | [], _, _ => ⟨1, 1, by simp, by simp, by simp, by simp⟩
  | (u, d) :: pairs, hn, hI => by
    rw [List.flatMap_cons, List.nodup_append] at hn
    obtain ⟨hn1, hn2, hn3⟩ := hn
    obtain ⟨w, v, h1, h2, h3, h4⟩ := exists_turn K hsq hanti (pairs := pairs) hn2 (fun p hp => hI p (List.mem_cons_of_mem _ hp))
    obtain ⟨hu, hd⟩ := hI (u, d) (List.mem_cons_self ..)
    simp only at hu hd
    have hud : u ≠ d := by simpa using hn1
    have huo : u ∉ pairs.flatMap fun p => [p.1, p.2] := fun h => hn3 u (by simp) u h rfl
    have hdo : d ∉ pairs.flatMap fun p => [p.1, p.2] := fun h => hn3 d (by simp) d h rfl
    set x : 𝔸 := γ d * γ u with hx
    have hxu : x * γ u = γ d := by rw [hx, mul_assoc, hsq u hu, mul_one]
    have hux : γ u * x = -γ d := by rw [hx, ← mul_assoc, hanti u hu d hd hud, neg_mul, mul_assoc, hsq u hu, mul_one]
    have hdx : γ d * x = γ u := by rw [hx, ← mul_assoc, hsq d hd, one_mul]
    have hxd : x * γ d = -γ u := by rw [hx, mul_assoc, hanti u hu d hd hud, mul_neg, ← mul_assoc, hsq d hd, one_mul]
    have hxx : x * x = -1 := by
      nth_rewrite 1 [hx]
      rw [mul_assoc, hux, mul_neg, hsq d hd]
    have hc : ∀ i ∈ I, i ≠ u → i ≠ d → x * γ i = γ i * x := by
      intro i hi h1 h2
      rw [hx, mul_assoc, hanti u hu i hi (Ne.symm h1), mul_neg, ← mul_assoc, hanti d hd i hi (Ne.symm h2), neg_mul, neg_neg, mul_assoc]
    have h20 : (2 : K) ≠ 0 := two_ne_zero'
    have half : ∀ z : 𝔸, (2 : K)⁻¹ • (z + z) = z := by
      intro z
      rw [← two_smul K z, smul_smul, inv_mul_cancel₀ h20, one_smul]
    have conj : ∀ y z : 𝔸, (1 + x) * y * (1 - x) = z + z → ∀ y', w * y' * v = y → (1 + x) * w * y' * (v * ((2 : K)⁻¹ • (1 - x))) = z := by
      intro y z hz y' hy
      have : (1 + x) * w * y' * (v * ((2 : K)⁻¹ • (1 - x))) = (2 : K)⁻¹ • ((1 + x) * (w * y' * v) * (1 - x)) := by
        rw [mul_smul_comm, mul_smul_comm]
        congr 1
        noncomm_ring
      rw [this, hy, hz, half]
    have hcom : ∀ i ∈ I, i ≠ u → i ≠ d → (1 + x) * γ i * (1 - x) = γ i + γ i := by
      intro i hi h1 h2
      have h5 := hc i hi h1 h2
      have : (1 + x) * γ i * (1 - x) = γ i + x * γ i - γ i * x - x * γ i * x := by noncomm_ring
      rw [this, h5, mul_assoc, hxx]; noncomm_ring
    have hcom' : ∀ i ∈ I, i ≠ u → i ≠ d → (1 + x) * -γ i * (1 - x) = -γ i + -γ i := by
      intro i hi h1 h2
      rw [mul_neg, neg_mul, hcom i hi h1 h2, neg_add]
    refine ⟨(1 + x) * w, v * ((2 : K)⁻¹ • (1 - x)), ?_, ?_, ?_, ?_⟩
    · have := conj 1 1 (by
        have : (1 + x) * 1 * (1 - x) = 1 - x * x := by noncomm_ring
        rw [this, hxx, sub_neg_eq_add]) 1 (by rw [mul_one, h1])
      rwa [mul_one] at this
    · have : v * ((2 : K)⁻¹ • (1 - x)) * ((1 + x) * w) = (2 : K)⁻¹ • (v * ((1 - x) * (1 + x)) * w) := by
        rw [mul_smul_comm, smul_mul_assoc]
        congr 1
        noncomm_ring
      rw [this]
      have : (1 - x) * (1 + x) = 1 + 1 := by
        have : (1 - x) * (1 + x) = 1 - x * x := by noncomm_ring
        rw [this, hxx, sub_neg_eq_add]
      rw [this, mul_add, mul_one, add_mul, h2, half]
    · intro p hp
      rcases List.mem_cons.mp hp with rfl | hp
      · refine ⟨conj (γ u) (γ d) ?_ _ (h4 u hu huo), conj (γ d) (-γ u) ?_ _ (h4 d hd hdo)⟩
        · have : (1 + x) * γ u * (1 - x) = γ u + x * γ u - γ u * x - x * γ u * x := by noncomm_ring
          rw [this, hxu, hux, hdx]; noncomm_ring
        · have : (1 + x) * γ d * (1 - x) = γ d + x * γ d - γ d * x - x * γ d * x := by noncomm_ring
          rw [this, hxd, hdx, neg_mul, hux]; noncomm_ring
      · obtain ⟨q1, q2⟩ := h3 p hp
        obtain ⟨i1, i2⟩ := hI p (List.mem_cons_of_mem _ hp)
        have m1 : p.1 ∈ pairs.flatMap fun p => [p.1, p.2] := List.mem_flatMap.mpr ⟨p, hp, by simp⟩
        have m2 : p.2 ∈ pairs.flatMap fun p => [p.1, p.2] := List.mem_flatMap.mpr ⟨p, hp, by simp⟩
        exact ⟨conj (γ p.2) (γ p.2) (hcom _ i2 (fun h => huo (h ▸ m2)) (fun h => hdo (h ▸ m2))) _ q1,
          conj (-γ p.1) (-γ p.1) (hcom' _ i1 (fun h => huo (h ▸ m1)) (fun h => hdo (h ▸ m1))) _ q2⟩
    · intro i hi hni
      rw [List.flatMap_cons, List.mem_append, not_or] at hni
      obtain ⟨hn4, hn5⟩ := hni
      simp only [List.mem_cons, List.not_mem_nil, or_false, not_or] at hn4
      exact conj (γ i) (γ i) (hcom i hi hn4.1 hn4.2) _ (h4 i hi hn5)

variable [Algebra K 𝔸]

/-- followed by conjugation with an invertible element -/
def Antilinear.conjInv (τ : Antilinear K 𝔸) (w v : 𝔸) (h1 : w * v = 1) (h2 : v * w = 1) : Antilinear K 𝔸 where
  toFun :=
    { toFun := fun x => w * τ.toFun x * v
      map_one' := by simp [h1]
      map_zero' := by simp
      map_add' := fun x y => by simp [mul_add, add_mul]
      map_mul' := fun x y => by
        rw [map_mul]
        have : w * τ.toFun x * v * (w * τ.toFun y * v) = w * τ.toFun x * (v * w) * τ.toFun y * v := by noncomm_ring
        rw [this, h2]; noncomm_ring }
  smul c x := by
    change w * τ.toFun (c • x) * v = star c • (w * τ.toFun x * v)
    rw [τ.smul]; simp

/-- all Majorana operators in one family -/
def MajoranaRep.both {S : Set ℤ} (R : MajoranaRep K 𝔸 S) : Bool × ℤ → 𝔸
  | (false, i) => R.a i
  | (true, i) => R.b i

/-- a spinful time reversal from a spinless one -/
theorem exists_reversesSpinful {n : ℕ} (R : MajoranaRep K 𝔸 (siteLabels n)) (τ : Antilinear K 𝔸) (hτ : τ.ReversesFermions R) {e : ℤ → ℤ} {D : Set ℤ}
    (hm : Set.MapsTo e (siteLabels n) (siteLabels n)) (hinv : ∀ i ∈ siteLabels n, e (e i) = i) (hD : ∀ i ∈ siteLabels n, e i ∈ D ↔ i ∉ D) :
    ∃ τ' : Antilinear K 𝔸, τ'.ReversesSpinful R e D := by
  classical
  let ups : List ℤ := ((List.range n).map Int.ofNat).filter fun i => i ∉ D
  have hups : ∀ i, i ∈ ups ↔ i ∈ siteLabels n ∧ i ∉ D := by
    intro i
    simp only [ups, List.mem_filter, List.mem_map, List.mem_range, decide_eq_true_eq, mem_siteLabels, Int.ofNat_eq_natCast]
    refine and_congr_left fun _ => ⟨?_, fun h => ⟨i.toNat, by omega, by omega⟩⟩
    rintro ⟨k, hk, rfl⟩
    omega
  have hnd : ups.Nodup := ((List.nodup_range.map (fun a b h => by simpa using h)).filter _)
  let pairs : List ((Bool × ℤ) × (Bool × ℤ)) := [false, true].flatMap fun o => ups.map fun i => ((o, i), (o, e i))
  have hpairs : ∀ p, p ∈ pairs ↔ ∃ o i, i ∈ ups ∧ p = ((o, i), (o, e i)) := by
    intro p
    simp only [pairs, List.mem_flatMap, List.mem_map]
    constructor
    · rintro ⟨o, -, i, hi, rfl⟩; exact ⟨o, i, hi, rfl⟩
    · rintro ⟨o, i, hi, rfl⟩; exact ⟨o, by cases o <;> simp, i, hi, rfl⟩
  have hpn : pairs.Nodup := by
    refine List.nodup_flatMap.mpr ⟨fun o _ => hnd.map (fun a b h => (Prod.mk.inj (Prod.mk.inj h).1).2), ?_⟩
    simp only [List.pairwise_cons, List.mem_cons, List.not_mem_nil, or_false, forall_eq, Function.onFun, List.disjoint_left]
    refine ⟨fun x h1 h2 => ?_, by simp⟩
    obtain ⟨i, -, rfl⟩ := List.mem_map.mp h1
    obtain ⟨j, -, h⟩ := List.mem_map.mp h2
    simp at h
  have hfl : (pairs.flatMap fun p => [p.1, p.2]).Nodup := by
    refine List.nodup_flatMap.mpr ⟨fun p hp => ?_, hpn.imp_of_mem ?_⟩
    · obtain ⟨o, i, hi, rfl⟩ := (hpairs p).mp hp
      obtain ⟨h1, h2⟩ := (hups i).mp hi
      have h3 : e i ∈ D := (hD i h1).mpr h2
      have : i ≠ e i := fun h => h2 (h ▸ h3)
      simpa using this
    · intro p q hp hq hpq
      obtain ⟨o, i, hi, rfl⟩ := (hpairs p).mp hp
      obtain ⟨o', j, hj, rfl⟩ := (hpairs q).mp hq
      obtain ⟨i1, i2⟩ := (hups i).mp hi
      obtain ⟨j1, j2⟩ := (hups j).mp hj
      have i3 : e i ∈ D := (hD i i1).mpr i2
      have j3 : e j ∈ D := (hD j j1).mpr j2
      simp only [Function.onFun, List.disjoint_left, List.mem_cons, List.not_mem_nil, or_false]
      rintro x (rfl | rfl) (h | h)
      · obtain ⟨rfl, rfl⟩ := Prod.mk.inj h; exact hpq rfl
      · obtain ⟨rfl, rfl⟩ := Prod.mk.inj h; exact i2 j3
      · exact j2 ((Prod.mk.inj h).2 ▸ i3)
      · obtain ⟨rfl, h'⟩ := Prod.mk.inj h
        have : i = j := by rw [← hinv i i1, h', hinv j j1]
        subst this; exact hpq rfl
  let I : Set (Bool × ℤ) := {x | x.2 ∈ siteLabels n}
  obtain ⟨w, v, h1, h2, h3, -⟩ := exists_turn K (γ := R.both) (I := I) (fun x hx => by
      obtain ⟨o, i⟩ := x
      cases o
      · exact R.a_sq i hx
      · exact R.b_sq i hx)
    (fun x hx y hy hxy => by
      obtain ⟨o, i⟩ := x
      obtain ⟨o', j⟩ := y
      cases o <;> cases o'
      · exact R.aa i hx j hy (fun h => hxy (by rw [h]))
      · exact R.ab i hx j hy
      · show R.b i * R.a j = -(R.a j * R.b i)
        rw [R.ab j hy i hx, neg_neg]
      · exact R.bb i hx j hy (fun h => hxy (by rw [h]))) hfl
    (fun p hp => by
      obtain ⟨o, i, hi, rfl⟩ := (hpairs p).mp hp
      exact ⟨((hups i).mp hi).1, hm ((hups i).mp hi).1⟩)
  refine ⟨τ.conjInv w v h1 h2, fun i hi => ?_⟩
  have happ : ∀ x, (τ.conjInv w v h1 h2).toFun x = w * τ.toFun x * v := fun _ => rfl
  obtain ⟨ha, hb⟩ := hτ i hi
  refine ⟨fun hd => ?_, fun hd => ?_⟩
  · have q1 := (h3 _ ((hpairs _).mpr ⟨false, i, (hups i).mpr ⟨hi, hd⟩, rfl⟩)).1
    have q2 := (h3 _ ((hpairs _).mpr ⟨true, i, (hups i).mpr ⟨hi, hd⟩, rfl⟩)).1
    simp only [MajoranaRep.both] at q1 q2
    exact ⟨by rw [happ, ha, q1], by rw [happ, hb, mul_neg, neg_mul, q2]⟩
  · have he : e i ∈ ups := (hups _).mpr ⟨hm hi, fun h => ((hD i hi).mp h) hd⟩
    have q1 := (h3 _ ((hpairs _).mpr ⟨false, e i, he, rfl⟩)).2
    have q2 := (h3 _ ((hpairs _).mpr ⟨true, e i, he, rfl⟩)).2
    simp only [MajoranaRep.both, hinv i hi] at q1 q2
    exact ⟨by rw [happ, ha, q1], by rw [happ, hb, mul_neg, neg_mul, q2, neg_neg]⟩
end

end Qosy
