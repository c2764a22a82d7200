import Verif.Lemmas.Conversion
import Verif.Lemmas.ArgSort
import Verif.Spec.Transformation

/-! # The permutation rule -/

namespace Qosy
open Coef
variable {K : Type} [Field K] [StarRing K] [Coef K]
variable {𝔸 : Type} [Ring 𝔸] [Algebra K 𝔸] {S T : Set ℤ}

theorem insPair_perm (x : Op × ℤ) (w : Word) : (insPair x w).Perm (x :: w) := by
  induction w with
  | nil => exact List.Perm.refl _
  | cons y w ih =>
    rw [insPair]
    split
    · exact List.Perm.refl _
    · exact (ih.cons y).trans (List.Perm.swap _ _ _)

theorem sortPair_perm (w : Word) : (sortPair w).Perm w := by
  induction w with
  | nil => exact List.Perm.refl _
  | cons x w ih => exact (insPair_perm x _).trans (ih.cons x)

theorem pairwise_lt_of_le {l : List ℤ} (h : l.Pairwise (· ≤ ·)) (hn : l.Nodup) : l.Pairwise (· < ·) := by
  have := List.Pairwise.and h hn
  exact this.imp (fun ⟨h1, h2⟩ => lt_of_le_of_ne h1 h2)

/-- a sorted rearrangement of a word with distinct labels is the sorted word -/
theorem eq_sortPair {W w : Word} (hp : W.Perm w) (hn : (w.map Prod.snd).Nodup) (hs : (W.map Prod.snd).Pairwise (· ≤ ·)) :
    W = sortPair w := by
  have h1 : (W.map Prod.snd).Pairwise (· < ·) := pairwise_lt_of_le hs ((hp.map Prod.snd).nodup_iff.mpr hn)
  have h2 : ((sortPair w).map Prod.snd).Pairwise (· < ·) := by
    apply pairwise_lt_of_le
    · rw [List.pairwise_map]; exact sortPair_sorted w
    · exact ((sortPair_perm w).map Prod.snd).nodup_iff.mpr hn
  rw [List.pairwise_map] at h1 h2
  exact (hp.trans (sortPair_perm w).symm).eq_of_pairwise (fun a b _ _ h h' => absurd h (not_lt.mpr h'.le)) h1 h2

theorem npGet_ok {p : List ℤ} {l : ℤ} (h : l ∈ siteLabels p.length) : npGet p l = .ok (relabelMap p l) := by
  obtain ⟨h0, h1⟩ := h
  have hl : l.toNat < p.length := by omega
  simp only [npGet, if_neg (not_lt.mpr h0), pyGet, relabelMap]
  simp [List.getD_eq_getElem?_getD, hl]

theorem relabelMap_injOn {p : List ℤ} (hp : p.Nodup) : Set.InjOn (relabelMap p) (siteLabels p.length) := by
  intro i hi j hj h
  obtain ⟨hi0, hi1⟩ := hi
  obtain ⟨hj0, hj1⟩ := hj
  have h1 : i.toNat < p.length := by omega
  have h2 : j.toNat < p.length := by omega
  simp only [relabelMap, List.getD_eq_getElem?_getD, List.getElem?_eq_getElem h1, List.getElem?_eq_getElem h2, Option.getD_some] at h
  have := (List.Nodup.getElem_inj_iff hp).mp h
  omega

/-- the argsort of the labels sorts the word -/
theorem argsort_word {ops : List Op} {new : List ℤ} (hl : ops.length = new.length) (hn : new.Nodup) :
    (argsortStable new).mapM (pyGet ops) = .ok ((sortPair (ops.zip new)).map Prod.fst) ∧
    (argsortStable new).mapM (pyGet new) = .ok ((sortPair (ops.zip new)).map Prod.snd) := by
  obtain ⟨h1, h2, -⟩ := argsort_foldr_spec new (List.range new.length) List.pairwise_lt_range
  rw [← argsortStable] at h1 h2
  have hlt : ∀ i ∈ argsortStable new, i < new.length := fun i hi => List.mem_range.mp (h1.mem_iff.mp hi)
  let g : ℕ → Op × ℤ := fun i => (ops.getD i .X, new.getD i 0)
  have hW : (argsortStable new).map g = sortPair (ops.zip new) := by
    apply eq_sortPair
    · refine (h1.map g).trans ?_
      have : (List.range new.length).map g = ops.zip new := by
        apply List.ext_getElem
        · simp [hl]
        · intro i k1 k2
          simp only [List.length_map, List.length_range] at k1
          simp [g, k1, hl]
      rw [this]
    · rw [List.map_snd_zip (by omega)]; exact hn
    · rw [List.map_map]; exact h2
  rw [← hW, List.map_map, List.map_map]
  constructor
  · apply mapM_ok
    intro i hi
    have := hlt i hi
    simp [pyGet, g, hl, this]
  · apply mapM_ok
    intro i hi
    have := hlt i hi
    simp [pyGet, g, this]

theorem map_zip_right {α : Type} (e : ℤ → ℤ) (ops : List α) (labels : List ℤ) :
    ops.zip (labels.map e) = (ops.zip labels).map (fun x => (x.1, e x.2)) := by
  rw [List.zip_map_right]; rfl

/-- the image of a string under a relabelling: sorted, with the default prefactor -/
def relabelString (e : ℤ → ℤ) (s : OpString) : OpString :=
  let w := sortPair (s.ops.zip (s.labels.map e))
  ⟨w.map Prod.fst, w.map Prod.snd, s.opType,
    if s.opType = .majorana ∧ (numAB s.ops).choose 2 % 2 = 1 then .imag else .float1⟩

/-- the sign of relabelling -/
def relabelSign (e : ℤ → ℤ) (s : OpString) : ℤ :=
  if s.opType = .majorana then
    (-1) ^ inversions (((s.ops.zip (s.labels.map e)).filter (fun x => x.1 = .A ∨ x.1 = .B)).map Prod.snd)
  else 1

theorem relabelSign_cases (e : ℤ → ℤ) (s : OpString) : relabelSign e s = 1 ∨ relabelSign e s = -1 := by
  unfold relabelSign
  split
  · exact neg_one_pow_eq_or ℤ _
  · exact Or.inl rfl

theorem numAB_perm {a b : List Op} (h : a.Perm b) : numAB a = numAB b := (h.filter _).length_eq

theorem map_fst_sortPair {ops : List Op} {new : List ℤ} (hl : ops.length = new.length) :
    ((sortPair (ops.zip new)).map Prod.fst).Perm ops := by
  have := (sortPair_perm (ops.zip new)).map Prod.fst
  rwa [List.map_fst_zip (by omega)] at this

theorem map_snd_sortPair {ops : List Op} {new : List ℤ} (hl : ops.length = new.length) :
    ((sortPair (ops.zip new)).map Prod.snd).Perm new := by
  have := (sortPair_perm (ops.zip new)).map Prod.snd
  rwa [List.map_snd_zip (by omega)] at this

theorem relabelString_word (e : ℤ → ℤ) (s : OpString) : (relabelString e s).word = sortPair (s.ops.zip (s.labels.map e)) := by
  simp only [relabelString, OpString.word, zip_fst_snd]

theorem relabelString_canonical {e : ℤ → ℤ} {s : OpString} (hl : s.ops.length = s.labels.length) (hn : (s.labels.map e).Nodup) :
    (relabelString e s).Canonical := by
  refine ⟨?_, ?_⟩
  · apply pairwise_lt_of_le
    · show ((sortPair _).map Prod.snd).Pairwise _
      rw [List.pairwise_map]; exact sortPair_sorted _
    · exact (map_snd_sortPair (by simpa using hl)).nodup_iff.mpr hn
  · simp only [relabelString]
    split
    · exact Or.inl rfl
    · exact Or.inr rfl

theorem PauliString.relabel {e : ℤ → ℤ} {s : OpString} (h : PauliString S s) (he : Set.InjOn e S) (hT : Set.MapsTo e S T) :
    PauliString T (relabelString e s) := by
  have hl : s.ops.length = (s.labels.map e).length := by simpa using h.len
  have hn : (s.labels.map e).Nodup := h.nodup.map_on (fun x hx y hy hxy => he (h.mem x hx) (h.mem y hy) hxy)
  refine ⟨h.type, ?_, by simp [relabelString], ?_, ?_, ?_⟩
  · intro op hop; exact h.ops op ((map_fst_sortPair hl).mem_iff.mp hop)
  · exact (map_snd_sortPair hl).nodup_iff.mpr hn
  · intro l hm
    have := (map_snd_sortPair hl).mem_iff.mp hm
    obtain ⟨k, hk, rfl⟩ := List.mem_map.mp this
    exact hT (h.mem k hk)
  · simp [relabelString, h.type]

theorem MajoranaString.relabel {e : ℤ → ℤ} {s : OpString} (h : MajoranaString S s) (he : Set.InjOn e S) (hT : Set.MapsTo e S T) :
    MajoranaString T (relabelString e s) := by
  have hl : s.ops.length = (s.labels.map e).length := by simpa using h.len
  have hn : (s.labels.map e).Nodup := h.nodup.map_on (fun x hx y hy hxy => he (h.mem x hx) (h.mem y hy) hxy)
  refine ⟨h.type, ?_, by simp [relabelString], ?_, ?_, ?_⟩
  · intro op hop; exact h.ops op ((map_fst_sortPair hl).mem_iff.mp hop)
  · exact (map_snd_sortPair hl).nodup_iff.mpr hn
  · intro l hm
    have := (map_snd_sortPair hl).mem_iff.mp hm
    obtain ⟨k, hk, rfl⟩ := List.mem_map.mp this
    exact hT (h.mem k hk)
  · have := numAB_perm (map_fst_sortPair hl)
    rw [numAB] at this
    rw [show (relabelString e s).ops = (sortPair (s.ops.zip (s.labels.map e))).map Prod.fst from rfl, this]
    simp [relabelString, h.type]

/-- relabelled site operators multiply to the relabelled string, up to the sign -/
theorem PauliRep.den_relabel (R : PauliRep K 𝔸 T) {e : ℤ → ℤ} (he : Set.InjOn e S) (hT : Set.MapsTo e S T) {s : OpString}
    (h : PauliString S s) : (R.relabelOn e he hT).den s = ((relabelSign e s : ℤ) : K) • R.den (relabelString e s) := by
  have hw : ∀ (ops : List Op) (labels : List ℤ), wordProd (R.relabelOn e he hT).site ops labels = wordProd R.site ops (labels.map e) := by
    intro ops
    induction ops with
    | nil => intro labels; simp [wordProd]
    | cons o ops ih =>
      intro labels
      cases labels with
      | nil => simp [wordProd]
      | cons l labels => rw [List.map_cons, wordProd, wordProd, ih]; cases o <;> rfl
  have hl : s.ops.length = (s.labels.map e).length := by simpa using h.len
  have hok : R.sys.Ok (s.ops.zip (s.labels.map e)) := by
    intro x hx
    obtain ⟨h1, h2⟩ := List.of_mem_zip hx
    obtain ⟨k, hk, hk'⟩ := List.mem_map.mp h2
    exact ⟨h.ops _ h1, by rw [← hk']; exact hT (h.mem k hk)⟩
  have hsort := R.sys.prod_sortPair hok
  have hodd : R.sys.oddLabels (s.ops.zip (s.labels.map e)) = [] := by simp [SiteSys.oddLabels, PauliRep.sys]
  rw [hodd, inversions, pow_zero, one_smul] at hsort
  rw [R.den_eq, relabelString_word, ← hsort, PauliRep.den, hw, ← SiteSys.wordProd_eq, h.val, one_smul,
    (h.relabel he hT).val, one_smul]
  simp only [relabelSign, h.type, reduceCtorEq, if_false, Int.cast_one, one_smul]
  rfl

theorem MajoranaRep.den_relabel (R : MajoranaRep K 𝔸 T) {e : ℤ → ℤ} (he : Set.InjOn e S) (hT : Set.MapsTo e S T) {s : OpString}
    (h : MajoranaString S s) : (R.relabelOn e he hT).den s = ((relabelSign e s : ℤ) : K) • R.den (relabelString e s) := by
  have hw : ∀ (ops : List Op) (labels : List ℤ), wordProd (R.relabelOn e he hT).site ops labels = wordProd R.site ops (labels.map e) := by
    intro ops
    induction ops with
    | nil => intro labels; simp [wordProd]
    | cons o ops ih =>
      intro labels
      cases labels with
      | nil => simp [wordProd]
      | cons l labels => rw [List.map_cons, wordProd, wordProd, ih]; cases o <;> rfl
  have hl : s.ops.length = (s.labels.map e).length := by simpa using h.len
  have hok : R.sys.Ok (s.ops.zip (s.labels.map e)) := by
    intro x hx
    obtain ⟨h1, h2⟩ := List.of_mem_zip hx
    obtain ⟨k, hk, hk'⟩ := List.mem_map.mp h2
    exact ⟨h.ops _ h1, by rw [← hk']; exact hT (h.mem k hk)⟩
  have hsort := R.sys.prod_sortPair hok
  have hpref : ((relabelString e s).pref.val : K) = s.pref.val := by
    have h1 := (h.relabel he hT).pref
    have h2 := numAB_perm (map_fst_sortPair hl)
    rw [numAB, numAB] at h2
    rw [show (relabelString e s).ops = (sortPair (s.ops.zip (s.labels.map e))).map Prod.fst from rfl, h2, ← h.pref] at h1
    by_cases hi : s.pref = .imag
    · rw [h1.mpr hi, hi]
    · rw [Pref.val_of_ne_imag hi, Pref.val_of_ne_imag (fun h' => hi (h1.mp h'))]
  rw [R.den_eq, relabelString_word, hpref, MajoranaRep.den, hw]
  rw [show wordProd R.site s.ops (s.labels.map e) = R.sys.prod (s.ops.zip (s.labels.map e)) from SiteSys.wordProd_eq R.sys _ _]
  rw [hsort, smul_comm]
  congr 1
  simp only [relabelSign, h.type, if_true]
  push_cast
  rfl

/-- **the permutation rule** -/
theorem permutationRule_ok {perm : List ℤ} (hp : perm.Nodup) {s : OpString} (hs : PauliString (siteLabels perm.length) s ∨ MajoranaString (siteLabels perm.length) s) :
    (labelPermutation perm : Transformation K).Sends s ((relabelSign (relabelMap perm) s : ℤ) : K) (relabelString (relabelMap perm) s) := by
  have he := relabelMap_injOn hp
  have key : s.ops.length = s.labels.length ∧ (∀ l ∈ s.labels, l ∈ siteLabels perm.length) ∧ s.labels.Nodup ∧
      (s.opType = .pauli ∨ s.opType = .majorana) := by
    rcases hs with h | h
    · exact ⟨h.len, h.mem, h.nodup, Or.inl h.type⟩
    · exact ⟨h.len, h.mem, h.nodup, Or.inr h.type⟩
  obtain ⟨hlen, hmem, hnod, htype⟩ := key
  have hl : s.ops.length = (s.labels.map (relabelMap perm)).length := by simpa using hlen
  have hn : (s.labels.map (relabelMap perm)).Nodup := hnod.map_on (fun x hx y hy hxy => he (hmem x hx) (hmem y hy) hxy)
  have h1 : s.labels.mapM (npGet perm) = .ok (s.labels.map (relabelMap perm)) := mapM_ok (fun l h => npGet_ok (hmem l h))
  obtain ⟨h2, h3⟩ := argsort_word hl hn
  unfold Transformation.Sends labelPermutation permutationRule
  rw [if_neg (not_not.mpr htype)]
  simp only [h1, h2, h3, bind, Except.bind]
  rcases hs with h | h
  · simp only [h.type, mkOpString_pauli, reduceCtorEq, if_false]
    rw [mkOperator_none_ok (by simp) (by simp) (t := .pauli) (by simp)]
    simp [relabelString, relabelSign, h.type]
  · simp only [h.type, if_true]
    rw [mkOpString_majorana (by simp)]
    simp only [labelsAB_spec hl, sortSign_snd]
    rw [mkOperator_none_ok (by simp) (by simp) (t := .majorana) (by simp)]
    have h4 := numAB_perm (map_fst_sortPair hl)
    have hpref : (s.pref.val : K) / (if (numAB s.ops).choose 2 % 2 = 1 then Pref.imag else .float1).val = 1 := by
      have := h.pref
      rw [← numAB] at this
      by_cases hi : s.pref = .imag
      · rw [if_pos (this.mp hi), hi]; exact div_self (Pref.val_phase _).ne_zero
      · rw [if_neg (fun h' => hi (this.mpr h')), Pref.val_of_ne_imag hi]; simp [Pref.val]
    have hre : ∀ z : ℤ, reOf (z : K) = (z : K) := by
      intro z
      simp only [reOf, star_intCast]
      field_simp; ring
    rw [h4, hpref, one_mul, one_mul, hre]
    simp [relabelString, relabelSign, h.type, Basis.ofList]

end Qosy
