import Verif.Lemmas.FermionToMajorana
import Verif.Props.Tools

/-! # `_convert_majorana_string` -/

namespace Qosy
open Coef
variable {K : Type} [Field K] [StarRing K] [Coef K]
variable {𝔸 : Type} [Ring 𝔸] [Algebra K 𝔸] {S : Set ℤ}

/-! ### the terms of one operator -/

/-- coefficient of the chosen term -/
def mpieceC (K : Type) [Field K] [CoefOps K] : Op → Bool → K
  | .B, false => -I
  | .B, true => I
  | .D, false => -2
  | _, _ => 1

/-- Fermion operators of the chosen term -/
def mpieceO : Op → Bool → List Op
  | .A, false => [.C]
  | .A, true => [.CDag]
  | .B, false => [.C]
  | .B, true => [.CDag]
  | .D, false => [.CDag, .C]
  | _, _ => []

def mcoef (K : Type) [Field K] [CoefOps K] : Word → List Bool → K
  | (o, _) :: w, ch :: chs => mpieceC K o ch * mcoef K w chs
  | _, _ => 1

def mwrd : Word → List Bool → Word
  | (o, l) :: w, ch :: chs => (mpieceO o ch).map (fun p => (p, l)) ++ mwrd w chs
  | _, _ => []

/-- the label under which the code sorts an operator -/
def mkey (large : ℤ) (x : Op × ℤ) : ℤ := if x.1 = .CDag then x.2 else -x.2 + large

/-- the words we deal with -/
def MajWord (w : Word) : Prop := ∀ x ∈ w, x.1 = .A ∨ x.1 = .B ∨ x.1 = .D

theorem MajWord.tail {x : Op × ℤ} {w : Word} (h : MajWord (x :: w)) : MajWord w := fun y hy => h y (List.mem_cons_of_mem _ hy)

theorem mToFLoop_eq (large : ℤ) : ∀ (w : Word) (chs : List Bool), chs.length = w.length → MajWord w → ∀ (c : K) (fl : List ℤ) (n : ℕ),
    mToFLoop large (w.map Prod.fst) (w.map Prod.snd) chs (c, fl, n) =
      .ok (c * mcoef K w chs, fl ++ (mwrd w chs).map (mkey large), n + (mwrd w chs).countP (fun x => decide (x.1 = .CDag)))
  | [], _, _, _, c, fl, n => by simp [mToFLoop, mcoef, mwrd]
  | (o, l) :: w, [], h, _, _, _, _ => by simp at h
  | (o, l) :: w, b :: chs, h, hw, c, fl, n => by
    have ih := mToFLoop_eq large w chs (by simpa using h) hw.tail
    rw [List.map_cons, List.map_cons]
    change mToFLoop large (w.map Prod.fst) (w.map Prod.snd) chs _ = _
    rw [ih]
    rcases hw (o, l) (List.mem_cons_self ..) with h | h | h <;> simp only at h <;> subst h <;> cases b <;>
      simp [mcoef, mwrd, mpieceC, mpieceO, mkey, mul_assoc, List.countP_cons] <;> try omega

theorem mpiece_sum (R : MajoranaRep K 𝔸 S) {o : Op} (ho : o = .A ∨ o = .B ∨ o = .D) {l : ℤ} (hl : l ∈ S) : R.site o l =
    mpieceC K o false • (((mpieceO o false).map (fun p => (p, l))).map (fun x => R.fsite x.1 x.2)).prod +
    mpieceC K o true • (((mpieceO o true).map (fun p => (p, l))).map (fun x => R.fsite x.1 x.2)).prod := by
  rcases ho with rfl | rfl | rfl
  · simp [mpieceC, mpieceO, MajoranaRep.site, MajoranaRep.fsite, ← R.a_eq]
  · simp only [mpieceC, mpieceO, MajoranaRep.site, MajoranaRep.fsite, List.map_cons, List.map_nil, List.prod_cons, List.prod_nil, mul_one]
    exact R.b_eq l
  · simp only [mpieceC, mpieceO, MajoranaRep.site, MajoranaRep.fsite, List.map_cons, List.map_nil, List.prod_cons, List.prod_nil, mul_one,
      one_smul]
    rw [R.d_eq hl]
    congr 1
    rw [← Int.cast_smul_eq_zsmul K]; norm_num

theorem mexpand (R : MajoranaRep K 𝔸 S) : ∀ (w : Word), MajWord w → (∀ x ∈ w, x.2 ∈ S) →
    R.sys.prod w = ((choices w.length).map (fun ch => mcoef K w ch • ((mwrd w ch).map (fun x => R.fsite x.1 x.2)).prod)).sum
  | [], _, _ => by simp [choices, productRepeat, mcoef, mwrd]
  | (o, l) :: w, hw, h => by
    have ih := mexpand R w hw.tail (fun x hx => h x (List.mem_cons_of_mem _ hx))
    have e : R.sys.site o l = _ := mpiece_sum R (hw (o, l) (List.mem_cons_self ..)) (h (o, l) (List.mem_cons_self ..))
    rw [SiteSys.prod_cons, ih, e, List.length_cons, choices_succ, List.map_append, List.sum_append, add_mul, List.map_map, List.map_map,
      smul_mul_assoc, smul_mul_assoc, ← sum_map_mul, ← sum_map_mul, ← sum_map_smul, ← sum_map_smul, List.map_map, List.map_map]
    congr 2
    · apply List.map_congr_left
      intro ch _
      simp [mcoef, mwrd, smul_smul]
    · apply List.map_congr_left
      intro ch _
      simp [mcoef, mwrd, smul_smul]

/-! ### Hermitian conjugation of a term: flip the choices of the `A` and `B` operators -/

def mflip : Word → List Bool → List Bool
  | (o, _) :: w, b :: ch => (if o = .D then b else !b) :: mflip w ch
  | _, _ => []

theorem length_mflip : ∀ (w : Word) (ch : List Bool), ch.length = w.length → (mflip w ch).length = w.length
  | [], [], _ => rfl
  | [], _ :: _, h => by simp at h
  | _ :: _, [], h => by simp at h
  | (o, l) :: w, b :: ch, h => by simp [mflip, length_mflip w ch (by simpa using h)]

theorem mflip_mflip : ∀ (w : Word) (ch : List Bool), ch.length = w.length → mflip w (mflip w ch) = ch
  | [], [], _ => rfl
  | [], _ :: _, h => by simp at h
  | _ :: _, [], h => by simp at h
  | (o, l) :: w, b :: ch, h => by
    rw [mflip, mflip, mflip_mflip w ch (by simpa using h)]
    by_cases ho : o = .D <;> simp [ho]

theorem perm_mflip (w : Word) : ((choices w.length).map (mflip w)).Perm (choices w.length) := by
  have hn := nodup_productRepeat (l := [false, true]) (by simp) w.length
  have hlen : ∀ ch ∈ choices w.length, ch.length = w.length := fun ch hch => (mem_productRepeat.mp hch).1
  have hmem : ∀ ch : List Bool, ch.length = w.length → ch ∈ choices w.length := by
    intro ch hc
    exact mem_productRepeat.mpr ⟨hc, by intro b _; cases b <;> simp⟩
  rw [List.perm_ext_iff_of_nodup (by
    apply List.Nodup.map_on _ hn
    intro a ha b hb hab
    rw [← mflip_mflip w a (hlen a ha), hab, mflip_mflip w b (hlen b hb)]) hn]
  intro ch
  constructor
  · intro h
    obtain ⟨x, hx, rfl⟩ := List.mem_map.mp h
    exact hmem _ (length_mflip w x (hlen x hx))
  · intro h
    exact List.mem_map.mpr ⟨mflip w ch, hmem _ (length_mflip w ch (hlen ch h)), mflip_mflip w ch (hlen ch h)⟩

/-- the chosen term of one operator -/
def mval (R : MajoranaRep K 𝔸 S) (o : Op) (b : Bool) (l : ℤ) : 𝔸 :=
  mpieceC K o b • (((mpieceO o b).map (fun p => (p, l))).map (fun x => R.fsite x.1 x.2)).prod

/-- the product of the chosen terms -/
def mterm (R : MajoranaRep K 𝔸 S) (w : Word) (ch : List Bool) : 𝔸 :=
  mcoef K w ch • ((mwrd w ch).map (fun x => R.fsite x.1 x.2)).prod

theorem mterm_cons (R : MajoranaRep K 𝔸 S) (o : Op) (l : ℤ) (w : Word) (b : Bool) (ch : List Bool) :
    mterm R ((o, l) :: w) (b :: ch) = mval R o b l * mterm R w ch := by
  simp only [mterm, mval, mcoef, mwrd, List.map_append, List.prod_append, smul_mul_smul_comm]

theorem star_mval [StarRing 𝔸] [StarModule K 𝔸] (R : MajoranaRep K 𝔸 S) (hs : ∀ i ∈ S, star (R.a i) = R.a i ∧ star (R.b i) = R.b i)
    {o : Op} (ho : o = .A ∨ o = .B ∨ o = .D) (b : Bool) {l : ℤ} (hl : l ∈ S) :
    star (mval R o b l) = mval R o (if o = .D then b else !b) l := by
  have h := R.star_fsite hs hl
  have h2 : star (2 : K) = 2 := by rw [star_ofNat]
  rcases ho with rfl | rfl | rfl <;> cases b <;> simp [mval, mpieceC, mpieceO, MajoranaRep.fsite, h.1, h.2, h2]

theorem mval_form (R : MajoranaRep K 𝔸 S) {o : Op} (ho : o = .A ∨ o = .B ∨ o = .D) (b : Bool) (l : ℤ) :
    (o ≠ .D ∧ ∃ (x : K) (p : Op), mval R o b l = x • R.fsite p l) ∨
    (o = .D ∧ ((∃ x : K, mval R o b l = x • (R.fsite .CDag l * R.fsite .C l)) ∨ mval R o b l = 1)) := by
  rcases ho with rfl | rfl | rfl
  · left
    cases b
    · exact ⟨by simp, 1, .C, by simp [mval, mpieceC, mpieceO]⟩
    · exact ⟨by simp, 1, .CDag, by simp [mval, mpieceC, mpieceO]⟩
  · left
    cases b
    · exact ⟨by simp, -I, .C, by simp [mval, mpieceC, mpieceO]⟩
    · exact ⟨by simp, I, .CDag, by simp [mval, mpieceC, mpieceO]⟩
  · right
    cases b
    · exact ⟨rfl, Or.inl ⟨-2, by simp [mval, mpieceC, mpieceO]⟩⟩
    · exact ⟨rfl, Or.inr (by simp [mval, mpieceC, mpieceO])⟩

theorem mval_comm (R : MajoranaRep K 𝔸 S) {o o' : Op} (ho : o = .A ∨ o = .B ∨ o = .D) (ho' : o' = .A ∨ o' = .B ∨ o' = .D) (b b' : Bool)
    {l l' : ℤ} (hl : l ∈ S) (hl' : l' ∈ S) (hne : l ≠ l') :
    mval R o b l * mval R o' b' l' = ((-1 : K) ^ (if o ≠ .D ∧ o' ≠ .D then 1 else 0)) • (mval R o' b' l' * mval R o b l) := by
  have anti := fun p q => R.fsite_anticomm (o := p) (o' := q) hl hl' hne
  have c1 : ∀ p q r, R.fsite p l * (R.fsite q l' * R.fsite r l') = R.fsite q l' * R.fsite r l' * R.fsite p l := by
    intro p q r
    rw [← mul_assoc, anti, neg_mul, mul_assoc, anti, mul_neg, neg_neg, mul_assoc]
  have c2 : ∀ p q r, R.fsite p l * R.fsite q l * R.fsite r l' = R.fsite r l' * (R.fsite p l * R.fsite q l) := by
    intro p q r
    rw [mul_assoc, anti, mul_neg, ← mul_assoc, anti, neg_mul, neg_neg, mul_assoc]
  rcases mval_form R ho b l with ⟨h1, x, p, e⟩ | ⟨h1, ⟨x, e⟩ | e⟩ <;>
    rcases mval_form R ho' b' l' with ⟨h2, y, q, e'⟩ | ⟨h2, ⟨y, e'⟩ | e'⟩ <;> rw [e, e']
  · rw [if_pos ⟨h1, h2⟩, smul_mul_smul_comm, anti, smul_mul_smul_comm, mul_comm x y]; simp
  · rw [if_neg (by tauto), smul_mul_smul_comm, c1, smul_mul_smul_comm, mul_comm x y]; simp
  · simp [h2]
  · rw [if_neg (by tauto), smul_mul_smul_comm, c2, smul_mul_smul_comm, mul_comm x y]; simp
  · rw [if_neg (by tauto), smul_mul_smul_comm, smul_mul_smul_comm, mul_comm x y, ← mul_assoc, c2, mul_assoc, c2, ← mul_assoc]; simp
  · simp [h2]
  · simp [h1]
  · simp [h1]
  · simp [h1]

/-- number of `A` and `B` operators -/
def modd (w : Word) : ℕ := w.countP (fun x => decide (x.1 ≠ .D))

theorem mterm_mul_mval (R : MajoranaRep K 𝔸 S) {o : Op} (ho : o = .A ∨ o = .B ∨ o = .D) (b : Bool) {l : ℤ} (hl : l ∈ S) :
    ∀ (w : Word) (ch : List Bool), ch.length = w.length → MajWord w → (∀ x ∈ w, x.2 ∈ S) → l ∉ w.map Prod.snd →
    mterm R w ch * mval R o b l = ((-1 : K) ^ (if o ≠ .D then modd w else 0)) • (mval R o b l * mterm R w ch)
  | [], [], _, _, _, _ => by simp [mterm, mcoef, mwrd, modd]
  | [], _ :: _, h, _, _, _ => by simp at h
  | _ :: _, [], h, _, _, _ => by simp at h
  | (o', l') :: w, b' :: ch, h, hw, hS, hn => by
    simp only [List.map_cons, List.mem_cons, not_or] at hn
    have ih := mterm_mul_mval R ho b hl w ch (by simpa using h) hw.tail (fun x hx => hS x (List.mem_cons_of_mem _ hx)) hn.2
    rw [mterm_cons, mul_assoc, ih, mul_smul_comm, ← mul_assoc,
      mval_comm R (hw (o', l') (List.mem_cons_self ..)) ho b' b (hS (o', l') (List.mem_cons_self ..)) hl (Ne.symm hn.1), smul_mul_assoc,
      smul_smul, ← pow_add, mul_assoc]
    congr 2
    rw [modd, modd, List.countP_cons]
    by_cases h1 : o = .D <;> by_cases h2 : o' = .D <;> simp [h1, h2]

theorem star_mterm [StarRing 𝔸] [StarModule K 𝔸] (R : MajoranaRep K 𝔸 S) (hs : ∀ i ∈ S, star (R.a i) = R.a i ∧ star (R.b i) = R.b i) :
    ∀ (w : Word) (ch : List Bool), ch.length = w.length → MajWord w → (∀ x ∈ w, x.2 ∈ S) → (w.map Prod.snd).Nodup →
    star (mterm R w ch) = ((-1 : K) ^ (modd w).choose 2) • mterm R w (mflip w ch)
  | [], [], _, _, _, _ => by simp [mterm, mcoef, mwrd, modd]
  | [], _ :: _, h, _, _, _ => by simp at h
  | _ :: _, [], h, _, _, _ => by simp at h
  | (o, l) :: w, b :: ch, h, hw, hS, hn => by
    rw [List.map_cons, List.nodup_cons] at hn
    have hS' : ∀ x ∈ w, x.2 ∈ S := fun x hx => hS x (List.mem_cons_of_mem _ hx)
    have hl : l ∈ S := hS (o, l) (List.mem_cons_self ..)
    have ho := hw (o, l) (List.mem_cons_self ..)
    rw [mterm_cons, star_mul, star_mterm R hs w ch (by simpa using h) hw.tail hS' hn.2, star_mval R hs ho b hl, smul_mul_assoc,
      mterm_mul_mval R ho _ hl w _ (length_mflip w ch (by simpa using h)) hw.tail hS' hn.1, smul_smul, ← pow_add, mflip, mterm_cons]
    congr 2
    rw [modd, modd, List.countP_cons]
    by_cases h1 : o = .D <;> simp [h1, Nat.choose_succ_succ]; omega

/-! ### the sorted word -/

theorem mwrd_ops : ∀ (w : Word) (ch : List Bool), ∀ x ∈ mwrd w ch, x.1 = .CDag ∨ x.1 = .C
  | [], _ => by simp [mwrd]
  | _ :: _, [] => by simp [mwrd]
  | (o, l) :: w, b :: ch => by
    intro x hx
    rw [mwrd, List.mem_append] at hx
    rcases hx with hx | hx
    · obtain ⟨p, hp, rfl⟩ := List.mem_map.mp hx
      cases o <;> cases b <;> simp [mpieceO] at hp <;> simp [hp]
    · exact mwrd_ops w ch x hx

theorem mwrd_labels : ∀ (w : Word) (ch : List Bool), ∀ x ∈ mwrd w ch, x.2 ∈ w.map Prod.snd
  | [], _ => by simp [mwrd]
  | _ :: _, [] => by simp [mwrd]
  | (o, l) :: w, b :: ch => by
    intro x hx
    rw [mwrd, List.mem_append] at hx
    rw [List.map_cons, List.mem_cons]
    rcases hx with hx | hx
    · obtain ⟨p, _, rfl⟩ := List.mem_map.mp hx
      exact Or.inl rfl
    · exact Or.inr (mwrd_labels w ch x hx)

/-- on one orbital only `c† c` occurs, in this order -/
theorem mwrd_pairwise : ∀ (w : Word) (ch : List Bool), (w.map Prod.snd).Nodup →
    (mwrd w ch).Pairwise (fun x y => x.2 = y.2 → x.1 = .CDag ∧ y.1 = .C)
  | [], _, _ => by simp [mwrd]
  | _ :: _, [], _ => by simp [mwrd]
  | (o, l) :: w, b :: ch, hn => by
    rw [List.map_cons, List.nodup_cons] at hn
    rw [mwrd, List.pairwise_append]
    refine ⟨?_, mwrd_pairwise w ch hn.2, ?_⟩
    · cases o <;> cases b <;> simp [mpieceO]
    · intro x hx y hy hxy
      obtain ⟨p, _, rfl⟩ := List.mem_map.mp hx
      have := mwrd_labels w ch y hy
      rw [← hxy] at this
      exact absurd this hn.1

/-- the labels of the creation operators of a choice, sorted -/
def mF (w : Word) (ch : List Bool) : List ℤ := (((mwrd w ch).filter (fun x => decide (x.1 = .CDag))).map Prod.snd).insertionSort (· ≤ ·)
/-- the labels of the annihilation operators of a choice, sorted -/
def mB (w : Word) (ch : List Bool) : List ℤ := (((mwrd w ch).filter (fun x => decide (x.1 = .C))).map Prod.snd).insertionSort (· ≤ ·)

theorem flip_filters : ∀ (w : Word) (ch : List Bool), ch.length = w.length → MajWord w →
    ((mwrd w (mflip w ch)).filter (fun x => decide (x.1 = .CDag))).map Prod.snd = ((mwrd w ch).filter (fun x => decide (x.1 = .C))).map Prod.snd ∧
    ((mwrd w (mflip w ch)).filter (fun x => decide (x.1 = .C))).map Prod.snd = ((mwrd w ch).filter (fun x => decide (x.1 = .CDag))).map Prod.snd
  | [], [], _, _ => by simp [mwrd]
  | [], _ :: _, h, _ => by simp at h
  | _ :: _, [], h, _ => by simp at h
  | (o, l) :: w, b :: ch, h, hw => by
    have ih := flip_filters w ch (by simpa using h) hw.tail
    simp only [mflip, mwrd, List.filter_append, List.map_append, ih.1, ih.2]
    rcases hw (o, l) (List.mem_cons_self ..) with h | h | h <;> simp only at h <;> subst h <;> cases b <;> simp [mpieceO]

theorem mF_mflip {w : Word} {ch : List Bool} (h : ch.length = w.length) (hw : MajWord w) :
    mF w (mflip w ch) = mB w ch ∧ mB w (mflip w ch) = mF w ch := by
  rw [mF, mB, mF, mB, (flip_filters w ch h hw).1, (flip_filters w ch h hw).2]; exact ⟨rfl, rfl⟩

theorem filter_labels_nodup {w : Word} {ch : List Bool} (hn : (w.map Prod.snd).Nodup) {o : Op} :
    (((mwrd w ch).filter (fun x => decide (x.1 = o))).map Prod.snd).Nodup := by
  rw [List.Nodup, List.pairwise_map]
  have := (mwrd_pairwise w ch hn).filter (fun x => decide (x.1 = o))
  refine List.Pairwise.imp_of_mem ?_ this
  intro x y hx hy h he
  have h1 := (List.mem_filter.mp hx).2
  have h2 := (List.mem_filter.mp hy).2
  simp only [decide_eq_true_eq] at h1 h2
  obtain ⟨h3, h4⟩ := h he
  rw [h1] at h3; rw [h2] at h4; rw [h3] at h4; simp at h4

theorem mF_sorted {w : Word} {ch : List Bool} (hn : (w.map Prod.snd).Nodup) : (mF w ch).Pairwise (· < ·) := by
  have h1 : (mF w ch).Pairwise (· ≤ ·) := List.pairwise_insertionSort _ _
  have h2 : (mF w ch).Nodup := (List.perm_insertionSort _ _).nodup_iff.mpr (filter_labels_nodup hn)
  exact (h1.and h2).imp (fun h => lt_of_le_of_ne h.1 h.2)

theorem mB_sorted {w : Word} {ch : List Bool} (hn : (w.map Prod.snd).Nodup) : (mB w ch).Pairwise (· < ·) := by
  have h1 : (mB w ch).Pairwise (· ≤ ·) := List.pairwise_insertionSort _ _
  have h2 : (mB w ch).Nodup := (List.perm_insertionSort _ _).nodup_iff.mpr (filter_labels_nodup hn)
  exact (h1.and h2).imp (fun h => lt_of_le_of_ne h.1 h.2)

theorem mem_mF {w : Word} {ch : List Bool} {l : ℤ} : l ∈ mF w ch ↔ (Op.CDag, l) ∈ mwrd w ch := by
  rw [mF, (List.perm_insertionSort _ _).mem_iff]; simp

theorem mem_mB {w : Word} {ch : List Bool} {l : ℤ} : l ∈ mB w ch ↔ (Op.C, l) ∈ mwrd w ch := by
  rw [mB, (List.perm_insertionSort _ _).mem_iff]; simp

theorem mwrd_nodup {w : Word} {ch : List Bool} (hn : (w.map Prod.snd).Nodup) : (mwrd w ch).Nodup := by
  refine (mwrd_pairwise w ch hn).imp ?_
  rintro x y h rfl
  have := h rfl
  rw [this.1] at this; simp at this

/-- sorting by the modified labels gives the normal-ordered word -/
theorem mwrd_sorted {large : ℤ} {w : Word} {ch : List Bool} (hn : (w.map Prod.snd).Nodup)
    (hlarge : ∀ l ∈ w.map Prod.snd, ∀ l' ∈ w.map Prod.snd, l + l' < large) :
    (mwrd w ch).insertionSort (fun a b => mkey large a ≤ mkey large b) = normalWord (mF w ch) (mB w ch).reverse := by
  have h1 : ((mwrd w ch).insertionSort (fun a b => mkey large a ≤ mkey large b)).Perm (mwrd w ch) := List.perm_insertionSort _ _
  have hsort : (normalWord (mF w ch) (mB w ch).reverse).Pairwise (fun a b => mkey large a < mkey large b) := by
    rw [normalWord, List.pairwise_append]
    refine ⟨?_, ?_, ?_⟩
    · rw [List.pairwise_map]; exact (mF_sorted hn).imp (fun h => by simpa [mkey] using h)
    · rw [List.pairwise_map, List.pairwise_reverse]; exact (mB_sorted hn).imp (fun h => by simp [mkey]; omega)
    · intro x hx y hy
      obtain ⟨a, ha, rfl⟩ := List.mem_map.mp hx
      obtain ⟨b, hb, rfl⟩ := List.mem_map.mp hy
      rw [List.mem_reverse, mem_mB] at hb
      rw [mem_mF] at ha
      have := hlarge a (mwrd_labels w ch _ ha) b (mwrd_labels w ch _ hb)
      simp [mkey]; omega
  have hnd : (normalWord (mF w ch) (mB w ch).reverse).Nodup := by
    refine hsort.imp ?_
    rintro x y h rfl
    exact lt_irrefl _ h
  have hperm : ((mwrd w ch).insertionSort (fun a b => mkey large a ≤ mkey large b)).Perm (normalWord (mF w ch) (mB w ch).reverse) := by
    rw [List.perm_ext_iff_of_nodup (h1.nodup_iff.mpr (mwrd_nodup hn)) hnd]
    intro x
    rw [h1.mem_iff, mem_normalWord, List.mem_reverse, mem_mF, mem_mB]
    constructor
    · intro hx
      rcases mwrd_ops w ch x hx with h | h
      · exact Or.inl ⟨h, by rw [← h]; exact hx⟩
      · exact Or.inr ⟨h, by rw [← h]; exact hx⟩
    · rintro (⟨h, hx⟩ | ⟨h, hx⟩)
      · rw [← h] at hx; exact hx
      · rw [← h] at hx; exact hx
  -- both are sorted by the key, strictly on the right
  have hkey : ((mwrd w ch).insertionSort (fun a b => mkey large a ≤ mkey large b)).Pairwise (fun a b => mkey large a < mkey large b) := by
    have hle : ((mwrd w ch).insertionSort (fun a b => mkey large a ≤ mkey large b)).Pairwise (fun a b => mkey large a ≤ mkey large b) := by
      have : IsTotal (Op × ℤ) (fun a b => mkey large a ≤ mkey large b) := ⟨fun a b => le_total _ _⟩
      have : IsTrans (Op × ℤ) (fun a b => mkey large a ≤ mkey large b) := ⟨fun a b c => le_trans⟩
      exact List.pairwise_insertionSort _ _
    have hnk : (((mwrd w ch).insertionSort (fun a b => mkey large a ≤ mkey large b)).map (mkey large)).Nodup := by
      rw [(hperm.map _).nodup_iff, List.Nodup, List.pairwise_map]
      exact hsort.imp (fun h => ne_of_lt h)
    rw [List.Nodup, List.pairwise_map] at hnk
    exact (hle.and hnk).imp (fun h => lt_of_le_of_ne h.1 h.2)
  exact hperm.eq_of_pairwise (le := fun a b => mkey large a < mkey large b) (fun a b _ _ h1 h2 => absurd h1 (asymm h2)) hkey hsort

/-- the product of the chosen terms in normal order -/
theorem mterm_normal (R : MajoranaRep K 𝔸 S) {large : ℤ} {w : Word} {ch : List Bool} (hn : (w.map Prod.snd).Nodup) (hS : ∀ x ∈ w, x.2 ∈ S)
    (hlarge : ∀ l ∈ w.map Prod.snd, ∀ l' ∈ w.map Prod.snd, l + l' < large) :
    mterm R w ch = (mcoef K w ch * (-1) ^ inversions ((mwrd w ch).map (mkey large))) •
      ((normalWord (mF w ch) (mB w ch).reverse).map (fun x => R.fsite x.1 x.2)).prod := by
  rw [mterm, prod_insertionSort (K := K) (mkey large), mwrd_sorted hn hlarge, smul_smul]
  refine List.Pairwise.imp_of_mem ?_ (mwrd_pairwise w ch hn)
  intro x y hx hy h hlt
  have hx' := mwrd_labels w ch x hx
  have hy' := mwrd_labels w ch y hy
  have hmem : ∀ l ∈ w.map Prod.snd, l ∈ S := by
    intro l hl; obtain ⟨z, hz, rfl⟩ := List.mem_map.mp hl; exact hS z hz
  apply R.fsite_anticomm (hmem _ hx') (hmem _ hy')
  intro he
  obtain ⟨h1, h2⟩ := h he
  have := hlarge _ hx' _ hy'
  simp only [mkey, h1, h2, if_true] at hlt
  simp at hlt; omega

theorem mem_det : ∀ {w : Word}, MajWord w → (w.map Prod.snd).Nodup → ∀ {ch ch' : List Bool}, ch.length = w.length → ch'.length = w.length →
    (∀ x, x ∈ mwrd w ch ↔ x ∈ mwrd w ch') → ch = ch'
  | [], _, _, ch, ch', h1, h2, _ => by
    rw [List.length_nil, List.length_eq_zero_iff] at h1 h2
    rw [h1, h2]
  | _ :: _, _, _, [], _, h1, _, _ => by simp at h1
  | _ :: _, _, _, _ :: _, [], _, h2, _ => by simp at h2
  | (o, l) :: w, hw, hn, b :: ch, b' :: ch', h1, h2, h => by
    rw [List.map_cons, List.nodup_cons] at hn
    have hl : ∀ ch, ∀ x ∈ mwrd w ch, x.2 ≠ l := by
      intro ch x hx he
      exact hn.1 (he ▸ mwrd_labels w ch x hx)
    have hp : ∀ (b : Bool), ∀ x ∈ (mpieceO o b).map (fun p => (p, l)), x.2 = l := by
      intro b x hx; obtain ⟨p, _, rfl⟩ := List.mem_map.mp hx; rfl
    have htail : ch = ch' := by
      apply mem_det hw.tail hn.2 (by simpa using h1) (by simpa using h2)
      intro x
      have := h x
      simp only [mwrd, List.mem_append] at this
      constructor
      · intro hx
        rcases this.mp (Or.inr hx) with h3 | h3
        · exact absurd (hp _ x h3) (hl _ x hx)
        · exact h3
      · intro hx
        rcases this.mpr (Or.inr hx) with h3 | h3
        · exact absurd (hp _ x h3) (hl _ x hx)
        · exact h3
    have hhead : b = b' := by
      have key : ∀ b ch, ((Op.CDag, l) ∈ mwrd ((o, l) :: w) (b :: ch)) ↔ Op.CDag ∈ mpieceO o b := by
        intro b ch
        rw [mwrd, List.mem_append]
        constructor
        · rintro (h3 | h3)
          · obtain ⟨p, hp, he⟩ := List.mem_map.mp h3
            simp only [Prod.mk.injEq, and_true] at he; rw [← he]; exact hp
          · exact absurd rfl (hl _ _ h3)
        · intro h3; exact Or.inl (List.mem_map.mpr ⟨_, h3, rfl⟩)
      have := h (Op.CDag, l)
      rw [key, key] at this
      rcases hw (o, l) (List.mem_cons_self ..) with h | h | h <;> simp only at h <;> subst h <;> cases b <;> cases b' <;>
        simp [mpieceO] at this <;> rfl
    rw [htail, hhead]

/-! ### the loop body -/

theorem mcoef_phase : ∀ (w : Word) (ch : List Bool), ∃ (j : ℕ) (q : K), IsPhase q ∧ mcoef K w ch = 2 ^ j * q
  | [], _ => ⟨0, 1, .one, by simp [mcoef]⟩
  | _ :: _, [] => ⟨0, 1, .one, by simp [mcoef]⟩
  | (o, l) :: w, b :: ch => by
    obtain ⟨j, q, hq, e⟩ := mcoef_phase w ch
    have h1 : ∃ (i : ℕ) (r : K), IsPhase r ∧ mpieceC K o b = 2 ^ i * r := by
      cases o <;> cases b
      case B.false => exact ⟨0, -I, IsPhase.I.neg, by simp [mpieceC]⟩
      case B.true => exact ⟨0, I, IsPhase.I, by simp [mpieceC]⟩
      case D.false => exact ⟨1, -1, IsPhase.one.neg, by simp [mpieceC]⟩
      all_goals exact ⟨0, 1, .one, by simp [mpieceC]⟩
    obtain ⟨i, r, hr, e'⟩ := h1
    exact ⟨i + j, r * q, hr.mul hq, by rw [mcoef, e, e']; ring⟩

/-- the coefficient of the normal-ordered word -/
def mkappa (large : ℤ) (w : Word) (p : K) (ch : List Bool) : K := p * mcoef K w ch * (-1) ^ inversions ((mwrd w ch).map (mkey large))

theorem mkappa_phase (large : ℤ) (w : Word) (p : Pref) (ch : List Bool) :
    ∃ (j : ℕ) (q : K), IsPhase q ∧ mkappa large w (p.val : K) ch = 2 ^ j * q := by
  obtain ⟨j, q, hq, e⟩ := mcoef_phase (K := K) w ch
  exact ⟨j, p.val * q * (-1) ^ inversions ((mwrd w ch).map (mkey large)), (p.val_phase.mul hq).mul (sign_phase _), by rw [mkappa, e]; ring⟩

/-- a coefficient is real or imaginary and the code can tell which -/
theorem real_or_imag {j : ℕ} {q x : K} (hq : IsPhase q) (hx : x = 2 ^ j * q) :
    (absLt (imOf x) floatEps = true ∧ reOf x = x ∧ star x = x) ∨
    (absLt (imOf x) floatEps = false ∧ absLt (reOf x) floatEps = true ∧ reOf (x / I) * I = x ∧ star x = -x) := by
  have h2 : (2 : K) ≠ 0 := two_ne_zero'
  have hI := I_ne_zero (K := K)
  have hs : star x = 2 ^ j * star q := by rw [hx, star_mul', star_two_pow]
  have hnorm : ‖toC ((2 : K) ^ j)‖ = (2 : ℝ) ^ j := by
    rw [map_pow, norm_pow, map_ofNat]; norm_num
  have hge : ((floatEps : ℚ) : ℝ) ≤ 2 ^ j := by
    have h1 : (1 : ℝ) ≤ 2 ^ j := one_le_pow₀ (by norm_num)
    refine le_trans ?_ h1
    norm_num [floatEps]
  rcases hq with rfl | rfl | rfl | rfl
  · left
    have hs' : star x = x := by rw [hs, hx]; simp
    refine ⟨?_, ?_, hs'⟩
    · rw [imOf, hs', sub_self, zero_div]; exact absLt_zero (by norm_num [floatEps])
    · rw [reOf, hs']; field_simp; ring
  · left
    have hs' : star x = x := by rw [hs, hx]; simp
    refine ⟨?_, ?_, hs'⟩
    · rw [imOf, hs', sub_self, zero_div]; exact absLt_zero (by norm_num [floatEps])
    · rw [reOf, hs']; field_simp; ring
  · right
    have hs' : star x = -x := by rw [hs, hx]; simp
    refine ⟨?_, ?_, ?_, hs'⟩
    · have : imOf x = 2 ^ j := by rw [imOf, hs', hx]; field_simp; ring
      rw [this, Bool.eq_false_iff, Ne, absLt_iff, hnorm, not_lt]; exact hge
    · rw [reOf, hs', add_neg_cancel, zero_div]; exact absLt_zero (by norm_num [floatEps])
    · rw [reOf, star_div₀, hs', star_I, neg_div_neg_eq]; field_simp; ring
  · right
    have hs' : star x = -x := by rw [hs, hx]; simp
    refine ⟨?_, ?_, ?_, hs'⟩
    · have : imOf x = -2 ^ j := by rw [imOf, hs', hx]; field_simp; ring
      rw [this, Bool.eq_false_iff, Ne, absLt_iff, map_neg, norm_neg, hnorm, not_lt]; exact hge
    · rw [reOf, hs', add_neg_cancel, zero_div]; exact absLt_zero (by norm_num [floatEps])
    · rw [reOf, star_div₀, hs', star_I, neg_div_neg_eq]; field_simp; ring

/-- the Fermion string with creation operators on `F` and annihilation operators on `B`, reversed -/
def fermOf (p : Pref) (F B : List ℤ) : OpString :=
  ⟨List.replicate F.length .CDag ++ List.replicate B.reverse.length .C, F ++ B.reverse, .fermion, p⟩

theorem fermionString_eq (p : Pref) (F B : List ℤ) : fermionString p F B = .ok (fermOf p F B) := by
  rw [fermionString, mkOpString_fermion, fermOf, List.length_reverse]

theorem fermOf_labels (p : Pref) (F B : List ℤ) : (fermOf p F B).cdagLabels = F ∧ (fermOf p F B).cLabels = B.reverse :=
  normalString_labels F B.reverse .fermion p

theorem fermOf_own (p : Pref) (F B : List ℤ) : (fermOf p F B).OwnConjugate ↔ F = B := by
  rw [OpString.OwnConjugate, (fermOf_labels p F B).1, (fermOf_labels p F B).2, List.reverse_reverse]

theorem fermOf_string {p : Pref} {F B : List ℤ} (hF : F.Nodup) (hB : B.Nodup) (h : ∀ l ∈ F ++ B, l ∈ S) : FermionString S (fermOf p F B) where
  type := rfl
  len := by simp [fermOf]
  ordered := by rw [(fermOf_labels p F B).1, (fermOf_labels p F B).2]; rfl
  cdag_nodup := by rw [(fermOf_labels p F B).1]; exact hF
  c_nodup := by rw [(fermOf_labels p F B).2]; exact List.nodup_reverse.mpr hB
  mem := by
    intro l hl
    apply h
    simpa [fermOf] using hl

/-- the value of the loop body for one choice -/
def mfterm (large : ℤ) (incl : Bool) (w : Word) (p : K) (ch : List Bool) : Option (K × OpString) :=
  if mwrd w ch = [] ∧ incl = false then none
  else if compare (mF w ch) (mB w ch) < 0 then none
  else if compare (mF w ch) (mB w ch) = 0 then some (mkappa large w p ch, fermOf .float1 (mF w ch) (mB w ch))
  else if absLt (imOf (mkappa large w p ch)) floatEps then some (reOf (mkappa large w p ch), fermOf .float1 (mF w ch) (mB w ch))
  else some (reOf (mkappa large w p ch / I), fermOf .imag (mF w ch) (mB w ch))

theorem mToFTerm_eq {large : ℤ} {incl : Bool} {w : Word} {p : Pref} {ch : List Bool} (hn : (w.map Prod.snd).Nodup)
    (hlarge : ∀ l ∈ w.map Prod.snd, ∀ l' ∈ w.map Prod.snd, l + l' < large) :
    mToFTerm large incl ((p.val : K) * mcoef K w ch, (mwrd w ch).map (mkey large), (mwrd w ch).countP (fun x => decide (x.1 = .CDag))) =
      .ok (mfterm large incl w (p.val : K) ch) := by
  have hsorted : (sortSign ((mwrd w ch).map (mkey large))).1 = mF w ch ++ (mB w ch).reverse.map (fun x => -x + large) := by
    rw [sortSign_fst, ← map_insertionSort_key, mwrd_sorted hn hlarge, normalWord, List.map_append, List.map_map, List.map_map]
    congr 1
    · conv_rhs => rw [← List.map_id (mF w ch)]
      apply List.map_congr_left; intro x _; simp [mkey]
  have hcount : (mwrd w ch).countP (fun x => decide (x.1 = .CDag)) = (mF w ch).length := by
    rw [mF, List.length_insertionSort, List.length_map, List.countP_eq_length_filter]
  have hsign : (((sortSign ((mwrd w ch).map (mkey large))).2 : ℤ) : K) = (-1) ^ inversions ((mwrd w ch).map (mkey large)) := by
    rw [sortSign_snd, cast_sign]
  have e1 : (mF w ch ++ (mB w ch).reverse.map (fun x => -x + large)).take (mF w ch).length = mF w ch := List.take_left' rfl
  have e2 : (((mF w ch ++ (mB w ch).reverse.map (fun x => -x + large)).drop (mF w ch).length).map (fun x => large - x)).reverse = mB w ch := by
    rw [List.drop_left' rfl, List.map_map, ← List.map_reverse, List.reverse_reverse]
    conv_rhs => rw [← List.map_id (mB w ch)]
    apply List.map_congr_left; intro x _; simp
  rw [mToFTerm, mfterm]
  simp only [List.length_map, List.length_eq_zero_iff, hsorted, hcount, hsign, e1, e2, fermionString_eq, bind, Except.bind]
  by_cases h0 : mwrd w ch = [] ∧ incl = false
  · rw [if_pos h0, if_pos h0]
  rw [if_neg h0, if_neg h0]
  by_cases h1 : compare (mF w ch) (mB w ch) < 0
  · rw [if_pos h1, if_pos h1]
  rw [if_neg h1, if_neg h1]
  by_cases h2 : compare (mF w ch) (mB w ch) = 0
  · rw [if_pos h2, if_pos h2]; rfl
  rw [if_neg h2, if_neg h2]
  have hk : (p.val : K) * mcoef K w ch * (-1) ^ inversions ((mwrd w ch).map (mkey large)) = mkappa large w p.val ch := rfl
  rw [hk]
  obtain ⟨j, q, hq, e⟩ := mkappa_phase (K := K) large w p ch
  rcases real_or_imag hq e with ⟨h3, _⟩ | ⟨h3, h4, _⟩
  · rw [if_pos h3, if_pos h3]
  · rw [h3, if_neg (by simp), if_pos h4, if_neg (by simp)]

/-- what the loop body contributes -/
theorem mfterm_den [StarRing 𝔸] [StarModule K 𝔸] (R : MajoranaRep K 𝔸 S) {large : ℤ} {w : Word} {p : Pref} (hn : (w.map Prod.snd).Nodup)
    (hS : ∀ x ∈ w, x.2 ∈ S) (hlarge : ∀ l ∈ w.map Prod.snd, ∀ l' ∈ w.map Prod.snd, l + l' < large) {incl : Bool} :
    ∀ (cs : List (List Bool)), denT R.fden (cs.filterMap (mfterm large incl w (p.val : K))) +
      ((cs.filter (fun ch => decide (mwrd w ch = [] ∧ incl = false))).map (mkappa large w (p.val : K))).sum • (1 : 𝔸) =
      (cs.map (fun ch =>
        (if compare (mF w ch) (mB w ch) < 0 then 0 else (p.val : K) • mterm R w ch) +
        (if 0 < compare (mF w ch) (mB w ch) then star ((p.val : K) • mterm R w ch) else 0))).sum
  | [] => by simp [denT]
  | ch :: cs => by
    have ih := mfterm_den R (p := p) hn hS hlarge (incl := incl) cs
    have hT : (p.val : K) • mterm R w ch = mkappa large w (p.val : K) ch • ((normalWord (mF w ch) (mB w ch).reverse).map (fun x => R.fsite x.1 x.2)).prod := by
      rw [mterm_normal R hn hS hlarge, smul_smul, mkappa, mul_assoc]
    have hword : ∀ q : Pref, R.fword (fermOf q (mF w ch) (mB w ch)) =
        (q.val : K) • ((normalWord (mF w ch) (mB w ch).reverse).map (fun x => R.fsite x.1 x.2)).prod := by
      intro q; rw [MajoranaRep.fword, wordProd_zip, fermOf, normal_zip]
    set W := ((normalWord (mF w ch) (mB w ch).reverse).map (fun x => R.fsite x.1 x.2)).prod with hW
    rw [List.map_cons, List.sum_cons, ← ih, List.filterMap_cons, List.filter_cons]
    by_cases h0 : mwrd w ch = [] ∧ incl = false
    · have e : mfterm large incl w (p.val : K) ch = none := by rw [mfterm, if_pos h0]
      have hF : mF w ch = [] := by rw [mF, h0.1]; rfl
      have hB : mB w ch = [] := by rw [mB, h0.1]; rfl
      have hW1 : W = 1 := by rw [hW, hF, hB]; simp [normalWord]
      simp only [e, decide_eq_true h0, if_true, List.map_cons, List.sum_cons]
      rw [hT, hW1, hF, hB]
      have : compare [] [] = 0 := rfl
      simp only [this, lt_self_iff_false, if_false, add_smul, add_zero]
      abel
    · rw [if_neg (by simpa using h0)]
      by_cases h1 : compare (mF w ch) (mB w ch) < 0
      · have e : mfterm large incl w (p.val : K) ch = none := by rw [mfterm, if_neg h0, if_pos h1]
        simp only [e]
        rw [if_pos h1, if_neg (by omega)]; simp
      · by_cases h2 : compare (mF w ch) (mB w ch) = 0
        · have e : mfterm large incl w (p.val : K) ch = some (mkappa large w p.val ch, fermOf .float1 (mF w ch) (mB w ch)) := by
            rw [mfterm, if_neg h0, if_neg h1, if_pos h2]
          have hown : (fermOf .float1 (mF w ch) (mB w ch)).OwnConjugate := (fermOf_own _ _ _).mpr ((C24_compare_iff _ _).2.2.mp h2)
          simp only [e]
          rw [if_neg h1, if_neg (by omega), hT, denT, List.map_cons, List.sum_cons, MajoranaRep.fden, if_pos hown, hword]
          simp only [Pref.val, one_smul, denT]
          abel
        · have hno : ∀ q, ¬ (fermOf q (mF w ch) (mB w ch)).OwnConjugate := by
            intro q hq; exact h2 ((C24_compare_iff _ _).2.2.mpr ((fermOf_own _ _ _).mp hq))
          obtain ⟨j, q, hq, ek⟩ := mkappa_phase (K := K) large w p ch
          rw [if_neg h1, if_pos (by omega), hT, star_smul]
          rcases real_or_imag hq ek with ⟨h3, h4, h5⟩ | ⟨h3, _, h4, h5⟩
          · have e : mfterm large incl w (p.val : K) ch = some (reOf (mkappa large w p.val ch), fermOf .float1 (mF w ch) (mB w ch)) := by
              rw [mfterm, if_neg h0, if_neg h1, if_neg h2, if_pos h3]
            simp only [e]
            rw [denT, List.map_cons, List.sum_cons, MajoranaRep.fden, if_neg (hno _), hword, h4, h5]
            simp only [Pref.val, one_smul, denT, smul_add]
            abel
          · have e : mfterm large incl w (p.val : K) ch = some (reOf (mkappa large w p.val ch / I), fermOf .imag (mF w ch) (mB w ch)) := by
              rw [mfterm, if_neg h0, if_neg h1, if_neg h2, if_neg (by rw [h3]; simp)]
            simp only [e]
            rw [denT, List.map_cons, List.sum_cons, MajoranaRep.fden, if_neg (hno _), hword, h5]
            have e1 : (reOf (mkappa large w (p.val : K) ch / I)) • ((Pref.imag.val : K) • W) = mkappa large w (p.val : K) ch • W := by
              rw [smul_smul, show (Pref.imag.val : K) = I from rfl, h4]
            have e2 : (reOf (mkappa large w (p.val : K) ch / I)) • star ((Pref.imag.val : K) • W) = -(mkappa large w (p.val : K) ch) • star W := by
              rw [star_smul, show (Pref.imag.val : K) = I from rfl, star_I, smul_smul, mul_neg, h4]
            simp only [smul_add, e1, e2, denT]
            abel

theorem mwrd_replicate_false : ∀ (w : Word), MajWord w → w ≠ [] → mwrd w (List.replicate w.length false) ≠ []
  | [], _, h => absurd rfl h
  | (o, l) :: w, hw, _ => by
    rw [List.length_cons, List.replicate_succ, mwrd]
    rcases hw (o, l) (List.mem_cons_self ..) with h | h | h <;> simp only at h <;> subst h <;> simp [mpieceO]

theorem mwrd_mflip_ne_nil : ∀ (w : Word) (ch : List Bool), ch.length = w.length → MajWord w → mwrd w ch ≠ [] → mwrd w (mflip w ch) ≠ []
  | [], _, _, _, h => by simp [mwrd] at h
  | _ :: _, [], _, _, h => by simp [mwrd] at h
  | (o, l) :: w, b :: ch, hl, hw, h => by
    rw [mflip, mwrd]
    rw [mwrd] at h
    rcases hw (o, l) (List.mem_cons_self ..) with ho | ho | ho <;> simp only at ho <;> subst ho <;> cases b <;> simp [mpieceO] at h ⊢
    exact mwrd_mflip_ne_nil w ch (by simpa using hl) hw.tail h

/-! ### the theorem -/

theorem convertMajoranaString_full {s : OpString} (h : MajoranaString S s) (incl : Bool) :
    ∃ (O : Operator K) (k : K), convertMajoranaString s incl = .ok O ∧ O.opType = .fermion ∧ O.WF ∧
      (∀ M ∈ O.basis.strs, FermionString S M ∧ M.cdagLabels.Pairwise (· < ·) ∧ M.cLabels.Pairwise (· > ·) ∧ (incl = false → M.ops ≠ [])) ∧
      (∀ c ∈ O.coeffs, (1 / 10 ^ 16 : ℝ) < ‖toC c‖) ∧ (incl = true → k = 0) ∧
      (∀ {𝔸 : Type} [Ring 𝔸] [Algebra K 𝔸] [StarRing 𝔸] [StarModule K 𝔸] (R : MajoranaRep K 𝔸 S)
        (_ : ∀ i ∈ S, star (R.a i) = R.a i ∧ star (R.b i) = R.b i), R.den s = O.den R.fden + k • 1) ∧
      (s.ops ≠ [] → ∃ large : ℤ,
        k = (((choices s.word.length).filter (fun ch => decide (mwrd s.word ch = [] ∧ incl = false))).map (mkappa large s.word (s.pref.val : K))).sum ∧
        O = ⟨((choices s.word.length).filterMap (mfterm large incl s.word (s.pref.val : K))).map Prod.fst,
          Basis.ofList (((choices s.word.length).filterMap (mfterm large incl s.word (s.pref.val : K))).map Prod.snd), .fermion⟩) := by
  by_cases hops : s.ops = []
  · have hlab : s.labels = [] := by
      have := h.len; rw [hops] at this; exact List.length_eq_zero_iff.mp this.symm
    have hp : (s.pref.val : K) = 1 := by
      apply Pref.val_of_ne_imag
      intro hi
      have := h.pref.mp hi
      rw [hops] at this; simp at this
    have hd : ∀ {𝔸 : Type} [Ring 𝔸] [Algebra K 𝔸] (R : MajoranaRep K 𝔸 S), R.den s = 1 := by
      intro 𝔸 _ _ R
      rw [R.den_eq, hp, OpString.word, hops]; simp
    have ht : ¬ s.opType ≠ .majorana := by simp [h.type]
    cases incl with
    | true =>
      refine ⟨⟨[1], Basis.ofList [⟨[], [], .fermion, .float1⟩], .fermion⟩, 0, ?_, rfl, Operator.WF.mk' (by simp) rfl (by simp), ?_, by simp; norm_num, by simp, ?_, fun h => absurd hops h⟩
      · rw [convertMajoranaString, if_neg ht, if_pos (by simp [hops]), if_pos rfl]
        rfl
      · intro M hM
        simp only [Basis.ofList, List.mem_singleton] at hM
        subst hM
        refine ⟨⟨rfl, rfl, rfl, ?_, ?_, by simp⟩, ?_, ?_, by simp⟩ <;> simp [OpString.cdagLabels, OpString.cLabels]
      · intro 𝔸 _ _ _ _ R hs
        rw [hd R]
        simp [Operator.den, Operator.terms, Basis.ofList, denT, MajoranaRep.fden, MajoranaRep.fword, OpString.OwnConjugate, OpString.cdagLabels,
          OpString.cLabels, wordProd, Pref.val]
    | false =>
      refine ⟨⟨[], Basis.ofList [], .fermion⟩, 1, ?_, rfl, Operator.WF.mk' (by simp) rfl (by simp), ?_, by simp, by simp, ?_, fun h => absurd hops h⟩
      · rw [convertMajoranaString, if_neg ht, if_pos (by simp [hops]), if_neg (by simp)]
        rfl
      · intro M hM
        simp [Basis.ofList] at hM
      · intro 𝔸 _ _ _ _ R hs
        rw [hd R]
        simp [Operator.den, Operator.terms, Basis.ofList, denT]
  · have hlab : s.labels ≠ [] := by
      intro h0
      have := h.len; rw [h0] at this; exact hops (List.length_eq_zero_iff.mp this)
    obtain ⟨m, hm, -, hmax⟩ := npMax_spec hlab
    set large : ℤ := 4 * max 1 m + 4 with hlg
    set w := s.word with hw
    have hw1 : w.map Prod.fst = s.ops := by rw [hw, OpString.word]; exact List.map_fst_zip (by rw [h.len])
    have hw2 : w.map Prod.snd = s.labels := by rw [hw, OpString.word]; exact List.map_snd_zip (by rw [h.len])
    have hwl : w.length = s.ops.length := by rw [← hw1, List.length_map]
    have hwne : w ≠ [] := by intro h0; rw [h0] at hw1; exact hops hw1.symm
    have hmaj : MajWord w := by
      intro x hx; apply h.ops; rw [← hw1]; exact List.mem_map_of_mem hx
    have hn : (w.map Prod.snd).Nodup := by rw [hw2]; exact h.nodup
    have hS : ∀ x ∈ w, x.2 ∈ S := by
      intro x hx; apply h.mem; rw [← hw2]; exact List.mem_map_of_mem hx
    have hlarge : ∀ l ∈ w.map Prod.snd, ∀ l' ∈ w.map Prod.snd, l + l' < large := by
      rw [hw2]; intro l hl l' hl'
      have h1 := hmax l hl
      have h2 := hmax l' hl'
      have h3 := le_max_left 1 m
      have h4 := le_max_right 1 m
      omega
    have hlen : ∀ ch ∈ choices w.length, ch.length = w.length := fun ch hch => (mem_productRepeat.mp hch).1
    have hch : ∀ ch : List Bool, ch.length = w.length → ch ∈ choices w.length := by
      intro ch hc
      exact mem_productRepeat.mpr ⟨hc, by intro b _; cases b <;> simp⟩
    set g := mfterm large incl w (s.pref.val : K) with hg
    set terms := (choices w.length).filterMap g with hterms
    have hgs : ∀ ch t, g ch = some t → (∃ q, t.2 = fermOf q (mF w ch) (mB w ch)) ∧ ¬ (mwrd w ch = [] ∧ incl = false) := by
      intro ch t ht
      rw [hg, mfterm] at ht
      by_cases h0 : mwrd w ch = [] ∧ incl = false
      · rw [if_pos h0] at ht; simp at ht
      refine ⟨?_, h0⟩
      rw [if_neg h0] at ht
      by_cases h1 : compare (mF w ch) (mB w ch) < 0
      · rw [if_pos h1] at ht; simp at ht
      rw [if_neg h1] at ht
      by_cases h2 : compare (mF w ch) (mB w ch) = 0
      · rw [if_pos h2] at ht; simp only [Option.some.injEq] at ht; exact ⟨_, by rw [← ht]⟩
      rw [if_neg h2] at ht
      by_cases h3 : absLt (imOf (mkappa large w (s.pref.val : K) ch)) floatEps = true
      · rw [if_pos h3] at ht; simp only [Option.some.injEq] at ht; exact ⟨_, by rw [← ht]⟩
      · rw [if_neg h3] at ht; simp only [Option.some.injEq] at ht; exact ⟨_, by rw [← ht]⟩
    have htm : ∀ t ∈ terms, ∃ ch ∈ choices w.length, (∃ q, t.2 = fermOf q (mF w ch) (mB w ch)) ∧ ¬ (mwrd w ch = [] ∧ incl = false) := by
      intro t ht
      obtain ⟨ch, hc, e⟩ := List.mem_filterMap.mp ht
      exact ⟨ch, hc, hgs ch t e⟩
    have htype : ∀ M ∈ terms.map Prod.snd, M.opType = .fermion := by
      intro M hM
      obtain ⟨t, ht, rfl⟩ := List.mem_map.mp hM
      obtain ⟨ch, _, ⟨q, e⟩, _⟩ := htm t ht
      rw [e]; rfl
    have hnodup : (terms.map Prod.snd).Nodup := by
      rw [List.Nodup, List.pairwise_map, hterms, List.pairwise_filterMap]
      refine List.Pairwise.imp_of_mem ?_ (nodup_productRepeat (l := [false, true]) (by simp) w.length)
      intro a b ha hb hab t ht t' ht' he
      apply hab
      obtain ⟨q, e⟩ := (hgs a t ht).1
      obtain ⟨q', e'⟩ := (hgs b t' ht').1
      rw [e, e'] at he
      have e1 : mF w a = mF w b := by rw [← (fermOf_labels q (mF w a) (mB w a)).1, he, (fermOf_labels _ _ _).1]
      have e2 : mB w a = mB w b := by
        rw [← List.reverse_inj, ← (fermOf_labels q (mF w a) (mB w a)).2, he, (fermOf_labels _ _ _).2]
      apply mem_det hmaj hn (hlen a ha) (hlen b hb)
      intro x
      have k : ∀ c, x ∈ mwrd w c ↔ (x.1 = .CDag ∧ x.2 ∈ mF w c) ∨ (x.1 = .C ∧ x.2 ∈ mB w c) := by
        intro c
        rw [mem_mF, mem_mB]
        constructor
        · intro hx
          rcases mwrd_ops w c x hx with h | h
          · exact Or.inl ⟨h, by rw [← h]; exact hx⟩
          · exact Or.inr ⟨h, by rw [← h]; exact hx⟩
        · rintro (⟨h, hx⟩ | ⟨h, hx⟩)
          · rw [← h] at hx; exact hx
          · rw [← h] at hx; exact hx
      rw [k, k, e1, e2]
    have hne : terms.map Prod.snd ≠ [] := by
      have hsome : ∀ ch, mwrd w ch ≠ [] → ¬ compare (mF w ch) (mB w ch) < 0 → ∃ t, g ch = some t := by
        intro ch h0 h1
        rw [hg, mfterm, if_neg (fun h => h0 h.1), if_neg h1]
        split
        · exact ⟨_, rfl⟩
        · split
          · exact ⟨_, rfl⟩
          · exact ⟨_, rfl⟩
      have h0 := mwrd_replicate_false w hmaj hwne
      have hl0 : (List.replicate w.length false).length = w.length := by simp
      obtain ⟨ch, hc, t, ht⟩ : ∃ ch ∈ choices w.length, ∃ t, g ch = some t := by
        by_cases h1 : compare (mF w (List.replicate w.length false)) (mB w (List.replicate w.length false)) < 0
        · refine ⟨mflip w (List.replicate w.length false), hch _ (length_mflip _ _ hl0), hsome _ (mwrd_mflip_ne_nil w _ hl0 hmaj h0) ?_⟩
          rw [(mF_mflip hl0 hmaj).1, (mF_mflip hl0 hmaj).2]
          have := (C24_total_order (mF w (List.replicate w.length false)) (mB w (List.replicate w.length false)) []).1
          omega
        · exact ⟨_, hch _ hl0, hsome _ h0 h1⟩
      have : t.2 ∈ terms.map Prod.snd := List.mem_map_of_mem (List.mem_filterMap.mpr ⟨ch, hc, ht⟩)
      intro h0; rw [h0] at this; simp at this
    refine ⟨⟨terms.map Prod.fst, Basis.ofList (terms.map Prod.snd), .fermion⟩,
      (((choices w.length).filter (fun ch => decide (mwrd w ch = [] ∧ incl = false))).map (mkappa large w (s.pref.val : K))).sum,
      ?_, rfl, Operator.WF.mk' hnodup (by simp) htype, ?_, ?_, ?_, ?_, fun _ => ⟨large, rfl, rfl⟩⟩
    · rw [convertMajoranaString, if_neg (by simp [h.type]), if_neg (by simpa using hops), hm]
      simp only [bind, Except.bind]
      rw [← hlg, ← hw1, ← hw2, List.length_map]
      rw [collect_ok (g := g)]
      · exact mkOperator_none_ok hne hnodup htype
      · intro ch hc
        rw [mToFLoop_eq large w ch (hlen ch hc) hmaj]
        simp only [List.nil_append, Nat.zero_add]
        exact mToFTerm_eq hn hlarge
    · intro M hM
      obtain ⟨t, ht, rfl⟩ := List.mem_map.mp hM
      obtain ⟨ch, _, ⟨q, e⟩, hne'⟩ := htm t ht
      rw [e]
      refine ⟨fermOf_string ((mF_sorted hn).imp (fun h => ne_of_lt h)) ((mB_sorted hn).imp (fun h => ne_of_lt h)) ?_, ?_, ?_, ?_⟩
      · intro l hl
        apply h.mem
        rw [← hw2]
        rcases List.mem_append.mp hl with hl | hl
        · exact mwrd_labels w ch _ (mem_mF.mp hl)
        · exact mwrd_labels w ch _ (mem_mB.mp hl)
      · rw [(fermOf_labels _ _ _).1]; exact mF_sorted hn
      · rw [(fermOf_labels _ _ _).2, List.pairwise_reverse]; exact mB_sorted hn
      · intro hi h0
        apply hne'
        refine ⟨?_, hi⟩
        simp only [fermOf, List.append_eq_nil_iff, List.replicate_eq_nil_iff, List.length_reverse, List.length_eq_zero_iff] at h0
        rw [List.eq_nil_iff_forall_not_mem]
        intro x hx
        rcases mwrd_ops w ch x hx with ho | ho
        · have : x.2 ∈ mF w ch := mem_mF.mpr (by rw [← ho]; exact hx)
          rw [h0.1] at this; simp at this
        · have : x.2 ∈ mB w ch := mem_mB.mpr (by rw [← ho]; exact hx)
          rw [h0.2] at this; simp at this
    · intro c hc
      obtain ⟨t, ht, rfl⟩ := List.mem_map.mp hc
      obtain ⟨ch, hcc, e⟩ := List.mem_filterMap.mp ht
      obtain ⟨j, q, hq, hk⟩ := mkappa_phase (K := K) large w s.pref ch
      have hb : (1 / 10 ^ 16 : ℝ) < ‖toC (mkappa large w (s.pref.val : K) ch)‖ := by
        rw [hk, map_mul, norm_mul, hq.norm, norm_two_pow, mul_one]
        have h1 : (1 : ℝ) ≤ 2 ^ j := one_le_pow₀ (by norm_num)
        refine lt_of_lt_of_le ?_ h1
        norm_num
      have hri := real_or_imag hq hk
      rw [hg, mfterm] at e
      split at e
      · simp at e
      · split at e
        · simp at e
        · split at e
          · simp only [Option.some.injEq] at e; rw [← e]; exact hb
          · split at e
            · rename_i h3
              rcases hri with ⟨_, h4, _⟩ | ⟨h4, _⟩
              · simp only [Option.some.injEq] at e; rw [← e]
                simp only [h4]; exact hb
              · rw [h4] at h3; simp at h3
            · rename_i h3
              rcases hri with ⟨h4, _⟩ | ⟨_, _, h4, _⟩
              · exact absurd h4 h3
              · simp only [Option.some.injEq] at e; rw [← e]
                rw [← h4, map_mul, norm_mul, toC_I, Complex.norm_I, mul_one] at hb
                exact hb
    · intro hi
      rw [List.filter_eq_nil_iff.mpr (by intro ch _; simp [hi])]; simp
    · intro 𝔸 _ _ _ _ R hs
      have hden : (⟨terms.map Prod.fst, Basis.ofList (terms.map Prod.snd), .fermion⟩ : Operator K).den R.fden = denT R.fden terms := by
        rw [Operator.den, Operator.terms]
        simp only [Basis.ofList, zip_fst_snd]
      rw [hden, hterms, hg, mfterm_den R hn hS hlarge, R.den_eq, ← hw, mexpand R w hmaj hS, ← sum_map_smul]
      -- conjugation of a term
      have hstar : ∀ ch ∈ choices w.length, star ((s.pref.val : K) • mterm R w ch) = (s.pref.val : K) • mterm R w (mflip w ch) := by
        intro ch hc
        rw [star_smul, star_mterm R hs w ch (hlen ch hc) hmaj hS hn, smul_smul]
        congr 1
        have hodd : modd w = numAB s.ops := by
          rw [modd, numAB, ← hw1, List.filter_map, List.length_map, List.countP_eq_length_filter]
          congr 1
          apply List.filter_congr
          intro x hx
          rcases hmaj x hx with h | h | h <;> simp [h]
        rw [hodd]
        by_cases hi : s.pref = .imag
        · have := h.pref.mp hi
          rw [← numAB] at this
          rw [hi, show (Pref.imag.val : K) = I from rfl, star_I, Odd.neg_one_pow (Nat.odd_iff.mpr this)]; ring
        · have : ¬ ((numAB s.ops).choose 2) % 2 = 1 := fun h' => hi (h.pref.mpr h')
          rw [Pref.val_of_ne_imag hi, Even.neg_one_pow (Nat.even_iff.mpr (by omega))]; simp
      have hperm := (perm_mflip w).map (fun ch => if compare (mF w ch) (mB w ch) < 0 then (s.pref.val : K) • mterm R w ch else 0)
      have hsum := hperm.sum_eq
      rw [List.map_map] at hsum
      rw [← sum_map_add']
      have e2 : ((choices w.length).map (fun ch => if 0 < compare (mF w ch) (mB w ch) then star ((s.pref.val : K) • mterm R w ch) else 0)) =
          ((choices w.length).map ((fun ch => if compare (mF w ch) (mB w ch) < 0 then (s.pref.val : K) • mterm R w ch else 0) ∘ mflip w)) := by
        apply List.map_congr_left
        intro ch hc
        simp only [Function.comp_apply]
        rw [(mF_mflip (hlen ch hc) hmaj).1, (mF_mflip (hlen ch hc) hmaj).2, hstar ch hc]
        have := (C24_total_order (mF w ch) (mB w ch) []).1
        by_cases h1 : 0 < compare (mF w ch) (mB w ch)
        · rw [if_pos h1, if_pos (by omega)]
        · rw [if_neg h1, if_neg (by omega)]
      rw [e2, hsum, sum_map_add']
      congr 1
      apply List.map_congr_left
      intro ch _
      by_cases h1 : compare (mF w ch) (mB w ch) < 0
      · rw [if_pos h1, if_pos h1, zero_add]; rfl
      · rw [if_neg h1, if_neg h1, add_zero]; rfl

/-- the conversion of a Majorana string -/
theorem convertMajoranaString_ok {s : OpString} (h : MajoranaString S s) (incl : Bool) :
    ∃ (O : Operator K) (k : K), convertMajoranaString s incl = .ok O ∧ O.opType = .fermion ∧ O.WF ∧
      (∀ M ∈ O.basis.strs, FermionString S M ∧ M.cdagLabels.Pairwise (· < ·) ∧ M.cLabels.Pairwise (· > ·) ∧ (incl = false → M.ops ≠ [])) ∧
      (∀ c ∈ O.coeffs, (1 / 10 ^ 16 : ℝ) < ‖toC c‖) ∧ (incl = true → k = 0) ∧
      ∀ {𝔸 : Type} [Ring 𝔸] [Algebra K 𝔸] [StarRing 𝔸] [StarModule K 𝔸] (R : MajoranaRep K 𝔸 S)
        (_ : ∀ i ∈ S, star (R.a i) = R.a i ∧ star (R.b i) = R.b i), R.den s = O.den R.fden + k • 1 := by
  obtain ⟨O, k, g1, g2, g3, g4, g5, g6, g7, -⟩ := convertMajoranaString_full (K := K) h incl
  exact ⟨O, k, g1, g2, g3, g4, g5, g6, g7⟩

end Qosy
