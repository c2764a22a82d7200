import Verif.Lemmas.OperationCore
import Mathlib.Data.List.Sort

/-! # Linear independence of strings in normal form -/

namespace Qosy
open Coef

variable {K : Type} [Field K] [StarRing K] [Coef K]
variable {𝔸 : Type} [Ring 𝔸] [Algebra K 𝔸] {S : Set ℤ}

/-- conjugation by `u` multiplies `x` by a sign -/
theorem independent_aux [Nontrivial 𝔸] {ι : Type} [DecidableEq ι] (d : ι → 𝔸) (hd : ∀ i, d i * d i = 1)
    (sep : ∀ i j, i ≠ j → ∃ (u : 𝔸) (ε : ι → K), u * u = 1 ∧ (∀ k, u * d k = ε k • (d k * u)) ∧ ε i ≠ ε j) :
    ∀ (n : ℕ) (s : Finset ι), s.card = n → ∀ (w : ι → K), ∑ k ∈ s, w k • d k = 0 → ∀ i ∈ s, w i = 0 := by
  intro n
  induction n with
  | zero => intro s hs w _ i hi; rw [Finset.card_eq_zero] at hs; subst hs; simp at hi
  | succ n ih =>
    intro s hs w h i hi
    by_cases hone : ∃ j ∈ s, j ≠ i
    · obtain ⟨j, hj, hji⟩ := hone
      obtain ⟨u, ε, hu, hc, hne⟩ := sep i j (Ne.symm hji)
      have h1 : ∑ k ∈ s, (w k * ε k) • d k = 0 := by
        have : u * (∑ k ∈ s, w k • d k) * u = ∑ k ∈ s, (w k * ε k) • d k := by
          rw [Finset.mul_sum, Finset.sum_mul]
          apply Finset.sum_congr rfl
          intro k _
          rw [mul_smul_comm, hc, smul_smul, smul_mul_assoc, mul_assoc, hu, mul_one]
        rw [← this, h]; simp
      have h2 : ∑ k ∈ s, (w k * (ε k - ε j)) • d k = 0 := by
        have : ∑ k ∈ s, (w k * (ε k - ε j)) • d k = ∑ k ∈ s, (w k * ε k) • d k - ε j • ∑ k ∈ s, w k • d k := by
          rw [Finset.smul_sum, ← Finset.sum_sub_distrib]
          apply Finset.sum_congr rfl
          intro k _
          rw [smul_smul, ← sub_smul]; congr 1; ring
        rw [this, h1, h]; simp
      rw [← Finset.add_sum_erase s _ hj] at h2
      simp only [sub_self, mul_zero, zero_smul, zero_add] at h2
      have := ih (s.erase j) (by rw [Finset.card_erase_of_mem hj]; omega) _ h2 i (Finset.mem_erase.mpr ⟨Ne.symm hji, hi⟩)
      exact (mul_eq_zero.mp this).resolve_right (sub_ne_zero.mpr hne)
    · push Not at hone
      have : s = {i} := by
        ext k; simp only [Finset.mem_singleton]
        exact ⟨hone k, fun h => h ▸ hi⟩
      rw [this, Finset.sum_singleton] at h
      have h2 : (w i • d i) * d i = 0 := by rw [h, zero_mul]
      rw [smul_mul_assoc, hd] at h2
      by_contra hw
      have h3 := congrArg (fun x => (w i)⁻¹ • x) h2
      simp only [smul_smul, inv_mul_cancel₀ hw, one_smul, smul_zero] at h3
      exact one_ne_zero h3

namespace SiteSys
variable (R : SiteSys K 𝔸 S)

/-- the number of operators of a word that anticommute with the operator `o` on site `i` -/
def sgn (o : Op) (i : ℤ) (w : Word) : ℕ :=
  (w.map (fun x => if x.2 = i then (if x.1 = o then 0 else 1) else if R.odd o ∧ R.odd x.1 then 1 else 0)).sum

theorem site_mul_prod {o : Op} {i : ℤ} (ho : R.ok o) (hi : i ∈ S) {w : Word} (hw : R.Ok w) :
    R.site o i * R.prod w = ((-1 : K) ^ R.sgn o i w) • (R.prod w * R.site o i) := by
  induction w with
  | nil => simp [sgn]
  | cons x w ih =>
    have h1 : R.site o i * R.site x.1 x.2 =
        ((-1 : K) ^ (if x.2 = i then (if x.1 = o then 0 else 1) else if R.odd o ∧ R.odd x.1 then 1 else 0)) •
          (R.site x.1 x.2 * R.site o i) := by
      by_cases hx : x.2 = i
      · rw [if_pos hx, hx]
        by_cases hxo : x.1 = o
        · rw [if_pos hxo, hxo]; simp
        · rw [if_neg hxo]
          obtain ⟨c, o'', g1, g2, _, g4, g5⟩ := R.mul o x.1 ho hw.head.1 (Ne.symm hxo)
          obtain ⟨c', o3, k1, _, _, _, k5⟩ := R.mul x.1 o hw.head.1 ho hxo
          rw [g2] at k1
          simp only [Option.some.injEq, Prod.mk.injEq] at k1
          rw [g5 i hi, k5 i hi, ← k1.1, ← k1.2, smul_smul]
          congr 1
          rcases g4 with rfl | rfl <;> simp
      · rw [if_neg hx]
        exact R.comm o x.1 ho hw.head.1 i hi x.2 hw.head.2 (Ne.symm hx)
    rw [prod_cons, ← mul_assoc, h1, smul_mul_assoc, mul_assoc, ih hw.tail, mul_smul_comm, smul_smul, ← pow_add, mul_assoc]
    congr 2

theorem sgn_of_not_mem {o : Op} {i : ℤ} {w : Word} (h : i ∉ w.map Prod.snd) :
    R.sgn o i w = if R.odd o then (R.oddLabels w).length else 0 := by
  induction w with
  | nil => simp [sgn, oddLabels]
  | cons x w ih =>
    simp only [List.map_cons, List.mem_cons, not_or] at h
    have := ih h.2
    simp only [sgn, List.map_cons, List.sum_cons] at this ⊢
    rw [this, if_neg (Ne.symm h.1), oddLabels_cons]
    by_cases h1 : R.odd o <;> by_cases h2 : R.odd x.1 <;> simp [h1, h2] <;> omega

theorem sgn_of_mem {o p : Op} {i : ℤ} {w : Word} (hn : (w.map Prod.snd).Nodup) (h : (p, i) ∈ w) :
    R.sgn o i w + (if R.odd o ∧ R.odd p then 1 else 0) = (if p = o then 0 else 1) + if R.odd o then (R.oddLabels w).length else 0 := by
  induction w with
  | nil => simp at h
  | cons x w ih =>
    rw [List.map_cons, List.nodup_cons] at hn
    rcases List.mem_cons.mp h with h1 | h1
    · subst h1
      have := R.sgn_of_not_mem (o := o) hn.1
      simp only [sgn, List.map_cons, List.sum_cons] at this ⊢
      rw [this, oddLabels_cons]
      by_cases h1 : R.odd o <;> by_cases h2 : R.odd p <;> simp [h1, h2]; omega
    · have hx : x.2 ≠ i := fun e => hn.1 (e ▸ List.mem_map_of_mem (f := Prod.snd) h1)
      have := ih hn.2 h1
      simp only [sgn, List.map_cons, List.sum_cons] at this ⊢
      rw [if_neg hx, oddLabels_cons, add_assoc, this]
      by_cases h1 : R.odd o <;> by_cases h2 : R.odd x.1 <;> simp [h1, h2]; omega

end SiteSys

/-- two different words with increasing labels differ at some site -/
theorem words_differ {v w : Word} (hv : (v.map Prod.snd).Pairwise (· < ·)) (hw : (w.map Prod.snd).Pairwise (· < ·)) (h : v ≠ w) :
    ∃ x, (x ∈ v ∧ x ∉ w) ∨ (x ∈ w ∧ x ∉ v) := by
  by_contra hc
  push Not at hc
  apply h
  have nd : ∀ {u : Word}, (u.map Prod.snd).Pairwise (· < ·) → u.Nodup := by
    intro u hu
    exact List.Nodup.of_map Prod.snd (hu.imp (fun h => ne_of_lt h))
  have hp : v.Perm w := (List.perm_ext_iff_of_nodup (nd hv) (nd hw)).mpr (fun x => ⟨(hc x).1, (hc x).2⟩)
  rw [List.pairwise_map] at hv hw
  exact hp.eq_of_pairwise (le := fun a b => a.2 < b.2) (fun a b _ _ h1 h2 => absurd h1 (asymm h2)) hv hw

theorem fst_eq_of_nodup {w : Word} (hn : (w.map Prod.snd).Nodup) {p q : Op} {i : ℤ} (h1 : (p, i) ∈ w) (h2 : (q, i) ∈ w) : p = q := by
  induction w with
  | nil => simp at h1
  | cons x w ih =>
    rw [List.map_cons, List.nodup_cons] at hn
    rcases List.mem_cons.mp h1 with e1 | h1' <;> rcases List.mem_cons.mp h2 with e2 | h2'
    · rw [← e1] at e2; simp only [Prod.mk.injEq, and_true] at e2; exact e2.symm
    · exact absurd (by rw [← e1]; exact List.mem_map.mpr ⟨(q, i), h2', rfl⟩) hn.1
    · exact absurd (by rw [← e2]; exact List.mem_map.mpr ⟨(p, i), h1', rfl⟩) hn.1
    · exact ih hn.2 h1' h2'

theorem pow_ne_of_parity {m n : ℕ} (h : m % 2 ≠ n % 2) : (-1 : K) ^ m ≠ (-1 : K) ^ n := by
  rcases Nat.mod_two_eq_zero_or_one m with h1 | h1 <;> rcases Nat.mod_two_eq_zero_or_one n with h2 | h2
  · omega
  · rw [(Nat.even_iff.mpr h1).neg_one_pow, (Nat.odd_iff.mpr h2).neg_one_pow]
    intro h; have : (2 : K) = 0 := by linear_combination h
    exact two_ne_zero' this
  · rw [(Nat.odd_iff.mpr h1).neg_one_pow, (Nat.even_iff.mpr h2).neg_one_pow]
    intro h; have : (2 : K) = 0 := by linear_combination -h
    exact two_ne_zero' this
  · omega

/-- Pauli words are separated by a single site operator -/
theorem PauliRep.sgn_sep (R : PauliRep K 𝔸 S) {v w : Word} (hv : (v.map Prod.snd).Pairwise (· < ·)) (hw : (w.map Prod.snd).Pairwise (· < ·))
    (okv : R.sys.Ok v) {x : Op × ℤ} (h1 : x ∈ v) (h2 : x ∉ w) :
    ∃ o i, R.sys.ok o ∧ i ∈ S ∧ R.sys.sgn o i v % 2 ≠ R.sys.sgn o i w % 2 := by
  obtain ⟨p, i⟩ := x
  have hi := (okv _ h1).2
  have hp := (okv _ h1).1
  have nv := hv.imp (fun h => ne_of_lt h)
  have nw := hw.imp (fun h => ne_of_lt h)
  have hod : ∀ o, R.sys.odd o = false := fun o => rfl
  by_cases hmem : i ∈ w.map Prod.snd
  · obtain ⟨⟨q, i'⟩, hq, rfl⟩ := List.mem_map.mp hmem
    have hqp : q ≠ p := fun e => h2 (e ▸ hq)
    refine ⟨p, i', hp, hi, ?_⟩
    have e1 := R.sys.sgn_of_mem (o := p) nv h1
    have e2 := R.sys.sgn_of_mem (o := p) nw hq
    simp [hod, hqp] at e1 e2
    omega
  · obtain ⟨o, ho, hop⟩ : ∃ o, R.sys.ok o ∧ p ≠ o := by
      rcases hp with rfl | rfl | rfl
      · exact ⟨.Y, Or.inr (Or.inl rfl), by decide⟩
      · exact ⟨.X, Or.inl rfl, by decide⟩
      · exact ⟨.X, Or.inl rfl, by decide⟩
    refine ⟨o, i, ho, hi, ?_⟩
    have e1 := R.sys.sgn_of_mem (o := o) nv h1
    have e2 := R.sys.sgn_of_not_mem (o := o) hmem
    simp [hod, hop] at e1 e2
    omega

/-- Majorana words are separated by a single site operator -/
theorem MajoranaRep.sgn_sep (R : MajoranaRep K 𝔸 S) {v w : Word} (hv : (v.map Prod.snd).Pairwise (· < ·)) (hw : (w.map Prod.snd).Pairwise (· < ·))
    (okv : R.sys.Ok v) (okw : R.sys.Ok w) {x : Op × ℤ} (h1 : x ∈ v) (h2 : x ∉ w) :
    ∃ o i, R.sys.ok o ∧ i ∈ S ∧ R.sys.sgn o i v % 2 ≠ R.sys.sgn o i w % 2 := by
  have nv := hv.imp (fun h => ne_of_lt h)
  have nw := hw.imp (fun h => ne_of_lt h)
  have odd_iff : ∀ {u : Word} {l : ℤ}, l ∈ R.sys.oddLabels u ↔ ∃ p, (p, l) ∈ u ∧ R.sys.odd p = true := by
    intro u l
    simp only [SiteSys.oddLabels, List.mem_map, List.mem_filter]
    constructor
    · rintro ⟨⟨p, l'⟩, ⟨h3, h4⟩, rfl⟩; exact ⟨p, h3, h4⟩
    · rintro ⟨p, h3, h4⟩; exact ⟨(p, l), ⟨h3, h4⟩, rfl⟩
  have hD : R.sys.odd .D = false := rfl
  have hAo : R.sys.odd .A = true := rfl
  have hBo : R.sys.odd .B = true := rfl
  -- the parity of `D` on a site
  have dsgn : ∀ {u : Word}, (u.map Prod.snd).Nodup → R.sys.Ok u → ∀ l, (R.sys.sgn .D l u) % 2 = if l ∈ R.sys.oddLabels u then 1 else 0 := by
    intro u nu oku l
    by_cases hm : l ∈ u.map Prod.snd
    · obtain ⟨⟨q, l'⟩, hq, rfl⟩ := List.mem_map.mp hm
      have e := R.sys.sgn_of_mem (o := .D) nu hq
      simp only [hD, Bool.false_eq_true, false_and, if_false, add_zero] at e
      rw [e]
      by_cases ho : R.sys.odd q = true
      · rw [if_pos (odd_iff.mpr ⟨q, hq, ho⟩), if_neg (fun e => by rw [e] at ho; simp [hD] at ho)]
      · have hno : l' ∉ R.sys.oddLabels u := by
          intro hc
          obtain ⟨p, hp, hpo⟩ := odd_iff.mp hc
          rw [fst_eq_of_nodup nu hp hq] at hpo
          exact ho hpo
        have hqD : q = .D := by
          rcases (oku _ hq).1 with h | h | h
          · exact absurd (by rw [show q = .A from h]; exact hAo) ho
          · exact absurd (by rw [show q = .B from h]; exact hBo) ho
          · exact h
        rw [if_pos hqD, if_neg hno]
    · have hno : l ∉ R.sys.oddLabels u := by
        intro hc
        obtain ⟨p, hp, _⟩ := odd_iff.mp hc
        exact hm (List.mem_map_of_mem (f := Prod.snd) hp)
      rw [R.sys.sgn_of_not_mem hm, if_neg hno]
      simp [hD]
  by_cases hpar : ∀ l, l ∈ R.sys.oddLabels v ↔ l ∈ R.sys.oddLabels w
  · have hlen : (R.sys.oddLabels v).length = (R.sys.oddLabels w).length := by
      have so : ∀ {u : Word}, (u.map Prod.snd).Nodup → (R.sys.oddLabels u).Nodup := by
        intro u hu
        unfold SiteSys.oddLabels
        exact List.Nodup.sublist (List.filter_sublist.map Prod.snd) hu
      exact ((List.perm_ext_iff_of_nodup (so nv) (so nw)).mpr hpar).length_eq
    obtain ⟨p, i⟩ := x
    have hi := (okv _ h1).2
    refine ⟨.A, i, Or.inl rfl, hi, ?_⟩
    have e1 := R.sys.sgn_of_mem (o := .A) nv h1
    simp only [hAo, true_and, if_true] at e1
    by_cases hmem : i ∈ w.map Prod.snd
    · obtain ⟨⟨q, i'⟩, hq, rfl⟩ := List.mem_map.mp hmem
      have hqp : q ≠ p := fun e => h2 (e ▸ hq)
      have e2 := R.sys.sgn_of_mem (o := .A) nw hq
      simp only [hAo, true_and, if_true] at e1 e2 ⊢
      have hpq : R.sys.odd p = true ↔ R.sys.odd q = true := by
        have := hpar i'
        rw [odd_iff, odd_iff] at this
        constructor
        · intro hpo
          obtain ⟨r, hr, hro⟩ := this.mp ⟨p, h1, hpo⟩
          rwa [fst_eq_of_nodup nw hr hq] at hro
        · intro hqo
          obtain ⟨r, hr, hro⟩ := this.mpr ⟨q, hq, hqo⟩
          rwa [fst_eq_of_nodup nv hr h1] at hro
      rcases (okv _ h1).1 with h | h | h <;> rcases (okw _ hq).1 with h' | h' | h' <;> simp only at h h' <;> subst h h' <;>
        simp [hAo, hBo, hD] at e1 e2 hpq hqp <;> omega
    · have e2 := R.sys.sgn_of_not_mem (o := .A) hmem
      simp only [hAo, if_true] at e2
      have hpe : p = .D := by
        rcases (okv _ h1).1 with h | h | h
        · exfalso
          have := (hpar i).mp (odd_iff.mpr ⟨p, h1, by rw [show p = .A from h]; exact hAo⟩)
          obtain ⟨q, hq, _⟩ := odd_iff.mp this
          exact hmem (List.mem_map_of_mem (f := Prod.snd) hq)
        · exfalso
          have := (hpar i).mp (odd_iff.mpr ⟨p, h1, by rw [show p = .B from h]; exact hBo⟩)
          obtain ⟨q, hq, _⟩ := odd_iff.mp this
          exact hmem (List.mem_map_of_mem (f := Prod.snd) hq)
        · exact h
      subst hpe
      simp [hD] at e1
      omega
  · push Not at hpar
    obtain ⟨l, hl⟩ := hpar
    have hlS : l ∈ S := by
      rcases hl with ⟨hl, _⟩ | ⟨_, hl⟩
      · obtain ⟨p, hp, _⟩ := odd_iff.mp hl; exact (okv _ hp).2
      · obtain ⟨p, hp, _⟩ := odd_iff.mp hl; exact (okw _ hp).2
    refine ⟨.D, l, Or.inr (Or.inr rfl), hlS, ?_⟩
    rw [dsgn nv okv, dsgn nw okw]
    rcases hl with ⟨h3, h4⟩ | ⟨h3, h4⟩ <;> simp [h3, h4]

theorem word_inj {s t : OpString} (hs : s.ops.length = s.labels.length) (ht : t.ops.length = t.labels.length) (h : s.word = t.word) :
    s.ops = t.ops ∧ s.labels = t.labels := by
  constructor
  · rw [← word_map_fst hs, ← word_map_fst ht, h]
  · rw [← word_map_snd hs, ← word_map_snd ht, h]

theorem PauliRep.separates (R : PauliRep K 𝔸 S) {A B : OpString} (hA : PauliString S A) (hB : PauliString S B)
    (cA : A.Canonical) (cB : B.Canonical) (h : A ≠ B) :
    ∃ (u : 𝔸) (ε : OpString → K), u * u = 1 ∧ (∀ s, PauliString S s → u * R.den s = ε s • (R.den s * u)) ∧ ε A ≠ ε B := by
  have hne : A.word ≠ B.word := by
    intro e
    obtain ⟨e1, e2⟩ := word_inj hA.len hB.len e
    have e3 : A.pref = B.pref := by
      rw [cA.2.resolve_left hA.pref, cB.2.resolve_left hB.pref]
    apply h
    obtain ⟨a1, a2, a3, a4⟩ := A; obtain ⟨b1, b2, b3, b4⟩ := B
    simp only at e1 e2 e3
    have e4 := hA.type.trans hB.type.symm
    simp only at e4
    rw [e1, e2, e3, e4]
  have sA : (A.word.map Prod.snd).Pairwise (· < ·) := by rw [word_map_snd hA.len]; exact cA.1
  have sB : (B.word.map Prod.snd).Pairwise (· < ·) := by rw [word_map_snd hB.len]; exact cB.1
  have key : ∃ o i, R.sys.ok o ∧ i ∈ S ∧ R.sys.sgn o i A.word % 2 ≠ R.sys.sgn o i B.word % 2 := by
    obtain ⟨x, ⟨h1, h2⟩ | ⟨h1, h2⟩⟩ := words_differ sA sB hne
    · exact R.sgn_sep sA sB hA.good.ok h1 h2
    · obtain ⟨o, i, g1, g2, g3⟩ := R.sgn_sep sB sA hB.good.ok h1 h2
      exact ⟨o, i, g1, g2, Ne.symm g3⟩
  obtain ⟨o, i, ho, hi, hs⟩ := key
  refine ⟨R.sys.site o i, fun s => (-1) ^ R.sys.sgn o i s.word, R.sys.sq o ho i hi, ?_, pow_ne_of_parity hs⟩
  intro s hs
  rw [R.den_eq, mul_smul_comm, R.sys.site_mul_prod ho hi hs.good.ok, smul_mul_assoc, smul_comm]

theorem MajoranaRep.separates (R : MajoranaRep K 𝔸 S) {A B : OpString} (hA : MajoranaString S A) (hB : MajoranaString S B)
    (cA : A.Canonical) (cB : B.Canonical) (h : A ≠ B) :
    ∃ (u : 𝔸) (ε : OpString → K), u * u = 1 ∧ (∀ s, MajoranaString S s → u * R.den s = ε s • (R.den s * u)) ∧ ε A ≠ ε B := by
  have hne : A.word ≠ B.word := by
    intro e
    obtain ⟨e1, e2⟩ := word_inj hA.len hB.len e
    have e3 : A.pref = B.pref := by
      have pA := hA.pref
      have pB := hB.pref
      rw [e1] at pA
      rcases cA.2 with h1 | h1 <;> rcases cB.2 with h2 | h2
      · rw [h1, h2]
      · exact absurd (pB.mpr (pA.mp h1)) (by rw [h2]; simp)
      · exact absurd (pA.mpr (pB.mp h2)) (by rw [h1]; simp)
      · rw [h1, h2]
    apply h
    obtain ⟨a1, a2, a3, a4⟩ := A; obtain ⟨b1, b2, b3, b4⟩ := B
    simp only at e1 e2 e3
    have e4 := hA.type.trans hB.type.symm
    simp only at e4
    rw [e1, e2, e3, e4]
  have sA : (A.word.map Prod.snd).Pairwise (· < ·) := by rw [word_map_snd hA.len]; exact cA.1
  have sB : (B.word.map Prod.snd).Pairwise (· < ·) := by rw [word_map_snd hB.len]; exact cB.1
  have key : ∃ o i, R.sys.ok o ∧ i ∈ S ∧ R.sys.sgn o i A.word % 2 ≠ R.sys.sgn o i B.word % 2 := by
    obtain ⟨x, ⟨h1, h2⟩ | ⟨h1, h2⟩⟩ := words_differ sA sB hne
    · exact R.sgn_sep sA sB hA.good.ok hB.good.ok h1 h2
    · obtain ⟨o, i, g1, g2, g3⟩ := R.sgn_sep sB sA hB.good.ok hA.good.ok h1 h2
      exact ⟨o, i, g1, g2, Ne.symm g3⟩
  obtain ⟨o, i, ho, hi, hs⟩ := key
  refine ⟨R.sys.site o i, fun s => (-1) ^ R.sys.sgn o i s.word, R.sys.sq o ho i hi, ?_, pow_ne_of_parity hs⟩
  intro s hs
  rw [R.den_eq, mul_smul_comm, R.sys.site_mul_prod ho hi hs.good.ok, smul_mul_assoc, smul_comm]

end Qosy
