import Verif.Lemmas.Quadratic
import Verif.Lemmas.Conversion
import Verif.Props.Tools

/-! # Conversion of quadratic Fermion strings -/

namespace Qosy
open Coef
variable {K : Type} [Field K] [StarRing K] [Coef K] {S : Set ℤ}

theorem quadratic_labels {n : ℕ} {s : OpString} (hs : Hopping n s ∨ Pairing n s) : ∃ i j, i ∈ siteLabels n ∧ j ∈ siteLabels n ∧ s.labels = [i, j] ∧
    ((s.ops = [.CDag, .C] ∧ s.cdagLabels = [i] ∧ s.cLabels = [j]) ∨ (s.ops = [.CDag, .CDag] ∧ s.cdagLabels = [i, j] ∧ s.cLabels = [] ∧ i ≠ j)) := by
  rcases hs with ⟨hf, ho, -⟩ | ⟨hf, ho⟩
  · obtain ⟨i, j, hl⟩ : ∃ l m, s.labels = [l, m] := List.length_eq_two.mp (by rw [← hf.len, ho]; rfl)
    exact ⟨i, j, hf.mem i (by simp [hl]), hf.mem j (by simp [hl]), hl, Or.inl ⟨ho, by simp [OpString.cdagLabels, ho, hl], by simp [OpString.cLabels, ho, hl]⟩⟩
  · obtain ⟨i, j, hl⟩ : ∃ l m, s.labels = [l, m] := List.length_eq_two.mp (by rw [← hf.len, ho]; rfl)
    have h1 : s.cdagLabels = [i, j] := by simp [OpString.cdagLabels, ho, hl]
    refine ⟨i, j, hf.mem i (by simp [hl]), hf.mem j (by simp [hl]), hl, Or.inr ⟨ho, h1, by simp [OpString.cLabels, ho, hl], ?_⟩⟩
    have := hf.cdag_nodup
    rw [h1] at this
    simpa using this

theorem Hopping.fermion {n : ℕ} {s : OpString} (hs : Hopping n s ∨ Pairing n s) : FermionString (siteLabels n) s := by
  rcases hs with h | h
  · exact h.1
  · exact h.1

/-- the conversion of a hopping or pairing string to Majorana strings -/
theorem fermion_quadratic {n : ℕ} {s : OpString} (hs : Hopping n s ∨ Pairing n s) : ∃ O : Operator K,
    convertString s .majorana false = .ok O ∧ O.opType = .majorana ∧ O.WF ∧ (∀ M ∈ O.basis.strs, QuadraticMajorana n M) ∧
    (∀ c ∈ O.coeffs, star c = c) ∧ ∀ {𝔸 : Type} [Ring 𝔸] [Algebra K 𝔸] [StarRing 𝔸] [StarModule K 𝔸] (R : MajoranaRep K 𝔸 (siteLabels n))
      (_ : ∀ i ∈ siteLabels n, star (R.a i) = R.a i ∧ star (R.b i) = R.b i),
      R.fden s = O.den R.den + (if s.OwnConjugate then (1 / 2 : K) else 0) • 1 := by
  have hf := Hopping.fermion hs
  have hreal : s.OwnConjugate → s.pref ≠ .imag := by
    rcases hs with h | h
    · exact h.2.2
    · obtain ⟨i, j, -, -, hl, h1 | h1⟩ := quadratic_labels (Or.inr h)
      · have := h.2; rw [h1.1] at this; exact absurd this (by decide)
      · intro hc; rw [OpString.OwnConjugate, h1.2.1, h1.2.2.1] at hc; simp at hc
  obtain ⟨i, j, hi, hj, hl, hcases⟩ := quadratic_labels hs
  obtain ⟨O, k, g1, g2, g3, g4, g5, g6, g7, ops, o2, o3, o4, o5, o6, hk, hO⟩ := convertFermionString_full (K := K) hf false
    (by rw [hl]; exact lt_of_le_of_lt (List.toFinset_card_le _) (by simp)) (Or.inl (by simp [hl])) (by
      by_cases h : s.OwnConjugate
      · exact Or.inl h
      · right; right
        rcases hcases with ⟨-, h1, h2⟩ | ⟨-, h1, h2, -⟩
        · rw [OpString.OwnConjugate, h1, h2] at h
          have : i ≠ j := by simpa using h
          exact ⟨i, by rw [h1, h2]; simp [this]⟩
        · exact ⟨i, by rw [h1, h2]; simp⟩)
  have hconv : convertString s .majorana false = .ok O := by
    unfold convertString
    rw [if_neg (by rw [hf.type]; simp)]
    simp only [hf.type]
    exact g1
  have hsign : (sortSign (s.cdagLabels ++ s.cLabels)).2 = 1 ∨ (sortSign (s.cdagLabels ++ s.cLabels)).2 = -1 := by
    rw [sortSign_snd]; exact neg_one_pow_eq_or ℤ _
  by_cases hown : s.OwnConjugate
  · -- number operator
    obtain ⟨-, h1, h2⟩ : s.ops = [.CDag, .C] ∧ s.cdagLabels = [i] ∧ s.cLabels = [j] := by
      rcases hcases with h | ⟨-, h1, h2, -⟩
      · exact h
      · rw [OpString.OwnConjugate, h1, h2] at hown; simp at hown
    have hij : i = j := by rw [OpString.OwnConjugate, h1, h2] at hown; simpa using hown
    subst hij
    have hops : ops = [(FType.CDagC, i)] := by
      have hm : (FType.CDagC, i) ∈ ops := (o6 i).mpr (by rw [h1, h2]; simp)
      have hall : ∀ l ∈ ops.map Prod.snd, l = i := fun l hl' => by
        have := (o3 l).mp hl'; rw [h1, h2] at this; simpa using this
      match ops, hm, o2, hall with
      | [x], hm, _, _ => rw [List.mem_singleton] at hm; rw [hm]
      | x :: y :: r, _, h, ha =>
        exfalso
        simp only [List.map_cons, List.pairwise_cons, List.mem_cons, forall_eq_or_imp] at h ha
        have := h.1.1
        omega
    have hsg : (sortSign (s.cdagLabels ++ s.cLabels)).2 = 1 := by
      rw [sortSign_snd, h1, h2]; simp [inversions]
    have hpv : (s.pref.val : K) = 1 := pref_real (hreal hown)
    have hkv : k = 1 / 2 := by
      rw [hk, hops, hsg, hpv, decide_eq_true hown]
      simp [choices, productRepeat, fwrd, pieceO, fullCoef, kappa, fcoef, pieceC, majOf, numAB, Pref.val]
    have hOv : O = ofTerms [(-(1 / 2), majOf [(.D, i)])] := by
      rw [hO, hops, hsg, hpv, decide_eq_true hown]
      simp [choices, productRepeat, fwrd, pieceO, fterm, kappa, fcoef, pieceC, majOf, numAB, Pref.val]
    refine ⟨O, hconv, g2, g3, ?_, ?_, ?_⟩
    · intro M hM
      refine ⟨(g4 M hM).1, Or.inl ?_⟩
      rw [hOv] at hM
      simp only [ofTerms, Basis.ofList, List.map_cons, List.map_nil, List.mem_singleton] at hM
      rw [hM]; rfl
    · intro c hc
      rw [hOv] at hc
      simp only [ofTerms, List.map_cons, List.map_nil, List.mem_singleton] at hc
      rw [hc, star_neg, star_div₀, star_one, show star (2 : K) = 2 from star_ofNat 2]
    · intro 𝔸 _ _ _ _ R hR
      rw [g7 R hR, if_pos hown, hkv]
  · have hne : i ≠ j := by
      rcases hcases with ⟨-, h1, h2⟩ | h
      · rw [OpString.OwnConjugate, h1, h2] at hown; simpa using hown
      · exact h.2.2.2
    have hmem : ∀ l, l ∈ s.cdagLabels ++ s.cLabels ↔ l = i ∨ l = j := by
      intro l
      rcases hcases with ⟨-, h1, h2⟩ | ⟨-, h1, h2, -⟩ <;> rw [h1, h2] <;> simp
    have hno : ∀ l, (FType.CDagC, l) ∉ ops := by
      intro l hl'
      have := (o6 l).mp hl'
      rcases hcases with ⟨-, h1, h2⟩ | ⟨-, h1, h2, -⟩ <;> rw [h1, h2] at this <;> simp at this
      exact hne (this.1.symm.trans this.2)
    have hlen : ops.length = 2 := by
      have e1 : (ops.map Prod.snd).toFinset = {i, j} := by
        ext l; rw [List.mem_toFinset, o3, hmem]; simp
      have e2 := List.toFinset_card_of_nodup (o2.imp (fun h => ne_of_lt h))
      rw [e1, Finset.card_pair hne, List.length_map] at e2
      exact e2.symm
    obtain ⟨x, y, hops⟩ := List.length_eq_two.mp hlen
    have hx : x.1 ≠ .CDagC := fun h => hno x.2 (by rw [hops, ← h]; simp)
    have hy : y.1 ≠ .CDagC := fun h => hno y.2 (by rw [hops, ← h]; simp)
    have hpiece : ∀ (t : FType) (b : Bool), t ≠ .CDagC → ∃ o, pieceO t b = [o] ∧ (o = .A ∨ o = .B) := by
      intro t b ht
      cases t <;> cases b <;> first | exact absurd rfl ht | exact ⟨_, rfl, by simp⟩
    have hword : ∀ ch : List Bool, ch.length = ops.length → ∃ p q, fwrd ops ch = [(p, x.2), (q, y.2)] ∧ (p = .A ∨ p = .B) ∧ (q = .A ∨ q = .B) := by
      intro ch hch
      rw [hlen] at hch
      obtain ⟨b1, b2, rfl⟩ := List.length_eq_two.mp hch
      obtain ⟨p, hp, hp'⟩ := hpiece x.1 b1 hx
      obtain ⟨q, hq, hq'⟩ := hpiece y.1 b2 hy
      refine ⟨p, q, ?_, hp', hq'⟩
      rw [hops]
      obtain ⟨t1, l1⟩ := x
      obtain ⟨t2, l2⟩ := y
      rw [fwrd, fwrd, hp, hq]; simp [fwrd]
    have hchl : ∀ ch ∈ choices ops.length, ch.length = ops.length := fun ch hch => (mem_productRepeat.mp hch).1
    have hkv : k = 0 := by
      rw [hk, List.filter_eq_nil_iff.mpr]
      · simp
      · intro ch hch
        obtain ⟨p, q, e, -⟩ := hword ch (hchl ch hch)
        simp [e]
    have hterm : ∀ t ∈ (choices ops.length).filterMap (fterm false (decide s.OwnConjugate) ops (sortSign (s.cdagLabels ++ s.cLabels)).2 (s.pref.val : K)),
        star t.1 = t.1 ∧ ∃ p q, t.2.ops = [p, q] ∧ (p = .A ∨ p = .B) ∧ (q = .A ∨ q = .B) := by
      intro t ht
      obtain ⟨ch, hch, e⟩ := List.mem_filterMap.mp ht
      obtain ⟨p, q, ew, hp, hq⟩ := hword ch (hchl ch hch)
      obtain ⟨ph, hph, hkap⟩ := kappa_phase (K := K) (hchl ch hch) hsign s.pref
      rw [fterm, if_neg (by rw [ew]; simp), decide_eq_false hown, if_pos rfl] at e
      rcases phase_split hph (by rw [hlen]; norm_num) hkap with ⟨h3, h4⟩ | ⟨h3, h4⟩
      · rw [if_pos h3] at e; cases e
      · rw [if_neg (by rw [h3]; simp)] at e
        rw [← Option.some.inj e]
        refine ⟨?_, p, q, ?_, hp, hq⟩
        · rw [h4, star_add, star_star, add_comm]
        · rw [ew]; rfl
    refine ⟨O, hconv, g2, g3, ?_, ?_, ?_⟩
    · intro M hM
      refine ⟨(g4 M hM).1, Or.inr ?_⟩
      rw [hO] at hM
      obtain ⟨t, ht, rfl⟩ := List.mem_map.mp hM
      exact (hterm t ht).2
    · intro c hc
      rw [hO] at hc
      obtain ⟨t, ht, rfl⟩ := List.mem_map.mp hc
      exact (hterm t ht).1
    · intro 𝔸 _ _ _ _ R hR
      rw [g7 R hR, if_neg hown, hkv]

/-- the conversion of a quadratic Majorana string to hopping and pairing strings -/
theorem majorana_quadratic {n : ℕ} {s : OpString} (hs : QuadraticMajorana n s) : ∃ O : Operator K,
    convertString s .fermion false = .ok O ∧ O.opType = .fermion ∧ O.WF ∧ (∀ M ∈ O.basis.strs, Hopping n M ∨ Pairing n M) ∧
    (∀ c ∈ O.coeffs, star c = c) ∧ ∀ {𝔸 : Type} [Ring 𝔸] [Algebra K 𝔸] [StarRing 𝔸] [StarModule K 𝔸] (R : MajoranaRep K 𝔸 (siteLabels n))
      (_ : ∀ i ∈ siteLabels n, star (R.a i) = R.a i ∧ star (R.b i) = R.b i),
      R.den s = O.den R.fden + (if s.ops = [.D] then (1 : K) else 0) • 1 := by
  obtain ⟨hm, hcases⟩ := hs
  have hne : s.ops ≠ [] := by rcases hcases with h | ⟨p, q, h, -⟩ <;> rw [h] <;> simp
  obtain ⟨O, k, g1, g2, g3, g4, g5, g6, g7, g8⟩ := convertMajoranaString_full (K := K) hm false
  obtain ⟨large, hk, hO⟩ := g8 hne
  have hconv : convertString s .fermion false = .ok O := by
    unfold convertString
    rw [if_neg (by rw [hm.type]; simp)]
    simp only [hm.type]
    exact g1
  rcases hcases with h | ⟨p, q, h, hp, hq⟩
  · obtain ⟨l, hl⟩ : ∃ l, s.labels = [l] := List.length_eq_one_iff.mp (by rw [← hm.len, h]; rfl)
    have hw : s.word = [(.D, l)] := by rw [OpString.word, h, hl]; rfl
    have hpv : (s.pref.val : K) = 1 := by
      apply pref_real
      intro hi
      have := hm.pref.mp hi
      rw [h] at this
      exact absurd this (by decide)
    have hchoices : choices (1 : ℕ) = [[false], [true]] := by decide
    have hF : mF [(.D, l)] [false] = [l] ∧ mB [(.D, l)] [false] = [l] := by
      constructor <;> simp [mF, mB, mwrd, mpieceO]
    have hcmp : compare [l] [l] = 0 := by simp [compare, compare.lex]
    have hkap : mkappa large [(.D, l)] (1 : K) [false] = -2 ∨ mkappa large [(.D, l)] (1 : K) [false] = 2 := by
      rw [mkappa]
      simp only [mcoef, mpieceC, mul_one, one_mul]
      rcases neg_one_pow_eq_or K (inversions ((mwrd [(.D, l)] [false]).map (mkey large))) with e | e <;> rw [e] <;> simp
    have hkv : k = 1 := by
      rw [hk, hw, hpv, show [(Op.D, l)].length = 1 from rfl, hchoices]
      simp [mwrd, mpieceO, mkappa, mcoef, mpieceC, inversions]
    have hOv : O = ⟨[mkappa large [(.D, l)] 1 [false]], Basis.ofList [fermOf .float1 [l] [l]], .fermion⟩ := by
      rw [hO, hw, hpv, show [(Op.D, l)].length = 1 from rfl, hchoices]
      have e1 : mfterm large false [(.D, l)] (1 : K) [false] = some (mkappa large [(.D, l)] 1 [false], fermOf .float1 [l] [l]) := by
        rw [mfterm, if_neg (by simp [mwrd, mpieceO]), hF.1, hF.2, hcmp, if_neg (by decide), if_pos rfl]
      have e2 : mfterm large false [(.D, l)] (1 : K) [true] = none := by
        rw [mfterm, if_pos (by simp [mwrd, mpieceO])]
      simp only [List.filterMap_cons, e1, e2, List.filterMap_nil, List.map_cons, List.map_nil]
    refine ⟨O, hconv, g2, g3, ?_, ?_, ?_⟩
    · intro M hM
      refine Or.inl ⟨(g4 M hM).1, ?_⟩
      rw [hOv] at hM
      simp only [Basis.ofList, List.mem_singleton] at hM
      rw [hM]
      exact ⟨rfl, fun _ => by simp [fermOf]⟩
    · intro c hc
      rw [hOv] at hc
      simp only [List.mem_singleton] at hc
      rw [hc]
      rcases hkap with e | e <;> rw [e] <;> simp
    · intro 𝔸 _ _ _ _ R hR
      rw [g7 R hR, if_pos h, hkv]
  · obtain ⟨l, m, hl⟩ : ∃ l m, s.labels = [l, m] := List.length_eq_two.mp (by rw [← hm.len, h]; rfl)
    have hlm : l ≠ m := by have := hm.nodup; rw [hl] at this; simpa using this
    have hw : s.word = [(p, l), (q, m)] := by rw [OpString.word, h, hl]; rfl
    have hpiece : ∀ (o : Op) (b : Bool), o = .A ∨ o = .B → mpieceO o b = [.C] ∨ mpieceO o b = [.CDag] := by
      rintro o b (rfl | rfl) <;> cases b <;> simp [mpieceO]
    have hword : ∀ ch : List Bool, ch.length = s.word.length → ∃ o o', mwrd s.word ch = [(o, l), (o', m)] ∧ (o = .C ∨ o = .CDag) ∧ (o' = .C ∨ o' = .CDag) := by
      intro ch hch
      rw [hw] at hch ⊢
      obtain ⟨b1, b2, rfl⟩ := List.length_eq_two.mp hch
      rcases hpiece p b1 hp with e1 | e1 <;> rcases hpiece q b2 hq with e2 | e2 <;>
        exact ⟨_, _, by rw [mwrd, mwrd, e1, e2]; rfl, by simp, by simp⟩
    have hchl : ∀ ch ∈ choices s.word.length, ch.length = s.word.length := fun ch hch => (mem_productRepeat.mp hch).1
    have hkv : k = 0 := by
      rw [hk, List.filter_eq_nil_iff.mpr]
      · simp
      · intro ch hch
        obtain ⟨o, o', e, -⟩ := hword ch (hchl ch hch)
        simp [e]
    have hterm : ∀ t ∈ (choices s.word.length).filterMap (mfterm large false s.word (s.pref.val : K)),
        star t.1 = t.1 ∧ ((t.2.ops = [.CDag, .C] ∧ ¬ t.2.OwnConjugate) ∨ t.2.ops = [.CDag, .CDag]) := by
      intro t ht
      obtain ⟨ch, hch, e⟩ := List.mem_filterMap.mp ht
      obtain ⟨o, o', ew, ho, ho'⟩ := hword ch (hchl ch hch)
      have hFB : (mF s.word ch = [] ∧ (mB s.word ch).length = 2) ∨ (mF s.word ch = [l] ∧ mB s.word ch = [m]) ∨ (mF s.word ch = [m] ∧ mB s.word ch = [l]) ∨
          ((mF s.word ch).length = 2 ∧ mB s.word ch = []) := by
        simp only [mF, mB, ew]
        rcases ho with rfl | rfl <;> rcases ho' with rfl | rfl
        · exact Or.inl ⟨rfl, List.length_insertionSort _ _⟩
        · exact Or.inr (Or.inr (Or.inl ⟨rfl, rfl⟩))
        · exact Or.inr (Or.inl ⟨rfl, rfl⟩)
        · exact Or.inr (Or.inr (Or.inr ⟨List.length_insertionSort _ _, rfl⟩))
      have hcmp : ¬ compare (mF s.word ch) (mB s.word ch) < 0 → compare (mF s.word ch) (mB s.word ch) ≠ 0 ∧
          (((mF s.word ch).length = 1 ∧ (mB s.word ch).length = 1) ∨ ((mF s.word ch).length = 2 ∧ (mB s.word ch).length = 0)) := by
        intro hlt
        rcases hFB with ⟨e1, e2⟩ | ⟨e1, e2⟩ | ⟨e1, e2⟩ | ⟨e1, e2⟩
        · exfalso
          apply hlt
          rw [compare, if_pos (by rw [e1, e2]; simp)]
          decide
        · rw [e1, e2]
          refine ⟨?_, Or.inl ⟨rfl, rfl⟩⟩
          simp only [compare, compare.lex, List.length_cons, List.length_nil, lt_irrefl, if_false]
          split
          · simp
          · split
            · simp
            · omega
        · rw [e1, e2]
          refine ⟨?_, Or.inl ⟨rfl, rfl⟩⟩
          simp only [compare, compare.lex, List.length_cons, List.length_nil, lt_irrefl, if_false]
          split
          · simp
          · split
            · simp
            · omega
        · refine ⟨?_, Or.inr ⟨e1, by rw [e2]; rfl⟩⟩
          rw [compare, if_neg (by rw [e1, e2]; simp), if_pos (by rw [e1, e2]; simp)]
          decide
      rw [mfterm, if_neg (by rw [ew]; simp)] at e
      by_cases h1 : compare (mF s.word ch) (mB s.word ch) < 0
      · rw [if_pos h1] at e; cases e
      obtain ⟨h2, h3⟩ := hcmp h1
      rw [if_neg h1, if_neg h2] at e
      have hgen : ∀ pr : Pref, ((fermOf pr (mF s.word ch) (mB s.word ch)).ops = [.CDag, .C] ∧ ¬ (fermOf pr (mF s.word ch) (mB s.word ch)).OwnConjugate) ∨
          (fermOf pr (mF s.word ch) (mB s.word ch)).ops = [.CDag, .CDag] := by
        intro pr
        rcases h3 with ⟨e1, e2⟩ | ⟨e1, e2⟩
        · left
          refine ⟨by simp [fermOf, e1, e2], ?_⟩
          rw [fermOf_own]
          intro e3
          apply h2
          rw [e3]
          exact ((C24_total_order (mB s.word ch) (mB s.word ch) []).2.2.2).mpr rfl
        · right
          simp [fermOf, e1, e2]
      split at e
      · rw [← Option.some.inj e]
        exact ⟨star_reOf _, hgen _⟩
      · rw [← Option.some.inj e]
        exact ⟨star_reOf _, hgen _⟩
    refine ⟨O, hconv, g2, g3, ?_, ?_, ?_⟩
    · intro M hM
      have hf := (g4 M hM).1
      rw [hO] at hM
      obtain ⟨t, ht, rfl⟩ := List.mem_map.mp hM
      rcases (hterm t ht).2 with ⟨h1, h2⟩ | h1
      · exact Or.inl ⟨hf, h1, fun h => absurd h h2⟩
      · exact Or.inr ⟨hf, h1⟩
    · intro c hc
      rw [hO] at hc
      obtain ⟨t, ht, rfl⟩ := List.mem_map.mp hc
      exact (hterm t ht).1
    · intro 𝔸 _ _ _ _ R hR
      rw [g7 R hR, if_neg (by rw [h]; simp), hkv]

theorem star_sum_mul (ts : List (K × OpString)) (g : OpString → K) (h1 : ∀ t ∈ ts, star t.1 = t.1) (h2 : ∀ t ∈ ts, star (g t.2) = g t.2) :
    star (ts.map (fun t => t.1 * g t.2)).sum = (ts.map (fun t => t.1 * g t.2)).sum := by
  induction ts with
  | nil => simp
  | cons t ts ih =>
    simp only [List.map_cons, List.sum_cons, star_add, star_mul']
    rw [ih (fun x hx => h1 x (List.mem_cons_of_mem _ hx)) (fun x hx => h2 x (List.mem_cons_of_mem _ hx)), h1 t (by simp), h2 t (by simp)]

/-- conversion of an operator, string by string, with real coefficients and constants -/
theorem convert_real {A : Operator K} (hA : A.WF) (hreal : ∀ c ∈ A.coeffs, star c = c) {tgt : OpType} (P : OpString → Prop) (κ : OpString → K)
    {den₁ den₂ : ∀ {𝔸 : Type} [Ring 𝔸] [Algebra K 𝔸] [StarRing 𝔸] [StarModule K 𝔸], MajoranaRep K 𝔸 S → OpString → 𝔸}
    (h : ∀ s ∈ A.basis.strs, ∃ O : Operator K, convertString s tgt false = .ok O ∧ O.opType = tgt ∧ O.WF ∧ (∀ M ∈ O.basis.strs, P M) ∧
      (∀ c ∈ O.coeffs, star c = c) ∧ ∀ {𝔸 : Type} [Ring 𝔸] [Algebra K 𝔸] [StarRing 𝔸] [StarModule K 𝔸] (R : MajoranaRep K 𝔸 S)
      (_ : ∀ i ∈ S, star (R.a i) = R.a i ∧ star (R.b i) = R.b i), den₁ R s = O.den (den₂ R) + κ s • 1) :
    ∃ C : Operator K, convertOperator A tgt false = .ok C ∧ C.WF ∧ C.opType = tgt ∧ (∀ M ∈ C.basis.strs, P M) ∧ (∀ c ∈ C.coeffs, star c = c) ∧
      ∀ {𝔸 : Type} [Ring 𝔸] [Algebra K 𝔸] [StarRing 𝔸] [StarModule K 𝔸] (R : MajoranaRep K 𝔸 S)
      (_ : ∀ i ∈ S, star (R.a i) = R.a i ∧ star (R.b i) = R.b i), A.den (den₁ R) = C.den (den₂ R) + (A.terms.map (fun t => t.1 * κ t.2)).sum • 1 := by
  have hex : ∀ s : OpString, ∃ O : Operator K, s ∈ A.basis.strs → (convertString s tgt false = .ok O ∧ O.opType = tgt ∧ O.WF ∧ (∀ M ∈ O.basis.strs, P M) ∧
      (∀ c ∈ O.coeffs, star c = c) ∧ ∀ {𝔸 : Type} [Ring 𝔸] [Algebra K 𝔸] [StarRing 𝔸] [StarModule K 𝔸] (R : MajoranaRep K 𝔸 S)
      (_ : ∀ i ∈ S, star (R.a i) = R.a i ∧ star (R.b i) = R.b i), den₁ R s = O.den (den₂ R) + κ s • 1) := by
    intro s
    by_cases hs : s ∈ A.basis.strs
    · obtain ⟨O, hO⟩ := h s hs
      exact ⟨O, fun _ => hO⟩
    · exact ⟨⟨[], Basis.ofList [], tgt⟩, fun h' => absurd h' hs⟩
  choose f hf using hex
  have hterms : ∀ t ∈ A.terms, t.1 ∈ A.coeffs ∧ t.2 ∈ A.basis.strs := fun t ht => List.of_mem_zip ht
  obtain ⟨C, h1, h2, h3, h4, h5, h6⟩ := convertOperator_den hA f (fun s hs => ⟨(hf s hs).1, (hf s hs).2.2.1, (hf s hs).2.1⟩)
  refine ⟨C, h1, h2, h3, ?_, ?_, ?_⟩
  · intro M hM
    obtain ⟨t, ht, hM⟩ := h4 M hM
    exact (hf t ht).2.2.2.1 M hM
  · intro c hc
    obtain ⟨s, -, rfl⟩ := h2.coeffs_mem hc
    rw [h5]
    apply star_sum_mul _ (fun u => (f u).coef s) (fun t ht => hreal _ (hterms t ht).1)
    intro t ht
    have hfr := hf t.2 (hterms t ht).2
    rw [hfr.2.2.1.coef_eq]
    split
    · rename_i hs
      apply hfr.2.2.2.2.1
      have hi : (f t.2).basis.strs.idxOf s < (f t.2).coeffs.length := by rw [hfr.2.2.1.len]; exact List.idxOf_lt_length_iff.mpr hs
      rw [List.getD_eq_getElem _ _ hi]
      exact List.getElem_mem hi
    · simp
  · intro 𝔸 _ _ _ _ R hR
    rw [h6, Operator.den, denT]
    have : ∀ ts : List (K × OpString), (∀ t ∈ ts, t.2 ∈ A.basis.strs) → (ts.map (fun t => t.1 • den₁ R t.2)).sum =
        (ts.map (fun t => t.1 • (f t.2).den (den₂ R))).sum + (ts.map (fun t => t.1 * κ t.2)).sum • (1 : 𝔸) := by
      intro ts
      induction ts with
      | nil => simp
      | cons t ts ih =>
        intro h
        simp only [List.map_cons, List.sum_cons]
        rw [ih (fun x hx => h x (List.mem_cons_of_mem _ hx)), (hf t.2 (h t (List.mem_cons_self ..))).2.2.2.2.2 R hR, smul_add, smul_smul, add_smul]
        abel
    exact this A.terms (fun t ht => (hterms t ht).2)

end Qosy
