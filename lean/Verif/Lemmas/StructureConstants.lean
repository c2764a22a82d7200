import Verif.Lemmas.Matrix
import Verif.Lemmas.StrAlg
import Verif.Model.AlgebraMatrix

/-! # Structure constants -/

namespace Qosy
open Coef
variable {K : Type} [Field K] [StarRing K] [Coef K]
variable {𝔸 : Type} [Ring 𝔸] [Algebra K 𝔸]

/-- the coefficient of `C` in the bracket of two strings -/
def scEntry (K : Type) [Field K] [StarRing K] [Coef K] (mode : Mode) (sA sB C : OpString) : K :=
  match (operationOpString mode sA sB : Py (K × Option OpString)) with
  | .ok (c, some C') => if C' = C then c else 0
  | _ => 0

/-- the string of the bracket of two strings is in the list (if there is one) -/
def scMem (K : Type) [Field K] [StarRing K] [Coef K] (mode : Mode) (sA sB : OpString) (strs : List OpString) : Prop :=
  ∀ (c : K) (C : OpString), operationOpString mode sA sB = .ok (c, some C) → C ∈ strs

/-- the loop invariant: the data collected so far are the coefficients of the brackets of the strings `pre` with `sB` -/
structure ScInv (mode : Mode) (sB : OpString) (pre strs : List OpString) (D : List (ℕ × ℕ × K)) : Prop where
  entry : ∀ c a, tget D c a = match strs[c]?, pre[a]? with
    | some C, some sA => scEntry K mode sA sB C
    | _, _ => 0
  range : ∀ e ∈ D, e.1 < strs.length ∧ e.2.1 < pre.length
  mem : ∀ sA ∈ pre, scMem K mode sA sB strs
  sound : ∀ e ∈ D, ∃ sA C, pre[e.2.1]? = some sA ∧ strs[e.1]? = some C ∧ ∃ c : K, operationOpString mode sA sB = .ok (c, some C)

theorem scEntry_eq_zero {mode : Mode} {sA sB C : OpString} {strs : List OpString} (h : scMem K mode sA sB strs) (hC : C ∉ strs) :
    scEntry K mode sA sB C = 0 := by
  unfold scEntry
  split
  · rename_i c C' h'
    split
    · rename_i e; subst e; exact absurd (h c C' h') hC
    · rfl
  · rfl

theorem ScInv.extend {mode : Mode} {sB : OpString} {pre strs strs' : List OpString} {D : List (ℕ × ℕ × K)} (h : ScInv mode sB pre strs D)
    (hp : strs <+: strs') (hn : strs'.Nodup) : ScInv mode sB pre strs' D := by
  obtain ⟨t, rfl⟩ := hp
  refine ⟨?_, ?_, ?_, ?_⟩
  · intro c a
    rw [h.entry]
    by_cases hc : c < strs.length
    · rw [List.getElem?_append_left hc]
    · rw [List.getElem?_eq_none (by omega : strs.length ≤ c)]
      cases h1 : (strs ++ t)[c]? with
      | none => rfl
      | some C =>
        cases h2 : pre[a]? with
        | none => rfl
        | some sA =>
          rw [List.getElem?_append_right (by omega)] at h1
          have : C ∉ strs := fun hC => (List.nodup_append.mp hn).2.2 C hC C (List.mem_of_getElem? h1) rfl
          exact (scEntry_eq_zero (h.mem sA (List.mem_of_getElem? h2)) this).symm
  · intro e he
    have := h.range e he
    simp; omega
  · intro sA hs c C hC
    exact List.mem_append_left _ (h.mem sA hs c C hC)
  · intro e he
    obtain ⟨sA, C, h1, h2, h3⟩ := h.sound e he
    exact ⟨sA, C, h1, by rw [List.getElem?_append_left (h.range e he).1]; exact h2, h3⟩

/-- every string of the extended basis is a result -/
def ScProd (K : Type) [Field K] [StarRing K] [Coef K] (mode : Mode) (LA LB : List OpString) (C : OpString) : Prop :=
  ∃ sA ∈ LA, ∃ sB ∈ LB, ∃ c : K, operationOpString mode sA sB = .ok (c, some C)

theorem StrAlg.scStep (R : StrAlg K 𝔸) (mode : Mode) {tol : ℚ} (htol : 0 < tol) (htol' : tol ≤ 1) {sA sB : OpString}
    (hA : R.Str sA) (hB : R.Str sB) {pre strs : List OpString} {D : List (ℕ × ℕ × K)} (hn : strs.Nodup)
    (h : ScInv mode sB pre strs D) :
    ∃ strs' D', Qosy.scStep mode tol sB (Basis.ofList strs, D) (sA, pre.length) = .ok (Basis.ofList strs', D') ∧ strs <+: strs' ∧ strs'.Nodup ∧
      ScInv mode sB (pre ++ [sA]) strs' D' ∧
      (∀ C ∈ strs', C ∈ strs ∨ ∃ c : K, operationOpString mode sA sB = .ok (c, some C)) := by
  have snoc : ∀ (strs' : List OpString) (D' : List (ℕ × ℕ × K)), strs <+: strs' → strs'.Nodup → scMem K mode sA sB strs' →
      (∀ c, tget D' c pre.length = match strs'[c]? with | some C => scEntry K mode sA sB C | none => 0) →
      (∀ e ∈ D', e.2.1 = pre.length ∧ e.1 < strs'.length) →
      (∀ e ∈ D', ∃ C, strs'[e.1]? = some C ∧ ∃ c : K, operationOpString mode sA sB = .ok (c, some C)) → ScInv mode sB (pre ++ [sA]) strs' (D ++ D') := by
    intro strs' D' hp hn' hm hD hr hs'
    have h' := h.extend hp hn'
    refine ⟨?_, ?_, ?_, ?_⟩
    · intro c a
      rw [tget_append, h'.entry]
      by_cases ha : a = pre.length
      · subst ha
        rw [hD, List.getElem?_eq_none (le_refl _), List.getElem?_concat_length]
        cases strs'[c]? <;> exact zero_add _
      · have h0 : tget D' c a = 0 := tget_eq_zero (fun e he => Or.inr (by rw [(hr e he).1]; exact fun h => ha h.symm))
        rw [h0, add_zero]
        by_cases ha' : a < pre.length
        · rw [List.getElem?_append_left ha']
        · rw [List.getElem?_eq_none (by omega : pre.length ≤ a), List.getElem?_eq_none (by simp; omega : (pre ++ [sA]).length ≤ a)]
    · intro e he
      rcases List.mem_append.mp he with he | he
      · have := h'.range e he; simp; omega
      · have := hr e he; simp; omega
    · intro s hs
      rcases List.mem_append.mp hs with hs | hs
      · exact h'.mem s hs
      · rw [List.mem_singleton.mp hs]; exact hm
    · intro e he
      rcases List.mem_append.mp he with he | he
      · obtain ⟨s, C, h1, h2, h3⟩ := h'.sound e he
        exact ⟨s, C, by rw [List.getElem?_append_left (h'.range e he).2]; exact h1, h2, h3⟩
      · obtain ⟨C, h1, h2⟩ := hs' e he
        exact ⟨sA, C, by rw [(hr e he).1, List.getElem?_concat_length], h1, h2⟩
  rcases R.op_string mode hA hB with ⟨h1, h2⟩ | ⟨c, C, h1, h2, h3, h4, h5, h6, h7⟩
  · refine ⟨strs, D, ?_, List.prefix_refl _, hn, ?_, fun C hC => Or.inl hC⟩
    · simp only [Qosy.scStep, h1, bind, Except.bind]
    · have := snoc strs [] (List.prefix_refl _) hn (by intro c C hC; rw [h1] at hC; simp at hC)
        (by intro c; rw [tget_nil]; cases strs[c]? <;> simp [scEntry, h1]) (by simp) (by simp)
      simpa using this
  · have hnl : absLt c tol = false := by
      rw [Bool.eq_false_iff]
      intro h
      have := (absLt_iff _ _).mp h
      rw [h4] at this
      have h8 : (tol : ℝ) ≤ 1 := by exact_mod_cast htol'
      cases mode <;> simp [bracketFactor] at this <;> linarith
    have hent : ∀ C', scEntry K mode sA sB C' = if C = C' then c else 0 := by intro C'; simp [scEntry, h1]
    have hidx := Basis.index_ofList (unionList strs [C]) C
    have hmem : C ∈ unionList strs [C] := mem_unionList.mpr (Or.inr (by simp))
    rw [if_pos hmem] at hidx
    have hpre : strs <+: unionList strs [C] := let ⟨t, ht⟩ := unionList_prefix strs [C]; ⟨t, ht.symm⟩
    have hnd := unionList_nodup hn [C]
    refine ⟨unionList strs [C], D ++ [((unionList strs [C]).idxOf C, pre.length, c)], ?_, hpre, hnd, ?_, ?_⟩
    · simp only [Qosy.scStep, h1, bind, Except.bind, hnl, Bool.false_eq_true, if_false, Basis.iaddString_ofList, hidx]
    · apply snoc _ _ hpre hnd
      · intro c' C' hC'
        rw [h1] at hC'
        simp only [Except.ok.injEq, Prod.mk.injEq, Option.some.injEq] at hC'
        rw [← hC'.2]; exact hmem
      · intro c'
        simp only [tget_cons, tget_nil, add_zero, and_true]
        by_cases hc : (unionList strs [C]).idxOf C = c'
        · subst hc
          rw [List.getElem?_eq_getElem (List.idxOf_lt_length_of_mem hmem), List.getElem_idxOf]
          simp [hent]
        · rw [if_neg hc]
          cases hg : (unionList strs [C])[c']? with
          | none => rfl
          | some C' =>
            show 0 = scEntry K mode sA sB C'
            rw [hent, if_neg]
            rintro rfl
            obtain ⟨g1, g2⟩ := List.getElem?_eq_some_iff.mp hg
            have := List.Nodup.idxOf_getElem hnd _ g1
            rw [g2] at this
            exact hc this
      · intro e he
        rw [List.mem_singleton.mp he]
        exact ⟨rfl, List.idxOf_lt_length_of_mem hmem⟩
      · intro e he
        rw [List.mem_singleton.mp he]
        exact ⟨C, by rw [List.getElem?_eq_getElem (List.idxOf_lt_length_of_mem hmem), List.getElem_idxOf], c, h1⟩
    · intro C' hC'
      rcases mem_unionList.mp hC' with h' | h'
      · exact Or.inl h'
      · rw [List.mem_singleton.mp h']; exact Or.inr ⟨c, h1⟩

theorem StrAlg.scInner (R : StrAlg K 𝔸) (mode : Mode) {tol : ℚ} (htol : 0 < tol) (htol' : tol ≤ 1) {sB : OpString} (hB : R.Str sB) :
    ∀ (l pre strs : List OpString) (D : List (ℕ × ℕ × K)), (∀ s ∈ l, R.Str s) → strs.Nodup → ScInv mode sB pre strs D →
    ∃ strs' D', (l.zipIdx pre.length).foldlM (Qosy.scStep mode tol sB) (Basis.ofList strs, D) = .ok (Basis.ofList strs', D') ∧
      strs <+: strs' ∧ strs'.Nodup ∧ ScInv mode sB (pre ++ l) strs' D' ∧
      (∀ C ∈ strs', C ∈ strs ∨ ∃ sA ∈ l, ∃ c : K, operationOpString mode sA sB = .ok (c, some C)) := by
  intro l
  induction l with
  | nil =>
    intro pre strs D _ hn h
    exact ⟨strs, D, rfl, List.prefix_refl _, hn, by simpa using h, fun C hC => Or.inl hC⟩
  | cons sA l ih =>
    intro pre strs D hl hn h
    obtain ⟨strs1, D1, h1, h2, h3, h4, h5⟩ := R.scStep mode htol htol' (hl sA (List.mem_cons_self ..)) hB hn h
    obtain ⟨strs2, D2, k1, k2, k3, k4, k5⟩ := ih (pre ++ [sA]) strs1 D1 (fun s hs => hl s (List.mem_cons_of_mem _ hs)) h3 h4
    refine ⟨strs2, D2, ?_, h2.trans k2, k3, by simpa using k4, ?_⟩
    · rw [List.zipIdx_cons, List.foldlM_cons, h1]
      simp only [List.length_append, List.length_singleton] at k1
      exact k1
    · intro C hC
      rcases k5 C hC with h' | ⟨s, hs, c, hc⟩
      · rcases h5 C h' with h'' | ⟨c, hc⟩
        · exact Or.inl h''
        · exact Or.inr ⟨sA, List.mem_cons_self .., c, hc⟩
      · exact Or.inr ⟨s, List.mem_cons_of_mem _ hs, c, hc⟩

theorem StrAlg.scOuter (R : StrAlg K 𝔸) (mode : Mode) {tol : ℚ} (htol : 0 < tol) (htol' : tol ≤ 1) {A : Basis}
    (hA : ∀ s ∈ A.strs, R.Str s) :
    ∀ (l pre strs : List OpString) (d : Dict (List (ℕ × ℕ × K))), (∀ s ∈ l, R.Str s) → strs.Nodup →
      (∀ sB ∈ pre, ∃ D, d.get? sB = some D ∧ ScInv mode sB A.strs strs D) →
    ∃ strs' d', l.foldlM (Qosy.scOuter mode tol A) (Basis.ofList strs, d) = .ok (Basis.ofList strs', d') ∧
      strs <+: strs' ∧ strs'.Nodup ∧ (∀ sB ∈ pre ++ l, ∃ D, d'.get? sB = some D ∧ ScInv mode sB A.strs strs' D) ∧
      (∀ C ∈ strs', C ∈ strs ∨ ScProd K mode A.strs l C) := by
  intro l
  induction l with
  | nil =>
    intro pre strs d _ hn h
    exact ⟨strs, d, rfl, List.prefix_refl _, hn, by simpa using h, fun C hC => Or.inl hC⟩
  | cons sB l ih =>
    intro pre strs d hl hn h
    have h0 : ScInv mode sB [] strs ([] : List (ℕ × ℕ × K)) := ⟨by intro c a; rw [tget_nil]; cases strs[c]? <;> rfl, by simp, by simp, by simp⟩
    obtain ⟨strs1, D1, h1, h2, h3, h4, h5⟩ := R.scInner mode htol htol' (hl sB (List.mem_cons_self ..)) A.strs [] strs [] hA hn h0
    simp only [List.nil_append, List.length_nil] at h1 h4
    have hinv : ∀ s ∈ pre ++ [sB], ∃ D, (d.set sB D1).get? s = some D ∧ ScInv mode s A.strs strs1 D := by
      intro s hs
      rw [Dict.get?_set]
      by_cases e : sB = s
      · subst e; exact ⟨D1, by simp, h4⟩
      · have hs' : s ∈ pre := by
          rcases List.mem_append.mp hs with h' | h'
          · exact h'
          · exact absurd (List.mem_singleton.mp h').symm e
        obtain ⟨D, g1, g2⟩ := h s hs'
        exact ⟨D, by simp [e, g1], g2.extend h2 h3⟩
    obtain ⟨strs2, d2, k1, k2, k3, k4, k5⟩ := ih (pre ++ [sB]) strs1 (d.set sB D1) (fun s hs => hl s (List.mem_cons_of_mem _ hs)) h3 hinv
    refine ⟨strs2, d2, ?_, h2.trans k2, k3, by simpa using k4, ?_⟩
    · rw [List.foldlM_cons, Qosy.scOuter, h1]
      exact k1
    · intro C hC
      rcases k5 C hC with h' | ⟨s, hs, t, ht, c, hc⟩
      · rcases h5 C h' with h'' | ⟨s, hs, c, hc⟩
        · exact Or.inl h''
        · exact Or.inr ⟨s, hs, sB, List.mem_cons_self .., c, hc⟩
      · exact Or.inr ⟨s, hs, t, List.mem_cons_of_mem _ ht, c, hc⟩

/-- `structure_constants` succeeds, and its matrices hold the coefficients of the brackets -/
theorem StrAlg.structureConstants_ok (R : StrAlg K 𝔸) (mode : Mode) {tol : ℚ} (htol : 0 < tol) (htol' : tol ≤ 1) {A B : Basis}
    (hA : ∀ s ∈ A.strs, R.Str s) (hB : ∀ s ∈ B.strs, R.Str s) :
    ∃ sc strs, structureConstants A B mode tol = .ok (sc, Basis.ofList strs) ∧ strs.Nodup ∧
      (∀ sB ∈ B.strs, ∃ D : List (ℕ × ℕ × K), sc.get? sB = some ⟨strs.length, A.len, D⟩ ∧ ScInv mode sB A.strs strs D) ∧
      (∀ s, s ∈ sc.map Prod.fst ↔ s ∈ B.strs) ∧
      (∀ C ∈ strs, ScProd K mode A.strs B.strs C) := by
  obtain ⟨strs, d, h1, _, h3, h4, h5⟩ := R.scOuter mode htol htol' hA B.strs [] [] [] hB (by simp) (by simp)
  simp only [List.nil_append] at h4
  have key : ∀ (l : List OpString) (res : Dict (Mat K)), (∀ s ∈ l, s ∈ B.strs) →
      ∃ res', l.foldlM (scBuild d strs.length A.len) res = .ok res' ∧
        (∀ s, s ∈ res'.map Prod.fst ↔ s ∈ res.map Prod.fst ∨ s ∈ l) ∧
        ∀ s, res'.get? s = if s ∈ l then (d.get? s).map (fun D => ⟨strs.length, A.len, D⟩) else res.get? s := by
    intro l
    induction l with
    | nil => intro res _; exact ⟨res, rfl, by simp, by simp⟩
    | cons sB l ih =>
      intro res hl
      obtain ⟨D, g1, g2⟩ := h4 sB (hl sB (List.mem_cons_self ..))
      obtain ⟨res', k1, k2, k3⟩ := ih (res.set sB ⟨strs.length, A.len, D⟩) (fun s hs => hl s (List.mem_cons_of_mem _ hs))
      refine ⟨res', ?_, ?_, ?_⟩
      · rw [List.foldlM_cons, scBuild, Dict.lookup, g1]
        simp only [bind, Except.bind]
        rw [mkCsr_ok (by simpa [Basis.len] using g2.range)]
        exact k1
      · intro s
        rw [k2, Dict.keys_set]
        split
        · rename_i hm
          simp only [List.mem_cons]
          constructor
          · tauto
          · rintro (h | rfl | h)
            · exact Or.inl h
            · exact Or.inl hm
            · exact Or.inr h
        · simp only [List.mem_append, List.mem_singleton, List.mem_cons]; tauto
      · intro s
        rw [k3, Dict.get?_set]
        by_cases hs : s ∈ l
        · simp [hs]
        · by_cases e : sB = s
          · subst e; simp [hs, g1]
          · have : ¬ s = sB := fun h => e h.symm
            simp [hs, e, this]
  obtain ⟨sc, k1, k2, k3⟩ := key B.strs [] (fun _ h => h)
  refine ⟨sc, strs, ?_, h3, ?_, by simpa using k2, ?_⟩
  · simp only [structureConstants]
    have e0 : (emptyBasis : Basis) = Basis.ofList [] := rfl
    rw [e0, h1]
    simp only [bind, Except.bind, Basis.ofList_len]
    rw [k1]
  · intro sB hs
    obtain ⟨D, g1, g2⟩ := h4 sB hs
    exact ⟨D, by rw [k3, if_pos hs, g1]; rfl, g2⟩
  · intro C hC
    rcases h5 C hC with h | h
    · simp at h
    · exact h

end Qosy
