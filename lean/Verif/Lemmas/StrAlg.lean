import Verif.Lemmas.Operator
import Verif.Lemmas.Independent
import Verif.Spec.Matrix
import Verif.Model.AlgebraOperator

/-! # Strings of one type with their product rule; products of `Operator`s -/

namespace Qosy
open Coef
variable {K : Type} [Field K] [StarRing K] [Coef K]
variable {𝔸 : Type} [Ring 𝔸] [Algebra K 𝔸] {S : Set ℤ}

/-- A family of strings (all of one type) closed under qosy's product rule, with its denotation. -/
structure StrAlg (K : Type) [Field K] [StarRing K] [Coef K] (𝔸 : Type) [Ring 𝔸] [Algebra K 𝔸] where
  type : OpType
  Str : OpString → Prop
  den : OpString → 𝔸
  str_type : ∀ s, Str s → s.opType = type
  core : ∀ A B, Str A → Str B → ∃ (c c' : K) (C : OpString), OpResult den Str A B c c' C
  sq : ∀ s, Str s → den s * den s = 1
  sep : ∀ A B, Str A → Str B → A.Canonical → B.Canonical → A ≠ B →
    ∃ (u : 𝔸) (ε : OpString → K), u * u = 1 ∧ (∀ s, Str s → u * den s = ε s • (den s * u)) ∧ ε A ≠ ε B

/-- distinct canonical strings are linearly independent in every non-trivial representation -/
theorem StrAlg.independent [Nontrivial 𝔸] (R : StrAlg K 𝔸) {strs : List OpString} (hn : strs.Nodup)
    (hs : ∀ s ∈ strs, R.Str s ∧ s.Canonical) {w : ℕ → K} (h : linComb R.den strs w = 0) (i : ℕ) (hi : i < strs.length) : w i = 0 := by
  have := independent_aux (K := K) (fun i : Fin strs.length => R.den strs[i]) (fun i => R.sq _ (hs _ (List.getElem_mem _)).1) ?_ _
    Finset.univ rfl (fun i => w i) h ⟨i, hi⟩ (Finset.mem_univ _)
  · exact this
  · intro i j hij
    have hne : strs[i] ≠ strs[j] := fun e => hij (Fin.ext ((List.Nodup.getElem_inj_iff hn).mp e))
    obtain ⟨u, ε, h1, h2, h3⟩ := R.sep _ _ (hs _ (List.getElem_mem i.2)).1 (hs _ (List.getElem_mem j.2)).1
      (hs _ (List.getElem_mem i.2)).2 (hs _ (List.getElem_mem j.2)).2 hne
    exact ⟨u, fun k => ε strs[k], h1, fun k => h2 _ (hs _ (List.getElem_mem k.2)).1, h3⟩

theorem bracketOf_smul (mode : Mode) (a b : K) (x y : 𝔸) :
    bracketOf mode (a • x) (b • y) = (a * b) • bracketOf mode x y := by
  cases mode <;> simp [bracketOf, smul_sub, smul_add, smul_smul, mul_comm]

theorem bracketOf_add_left (mode : Mode) (x x' y : 𝔸) :
    bracketOf mode (x + x') y = bracketOf mode x y + bracketOf mode x' y := by
  cases mode <;> simp [bracketOf, add_mul, mul_add] <;> abel

theorem bracketOf_add_right (mode : Mode) (x y y' : 𝔸) :
    bracketOf mode x (y + y') = bracketOf mode x y + bracketOf mode x y' := by
  cases mode <;> simp [bracketOf, add_mul, mul_add] <;> abel

theorem bracketOf_zero_left (mode : Mode) (y : 𝔸) : bracketOf mode 0 y = 0 := by cases mode <;> simp [bracketOf]
theorem bracketOf_zero_right (mode : Mode) (y : 𝔸) : bracketOf mode y 0 = 0 := by cases mode <;> simp [bracketOf]

/-- The result of any of the three operations on two strings: zero, or a phase times 1 or 2 times a string. -/
theorem StrAlg.op_string (R : StrAlg K 𝔸) (mode : Mode) {A B : OpString} (hA : R.Str A) (hB : R.Str B) :
    ((operationOpString mode A B : Py (K × _)) = .ok (0, none) ∧ bracketOf mode (R.den A) (R.den B) = 0) ∨
    ∃ (c : K) (C : OpString), operationOpString mode A B = .ok (c, some C) ∧ R.Str C ∧
      bracketOf mode (R.den A) (R.den B) = c • R.den C ∧ ‖toC c‖ = bracketFactor mode ∧
      C.labels.Pairwise (· < ·) ∧ (∀ l ∈ C.labels, l ∈ A.labels ∨ l ∈ B.labels) ∧ (C.pref = .imag ∨ C.pref = .float1) := by
  obtain ⟨c, c', C, h⟩ := R.core A B hA hB
  have hn2 : ‖toC (c * 2)‖ = 2 := by rw [map_mul, norm_mul, h.phase.norm, map_ofNat]; norm_num
  have e1 : c • R.den C + c • R.den C = (c * 2) • R.den C := by rw [← add_smul]; congr 1; ring
  cases mode with
  | product =>
    exact Or.inr ⟨c, C, h.prod, h.str, h.ab, by simp [h.phase.norm, bracketFactor], h.sorted, h.sub, h.pref⟩
  | commutator =>
    rcases h.brackets with ⟨rfl, h3, h4⟩ | ⟨rfl, h3, h4⟩
    · exact Or.inl ⟨h3, by simp [bracketOf, h.ab, h.ba]⟩
    · refine Or.inr ⟨c * 2, C, h3, h.str, ?_, by rw [hn2]; norm_num [bracketFactor], h.sorted, h.sub, h.pref⟩
      simp only [bracketOf, h.ab, h.ba, neg_smul, sub_neg_eq_add, e1]
  | anticommutator =>
    rcases h.brackets with ⟨rfl, h3, h4⟩ | ⟨rfl, h3, h4⟩
    · refine Or.inr ⟨c' * 2, C, h4, h.str, ?_, by rw [hn2]; norm_num [bracketFactor], h.sorted, h.sub, h.pref⟩
      simp only [bracketOf, h.ab, h.ba, e1]
    · exact Or.inl ⟨h4, by simp [bracketOf, h.ab, h.ba]⟩

/-! ### The accumulating dictionary -/

/-- a dictionary as a list of terms -/
def Dict.terms (d : Dict K) : List (K × OpString) := d.map (fun e => (e.2, e.1))

theorem Dict.coefT_set_new {d : Dict K} {s : OpString} (h : d.get? s = none) (x : K) (u : OpString) :
    coefT (Dict.terms (d.set s x)) u = coefT (Dict.terms d) u + if s = u then x else 0 := by
  rw [Dict.set_of_not_mem (Dict.get?_eq_none.mp h)]
  simp [Dict.terms, coefT_append]

theorem Dict.coefT_set_old {d : Dict K} {s : OpString} {c : K} (h : d.get? s = some c) (x : K) (u : OpString) :
    coefT (Dict.terms (d.set s (c + x))) u = coefT (Dict.terms d) u + if s = u then x else 0 := by
  induction d with
  | nil => simp [Dict.get?] at h
  | cons e d ih =>
    obtain ⟨k, v⟩ := e
    by_cases hk : k = s
    · subst hk
      simp only [Dict.get?, if_true, Option.some.injEq] at h
      subst h
      simp only [Dict.set, if_true, Dict.terms, List.map_cons, coefT_cons]
      split <;> ring
    · simp only [Dict.get?, hk, if_false] at h
      have := ih h
      simp only [Dict.set, hk, if_false, Dict.terms, List.map_cons, coefT_cons] at this ⊢
      rw [this, add_assoc]

/-- dictionary invariant of the loop: distinct keys, all of them strings of the family -/
structure DictOK (P : OpString → Prop) (d : Dict K) : Prop where
  nodup : (d.map Prod.fst).Nodup
  str : ∀ s ∈ d.map Prod.fst, P s

theorem DictOK.set {P : OpString → Prop} {d : Dict K} (h : DictOK P d) {s : OpString} (hs : P s) (x : K) :
    DictOK P (d.set s x) := by
  constructor
  · rw [Dict.keys_set]
    split
    · exact h.nodup
    · rename_i hm; exact h.nodup.append (by simp) (by simpa using hm)
  · intro t ht
    rw [Dict.keys_set] at ht
    split at ht
    · exact h.str t ht
    · rcases List.mem_append.mp ht with h1 | h1
      · exact h.str t h1
      · rw [List.mem_singleton.mp h1]; exact hs

/-- the contribution of one pair of terms that survives the tolerance -/
noncomputable def StrAlg.kept (R : StrAlg K 𝔸) (mode : Mode) (tol : ℚ) (ta tb : K × OpString) : 𝔸 :=
  open Classical in
  if ‖toC (ta.1 * tb.1)‖ * bracketFactor mode < tol then 0
  else (ta.1 * tb.1) • bracketOf mode (R.den ta.2) (R.den tb.2)

/-- properties of the strings produced from `LA`, `LB`-labelled strings -/
def StrAlg.Res (R : StrAlg K 𝔸) (L : Set ℤ) (C : OpString) : Prop :=
  R.Str C ∧ C.labels.Pairwise (· < ·) ∧ (∀ l ∈ C.labels, l ∈ L) ∧ (C.pref = .imag ∨ C.pref = .float1)

theorem StrAlg.step (R : StrAlg K 𝔸) (mode : Mode) {tol : ℚ} (htol : 0 < tol) {L : Set ℤ} {d : Dict K}
    (hd : DictOK (R.Res L) d)
    {ta tb : K × OpString} (ha : R.Str ta.2) (hb : R.Str tb.2) (hla : ∀ l ∈ ta.2.labels, l ∈ L) (hlb : ∀ l ∈ tb.2.labels, l ∈ L) :
    ∃ d', operatorStep mode tol ta.1 ta.2 d tb = .ok d' ∧ DictOK (R.Res L) d' ∧
      denT R.den (Dict.terms d') = denT R.den (Dict.terms d) + R.kept mode tol ta tb := by
  rcases R.op_string mode ha hb with ⟨h1, h2⟩ | ⟨c, C, h1, h2, h3, h4, h5, h6, h7⟩
  · refine ⟨d, ?_, hd, ?_⟩
    · simp [operatorStep, h1, bind, Except.bind, absLt_zero htol]
    · simp [StrAlg.kept, h2]
  · have hres : R.Res L C := ⟨h2, h5, fun l hl => (h6 l hl).elim (hla l) (hlb l), h7⟩
    have hn : ‖toC (ta.1 * tb.1 * c)‖ = ‖toC (ta.1 * tb.1)‖ * bracketFactor mode := by
      rw [map_mul (toC (K := K)) (ta.1 * tb.1) c, norm_mul, h4]
    by_cases ht : absLt (ta.1 * tb.1 * c) tol = true
    · refine ⟨d, ?_, hd, ?_⟩
      · simp [operatorStep, h1, bind, Except.bind, ht]
      · have := (absLt_iff _ _).mp ht
        rw [hn] at this
        rw [StrAlg.kept, if_pos this, add_zero]
    · have hk : R.kept mode tol ta tb = (ta.1 * tb.1 * c) • R.den C := by
        have h0 : ¬ ‖toC (ta.1 * tb.1)‖ * bracketFactor mode < tol := by
          rw [← hn]; exact fun h => ht ((absLt_iff _ _).mpr h)
        rw [StrAlg.kept, if_neg h0, h3, smul_smul]
      have hden : ∀ d' : Dict K, (∀ u, coefT (Dict.terms d') u = coefT (Dict.terms d) u + if C = u then (ta.1 * tb.1 * c) else 0) →
          denT R.den (Dict.terms d') = denT R.den (Dict.terms d) + R.kept mode tol ta tb := by
        intro d' hd'
        rw [hk]
        have e : (ta.1 * tb.1 * c) • R.den C = denT R.den [(ta.1 * tb.1 * c, C)] := by simp
        rw [e]
        apply denT_add
        intro u; rw [hd' u]; simp
      cases hg : d.get? C with
      | none =>
        refine ⟨d.set C (ta.1 * tb.1 * c), ?_, hd.set hres _, hden _ (Dict.coefT_set_new hg _)⟩
        simp [operatorStep, h1, bind, Except.bind, ht, hg]
      | some x =>
        refine ⟨d.set C (x + ta.1 * tb.1 * c), ?_, hd.set hres _, hden _ (Dict.coefT_set_old hg _)⟩
        simp [operatorStep, h1, bind, Except.bind, ht, hg]

theorem StrAlg.inner (R : StrAlg K 𝔸) (mode : Mode) {tol : ℚ} (htol : 0 < tol) {L : Set ℤ} {ta : K × OpString} (ha : R.Str ta.2)
    (hla : ∀ l ∈ ta.2.labels, l ∈ L) :
    ∀ (tbs : List (K × OpString)) (d : Dict K), DictOK (R.Res L) d →
      (∀ tb ∈ tbs, R.Str tb.2 ∧ ∀ l ∈ tb.2.labels, l ∈ L) →
    ∃ d', tbs.foldlM (operatorStep mode tol ta.1 ta.2) d = .ok d' ∧ DictOK (R.Res L) d' ∧
      denT R.den (Dict.terms d') = denT R.den (Dict.terms d) + (tbs.map (R.kept mode tol ta)).sum := by
  intro tbs
  induction tbs with
  | nil => intro d hd _; exact ⟨d, rfl, hd, by simp⟩
  | cons tb tbs ih =>
    intro d hd hb
    obtain ⟨d1, h1, h2, h3⟩ := R.step mode htol hd ha (hb tb (List.mem_cons_self ..)).1 hla (hb tb (List.mem_cons_self ..)).2
    obtain ⟨d2, h4, h5, h6⟩ := ih d1 h2 (fun t ht => hb t (List.mem_cons_of_mem _ ht))
    refine ⟨d2, ?_, h5, ?_⟩
    · rw [List.foldlM_cons, h1]; exact h4
    · rw [h6, h3, List.map_cons, List.sum_cons, add_assoc]

theorem StrAlg.outer (R : StrAlg K 𝔸) (mode : Mode) {tol : ℚ} (htol : 0 < tol) {L : Set ℤ} {tbs : List (K × OpString)}
    (hb : ∀ tb ∈ tbs, R.Str tb.2 ∧ ∀ l ∈ tb.2.labels, l ∈ L) :
    ∀ (tas : List (K × OpString)) (d : Dict K), DictOK (R.Res L) d →
      (∀ ta ∈ tas, R.Str ta.2 ∧ ∀ l ∈ ta.2.labels, l ∈ L) →
    ∃ d', tas.foldlM (fun d ta => tbs.foldlM (operatorStep mode tol ta.1 ta.2) d) d = .ok d' ∧ DictOK (R.Res L) d' ∧
      denT R.den (Dict.terms d') = denT R.den (Dict.terms d) + (tas.map (fun ta => (tbs.map (R.kept mode tol ta)).sum)).sum := by
  intro tas
  induction tas with
  | nil => intro d hd _; exact ⟨d, rfl, hd, by simp⟩
  | cons ta tas ih =>
    intro d hd ha
    obtain ⟨d1, h1, h2, h3⟩ := R.inner mode htol (ha ta (List.mem_cons_self ..)).1 (ha ta (List.mem_cons_self ..)).2 tbs d hd hb
    obtain ⟨d2, h4, h5, h6⟩ := ih d1 h2 (fun t ht => ha t (List.mem_cons_of_mem _ ht))
    refine ⟨d2, ?_, h5, ?_⟩
    · rw [List.foldlM_cons, h1]; exact h4
    · rw [h6, h3, List.map_cons, List.sum_cons, add_assoc]

theorem Dict.terms_zip (d : Dict K) : (d.map Prod.snd).zip (d.map Prod.fst) = Dict.terms d := by
  induction d with
  | nil => rfl
  | cons e d ih => simp only [List.map_cons, List.zip_cons_cons, ih, Dict.terms]

/-- the set of labels of an operator -/
def Operator.labelSet (A : Operator K) : Set ℤ := {l | ∃ s ∈ A.basis.strs, l ∈ s.labels}

theorem mem_terms {A : Operator K} {t : K × OpString} (h : t ∈ A.terms) : t.2 ∈ A.basis.strs := (List.of_mem_zip h).2

/-- `_operation_operator` computes the sum of the surviving brackets. -/
theorem StrAlg.operator (R : StrAlg K 𝔸) (mode : Mode) {tol : ℚ} (htol : 0 < tol) {A B : Operator K}
    (hA : A.WF) (hB : B.WF)
    (hsA : ∀ s ∈ A.basis.strs, R.Str s) (hsB : ∀ s ∈ B.basis.strs, R.Str s) (ht : A.opType = R.type) (ht' : B.opType = R.type) :
    ∃ C, operationOperator mode A B tol = .ok C ∧ C.WF ∧ C.opType = R.type ∧
      (∀ s ∈ C.basis.strs, R.Res (A.labelSet ∪ B.labelSet) s) ∧
      C.den R.den = (A.terms.map (fun ta => (B.terms.map (R.kept mode tol ta)).sum)).sum := by
  have hb : ∀ tb ∈ B.terms, R.Str tb.2 ∧ ∀ l ∈ tb.2.labels, l ∈ A.labelSet ∪ B.labelSet :=
    fun t h => ⟨hsB _ (mem_terms h), fun l hl => Or.inr ⟨_, mem_terms h, hl⟩⟩
  have ha : ∀ ta ∈ A.terms, R.Str ta.2 ∧ ∀ l ∈ ta.2.labels, l ∈ A.labelSet ∪ B.labelSet :=
    fun t h => ⟨hsA _ (mem_terms h), fun l hl => Or.inl ⟨_, mem_terms h, hl⟩⟩
  obtain ⟨d, h1, h2, h3⟩ := R.outer mode htol hb A.terms [] ⟨by simp, by simp⟩ ha
  have hty : ∀ s ∈ d.map Prod.fst, s.opType = A.opType := fun s hs => by rw [R.str_type s (h2.str s hs).1, ht]
  refine ⟨⟨d.map Prod.snd, Basis.ofList (d.map Prod.fst), A.opType⟩, ?_, ?_, ht, h2.str, ?_⟩
  · rw [operationOperator, if_neg (by rw [ht, ht']; simp), h1]
    exact mkOperator_ok h2.nodup hty
  · exact Operator.WF.mk' h2.nodup (by simp) hty
  · have : (⟨d.map Prod.snd, Basis.ofList (d.map Prod.fst), A.opType⟩ : Operator K).den R.den = denT R.den (Dict.terms d) := by
      rw [Operator.den, Operator.terms]; congr 1; exact Dict.terms_zip d
    rw [this, h3]; simp [Dict.terms]

theorem bracketOf_den (mode : Mode) (den : OpString → 𝔸) (tas tbs : List (K × OpString)) :
    bracketOf mode (denT den tas) (denT den tbs) =
      (tas.map (fun ta => (tbs.map (fun tb => (ta.1 * tb.1) • bracketOf mode (den ta.2) (den tb.2))).sum)).sum := by
  induction tas with
  | nil => simp [bracketOf_zero_left]
  | cons ta tas ih =>
    rw [denT_cons, bracketOf_add_left, List.map_cons, List.sum_cons, ← ih]
    congr 1
    clear ih
    induction tbs with
    | nil => simp [bracketOf_zero_right]
    | cons tb tbs ih =>
      rw [denT_cons, bracketOf_add_right, List.map_cons, List.sum_cons, ← ih, bracketOf_smul]

/-- if no non-zero product of coefficients is below the tolerance, nothing is lost -/
theorem StrAlg.kept_exact (R : StrAlg K 𝔸) (mode : Mode) {tol : ℚ} {tas tbs : List (K × OpString)}
    (h : ∀ ta ∈ tas, ∀ tb ∈ tbs, ta.1 * tb.1 = 0 ∨ (tol : ℝ) ≤ ‖toC (ta.1 * tb.1)‖ * bracketFactor mode) :
    (tas.map (fun ta => (tbs.map (R.kept mode tol ta)).sum)).sum = bracketOf mode (denT R.den tas) (denT R.den tbs) := by
  rw [bracketOf_den]
  congr 1
  apply List.map_congr_left
  intro ta hta
  congr 1
  apply List.map_congr_left
  intro tb htb
  rw [StrAlg.kept]
  rcases h ta hta tb htb with h0 | h0
  · simp [h0]
  · rw [if_neg (not_lt.mpr h0)]

end Qosy
