import Verif.Spec.Diagonalization
import Verif.Lemmas.OperationCore
import Verif.Lemmas.MatOf
import Verif.Lemmas.Distance
import Mathlib.Data.Nat.Bitwise

/-! # Spin configurations as numbers; matrices of Pauli strings -/

namespace Qosy
open Coef
variable {K : Type} [Field K] [StarRing K] [Coef K] {n : ℕ}

/-! ### configurations -/

theorem maskOf_ok {l : ℤ} (hl : l ∈ siteLabels n) : maskOf n l = .ok (2 ^ (n - 1 - l.toNat)) := by
  have h1 : 0 ≤ l := hl.1
  have h2 : l < n := hl.2
  rw [maskOf, if_neg (by omega), Nat.one_shiftLeft]
  congr 3
  omega

theorem maskOf_err {l : ℤ} (hl : (n : ℤ) ≤ l) : maskOf n l = .error .valueError := by
  rw [maskOf, if_pos (by omega)]

theorem maskOf_cases (l : ℤ) : (∃ m, maskOf n l = .ok m) ∨ maskOf n l = .error .valueError := by
  rw [maskOf]; split
  · exact Or.inr rfl
  · exact Or.inl ⟨_, rfl⟩

theorem cfgOf_inj {a b : ℕ} (ha : a < 2 ^ n) (hb : b < 2 ^ n) (h : cfgOf n a = cfgOf n b) : a = b := by
  apply Nat.eq_of_testBit_eq
  intro i
  by_cases hi : i < n
  · have := congrFun h ⟨n - 1 - i, by omega⟩
    simp only [cfgOf] at this
    rw [show n - 1 - (n - 1 - i) = i by omega] at this
    exact this
  · rw [Nat.testBit_lt_two_pow (lt_of_lt_of_le ha (Nat.pow_le_pow_right (by norm_num) (by omega))),
      Nat.testBit_lt_two_pow (lt_of_lt_of_le hb (Nat.pow_le_pow_right (by norm_num) (by omega)))]

/-- the numbers below `2 ^ n` are the configurations -/
theorem cfgOf_bijective (n : ℕ) : Function.Bijective (fun k : Fin (2 ^ n) => cfgOf n k) := by
  rw [Fintype.bijective_iff_injective_and_card]
  refine ⟨fun a b h => Fin.ext (cfgOf_inj a.2 b.2 h), ?_⟩
  simp

noncomputable def cfgEquiv (n : ℕ) : Fin (2 ^ n) ≃ Cfg n := Equiv.ofBijective _ (cfgOf_bijective n)

@[simp] theorem cfgEquiv_apply (k : Fin (2 ^ n)) : cfgEquiv n k = cfgOf n k := rfl

theorem exists_cfgOf (σ : Cfg n) : ∃ k, k < 2 ^ n ∧ cfgOf n k = σ := by
  obtain ⟨k, hk⟩ := (cfgOf_bijective n).2 σ
  exact ⟨k, k.2, hk⟩

theorem sum_cfg {M : Type} [AddCommMonoid M] (f : Cfg n → M) : ∑ σ, f σ = ∑ k : Fin (2 ^ n), f (cfgOf n k) :=
  (Fintype.sum_equiv (cfgEquiv n) _ _ (fun _ => rfl)).symm

theorem sum_list_range {M : Type} [AddCommMonoid M] (f : ℕ → M) (m : ℕ) : ((List.range m).map f).sum = ∑ k ∈ Finset.range m, f k := by
  rw [Finset.sum, Finset.range_val, ← Multiset.coe_range, Multiset.map_coe, Multiset.sum_coe]

theorem sum_range_cfg {M : Type} [AddCommMonoid M] (f : Cfg n → M) : ((List.range (2 ^ n)).map (fun k => f (cfgOf n k))).sum = ∑ σ, f σ := by
  rw [sum_list_range, sum_cfg, ← Finset.sum_range (n := 2 ^ n) (f := fun k => f (cfgOf n k))]

theorem bit_cfgOf {l : ℤ} (hl : l ∈ siteLabels n) (k : ℕ) : Cfg.bit l (cfgOf n k) = k.testBit (n - 1 - l.toNat) := by
  have hl' : 0 ≤ l ∧ l < n := hl
  simp [Cfg.bit, cfgOf, hl']

theorem and_mask (k j : ℕ) : k &&& 2 ^ j ≠ 0 ↔ k.testBit j = true := by
  rw [Nat.and_two_pow]
  cases k.testBit j <;> simp

theorem cfgOf_xor {l : ℤ} (hl : l ∈ siteLabels n) (k : ℕ) : cfgOf n (k ^^^ 2 ^ (n - 1 - l.toNat)) = Cfg.flip l (cfgOf n k) := by
  have h1 : 0 ≤ l := hl.1
  have h2 : l < n := hl.2
  funext i
  have hi := i.2
  simp only [cfgOf, Cfg.flip, Nat.testBit_xor, Nat.testBit_two_pow]
  by_cases h : ((i : ℕ) : ℤ) = l
  · have : n - 1 - l.toNat = n - 1 - i := by omega
    simp [h, this]
  · have : ¬ n - 1 - l.toNat = n - 1 - i := by omega
    simp [h, this]

theorem xor_lt {l : ℤ} (hl : l ∈ siteLabels n) {k : ℕ} (hk : k < 2 ^ n) : k ^^^ 2 ^ (n - 1 - l.toNat) < 2 ^ n := by
  have h1 : 0 ≤ l := hl.1
  have h2 : l < n := hl.2
  exact Nat.xor_lt_two_pow hk (Nat.pow_lt_pow_right (by norm_num) (by omega))

/-! ### `_apply_opstring` -/

/-- the column of a one-site operator: what `_apply_opstring` does to one configuration -/
theorem site_column {op : Op} (hop : op = .X ∨ op = .Y ∨ op = .Z) {l : ℤ} (hl : l ∈ siteLabels n) (rest : List (Op × ℤ)) (c : K) {k : ℕ}
    (hk : k < 2 ^ n) : ∃ (a : K) (k' : ℕ), applyOps n ((op, l) :: rest) (c, k) = applyOps n rest (c * a, k') ∧ k' < 2 ^ n ∧
      ∀ σ, (matRep K n).site op l σ (cfgOf n k) = if σ = cfgOf n k' then a else 0 := by
  have hflip : ∀ σ τ : Cfg n, τ = Cfg.flip l σ ↔ σ = Cfg.flip l τ := by
    intro σ τ; constructor <;> (rintro rfl; simp)
  rcases hop with rfl | rfl | rfl
  · refine ⟨1, k ^^^ 2 ^ (n - 1 - l.toNat), ?_, xor_lt hl hk, ?_⟩
    · simp [applyOps, maskOf_ok hl, bind, Except.bind]
    · intro σ
      rw [cfgOf_xor hl]
      simp [PauliRep.site, matRep, matX, mono, hflip]
  · refine ⟨if k &&& 2 ^ (n - 1 - l.toNat) ≠ 0 then -I else I, k ^^^ 2 ^ (n - 1 - l.toNat), ?_, xor_lt hl hk, ?_⟩
    · simp only [applyOps, maskOf_ok hl, bind, Except.bind, mul_ite]
    · intro σ
      rw [cfgOf_xor hl]
      simp only [PauliRep.site, matRep, matY, mono, hflip]
      by_cases h : σ = Cfg.flip l (cfgOf n k)
      · rw [if_pos h, if_pos h, h, Cfg.bit_flip hl, bit_cfgOf hl]
        by_cases hb : k.testBit (n - 1 - l.toNat)
        · rw [if_pos ((and_mask _ _).mpr hb), hb]; rfl
        · rw [if_neg (fun h => hb ((and_mask _ _).mp h))]; simp [hb]
      · rw [if_neg h, if_neg h]
  · refine ⟨if k &&& 2 ^ (n - 1 - l.toNat) ≠ 0 then -1 else 1, k, ?_, hk, ?_⟩
    · simp only [applyOps, maskOf_ok hl, bind, Except.bind, mul_ite, mul_one]
    · intro σ
      simp only [PauliRep.site, matRep, matZ, mono]
      by_cases h : σ = cfgOf n k
      · rw [if_pos h, if_pos h.symm, h, bit_cfgOf hl]
        by_cases hb : k.testBit (n - 1 - l.toNat)
        · rw [if_pos ((and_mask _ _).mpr hb), hb]; rfl
        · rw [if_neg (fun h => hb ((and_mask _ _).mp h))]; simp [hb]
      · rw [if_neg h, if_neg (fun h' => h h'.symm)]

theorem PauliRep.commute_word {𝔸 : Type} [Ring 𝔸] [Algebra K 𝔸] {S : Set ℤ} (R : PauliRep K 𝔸 S) {x : Op × ℤ} {w : Word} (h : R.sys.Ok (x :: w))
    (hx : x.2 ∉ w.map Prod.snd) : R.sys.site x.1 x.2 * R.sys.prod w = R.sys.prod w * R.sys.site x.1 x.2 := by
  induction w with
  | nil => simp
  | cons y w ih =>
    simp only [List.map_cons, List.mem_cons, not_or] at hx
    have hxx := h x (by simp)
    have hy := h y (by simp)
    have h1 := R.sys.comm x.1 y.1 hxx.1 hy.1 x.2 hxx.2 y.2 hy.2 hx.1
    have h0 : R.sys.odd x.1 = false := rfl
    rw [h0] at h1
    simp only [Bool.false_eq_true, false_and, if_false, pow_zero, one_smul] at h1
    rw [R.sys.prod_cons, ← mul_assoc, h1, mul_assoc, ih (fun z hz => h z (by
      rcases List.mem_cons.mp hz with rfl | hz
      · simp
      · simp [hz])) hx.2, mul_assoc]

/-- a column of the matrix of a Pauli word -/
theorem applyOps_spec : ∀ (w : Word) (c : K) {k : ℕ}, (matRep K n).sys.Ok w → (w.map Prod.snd).Nodup → k < 2 ^ n →
    ∃ (a : K) (k' : ℕ), applyOps n w (c, k) = .ok (c * a, k') ∧ k' < 2 ^ n ∧
      ∀ σ, (matRep K n).sys.prod w σ (cfgOf n k) = if σ = cfgOf n k' then a else 0 := by
  intro w
  induction w with
  | nil =>
    intro c k _ _ hk
    refine ⟨1, k, by simp [applyOps], hk, fun σ => ?_⟩
    simp [Matrix.one_apply]
  | cons x w ih =>
    intro c k hw hn hk
    obtain ⟨op, l⟩ := x
    simp only [List.map_cons, List.nodup_cons] at hn
    have hx := hw (op, l) (by simp)
    obtain ⟨a, k', h1, h2, h3⟩ := site_column (K := K) hx.1 hx.2 w c hk
    obtain ⟨b, k'', g1, g2, g3⟩ := ih (c * a) (fun z hz => hw z (List.mem_cons_of_mem _ hz)) hn.2 h2
    refine ⟨a * b, k'', by rw [h1, g1, mul_assoc], g2, fun σ => ?_⟩
    rw [SiteSys.prod_cons, (matRep K n).commute_word hw hn.1, Matrix.mul_apply, Finset.sum_eq_single (cfgOf n k')]
    · have e : (matRep K n).sys.site op l = (matRep K n).site op l := rfl
      rw [g3, e, h3, if_pos rfl]
      split
      · ring
      · simp
    · intro ρ _ hρ
      have e : (matRep K n).sys.site op l = (matRep K n).site op l := rfl
      rw [e, h3, if_neg hρ, mul_zero]
    · simp

theorem applyOps_err : ∀ (w : Word) (st : K × ℕ), (∃ x ∈ w, (n : ℤ) ≤ x.2) → applyOps n w st = .error .valueError := by
  intro w
  induction w with
  | nil => rintro st ⟨x, hx, -⟩; simp at hx
  | cons x w ih =>
    rintro ⟨c, k⟩ ⟨y, hy, hy'⟩
    obtain ⟨op, l⟩ := x
    rcases maskOf_cases (n := n) l with ⟨m, hm⟩ | hm
    · have hyw : ∃ x ∈ w, (n : ℤ) ≤ x.2 := by
        rcases List.mem_cons.mp hy with rfl | h
        · rw [maskOf_err hy'] at hm; simp at hm
        · exact ⟨y, h, hy'⟩
      rw [applyOps, hm]
      simp only [bind, Except.bind]
      cases op <;> exact ih _ hyw
    · rw [applyOps, hm]; rfl

/-- a column of the matrix of a Pauli string -/
theorem applyOpstring_ok {s : OpString} (hs : PauliString (siteLabels n) s) {k : ℕ} (hk : k < 2 ^ n) :
    ∃ (a : K) (k' : ℕ), applyOpstring s k n = .ok (a, k') ∧ k' < 2 ^ n ∧
      ∀ σ, (matRep K n).den s σ (cfgOf n k) = if σ = cfgOf n k' then a else 0 := by
  obtain ⟨a, k', h1, h2, h3⟩ := applyOps_spec (K := K) s.word 1 hs.good.ok (by rw [word_map_snd hs.len]; exact hs.nodup) hk
  refine ⟨a, k', ?_, h2, ?_⟩
  · rw [applyOpstring, if_neg (by simp [hs.type]), hs.val]
    rw [one_mul] at h1
    exact h1
  · intro σ
    rw [PauliRep.den_eq, hs.val, one_smul, h3]

/-- the coordinate triples hold the entries of a matrix -/
structure IsTriples (n : ℕ) (D : List (ℕ × ℕ × K)) (M : Matrix (Cfg n) (Cfg n) K) : Prop where
  inside : ∀ e ∈ D, e.1 < 2 ^ n ∧ e.2.1 < 2 ^ n
  entries : ∀ a b, a < 2 ^ n → b < 2 ^ n → tget D a b = M (cfgOf n a) (cfgOf n b)

theorem IsTriples.isMatrixOf {D : List (ℕ × ℕ × K)} {M : Matrix (Cfg n) (Cfg n) K} (h : IsTriples n D M) :
    mkCsr D (2 ^ n) (2 ^ n) = .ok ⟨2 ^ n, 2 ^ n, D⟩ ∧ IsMatrixOf n ⟨2 ^ n, 2 ^ n, D⟩ M := by
  refine ⟨mkCsr_ok h.inside, rfl, rfl, h.entries, ?_⟩
  intro a b hab
  apply tget_eq_zero
  intro e he
  have := h.inside e he
  by_contra hc
  push Not at hc
  exact hab ⟨hc.1 ▸ this.1, hc.2 ▸ this.2⟩

theorem toMatrixTriples_ok {s : OpString} (hs : PauliString (siteLabels n) s) :
    ∃ D : List (ℕ × ℕ × K), toMatrixTriples s n = .ok D ∧ IsTriples n D ((matRep K n).den s) := by
  choose! a k' h1 h2 h3 using fun k (hk : k < 2 ^ n) => applyOpstring_ok (K := K) hs hk
  refine ⟨(List.range (2 ^ n)).map (fun k => (k' k, k, a k)), ?_, ?_, ?_⟩
  · rw [toMatrixTriples, if_pos hs.type]
    apply mapM_ok
    intro k hk
    rw [h1 k (by simpa using hk)]
    rfl
  · intro e he
    obtain ⟨k, hk, rfl⟩ := List.mem_map.mp he
    have hk' : k < 2 ^ n := by simpa using hk
    exact ⟨h2 k hk', hk'⟩
  · intro x y hx hy
    rw [h3 y hy, tget, List.map_map, sum_list_range, Finset.sum_eq_single y]
    · simp only [Function.comp, and_true]
      by_cases h : k' y = x
      · rw [if_pos h, h, if_pos rfl]
      · rw [if_neg h, if_neg (fun h' => h (cfgOf_inj (h2 y hy) hx h'.symm))]
    · intro k _ hk
      simp [hk]
    · intro h; simp [hy] at h

theorem toMatrixString_ok {s : OpString} (hs : PauliString (siteLabels n) s) :
    ∃ M : Mat K, toMatrixString s n = .ok M ∧ IsMatrixOf n M ((matRep K n).den s) ∧ M.WF := by
  obtain ⟨D, h1, h2⟩ := toMatrixTriples_ok (K := K) hs
  refine ⟨_, ?_, h2.isMatrixOf.2, h2.inside⟩
  rw [toMatrixString, h1]
  exact h2.isMatrixOf.1

theorem toMatrixLoop_ok : ∀ (ts : List (K × OpString)) (acc : List (ℕ × ℕ × K)) (M : Matrix (Cfg n) (Cfg n) K), (∀ t ∈ ts, PauliString (siteLabels n) t.2) →
    IsTriples n acc M → ∃ D, toMatrixLoop n ts acc = .ok D ∧ IsTriples n D (M + denT (matRep K n).den ts) := by
  intro ts
  induction ts with
  | nil => intro acc M _ h; exact ⟨acc, rfl, by simpa [denT] using h⟩
  | cons t ts ih =>
    intro acc M hts h
    obtain ⟨c, s⟩ := t
    obtain ⟨D, h1, h2⟩ := toMatrixTriples_ok (K := K) (hts (c, s) (by simp))
    have hstep : IsTriples n (acc ++ D.map (fun e => (e.1, e.2.1, c * e.2.2))) (M + c • (matRep K n).den s) := by
      constructor
      · intro e he
        rcases List.mem_append.mp he with he | he
        · exact h.inside e he
        · obtain ⟨e', he', rfl⟩ := List.mem_map.mp he
          exact h2.inside e' he'
      · intro a b ha hb
        rw [tget_append, h.entries a b ha hb]
        have : tget (D.map (fun e => (e.1, e.2.1, c * e.2.2))) a b = c * tget D a b := by
          rw [tget, tget, List.map_map, ← List.sum_map_mul_left]
          congr 1
          apply List.map_congr_left
          intro e _
          simp
        rw [this, h2.entries a b ha hb]
        rfl
    obtain ⟨E, e1, e2⟩ := ih _ _ (fun t ht => hts t (List.mem_cons_of_mem _ ht)) hstep
    refine ⟨E, ?_, ?_⟩
    · rw [toMatrixLoop, h1]; exact e1
    · have : M + denT (matRep K n).den ((c, s) :: ts) = M + c • (matRep K n).den s + denT (matRep K n).den ts := by
        simp [denT, add_assoc]
      rw [this]; exact e2

theorem toMatrixOperator_ok {A : Operator K} (hA : ∀ s ∈ A.basis.strs, PauliString (siteLabels n) s) :
    ∃ M : Mat K, toMatrixOperator A n = .ok M ∧ IsMatrixOf n M (A.den (matRep K n).den) ∧ M.WF := by
  obtain ⟨D, h1, h2⟩ := toMatrixLoop_ok (n := n) A.terms [] 0 (fun t ht => hA _ (List.of_mem_zip ht).2) ⟨by simp, by simp [tget]⟩
  rw [zero_add] at h2
  refine ⟨_, ?_, h2.isMatrixOf.2, h2.inside⟩
  rw [toMatrixOperator, h1]
  exact h2.isMatrixOf.1

theorem IsMatrixOf.dot {M N : Mat K} {D E : Matrix (Cfg n) (Cfg n) K} (hM : IsMatrixOf n M D) (hN : IsMatrixOf n N E) (wM : M.WF) (wN : N.WF) :
    ∃ P, M.dot N = .ok P ∧ IsMatrixOf n P (D * E) ∧ P.WF := by
  obtain ⟨P, h1, h2, h3, h4, h5⟩ := Mat.dot_ok wM wN (by rw [hM.ncols, hN.nrows])
  have hsum : ∀ a b, P.get a b = ∑ k : Fin (2 ^ n), M.get a k * N.get k b := by
    intro a b
    rw [h5, hM.ncols]
  refine ⟨P, h1, ⟨by rw [h2, hM.nrows], by rw [h3, hN.ncols], ?_, ?_⟩, h4⟩
  · intro a b ha hb
    rw [hsum, Matrix.mul_apply, sum_cfg]
    exact Finset.sum_congr rfl (fun k _ => by rw [hM.entries a k ha k.2, hN.entries k b k.2 hb])
  · intro a b hab
    rw [hsum]
    apply Finset.sum_eq_zero
    intro k _
    by_cases ha : a < 2 ^ n
    · rw [hN.outside k b (fun h => hab ⟨ha, h.2⟩), mul_zero]
    · rw [hM.outside a k (fun h => ha h.1), zero_mul]

theorem IsMatrixOf.getH {M : Mat K} {D : Matrix (Cfg n) (Cfg n) K} (hM : IsMatrixOf n M D) : IsMatrixOf n M.getH (star D) := by
  have hg : ∀ a b, M.getH.get a b = star (M.get b a) := by
    intro a b
    rw [Mat.get_eq, Mat.get_eq, Mat.getH, tget, tget, List.map_map, ← starAddEquiv_apply, map_list_sum, List.map_map]
    congr 1
    apply List.map_congr_left
    intro e _
    simp only [Function.comp, starAddEquiv_apply]
    by_cases h : e.2.1 = a ∧ e.1 = b
    · rw [if_pos h, if_pos ⟨h.2, h.1⟩]
    · rw [if_neg h, if_neg (fun h' => h ⟨h'.2, h'.1⟩), star_zero]
  refine ⟨hM.ncols, hM.nrows, ?_, ?_⟩
  · intro a b ha hb
    rw [hg, hM.entries b a hb ha, Matrix.star_apply]
  · intro a b hab
    rw [hg, hM.outside b a (fun h => hab ⟨h.2, h.1⟩), star_zero]

theorem IsMatrixOf.diagSum {M : Mat K} {D : Matrix (Cfg n) (Cfg n) K} (hM : IsMatrixOf n M D) : M.diagSum = D.trace := by
  rw [Mat.diagSum, hM.nrows, hM.ncols, min_self, Matrix.trace, ← sum_range_cfg]
  congr 1
  apply List.map_congr_left
  intro k hk
  have hk' : k < 2 ^ n := by simpa using hk
  rw [hM.entries k k hk' hk', Matrix.diag_apply]

/-! ### the tensor product form -/

/-- the operator of a word at a site -/
def wordOp (w : Word) (l : ℤ) : Option Op := (w.find? (fun x => decide (x.2 = l))).map Prod.fst

theorem wordOp_of_not_mem {w : Word} {l : ℤ} (h : l ∉ w.map Prod.snd) : wordOp w l = none := by
  rw [wordOp, Option.map_eq_none_iff, List.find?_eq_none]
  intro x hx
  simp only [decide_eq_true_eq]
  intro h'
  exact h (List.mem_map.mpr ⟨x, hx, h'⟩)

theorem prod_entry : ∀ (w : Word), (matRep K n).sys.Ok w → (w.map Prod.snd).Nodup → ∀ σ τ,
    (matRep K n).sys.prod w σ τ = ∏ i : Fin n, pauliMatrix (wordOp w i) (σ i) (τ i) := by
  intro w
  induction w with
  | nil =>
    intro _ _ σ τ
    rw [SiteSys.prod_nil, Matrix.one_apply]
    simp only [wordOp, List.find?_nil, Option.map_none, pauliMatrix]
    by_cases h : σ = τ
    · subst h; simp
    · rw [if_neg h]
      obtain ⟨i, hi⟩ := Function.ne_iff.mp h
      exact (Finset.prod_eq_zero (Finset.mem_univ i) (if_neg hi)).symm
  | cons x w ih =>
    intro hw hn σ τ
    obtain ⟨op, l⟩ := x
    simp only [List.map_cons, List.nodup_cons] at hn
    have hx := hw (op, l) (by simp)
    have hl : 0 ≤ l ∧ l < n := hx.2
    have ih' := ih (fun z hz => hw z (List.mem_cons_of_mem _ hz)) hn.2
    let i0 : Fin n := ⟨l.toNat, by omega⟩
    have hi0 : ((i0 : ℕ) : ℤ) = l := by simp [i0]; omega
    have hother : ∀ i : Fin n, i ≠ i0 → ¬ l = (i : ℤ) := by
      intro i hi h
      apply hi
      apply Fin.ext
      have : ((i : ℕ) : ℤ) = ((i0 : ℕ) : ℤ) := by rw [hi0, h]
      exact_mod_cast this
    have hbit : Cfg.bit l σ = σ i0 := by simp [Cfg.bit, hl, i0]
    -- the product for a configuration that differs from σ only at l
    have hrest : ∀ ρ : Cfg n, (∀ i, i ≠ i0 → ρ i = σ i) → (matRep K n).sys.prod w ρ τ =
        (if ρ i0 = τ i0 then 1 else 0) * ∏ i ∈ Finset.univ.erase i0, pauliMatrix (wordOp ((op, l) :: w) i) (σ i) (τ i) := by
      intro ρ hρ
      rw [ih', ← Finset.mul_prod_erase _ _ (Finset.mem_univ i0)]
      congr 1
      · rw [hi0, wordOp_of_not_mem hn.1]; rfl
      · apply Finset.prod_congr rfl
        intro i hi
        have hi' : i ≠ i0 := (Finset.mem_erase.mp hi).1
        rw [hρ i hi']
        congr 1
        simp [wordOp, List.find?_cons, hother i hi']
    have hhead : wordOp ((op, l) :: w) ((i0 : ℕ) : ℤ) = some op := by
      rw [hi0]; simp [wordOp]
    have hflip : ∀ i, i ≠ i0 → Cfg.flip l σ i = σ i := by
      intro i hi
      simp only [Cfg.flip]
      rw [if_neg (fun h => hother i hi h.symm)]
    have hflip0 : Cfg.flip l σ i0 = !σ i0 := by simp [Cfg.flip, hi0]
    rw [SiteSys.prod_cons, Matrix.mul_apply, ← Finset.mul_prod_erase _ _ (Finset.mem_univ i0), hhead]
    rcases hx.1 with h | h | h
    · obtain rfl : op = .X := h
      rw [Finset.sum_eq_single (Cfg.flip l σ), hrest _ hflip, hflip0]
      · simp only [PauliRep.sys, PauliRep.site, matRep, matX, mono, pauliMatrix, if_true]
        cases σ i0 <;> cases τ i0 <;> simp
      · intro ρ _ hρ
        simp [PauliRep.sys, PauliRep.site, matRep, matX, mono, hρ]
      · simp
    · obtain rfl : op = .Y := h
      rw [Finset.sum_eq_single (Cfg.flip l σ), hrest _ hflip, hflip0]
      · simp only [PauliRep.sys, PauliRep.site, matRep, matY, mono, pauliMatrix, if_true, hbit]
        cases σ i0 <;> cases τ i0 <;> simp
      · intro ρ _ hρ
        simp [PauliRep.sys, PauliRep.site, matRep, matY, mono, hρ]
      · simp
    · obtain rfl : op = .Z := h
      rw [Finset.sum_eq_single σ, hrest _ (fun _ _ => rfl)]
      · simp only [PauliRep.sys, PauliRep.site, matRep, matZ, mono, pauliMatrix, if_true, hbit]
        cases σ i0 <;> cases τ i0 <;> simp
      · intro ρ _ hρ
        simp [PauliRep.sys, PauliRep.site, matRep, matZ, mono, hρ]
      · simp

end Qosy
