import Verif.Lemmas.Diagonalization
import Verif.Lemmas.PermGroup
import Mathlib.LinearAlgebra.Matrix.Kronecker

/-! # Permutations of sites and subsystems: numbers, vectors and matrices -/

namespace Qosy
open Coef
variable {K : Type} [Field K] [StarRing K] [Coef K] {n : ℕ}

/-! ### sums of distinct powers of two -/

theorem testBit_add_pow {acc j : ℕ} (h : acc.testBit j = false) (x : ℕ) : (acc + 2 ^ j).testBit x = if x = j then true else acc.testBit x := by
  have e : acc + 2 ^ j = acc ^^^ 2 ^ j := by
    have h1 : acc = 2 ^ (j + 1) * (acc / 2 ^ (j + 1)) + acc % 2 ^ (j + 1) := (Nat.div_add_mod _ _).symm
    have hlt : acc % 2 ^ (j + 1) < 2 ^ (j + 1) := Nat.mod_lt _ (Nat.two_pow_pos _)
    have hlo : acc % 2 ^ (j + 1) < 2 ^ j := by
      by_contra hc
      have : (acc % 2 ^ (j + 1)).testBit j = true := by
        rw [Nat.testBit_eq_decide_div_mod_eq]
        have : acc % 2 ^ (j + 1) / 2 ^ j = 1 := by
          apply Nat.div_eq_of_lt_le <;> rw [pow_succ] at * <;> omega
        simp [this]
      rw [Nat.testBit_mod_two_pow] at this
      simp [h] at this
    have hp : 2 ^ (j + 1) = 2 ^ j * 2 := pow_succ 2 j
    have h2 : acc + 2 ^ j = 2 ^ (j + 1) * (acc / 2 ^ (j + 1)) + (2 ^ j + acc % 2 ^ (j + 1)) := by omega
    apply Nat.eq_of_testBit_eq
    intro x
    rw [Nat.testBit_xor, Nat.testBit_two_pow, h2, Nat.testBit_two_pow_mul_add _ (by omega)]
    conv_rhs => rw [h1, Nat.testBit_two_pow_mul_add _ hlt]
    by_cases hx : x < j + 1
    · rw [if_pos hx, if_pos hx]
      by_cases hxj : x = j
      · subst hxj
        rw [Nat.testBit_two_pow_add_eq]; simp
      · rw [Nat.testBit_two_pow_add_gt (by omega)]
        simp [Ne.symm hxj]
    · rw [if_neg hx, if_neg hx]
      have : ¬ j = x := by omega
      simp [this]
  rw [e, Nat.testBit_xor, Nat.testBit_two_pow]
  by_cases hx : x = j
  · subst hx; simp [h]
  · simp [hx, Ne.symm hx]

/-- the sum `acc + ∑ b * 2 ^ j` -/
def bitSum : List (Bool × ℕ) → ℕ → ℕ
  | [], acc => acc
  | (b, j) :: rest, acc => bitSum rest (acc + (if b then 1 else 0) * 2 ^ j)

theorem bitSum_testBit : ∀ (l : List (Bool × ℕ)) (acc : ℕ), (l.map Prod.snd).Nodup → (∀ x ∈ l, acc.testBit x.2 = false) →
    (∀ x ∈ l, (bitSum l acc).testBit x.2 = x.1) ∧ ∀ i, i ∉ l.map Prod.snd → (bitSum l acc).testBit i = acc.testBit i := by
  intro l
  induction l with
  | nil => intro acc _ _; simp [bitSum]
  | cons x l ih =>
    intro acc hn h
    obtain ⟨b, j⟩ := x
    simp only [List.map_cons, List.nodup_cons] at hn
    have hj := h (b, j) (by simp)
    have hacc : ∀ i, (acc + (if b then 1 else 0) * 2 ^ j).testBit i = if i = j then b else acc.testBit i := by
      intro i
      cases b
      · simp only [Bool.false_eq_true, if_false, zero_mul, add_zero]
        split
        · rename_i e; rw [e]; exact hj
        · rfl
      · simp only [if_true, one_mul]; exact testBit_add_pow hj i
    obtain ⟨h1, h2⟩ := ih (acc + (if b then 1 else 0) * 2 ^ j) hn.2 (by
      intro y hy
      have hne : y.2 ≠ j := fun e => hn.1 (by rw [← e]; exact List.mem_map_of_mem hy)
      rw [hacc, if_neg hne]
      exact h y (List.mem_cons_of_mem _ hy))
    constructor
    · intro y hy
      rcases List.mem_cons.mp hy with rfl | hy
      · show (bitSum l _).testBit j = b
        rw [h2 j hn.1, hacc, if_pos rfl]
      · exact h1 y hy
    · intro i hi
      simp only [List.map_cons, List.mem_cons, not_or] at hi
      show (bitSum l _).testBit i = _
      rw [h2 i hi.2, hacc, if_neg hi.1]

theorem bitSum_lt {l : List (Bool × ℕ)} (hn : (l.map Prod.snd).Nodup) {m : ℕ} (h : ∀ x ∈ l, x.2 < m) : bitSum l 0 < 2 ^ m := by
  apply Nat.lt_pow_two_of_testBit
  intro i hi
  rw [(bitSum_testBit l 0 hn (by simp)).2 i, Nat.zero_testBit]
  intro hm
  obtain ⟨x, hx, rfl⟩ := List.mem_map.mp hm
  have := h x hx
  omega

/-! ### the loops over the labels -/

theorem permuteConfLoop_ok (k : ℕ) : ∀ (l : List (ℕ × ℤ)) (acc : ℕ), (∀ x ∈ l, ((x.1 : ℕ) : ℤ) ∈ siteLabels n ∧ x.2 ∈ siteLabels n) →
    permuteConfLoop n k l acc = .ok (bitSum (l.map (fun x => (k.testBit (n - 1 - x.1), n - 1 - x.2.toNat))) acc) := by
  intro l
  induction l with
  | nil => intro acc _; rfl
  | cons x l ih =>
    intro acc h
    obtain ⟨a, b⟩ := x
    have hx := h (a, b) (by simp)
    rw [permuteConfLoop, maskOf_ok hx.1, maskOf_ok hx.2]
    simp only [bind, Except.bind, Int.toNat_natCast, List.map_cons, bitSum]
    rw [ih _ (fun y hy => h y (List.mem_cons_of_mem _ hy))]
    congr 3
    by_cases hb : k.testBit (n - 1 - a)
    · rw [if_pos ((and_mask _ _).mpr hb), if_pos hb]
    · rw [if_neg (fun h => hb ((and_mask _ _).mp h)), if_neg hb]

theorem collectBits_ok {m : ℕ} (k : ℕ) : ∀ (l : List ℤ) (j acc : ℕ), (∀ x ∈ l, x ∈ siteLabels n) → j + l.length ≤ m →
    collectBits n m k l j acc = .ok (bitSum ((l.zipIdx j).map (fun x => (k.testBit (n - 1 - x.1.toNat), m - 1 - x.2))) acc) := by
  intro l
  induction l with
  | nil => intro j acc _ _; rfl
  | cons x l ih =>
    intro j acc h hj
    simp only [List.length_cons] at hj
    have hjm : ((j : ℕ) : ℤ) ∈ siteLabels m := ⟨by omega, by omega⟩
    rw [collectBits, maskOf_ok (h x (by simp)), maskOf_ok hjm]
    simp only [bind, Except.bind, Int.toNat_natCast, List.zipIdx_cons, List.map_cons, bitSum]
    rw [ih _ _ (fun y hy => h y (List.mem_cons_of_mem _ hy)) (by omega)]
    congr 3
    by_cases hb : k.testBit (n - 1 - x.toNat)
    · rw [if_pos ((and_mask _ _).mpr hb), if_pos hb]
    · rw [if_neg (fun h => hb ((and_mask _ _).mp h)), if_neg hb]

/-! ### lists of sites -/

theorem siteList_length {m : ℕ} (f : Fin m ↪ Fin n) : (siteList f).length = m := by simp [siteList]

theorem mem_siteList {m : ℕ} {f : Fin m ↪ Fin n} {l : ℤ} : l ∈ siteList f ↔ ∃ j, ((f j : ℕ) : ℤ) = l := by
  simp [siteList, List.mem_ofFn]

theorem siteList_mem {m : ℕ} {f : Fin m ↪ Fin n} {l : ℤ} (h : l ∈ siteList f) : l ∈ siteLabels n := by
  obtain ⟨j, rfl⟩ := mem_siteList.mp h
  exact ⟨by omega, by have := (f j).2; omega⟩

theorem siteList_nodup {m : ℕ} (f : Fin m ↪ Fin n) : (siteList f).Nodup := by
  rw [siteList, List.nodup_ofFn]
  intro a b h
  apply f.injective
  apply Fin.ext
  simpa using h

theorem exists_siteList {l : List ℤ} (hn : l.Nodup) (hl : ∀ x ∈ l, x ∈ siteLabels n) : ∃ f : Fin l.length ↪ Fin n, siteList f = l := by
  have h : ∀ j : Fin l.length, (l.get j).toNat < n := by
    intro j
    have := hl _ (l.get_mem j)
    simp only [mem_siteLabels] at this
    omega
  refine ⟨⟨fun j => ⟨(l.get j).toNat, h j⟩, ?_⟩, ?_⟩
  · intro a b hab
    simp only [Fin.mk.injEq] at hab
    have ha := hl _ (l.get_mem a)
    have hb := hl _ (l.get_mem b)
    simp only [mem_siteLabels] at ha hb
    exact (List.nodup_iff_injective_get.mp hn) (by omega)
  · rw [siteList]
    conv_rhs => rw [← List.ofFn_get l]
    congr 1
    funext j
    have ha := hl _ (l.get_mem j)
    simp only [mem_siteLabels] at ha
    show (((l.get j).toNat : ℕ) : ℤ) = l.get j
    omega

theorem relabelMap_siteList {m : ℕ} (f : Fin m ↪ Fin n) (j : Fin m) : relabelMap (siteList f) ((j : ℕ) : ℤ) = ((f j : ℕ) : ℤ) := by
  simp [relabelMap, siteList, List.getD_eq_getElem?_getD]

theorem tracedLabels_siteList {m : ℕ} (f : Fin m ↪ Fin n) : ∃ (t : ℕ) (h : Fin t ↪ Fin n), tracedLabels (siteList f) n = siteList h ∧
    ∀ i, i ∈ Set.range h ↔ i ∉ Set.range f := by
  have hn : (tracedLabels (siteList f) n).Nodup := by
    apply List.Nodup.filter
    rw [List.nodup_map_iff (fun a b h => by simpa using h)]
    exact List.nodup_range
  have hm : ∀ x, x ∈ tracedLabels (siteList f) n ↔ x ∈ siteLabels n ∧ x ∉ siteList f := by
    intro x
    simp only [tracedLabels, List.mem_filter, List.mem_map, List.mem_range, decide_eq_true_eq, mem_siteLabels]
    constructor
    · rintro ⟨⟨a, ha, rfl⟩, h⟩; exact ⟨⟨by omega, by omega⟩, h⟩
    · rintro ⟨⟨h1, h2⟩, h⟩; exact ⟨⟨x.toNat, by omega, by omega⟩, h⟩
  obtain ⟨h, hh⟩ := exists_siteList hn (fun x hx => ((hm x).mp hx).1)
  refine ⟨_, h, hh.symm, fun i => ?_⟩
  have := hm ((i : ℕ) : ℤ)
  rw [← hh, mem_siteList, mem_siteList] at this
  have hi : ((i : ℕ) : ℤ) ∈ siteLabels n := ⟨by omega, by have := i.2; omega⟩
  simp only [hi, true_and] at this
  simp only [Nat.cast_inj, Fin.val_inj] at this
  simpa [Set.mem_range] using this

theorem collectBits_siteList {m : ℕ} (f : Fin m ↪ Fin n) (k : ℕ) : ∃ a, collectBits n m k (siteList f) 0 0 = .ok a ∧ a < 2 ^ m ∧
    cfgOf m a = cfgOf n k ∘ f := by
  have hlen := siteList_length f
  have hnd : ((((siteList f).zipIdx 0).map (fun x : ℤ × ℕ => (k.testBit (n - 1 - x.1.toNat), m - 1 - x.2))).map Prod.snd).Nodup := by
    rw [List.map_map]
    have : (Prod.snd ∘ fun x : ℤ × ℕ => (k.testBit (n - 1 - x.1.toNat), m - 1 - x.2)) = (fun j => m - 1 - j) ∘ Prod.snd := rfl
    rw [this, ← List.map_map, List.zipIdx_map_snd, hlen]
    apply List.Nodup.map_on _ (List.nodup_range' _)
    intro x hx y hy h
    simp only [List.mem_range'_1] at hx hy
    omega
  refine ⟨_, collectBits_ok k _ 0 0 (fun x hx => siteList_mem hx) (by omega), ?_, ?_⟩
  · apply bitSum_lt hnd
    intro x hx
    obtain ⟨y, hy, rfl⟩ := List.mem_map.mp hx
    have := List.snd_lt_of_mem_zipIdx hy
    simp only
    omega
  · funext j
    have hmem : (((f j : ℕ) : ℤ), (j : ℕ)) ∈ (siteList f).zipIdx 0 := by
      rw [List.mk_mem_zipIdx_iff_getElem?]
      simp [siteList]
    have := (bitSum_testBit _ 0 hnd (by simp)).1 _ (List.mem_map_of_mem hmem)
    simpa [cfgOf] using this

/-! ### reshaping -/

theorem IsState.get {v : List K} {ψ : Cfg n → K} (h : IsState n v ψ) {k : ℕ} (hk : k < 2 ^ n) : pyGet v k = .ok (ψ (cfgOf n k)) := by
  simp only [pyGet, h.entries k hk]

theorem cfg_join_inj {m t : ℕ} {f : Fin m ↪ Fin n} {h : Fin t ↪ Fin n} (hc : ∀ i, i ∈ Set.range h ↔ i ∉ Set.range f) {σ τ : Cfg n}
    (h1 : σ ∘ f = τ ∘ f) (h2 : σ ∘ h = τ ∘ h) : σ = τ := by
  funext i
  by_cases hi : i ∈ Set.range f
  · obtain ⟨j, rfl⟩ := hi; exact congrFun h1 j
  · obtain ⟨j, rfl⟩ := (hc i).mpr hi; exact congrFun h2 j

theorem reshapeLoop_ok {m t : ℕ} {f : Fin m ↪ Fin n} {h : Fin t ↪ Fin n} (hc : ∀ i, i ∈ Set.range h ↔ i ∉ Set.range f) {v : List K} {ψ : Cfg n → K}
    (hv : IsState n v ψ) : ∀ (l : List ℕ) (c : Dense K), c.nrows = 2 ^ m → c.ncols = 2 ^ t → l.Nodup → (∀ k ∈ l, k < 2 ^ n) →
    ∃ d, reshapeLoop v (siteList f) (siteList h) n l c = .ok d ∧ d.nrows = 2 ^ m ∧ d.ncols = 2 ^ t ∧
      (∀ k ∈ l, ∀ a b, a < 2 ^ m → b < 2 ^ t → cfgOf m a = cfgOf n k ∘ f → cfgOf t b = cfgOf n k ∘ h → d.get a b = ψ (cfgOf n k)) ∧
      (∀ a b, a < 2 ^ m → b < 2 ^ t → (∀ k ∈ l, ¬ (cfgOf m a = cfgOf n k ∘ f ∧ cfgOf t b = cfgOf n k ∘ h)) → d.get a b = c.get a b) := by
  intro l
  induction l with
  | nil => intro c h1 h2 _ _; exact ⟨c, rfl, h1, h2, by simp, fun _ _ _ _ _ => rfl⟩
  | cons k l ih =>
    intro c h1 h2 hn hl
    rw [List.nodup_cons] at hn
    obtain ⟨a, a1, a2, a3⟩ := collectBits_siteList f k
    obtain ⟨b, b1, b2, b3⟩ := collectBits_siteList h k
    have hk := hl k (by simp)
    obtain ⟨d, d1, d2, d3, d4, d5⟩ := ih ⟨c.nrows, c.ncols, fun x y => if x = a ∧ y = b then ψ (cfgOf n k) else c.get x y⟩ h1 h2 hn.2
      (fun x hx => hl x (List.mem_cons_of_mem _ hx))
    refine ⟨d, ?_, d2, d3, ?_, ?_⟩
    · rw [reshapeLoop, siteList_length, siteList_length, a1, b1]
      simp only [bind, Except.bind, hv.get hk, Dense.set, h1, h2, a2, b2, and_self, if_true]
      rw [h1, h2] at d1
      exact d1
    · intro k' hk' x y hx hy e1 e2
      rcases List.mem_cons.mp hk' with rfl | hk'
      · rw [d5 x y hx hy]
        · show (if x = a ∧ y = b then _ else _) = _
          rw [if_pos ⟨cfgOf_inj hx a2 (e1.trans a3.symm), cfgOf_inj hy b2 (e2.trans b3.symm)⟩]
        · rintro k'' hk'' ⟨e3, e4⟩
          have := cfgOf_inj hk (hl k'' (List.mem_cons_of_mem _ hk'')) (cfg_join_inj hc (e1.symm.trans e3) (e2.symm.trans e4))
          exact hn.1 (this ▸ hk'')
      · exact d4 k' hk' x y hx hy e1 e2
    · intro x y hx hy hxy
      rw [d5 x y hx hy (fun k' hk' => hxy k' (List.mem_cons_of_mem _ hk'))]
      show (if x = a ∧ y = b then _ else _) = _
      rw [if_neg]
      rintro ⟨rfl, rfl⟩
      exact hxy k (by simp) ⟨a3, b3⟩

/-- a configuration is a configuration of the sites `f` and one of the sites `h` -/
noncomputable def splitEquiv {m t : ℕ} {f : Fin m ↪ Fin n} {h : Fin t ↪ Fin n} (hc : ∀ i, i ∈ Set.range h ↔ i ∉ Set.range f) :
    Cfg n ≃ Cfg m × Cfg t := by
  have hb : Function.Bijective (Sum.elim f h) := by
    constructor
    · rintro (a | a) (b | b) hab
      · exact congrArg Sum.inl (f.injective hab)
      · exact absurd ⟨a, hab⟩ ((hc _).mp ⟨b, rfl⟩)
      · exact absurd ⟨b, hab.symm⟩ ((hc _).mp ⟨a, rfl⟩)
      · exact congrArg Sum.inr (h.injective hab)
    · intro i
      by_cases hi : i ∈ Set.range f
      · obtain ⟨j, rfl⟩ := hi; exact ⟨Sum.inl j, rfl⟩
      · obtain ⟨j, rfl⟩ := (hc i).mpr hi; exact ⟨Sum.inr j, rfl⟩
  exact ((Equiv.ofBijective _ hb).symm.arrowCongr (Equiv.refl Bool)).trans (Equiv.sumArrowEquivProdArrow _ _ _)

theorem splitEquiv_apply {m t : ℕ} {f : Fin m ↪ Fin n} {h : Fin t ↪ Fin n} (hc : ∀ i, i ∈ Set.range h ↔ i ∉ Set.range f) (σ : Cfg n) :
    splitEquiv hc σ = (σ ∘ f, σ ∘ h) := rfl

theorem reshape_ok {m t : ℕ} {f : Fin m ↪ Fin n} {h : Fin t ↪ Fin n} (ht : tracedLabels (siteList f) n = siteList h)
    (hc : ∀ i, i ∈ Set.range h ↔ i ∉ Set.range f) {v : List K} {ψ : Cfg n → K} (hv : IsState n v ψ) :
    ∃ d, reshapeVectorSubsystems v (siteList f) n = .ok d ∧ d.nrows = 2 ^ m ∧ d.ncols = 2 ^ t ∧
      ∀ a b, a < 2 ^ m → b < 2 ^ t → d.get a b = ψ ((splitEquiv hc).symm (cfgOf m a, cfgOf t b)) := by
  obtain ⟨d, d1, d2, d3, d4, _⟩ := reshapeLoop_ok hc hv (List.range (2 ^ n)) ⟨2 ^ m, 2 ^ t, fun _ _ => 0⟩ rfl rfl List.nodup_range (by simp)
  refine ⟨d, ?_, d2, d3, ?_⟩
  · rw [reshapeVectorSubsystems, ht]
    simp only [siteList_length]
    exact d1
  · intro a b ha hb
    obtain ⟨k, hk, e⟩ := exists_cfgOf ((splitEquiv hc).symm (cfgOf m a, cfgOf t b))
    have h2 := (splitEquiv hc).apply_symm_apply (cfgOf m a, cfgOf t b)
    rw [← e, splitEquiv_apply, Prod.mk.injEq] at h2
    rw [← e]
    exact d4 k (List.mem_range.mpr hk) a b ha hb h2.1.symm h2.2.symm

/-- the partial trace as a sum over the configurations of the traced sites -/
theorem partialTrace_eq {m t : ℕ} {f : Fin m ↪ Fin n} {h : Fin t ↪ Fin n} (hc : ∀ i, i ∈ Set.range h ↔ i ∉ Set.range f) (ψ φ : Cfg n → K)
    (α β : Cfg m) : partialTrace f ψ φ α β = ∑ γ : Cfg t, ψ ((splitEquiv hc).symm (α, γ)) * star (φ ((splitEquiv hc).symm (β, γ))) := by
  classical
  rw [partialTrace, ← (splitEquiv hc).symm.sum_comp, Fintype.sum_prod_type, Finset.sum_eq_single α]
  · apply Finset.sum_congr rfl
    intro γ _
    have hα := (splitEquiv hc).apply_symm_apply (α, γ)
    rw [splitEquiv_apply, Prod.mk.injEq] at hα
    have hβ := (splitEquiv hc).apply_symm_apply (β, γ)
    rw [splitEquiv_apply, Prod.mk.injEq] at hβ
    rw [Finset.sum_eq_single ((splitEquiv hc).symm (β, γ))]
    · rw [if_pos]
      refine ⟨hα.1, hβ.1, fun i hi => ?_⟩
      obtain ⟨j, rfl⟩ := (hc i).mpr hi
      exact (congrFun hα.2 j).trans (congrFun hβ.2 j).symm
    · intro τ _ hτ
      rw [if_neg]
      rintro ⟨_, h2, h3⟩
      apply hτ
      apply cfg_join_inj hc (h2.trans hβ.1.symm)
      funext j
      exact (h3 (h j) ((hc _).mp ⟨j, rfl⟩)).symm.trans ((congrFun hα.2 j).trans (congrFun hβ.2 j).symm)
    · simp
  · intro α' _ hα'
    apply Finset.sum_eq_zero
    intro γ _
    apply Finset.sum_eq_zero
    intro τ _
    have h1 := (splitEquiv hc).apply_symm_apply (α', γ)
    rw [splitEquiv_apply, Prod.mk.injEq] at h1
    rw [if_neg]
    rintro ⟨h2, _⟩
    exact hα' (h1.1.symm.trans h2)
  · simp

theorem reducedTransitionMatrix_ok {m : ℕ} (f : Fin m ↪ Fin n) {v w : List K} {ψ φ : Cfg n → K} (hv : IsState n v ψ) (hw : IsState n w φ) :
    ∃ ρ, reducedTransitionMatrix v w (siteList f) n = .ok ρ ∧ IsDenseOf m ρ (partialTrace f ψ φ) := by
  obtain ⟨t, h, ht, hc⟩ := tracedLabels_siteList f
  obtain ⟨c, c1, c2, c3, c4⟩ := reshape_ok ht hc hv
  obtain ⟨d, d1, d2, d3, d4⟩ := reshape_ok ht hc hw
  refine ⟨⟨c.nrows, d.nrows, fun i j => ((List.range c.ncols).map (fun k => c.get i k * star (d.get j k))).sum⟩, ?_, c2, d2, ?_⟩
  · rw [reducedTransitionMatrix, c1, d1]
    simp only [bind, Except.bind]
    rw [Dense.dotConjT, if_neg (by rw [c3, d3]; simp)]
  · intro a b ha hb
    rw [partialTrace_eq hc, ← sum_range_cfg]
    show (List.map _ (List.range c.ncols)).sum = _
    rw [c3]
    congr 1
    apply List.map_congr_left
    intro k hk
    rw [c4 a k ha (List.mem_range.mp hk), d4 b k hb (List.mem_range.mp hk)]

theorem reducedDensityMatrix_eq (v : List K) (l : List ℤ) (n : ℕ) : reducedDensityMatrix v l n = reducedTransitionMatrix v v l n := by
  rw [reducedDensityMatrix, reducedTransitionMatrix]
  cases reshapeVectorSubsystems v l n <;> rfl

/-! ### operators on a subsystem -/

open scoped Kronecker in
/-- the matrix of an operator on the sites `f` as an operator on all sites -/
noncomputable def embedOp {m t : ℕ} {f : Fin m ↪ Fin n} {h : Fin t ↪ Fin n} (hc : ∀ i, i ∈ Set.range h ↔ i ∉ Set.range f)
    (D : Matrix (Cfg m) (Cfg m) K) : Matrix (Cfg n) (Cfg n) K :=
  (D ⊗ₖ (1 : Matrix (Cfg t) (Cfg t) K)).submatrix (splitEquiv hc) (splitEquiv hc)

section
variable {m t : ℕ} {f : Fin m ↪ Fin n} {h : Fin t ↪ Fin n} (hc : ∀ i, i ∈ Set.range h ↔ i ∉ Set.range f)
include hc

theorem embedOp_apply (D : Matrix (Cfg m) (Cfg m) K) (σ τ : Cfg n) :
    embedOp hc D σ τ = if σ ∘ h = τ ∘ h then D (σ ∘ f) (τ ∘ f) else 0 := by
  simp only [embedOp, Matrix.submatrix_apply, splitEquiv_apply, Matrix.kroneckerMap_apply, Matrix.one_apply]
  split <;> simp

theorem embedOp_mul (D E : Matrix (Cfg m) (Cfg m) K) : embedOp hc (D * E) = embedOp hc D * embedOp hc E := by
  rw [embedOp, embedOp, embedOp, Matrix.submatrix_mul_equiv, ← Matrix.mul_kronecker_mul, one_mul]

theorem embedOp_one : embedOp hc (1 : Matrix (Cfg m) (Cfg m) K) = 1 := by
  rw [embedOp, Matrix.one_kronecker_one, Matrix.submatrix_one_equiv]

theorem embedOp_mono {F : Cfg m → Cfg m} {c : Cfg m → K} {G : Cfg n → Cfg n} {d : Cfg n → K} (h1 : ∀ σ, G σ ∘ f = F (σ ∘ f))
    (h2 : ∀ σ, G σ ∘ h = σ ∘ h) (h3 : ∀ σ, d σ = c (σ ∘ f)) : embedOp hc (mono F c) = mono G d := by
  ext σ τ
  rw [embedOp_apply]
  simp only [mono]
  by_cases e : τ = G σ
  · rw [if_pos e, e, if_pos (h2 σ).symm, if_pos (h1 σ), h3]
  · rw [if_neg e]
    split
    · rename_i e2
      rw [if_neg]
      intro e3
      exact e (cfg_join_inj hc (e3.trans (h1 σ).symm) (e2.symm.trans (h2 σ).symm))
    · rfl

omit hc in
theorem flip_comp (j : Fin m) (σ : Cfg n) : Cfg.flip ((f j : ℕ) : ℤ) σ ∘ f = Cfg.flip ((j : ℕ) : ℤ) (σ ∘ f) := by
  funext i
  simp only [Function.comp, Cfg.flip, Nat.cast_inj, Fin.val_inj, f.injective.eq_iff]

theorem flip_comp_rest (j : Fin m) (σ : Cfg n) : Cfg.flip ((f j : ℕ) : ℤ) σ ∘ h = σ ∘ h := by
  funext i
  have : h i ≠ f j := fun e => (hc (h i)).mp ⟨i, rfl⟩ ⟨j, e.symm⟩
  simp only [Function.comp, Cfg.flip, Nat.cast_inj, Fin.val_inj, if_neg this]

omit hc in
theorem bit_comp (j : Fin m) (σ : Cfg n) : Cfg.bit ((f j : ℕ) : ℤ) σ = Cfg.bit ((j : ℕ) : ℤ) (σ ∘ f) := by
  simp [Cfg.bit]

theorem embedOp_site (op : Op) (j : Fin m) (hop : op = .X ∨ op = .Y ∨ op = .Z) :
    embedOp hc ((matRep K m).site op ((j : ℕ) : ℤ)) = (matRep K n).site op ((f j : ℕ) : ℤ) := by
  rcases hop with rfl | rfl | rfl
  · exact embedOp_mono hc (fun σ => flip_comp j σ) (fun σ => flip_comp_rest hc j σ) (fun _ => rfl)
  · exact embedOp_mono hc (fun σ => flip_comp j σ) (fun σ => flip_comp_rest hc j σ) (fun σ => by rw [bit_comp j σ])
  · exact embedOp_mono hc (fun σ => rfl) (fun σ => rfl) (fun σ => by rw [bit_comp j σ])

theorem embedOp_smul (c : K) (D : Matrix (Cfg m) (Cfg m) K) : embedOp hc (c • D) = c • embedOp hc D := by
  rw [embedOp, Matrix.smul_kronecker]; rfl

theorem embedOp_add (D E : Matrix (Cfg m) (Cfg m) K) : embedOp hc (D + E) = embedOp hc D + embedOp hc E := by
  rw [embedOp, Matrix.add_kronecker]; rfl

theorem embedOp_zero : embedOp hc (0 : Matrix (Cfg m) (Cfg m) K) = 0 := by
  rw [embedOp, Matrix.zero_kronecker]; rfl

omit hc in
theorem relabelMap_siteList_inj : Set.InjOn (relabelMap (siteList f)) (siteLabels m) := by
  rintro a ⟨ha, ha'⟩ b ⟨hb, hb'⟩ hab
  lift a to ℕ using ha
  lift b to ℕ using hb
  have h1 := relabelMap_siteList f ⟨a, by omega⟩
  have h2 := relabelMap_siteList f ⟨b, by omega⟩
  simp only at h1 h2
  rw [h1, h2, Nat.cast_inj, Fin.val_inj, f.injective.eq_iff, Fin.mk.injEq] at hab
  rw [hab]

omit hc in
theorem relabelMap_siteList_mapsTo : Set.MapsTo (relabelMap (siteList f)) (siteLabels m) (siteLabels n) := by
  rintro a ⟨ha, ha'⟩
  lift a to ℕ using ha
  rw [relabelMap_siteList f ⟨a, by omega⟩]
  exact ⟨by omega, by have := (f ⟨a, by omega⟩).2; omega⟩

theorem embedOp_den {s : OpString} (hs : PauliString (siteLabels m) s) :
    embedOp hc ((matRep K m).den s) =
      ((matRep K n).relabelOn (relabelMap (siteList f)) relabelMap_siteList_inj relabelMap_siteList_mapsTo).den s := by
  have key : ∀ (ops : List Op) (labels : List ℤ), (∀ op ∈ ops, op = .X ∨ op = .Y ∨ op = .Z) → (∀ l ∈ labels, l ∈ siteLabels m) →
      embedOp hc (wordProd (matRep K m).site ops labels) =
        wordProd ((matRep K n).relabelOn (relabelMap (siteList f)) relabelMap_siteList_inj relabelMap_siteList_mapsTo).site ops labels := by
    intro ops
    induction ops with
    | nil => intro labels _ _; simp only [wordProd]; exact embedOp_one hc
    | cons o ops ih =>
      intro labels ho hl
      cases labels with
      | nil => simp only [wordProd]; exact embedOp_one hc
      | cons l labels =>
        rw [wordProd, wordProd, embedOp_mul, ih labels (fun x hx => ho x (List.mem_cons_of_mem _ hx)) (fun x hx => hl x (List.mem_cons_of_mem _ hx))]
        congr 1
        obtain ⟨h1, h2⟩ := hl l (by simp)
        lift l to ℕ using h1
        have := embedOp_site (K := K) hc o ⟨l, by omega⟩ (ho o (by simp))
        simp only at this
        rw [this]
        have h3 := relabelMap_siteList f ⟨l, by omega⟩
        simp only at h3
        rw [← h3]
        cases o <;> rfl
  rw [PauliRep.den, embedOp_smul, key _ _ hs.ops hs.mem]
  rfl

theorem embedOp_operator {A : Operator K} (hA : ∀ s ∈ A.basis.strs, PauliString (siteLabels m) s) :
    embedOp hc (A.den (matRep K m).den) =
      A.den ((matRep K n).relabelOn (relabelMap (siteList f)) relabelMap_siteList_inj relabelMap_siteList_mapsTo).den := by
  have key : ∀ ts : List (K × OpString), (∀ t ∈ ts, PauliString (siteLabels m) t.2) → embedOp hc (denT (matRep K m).den ts) =
      denT ((matRep K n).relabelOn (relabelMap (siteList f)) relabelMap_siteList_inj relabelMap_siteList_mapsTo).den ts := by
    intro ts
    induction ts with
    | nil => intro _; exact embedOp_zero hc
    | cons t ts ih =>
      intro h
      rw [denT_cons, denT_cons, embedOp_add, embedOp_smul, embedOp_den hc (h t (by simp)), ih (fun t ht => h t (List.mem_cons_of_mem _ ht))]
  exact key A.terms (fun t ht => hA _ (List.of_mem_zip ht).2)

/-- expectation values of operators on the subsystem -/
theorem trace_partialTrace (D : Matrix (Cfg m) (Cfg m) K) (ψ φ : Cfg n → K) :
    ∑ α, ∑ β, D α β * partialTrace f ψ φ β α = ∑ σ, ∑ τ, star (φ σ) * embedOp hc D σ τ * ψ τ := by
  rw [← (splitEquiv hc).symm.sum_comp, Fintype.sum_prod_type]
  apply Finset.sum_congr rfl
  intro α _
  have hα : ∀ (x : Cfg m) (y : Cfg t), (splitEquiv hc).symm (x, y) ∘ f = x ∧ (splitEquiv hc).symm (x, y) ∘ h = y := by
    intro x y
    have := (splitEquiv hc).apply_symm_apply (x, y)
    rwa [splitEquiv_apply, Prod.mk.injEq] at this
  simp_rw [← (splitEquiv hc).symm.sum_comp (fun τ => star (φ ((splitEquiv hc).symm (α, _))) * embedOp hc D ((splitEquiv hc).symm (α, _)) τ * ψ τ),
    Fintype.sum_prod_type, embedOp_apply, (hα _ _).1, (hα _ _).2]
  rw [Finset.sum_comm]
  apply Finset.sum_congr rfl
  intro β _
  rw [partialTrace_eq hc, Finset.mul_sum]
  apply Finset.sum_congr rfl
  intro γ _
  rw [Finset.sum_eq_single γ]
  · rw [if_pos rfl]; ring
  · intro γ' _ hne
    rw [if_neg (Ne.symm hne)]; ring
  · simp

end

/-! ### permutations -/

theorem siteList_perm (g : Equiv.Perm (Fin n)) : labelsOf (permArray g) = siteList g.toEmbedding := by
  simp only [labelsOf, permArray, siteList, List.map_ofFn]
  rfl

theorem permuteConf_ok (g : Equiv.Perm (Fin n)) (k : ℕ) :
    ∃ a, permuteConfLoop n k (labelPairs (labelsOf (permArray g))) 0 = .ok a ∧ a < 2 ^ n ∧ cfgOf n a ∘ g = cfgOf n k := by
  have hlen : (labelsOf (permArray g)).length = n := by simp [labelsOf, permArray]
  have hval : ∀ x ∈ labelPairs (labelsOf (permArray g)), ∃ i : Fin n, x = ((i : ℕ), ((g i : ℕ) : ℤ)) := by
    intro x hx
    obtain ⟨⟨y, j⟩, hy, rfl⟩ := List.mem_map.mp hx
    rw [List.mk_mem_zipIdx_iff_getElem?] at hy
    have hj : j < n := by
      have := (List.getElem?_eq_some_iff.mp hy).1
      omega
    refine ⟨⟨j, hj⟩, ?_⟩
    simp [labelsOf, permArray, hj] at hy
    simp [← hy]
  have hmem : ∀ i : Fin n, ((i : ℕ), ((g i : ℕ) : ℤ)) ∈ labelPairs (labelsOf (permArray g)) := by
    intro i
    refine List.mem_map.mpr ⟨(((g i : ℕ) : ℤ), (i : ℕ)), ?_, rfl⟩
    rw [List.mk_mem_zipIdx_iff_getElem?]
    simp [labelsOf, permArray]
  have hnd : (((labelPairs (labelsOf (permArray g))).map (fun x : ℕ × ℤ => (k.testBit (n - 1 - x.1), n - 1 - x.2.toNat))).map Prod.snd).Nodup := by
    rw [List.map_map]
    have h1 : (labelPairs (labelsOf (permArray g))).map Prod.snd = labelsOf (permArray g) := by
      rw [labelPairs, List.map_map]
      exact List.zipIdx_map_fst _ _
    have h2 : (Prod.snd ∘ fun x : ℕ × ℤ => (k.testBit (n - 1 - x.1), n - 1 - x.2.toNat)) = (fun l : ℤ => n - 1 - l.toNat) ∘ Prod.snd := rfl
    rw [h2, ← List.map_map, h1, siteList_perm]
    apply (siteList_nodup _).map_on
    intro x hx y hy hxy
    have hx := siteList_mem hx
    have hy := siteList_mem hy
    simp only [mem_siteLabels] at hx hy
    omega
  refine ⟨_, permuteConfLoop_ok k _ 0 ?_, ?_, ?_⟩
  · intro x hx
    obtain ⟨i, rfl⟩ := hval x hx
    have h1 := i.2
    have h2 := (g i).2
    exact ⟨⟨by simp only; omega, by simp only; omega⟩, ⟨by simp only; omega, by simp only; omega⟩⟩
  · apply bitSum_lt hnd
    intro x hx
    obtain ⟨y, hy, rfl⟩ := List.mem_map.mp hx
    obtain ⟨i, rfl⟩ := hval y hy
    have := i.2
    simp only
    omega
  · funext i
    have := (bitSum_testBit _ 0 hnd (by simp)).1 _ (List.mem_map_of_mem (hmem i))
    simpa [cfgOf] using this

theorem applyTransformationLoop_ok (g : Equiv.Perm (Fin n)) {v : List K} {ψ : Cfg n → K} (hv : IsState n v ψ) :
    ∀ (l : List ℕ) (acc : List K), acc.length = 2 ^ n → l.Nodup → (∀ k ∈ l, k < 2 ^ n) →
    ∃ w, applyTransformationLoop (labelsOf (permArray g)) v n l acc = .ok w ∧ w.length = 2 ^ n ∧
      (∀ k ∈ l, ∀ a, a < 2 ^ n → cfgOf n a ∘ g = cfgOf n k → w[a]? = some (ψ (cfgOf n k))) ∧
      ∀ a, a < 2 ^ n → (∀ k ∈ l, cfgOf n a ∘ g ≠ cfgOf n k) → w[a]? = acc[a]? := by
  intro l
  induction l with
  | nil => intro acc h _ _; exact ⟨acc, rfl, h, by simp, fun _ _ _ => rfl⟩
  | cons k l ih =>
    intro acc hacc hn hl
    rw [List.nodup_cons] at hn
    have hk := hl k (by simp)
    obtain ⟨a, a1, a2, a3⟩ := permuteConf_ok g k
    obtain ⟨w, w1, w2, w3, w4⟩ := ih (acc.set a (ψ (cfgOf n k))) (by simpa using hacc) hn.2 (fun x hx => hl x (List.mem_cons_of_mem _ hx))
    have hinj : ∀ b, b < 2 ^ n → cfgOf n b ∘ g = cfgOf n k → b = a := by
      intro b hb e
      apply cfgOf_inj hb a2
      funext i
      have := congrFun (e.trans a3.symm) (g.symm i)
      simpa using this
    refine ⟨w, ?_, w2, ?_, ?_⟩
    · rw [applyTransformationLoop, a1]
      simp only [bind, Except.bind, hv.get hk, npSet, hacc, a2, if_true]
      exact w1
    · intro k' hk' b hb e
      rcases List.mem_cons.mp hk' with rfl | hk'
      · rw [w4 b hb, hinj b hb e, List.getElem?_set_self (by omega)]
        intro k'' hk'' e2
        have := cfgOf_inj hk (hl k'' (List.mem_cons_of_mem _ hk'')) (e.symm.trans e2)
        exact hn.1 (this ▸ hk'')
      · exact w3 k' hk' b hb e
    · intro b hb hne
      rw [w4 b hb (fun k' hk' => hne k' (List.mem_cons_of_mem _ hk')), List.getElem?_set_ne]
      rintro rfl
      exact hne k (by simp) a3

theorem applyTransformation_ok (g : Equiv.Perm (Fin n)) {v : List K} {ψ : Cfg n → K} (hv : IsState n v ψ) :
    ∃ w, applyTransformation (some (labelsOf (permArray g))) v n = .ok w ∧ IsState n w (fun σ => ψ (σ ∘ g)) := by
  obtain ⟨w, w1, w2, w3, _⟩ := applyTransformationLoop_ok g hv (List.range (2 ^ n)) (List.replicate (2 ^ n) 0) (by simp) List.nodup_range (by simp)
  refine ⟨w, ?_, w2, ?_⟩
  · rw [applyTransformation]
    rw [if_neg (by simp [labelsOf, permArray])]
    exact w1
  · intro a ha
    obtain ⟨k, hk, e⟩ := exists_cfgOf (cfgOf n a ∘ g)
    rw [w3 k (List.mem_range.mpr hk) a ha e.symm, e]

/-- for a permutation of all sites nothing is left -/
theorem perm_rest (g : Equiv.Perm (Fin n)) : ∀ i, i ∈ Set.range (⟨fun x : Fin 0 => x.elim0, fun x => x.elim0⟩ : Fin 0 ↪ Fin n) ↔ i ∉ Set.range g.toEmbedding := by
  intro i
  constructor
  · rintro ⟨j, _⟩; exact j.elim0
  · intro h; exact absurd ⟨g.symm i, by simp⟩ h

theorem IsState.ext {v w : List K} {ψ φ : Cfg n → K} (hv : IsState n v ψ) (hw : IsState n w φ) (h : ψ = φ) : v = w := by
  apply List.ext_getElem?
  intro k
  by_cases hk : k < 2 ^ n
  · rw [hv.entries k hk, hw.entries k hk, h]
  · rw [List.getElem?_eq_none (by rw [hv.length]; omega), List.getElem?_eq_none (by rw [hw.length]; omega)]

theorem IsState.getD {v : List K} {ψ : Cfg n → K} (hv : IsState n v ψ) {k : ℕ} (hk : k < 2 ^ n) : v.getD k 0 = ψ (cfgOf n k) := by
  rw [List.getD_eq_getElem?_getD, hv.entries k hk]; rfl

theorem sum_range_cfg' {M : Type} [AddCommMonoid M] (f : Cfg n → M) : ∑ k ∈ Finset.range (2 ^ n), f (cfgOf n k) = ∑ σ, f σ := by
  rw [← sum_range_cfg, sum_list_range]

theorem matVec_state {M : Mat K} {D : Matrix (Cfg n) (Cfg n) K} (hM : IsMatrixOf n M D) {v : List K} {ψ : Cfg n → K} (hv : IsState n v ψ) :
    IsState n (matVec M v) (D.mulVec ψ) := by
  refine ⟨by simp [matVec, hM.nrows], fun k hk => ?_⟩
  rw [matVec, List.getElem?_map, List.getElem?_range (by rw [hM.nrows]; exact hk), hM.ncols]
  simp only [Option.map_some, Option.some.injEq]
  rw [Matrix.mulVec, dotProduct, ← sum_range_cfg']
  apply Finset.sum_congr rfl
  intro b hb
  rw [Finset.mem_range] at hb
  rw [hM.entries k b hk hb, hv.getD hb]

end Qosy
