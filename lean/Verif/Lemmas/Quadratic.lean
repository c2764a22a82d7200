import Verif.Spec.Quadratic
import Verif.Lemmas.Matrix
import Verif.Lemmas.Fermion
import Verif.Lemmas.FermionToMajorana
import Mathlib.Tactic.NoncommRing
import Mathlib.Tactic.Module
import Mathlib.Algebra.BigOperators.Fin

/-! # Quadratic Hamiltonians: from entry lists to operators -/

namespace Qosy
open Coef
variable {K : Type} [Field K] [StarRing K] [Coef K]
variable {𝔸 : Type} [Ring 𝔸] [Algebra K 𝔸] {S : Set ℤ}

/-! ### entry lists -/

/-- the sum of the entries of a list times the elements they stand for -/
def formOf (F : ℕ → ℕ → 𝔸) (D : List (ℕ × ℕ × K)) : 𝔸 := (D.map (fun e => e.2.2 • F e.1 e.2.1)).sum

theorem form_sum {m n : ℕ} (F : ℕ → ℕ → 𝔸) : ∀ (D : List (ℕ × ℕ × K)), (∀ e ∈ D, e.1 < m ∧ e.2.1 < n) →
    ∑ i ∈ Finset.range m, ∑ j ∈ Finset.range n, tget D i j • F i j = formOf F D := by
  intro D
  induction D with
  | nil => intro _; simp [formOf]
  | cons e D ih =>
    intro h
    have he := h e (by simp)
    rw [show formOf F (e :: D) = e.2.2 • F e.1 e.2.1 + formOf F D from rfl, ← ih (fun x hx => h x (List.mem_cons_of_mem _ hx))]
    simp only [tget_cons, add_smul, Finset.sum_add_distrib]
    congr 1
    rw [Finset.sum_eq_single e.1]
    · rw [Finset.sum_eq_single e.2.1]
      · simp
      · intro j _ hj; rw [if_neg (fun h => hj h.2.symm), zero_smul]
      · intro h; exact absurd (Finset.mem_range.mpr he.2) h
    · intro i _ hi
      apply Finset.sum_eq_zero
      intro j _
      rw [if_neg (fun h => hi h.1.symm), zero_smul]
    · intro h; exact absurd (Finset.mem_range.mpr he.1) h

/-- the entries with natural numbers as indices -/
def natEntries (es : List (Int × Int × K)) : List (ℕ × ℕ × K) := es.map (fun e => (e.1.toNat, e.2.1.toNat, e.2.2))

theorem mkCsrInt_ok {es : List (Int × Int × K)} {m n : ℕ} (h : ∀ e ∈ es, (0 ≤ e.1 ∧ e.1 < m) ∧ 0 ≤ e.2.1 ∧ e.2.1 < n) :
    mkCsrInt es m n = .ok ⟨m, n, natEntries es⟩ := by
  rw [mkCsrInt, if_pos]
  · apply mkCsr_ok
    intro e he
    obtain ⟨x, hx, rfl⟩ := List.mem_map.mp he
    have := h x hx
    simp only
    omega
  · rw [List.all_eq_true]
    intro e he
    have := h e he
    simp [this]

theorem entriesLoop_ok {f : K → OpString → Py (List (Int × Int × K))} {g : K × OpString → List (Int × Int × K)} :
    ∀ (ts : List (K × OpString)) (acc : List (Int × Int × K)), (∀ t ∈ ts, f t.1 t.2 = .ok (g t)) →
    entriesLoop f ts acc = .ok (acc ++ ts.flatMap g) := by
  intro ts
  induction ts with
  | nil => intro acc _; simp [entriesLoop]
  | cons t ts ih =>
    intro acc h
    obtain ⟨c, s⟩ := t
    rw [entriesLoop, h (c, s) (by simp)]
    simp only [bind, Except.bind]
    rw [ih _ (fun t ht => h t (List.mem_cons_of_mem _ ht)), List.flatMap_cons, List.append_assoc]

theorem entriesLoop_err {f : K → OpString → Py (List (Int × Int × K))} : ∀ (ts : List (K × OpString)) (acc : List (Int × Int × K)),
    (∀ t ∈ ts, (∃ es, f t.1 t.2 = .ok es) ∨ f t.1 t.2 = .error .valueError) → (∃ t ∈ ts, f t.1 t.2 = .error .valueError) →
    entriesLoop f ts acc = .error .valueError := by
  intro ts
  induction ts with
  | nil => intro acc _ h; simp at h
  | cons t ts ih =>
    intro acc h he
    obtain ⟨c, s⟩ := t
    rw [entriesLoop]
    rcases h (c, s) (by simp) with ⟨es, h1⟩ | h1
    · rw [h1]
      simp only [bind, Except.bind]
      apply ih _ (fun t ht => h t (List.mem_cons_of_mem _ ht))
      obtain ⟨t, ht, h2⟩ := he
      rcases List.mem_cons.mp ht with rfl | ht
      · rw [h1] at h2; cases h2
      · exact ⟨t, ht, h2⟩
    · rw [h1]; rfl

theorem natEntries_flatMap (ts : List (K × OpString)) (g : K × OpString → List (Int × Int × K)) :
    natEntries (ts.flatMap g) = ts.flatMap (fun t => natEntries (g t)) := by
  simp [natEntries, List.map_flatMap]

theorem tget_flatMap_terms (ts : List (K × OpString)) (g : K × OpString → List (ℕ × ℕ × K)) (i j : ℕ) :
    tget (ts.flatMap g) i j = (ts.map (fun t => tget (g t) i j)).sum := by
  induction ts with
  | nil => rfl
  | cons t ts ih => rw [List.flatMap_cons, tget_append, ih]; rfl

theorem formOf_flatMap (F : ℕ → ℕ → 𝔸) (ts : List (K × OpString)) (g : K × OpString → List (ℕ × ℕ × K)) :
    formOf F (ts.flatMap g) = (ts.map (fun t => formOf F (g t))).sum := by
  induction ts with
  | nil => rfl
  | cons t ts ih =>
    rw [List.flatMap_cons, List.map_cons, List.sum_cons, ← ih, formOf, List.map_append, List.sum_append]
    rfl

theorem reOf_real {c : K} (h : star c = c) : reOf c = c := by
  rw [reOf, h, ← two_mul, mul_div_assoc, mul_comm, div_mul_cancel₀ _ two_ne_zero']

theorem star_reOf (c : K) : star (reOf c) = reOf c := by
  rw [reOf, star_div₀, star_add, star_star, add_comm, show star (2 : K) = 2 from star_ofNat 2]

/-! ### Majorana -/

theorem γ_even (R : MajoranaRep K 𝔸 S) {l : ℤ} (hl : 0 ≤ l) : R.γ (2 * l).toNat = R.a l := by
  lift l to ℕ using hl
  have h1 : (2 * (l : ℤ)).toNat = 2 * l := by omega
  rw [h1, MajoranaRep.γ, if_pos (by omega), show 2 * l / 2 = l by omega]

theorem γ_odd (R : MajoranaRep K 𝔸 S) {l : ℤ} (hl : 0 ≤ l) : R.γ (2 * l + 1).toNat = R.b l := by
  lift l to ℕ using hl
  have h1 : (2 * (l : ℤ) + 1).toNat = 2 * l + 1 := by omega
  rw [h1, MajoranaRep.γ, if_neg (by omega), show (2 * l + 1) / 2 = l by omega]

theorem γ_index (R : MajoranaRep K 𝔸 S) {l : ℤ} (hl : 0 ≤ l) {op : Op} (h : op = .A ∨ op = .B) :
    R.γ (majoranaIndex op l).toNat = R.site op l := by
  rcases h with rfl | rfl
  · exact γ_even R hl
  · exact γ_odd R hl

theorem majoranaIndex_range {n : ℕ} {l : ℤ} (hl : l ∈ siteLabels n) (op : Op) : 0 ≤ majoranaIndex op l ∧ majoranaIndex op l < (2 * n : ℕ) := by
  obtain ⟨h1, h2⟩ := hl
  rw [majoranaIndex]
  split <;> omega

/-- different Majorana operators anticommute -/
theorem γ_anticomm {n : ℕ} (R : MajoranaRep K 𝔸 (siteLabels n)) {i j : ℕ} (hi : i < 2 * n) (hj : j < 2 * n) (hij : i ≠ j) :
    R.γ i * R.γ j = -(R.γ j * R.γ i) := by
  have h1 : ((i / 2 : ℕ) : ℤ) ∈ siteLabels n := ⟨by omega, by omega⟩
  have h2 : ((j / 2 : ℕ) : ℤ) ∈ siteLabels n := ⟨by omega, by omega⟩
  simp only [MajoranaRep.γ]
  split <;> split
  · exact R.aa _ h1 _ h2 (by omega)
  · exact R.ab _ h1 _ h2
  · rw [R.ab _ h2 _ h1, neg_neg]
  · exact R.bb _ h1 _ h2 (by omega)

theorem γ_sq {n : ℕ} (R : MajoranaRep K 𝔸 (siteLabels n)) {i : ℕ} (hi : i < 2 * n) : R.γ i * R.γ i = 1 := by
  have h1 : ((i / 2 : ℕ) : ℤ) ∈ siteLabels n := ⟨by omega, by omega⟩
  simp only [MajoranaRep.γ]
  split
  · exact R.a_sq _ h1
  · exact R.b_sq _ h1

/-- the entries of a quadratic string -/
theorem quadraticEntries_ok {n : ℕ} (c : K) {s : OpString} (hs : QuadraticMajorana n s) : ∃ es, quadraticEntries c s = .ok es ∧
    (∀ e ∈ es, (0 ≤ e.1 ∧ e.1 < (2 * n : ℕ)) ∧ 0 ≤ e.2.1 ∧ e.2.1 < (2 * n : ℕ)) ∧
    (∀ i j, tget (natEntries es) i j = -tget (natEntries es) j i) ∧ (∀ i j, star (tget (natEntries es) i j) = tget (natEntries es) i j) ∧
    ∀ {𝔸 : Type} [Ring 𝔸] [Algebra K 𝔸] (R : MajoranaRep K 𝔸 (siteLabels n)),
      formOf (fun i j => R.γ i * R.γ j) (natEntries es) = (4 * I⁻¹ * reOf c) • R.den s := by
  obtain ⟨hm, h⟩ := hs
  have hI : (I : K) ≠ 0 := I_ne_zero
  have htget : ∀ (i j : ℤ) (x : K) (a b : ℕ), tget (natEntries [(i, j, x), (j, i, -x)]) a b = -tget (natEntries [(i, j, x), (j, i, -x)]) b a := by
    intro i j x a b
    simp only [natEntries, List.map_cons, List.map_nil, tget_cons, tget_nil]
    have sw : ∀ (y : K) (P Q : Prop) [Decidable P] [Decidable Q], (if P ∧ Q then y else 0) = if Q ∧ P then y else 0 := by
      intro y P Q _ _; simp only [and_comm]
    rw [sw (-x) (j.toNat = a), sw (-x) (j.toNat = b)]
    by_cases h1 : i.toNat = a ∧ j.toNat = b <;> by_cases h2 : i.toNat = b ∧ j.toNat = a 
    · simp only [if_pos h1, if_pos h2]; ring
    · simp only [if_pos h1, if_neg h2]; ring
    · simp only [if_neg h1, if_pos h2]; ring
    · simp only [if_neg h1, if_neg h2]; ring
  have hstar : ∀ (i j : ℤ) (x : K), star x = x → ∀ a b : ℕ, star (tget (natEntries [(i, j, x), (j, i, -x)]) a b) = tget (natEntries [(i, j, x), (j, i, -x)]) a b := by
    intro i j x hx a b
    simp only [natEntries, List.map_cons, List.map_nil, tget_cons, tget_nil, star_add, star_zero]
    congr 1
    · split <;> simp [hx]
    · congr 1
      split <;> simp [hx]
  have hfin : ∀ (i j : ℤ) (ε : K), star ε = ε → [(i, j, 1 / 2 * 4 * reOf c * ε), (j, i, -1 / 2 * 4 * reOf c * ε)] =
      [(i, j, 2 * reOf c * ε), (j, i, -(2 * reOf c * ε))] ∧ star (2 * reOf c * ε) = 2 * reOf c * ε := by
    intro i j ε he
    refine ⟨?_, ?_⟩
    · have e1 : (1 / 2 * 4 * reOf c * ε : K) = 2 * reOf c * ε := by norm_num
      have e2 : (-1 / 2 * 4 * reOf c * ε : K) = -(2 * reOf c * ε) := by norm_num
      rw [e1, e2]
    · rw [star_mul', star_mul', he, star_reOf, show star (2 : K) = 2 from star_ofNat 2]
  rcases h with h | ⟨p, q, h, hp, hq⟩
  · obtain ⟨l, hl⟩ : ∃ l, s.labels = [l] := List.length_eq_one_iff.mp (by rw [← hm.len, h]; rfl)
    have hlm := hm.mem l (by simp [hl])
    obtain ⟨e1, e2⟩ := hfin (2 * l) (2 * l + 1) (-1) (by simp)
    refine ⟨[(2 * l, 2 * l + 1, 2 * reOf c * -1), (2 * l + 1, 2 * l, -(2 * reOf c * -1))], ?_, ?_, htget _ _ _, hstar _ _ _ e2, ?_⟩
    · rw [← e1, quadraticEntries, quadraticIndices, h, hl]
      rfl
    · obtain ⟨h1, h2⟩ := hlm
      intro e he
      simp only [List.mem_cons, List.not_mem_nil, or_false] at he
      rcases he with rfl | rfl <;> simp only <;> omega
    · intro 𝔸 _ _ R
      have hpref : (s.pref.val : K) = 1 := by
        have := hm.pref
        rw [h] at this
        have h2 : s.pref ≠ .imag := fun e => absurd (this.mp e) (by decide)
        clear this
        generalize s.pref = p at h2 ⊢
        cases p <;> first | exact absurd rfl h2 | simp [Pref.val]
      simp only [formOf, natEntries, List.map_cons, List.map_nil, List.sum_cons, List.sum_nil, add_zero]
      rw [γ_even R hlm.1, γ_odd R hlm.1, MajoranaRep.den, hpref, one_smul, h, hl]
      simp only [wordProd, mul_one, MajoranaRep.site, MajoranaRep.d]
      have e4 : (4 * I⁻¹ * reOf c * I : K) = 4 * reOf c := by field_simp
      rw [R.ab l hlm l hlm, smul_neg, smul_neg, smul_smul, e4]
      module
  · obtain ⟨l, m, hl⟩ : ∃ l m, s.labels = [l, m] := List.length_eq_two.mp (by rw [← hm.len, h]; rfl)
    have hlm := hm.mem l (by simp [hl])
    have hmm := hm.mem m (by simp [hl])
    have hne : l ≠ m := by have := hm.nodup; rw [hl] at this; simpa using this
    obtain ⟨e1, e2⟩ := hfin (majoranaIndex p l) (majoranaIndex q m) 1 (by simp)
    refine ⟨[(majoranaIndex p l, majoranaIndex q m, 2 * reOf c * 1), (majoranaIndex q m, majoranaIndex p l, -(2 * reOf c * 1))], ?_, ?_, htget _ _ _, hstar _ _ _ e2, ?_⟩
    · rw [← e1, quadraticEntries, quadraticIndices, h, hl]
      rcases hp with rfl | rfl <;> rcases hq with rfl | rfl <;> rfl
    · have h1 := majoranaIndex_range hlm p
      have h2 := majoranaIndex_range hmm q
      intro e he
      simp only [List.mem_cons, List.not_mem_nil, or_false] at he
      rcases he with rfl | rfl
      · exact ⟨h1, h2⟩
      · exact ⟨h2, h1⟩
    · intro 𝔸 _ _ R
      have hpref : (s.pref.val : K) = I := by
        have := hm.pref
        rw [h] at this
        have h2 : s.pref = .imag := this.mpr (by rcases hp with rfl | rfl <;> rcases hq with rfl | rfl <;> decide)
        rw [h2]; rfl
      have hanti : R.γ (majoranaIndex q m).toNat * R.γ (majoranaIndex p l).toNat = -(R.γ (majoranaIndex p l).toNat * R.γ (majoranaIndex q m).toNat) := by
        have h1 := majoranaIndex_range hlm p
        have h2 := majoranaIndex_range hmm q
        apply γ_anticomm R (by omega) (by omega)
        simp only [majoranaIndex] at h1 h2 ⊢
        split <;> split <;> (simp only [*, if_true, if_false] at h1 h2; omega)
      simp only [formOf, natEntries, List.map_cons, List.map_nil, List.sum_cons, List.sum_nil, add_zero]
      rw [hanti, γ_index R hlm.1 hp, γ_index R hmm.1 hq, MajoranaRep.den, hpref, h, hl]
      simp only [wordProd, mul_one]
      have e4 : (4 * I⁻¹ * reOf c * I : K) = 4 * reOf c := by field_simp
      rw [smul_smul, e4]
      module

/-! ### canonical anticommutation relations -/

namespace MajoranaRep
variable (R : MajoranaRep K 𝔸 S)

theorem c_mul_cdag {j : ℤ} (hj : j ∈ S) : R.c j * R.cdag j = 1 - R.cdag j * R.c j := by
  rw [eq_sub_iff_add_eq]
  simp only [c, cdag]
  rw [smul_mul_smul_comm, smul_mul_smul_comm, ← smul_add]
  rw [show (R.a j + (I : K) • R.b j) * (R.a j - (I : K) • R.b j) + (R.a j - (I : K) • R.b j) * (R.a j + (I : K) • R.b j) = (4 : K) • (1 : 𝔸) by
    simp only [add_mul, sub_mul, mul_add, mul_sub, smul_mul_smul_comm, R.a_sq j hj, R.b_sq j hj, I_mul_I]
    module]
  rw [smul_smul]
  norm_num

theorem c_mul_c {i j : ℤ} (hi : i ∈ S) (hj : j ∈ S) : R.c i * R.c j = -(R.c j * R.c i) := by
  by_cases h : i = j
  · subst h
    have : R.c i * R.c i = 0 := by
      simp only [c]
      rw [smul_mul_smul_comm, add_mul, mul_add, mul_add, R.a_sq i hi, smul_mul_smul_comm, R.b_sq i hi, mul_smul_comm, smul_mul_assoc,
        R.ab i hi i hi, I_mul_I]
      module
    rw [this, neg_zero]
  · exact R.fsite_anticomm (o := .C) (o' := .C) hi hj h

theorem cdag_mul_cdag {i j : ℤ} (hi : i ∈ S) (hj : j ∈ S) : R.cdag i * R.cdag j = -(R.cdag j * R.cdag i) := by
  by_cases h : i = j
  · subst h
    have : R.cdag i * R.cdag i = 0 := by
      simp only [cdag]
      rw [smul_mul_smul_comm, sub_mul, mul_sub, mul_sub, R.a_sq i hi, smul_mul_smul_comm, R.b_sq i hi, mul_smul_comm, smul_mul_assoc,
        R.ab i hi i hi, I_mul_I]
      module
    rw [this, neg_zero]
  · exact R.fsite_anticomm (o := .CDag) (o' := .CDag) hi hj h

theorem c_mul_cdag_other {i j : ℤ} (hi : i ∈ S) (hj : j ∈ S) (h : i ≠ j) : R.c i * R.cdag j = -(R.cdag j * R.c i) :=
  R.fsite_anticomm (o := .C) (o' := .CDag) hi hj h

theorem star_c [StarRing 𝔸] [StarModule K 𝔸] (h : ∀ i ∈ S, star (R.a i) = R.a i ∧ star (R.b i) = R.b i) {j : ℤ} (hj : j ∈ S) :
    star (R.c j) = R.cdag j := by
  simp only [c, cdag]
  rw [star_smul, star_add, star_smul, (h j hj).1, (h j hj).2, star_I, neg_smul, ← sub_eq_add_neg]
  congr 1
  rw [star_div₀, star_one, show star (2 : K) = 2 from star_ofNat 2]

theorem star_cdag [StarRing 𝔸] [StarModule K 𝔸] (h : ∀ i ∈ S, star (R.a i) = R.a i ∧ star (R.b i) = R.b i) {j : ℤ} (hj : j ∈ S) :
    star (R.cdag j) = R.c j := by
  rw [← R.star_c h hj, star_star]

end MajoranaRep

theorem pref_real {p : Pref} (h : p ≠ .imag) : (p.val : K) = 1 := by
  cases p <;> first | exact absurd rfl h | simp [Pref.val]

/-- the operator of a hopping string -/
theorem hopping_den {n : ℕ} {s : OpString} (hs : Hopping n s) : ∃ i j, s.labels = [i, j] ∧ i ∈ siteLabels n ∧ j ∈ siteLabels n ∧
    (i = j → (s.pref.val : K) = 1) ∧ ∀ {𝔸 : Type} [Ring 𝔸] [Algebra K 𝔸] [StarRing 𝔸] [StarModule K 𝔸] (R : MajoranaRep K 𝔸 (siteLabels n)),
      (∀ i ∈ siteLabels n, star (R.a i) = R.a i ∧ star (R.b i) = R.b i) →
      R.fden s = if i = j then (s.pref.val : K) • (R.cdag i * R.c j) else
        (s.pref.val : K) • (R.cdag i * R.c j) + star (s.pref.val : K) • (R.cdag j * R.c i) := by
  obtain ⟨hf, ho, hp⟩ := hs
  obtain ⟨i, j, hl⟩ : ∃ l m, s.labels = [l, m] := List.length_eq_two.mp (by rw [← hf.len, ho]; rfl)
  have hi := hf.mem i (by simp [hl])
  have hj := hf.mem j (by simp [hl])
  have hown : s.OwnConjugate ↔ i = j := by
    simp [OpString.OwnConjugate, OpString.cdagLabels, OpString.cLabels, ho, hl]
  refine ⟨i, j, hl, hi, hj, fun e => pref_real (hp (hown.mpr e)), ?_⟩
  intro 𝔸 _ _ _ _ R hR
  have hw : R.fword s = (s.pref.val : K) • (R.cdag i * R.c j) := by
    simp [MajoranaRep.fword, ho, hl, wordProd, MajoranaRep.fsite]
  rw [MajoranaRep.fden]
  by_cases e : i = j
  · rw [if_pos (hown.mpr e), if_pos e, hw]
  · rw [if_neg (fun h => e (hown.mp h)), if_neg e, hw, star_smul, star_mul, R.star_c hR hj, R.star_cdag hR hi]

/-- the operator of a pairing string -/
theorem pairing_den {n : ℕ} {s : OpString} (hs : Pairing n s) : ∃ i j, s.labels = [i, j] ∧ i ∈ siteLabels n ∧ j ∈ siteLabels n ∧ i ≠ j ∧
    ∀ {𝔸 : Type} [Ring 𝔸] [Algebra K 𝔸] [StarRing 𝔸] [StarModule K 𝔸] (R : MajoranaRep K 𝔸 (siteLabels n)),
      (∀ i ∈ siteLabels n, star (R.a i) = R.a i ∧ star (R.b i) = R.b i) →
      R.fden s = (s.pref.val : K) • (R.cdag i * R.cdag j) + star (s.pref.val : K) • (R.c j * R.c i) := by
  obtain ⟨hf, ho⟩ := hs
  obtain ⟨i, j, hl⟩ : ∃ l m, s.labels = [l, m] := List.length_eq_two.mp (by rw [← hf.len, ho]; rfl)
  have hi := hf.mem i (by simp [hl])
  have hj := hf.mem j (by simp [hl])
  have hne : i ≠ j := by
    have := hf.cdag_nodup
    simpa [OpString.cdagLabels, ho, hl] using this
  have hown : ¬ s.OwnConjugate := by
    simp [OpString.OwnConjugate, OpString.cdagLabels, OpString.cLabels, ho, hl]
  refine ⟨i, j, hl, hi, hj, hne, ?_⟩
  intro 𝔸 _ _ _ _ R hR
  have hw : R.fword s = (s.pref.val : K) • (R.cdag i * R.cdag j) := by
    simp [MajoranaRep.fword, ho, hl, wordProd, MajoranaRep.fsite]
  rw [MajoranaRep.fden, if_neg hown, hw, star_smul, star_mul, R.star_cdag hR hj, R.star_cdag hR hi]

theorem sw_ite (y : K) (P Q : Prop) [Decidable P] [Decidable Q] : (if P ∧ Q then y else 0) = if Q ∧ P then y else 0 := by
  simp only [and_comm]

theorem star_ite (y : K) (P : Prop) [Decidable P] : star (if P then y else 0) = if P then star y else 0 := by
  split <;> simp

/-- the tight-binding entries of a hopping string -/
theorem tightBindingEntries_ok {n : ℕ} {c : K} (hc : star c = c) {s : OpString} (hs : Hopping n s) : ∃ es, tightBindingEntries c s = .ok es ∧
    (∀ e ∈ es, (0 ≤ e.1 ∧ e.1 < n) ∧ 0 ≤ e.2.1 ∧ e.2.1 < n) ∧
    (∀ i j, tget (natEntries es) i j = star (tget (natEntries es) j i)) ∧
    ∀ {𝔸 : Type} [Ring 𝔸] [Algebra K 𝔸] [StarRing 𝔸] [StarModule K 𝔸] (R : MajoranaRep K 𝔸 (siteLabels n)),
      (∀ i ∈ siteLabels n, star (R.a i) = R.a i ∧ star (R.b i) = R.b i) →
      formOf (fun i j => R.cdag (i : ℤ) * R.c (j : ℤ)) (natEntries es) = c • R.fden s := by
  obtain ⟨i, j, hl, hi, hj, hp, hden⟩ := hopping_den (K := K) hs
  have hti : ((i.toNat : ℕ) : ℤ) = i := Int.toNat_of_nonneg hi.1
  have htj : ((j.toNat : ℕ) : ℤ) = j := Int.toNat_of_nonneg hj.1
  by_cases e : i = j
  · subst e
    have hp := hp rfl
    refine ⟨[(i, i, c)], ?_, ?_, ?_, ?_⟩
    · rw [tightBindingEntries, hs.2.1]
      simp only [hl, pyGet, bind, Except.bind, List.getElem?_cons_zero, List.getElem?_cons_succ, if_true, hp, mul_one, reOf_real hc]
      rfl
    · intro x hx
      rw [List.mem_singleton] at hx
      subst hx
      exact ⟨hi, hi⟩
    · intro a b
      simp only [natEntries, List.map_cons, List.map_nil, tget_cons, tget_nil, add_zero, star_ite, hc]
      rw [sw_ite]
    · intro 𝔸 _ _ _ _ R hR
      simp only [formOf, natEntries, List.map_cons, List.map_nil, List.sum_cons, List.sum_nil, add_zero, hden R hR, if_true, hp, one_smul, hti]
  · refine ⟨[(i, j, c * s.pref.val), (j, i, star (c * s.pref.val))], ?_, ?_, ?_, ?_⟩
    · rw [tightBindingEntries, hs.2.1]
      simp only [hl, pyGet, bind, Except.bind, List.getElem?_cons_zero, List.getElem?_cons_succ, if_neg e]
      rfl
    · intro x hx
      simp only [List.mem_cons, List.not_mem_nil, or_false] at hx
      rcases hx with rfl | rfl
      · exact ⟨hi, hj⟩
      · exact ⟨hj, hi⟩
    · intro a b
      simp only [natEntries, List.map_cons, List.map_nil, tget_cons, tget_nil, add_zero, star_add, star_ite, star_star]
      rw [sw_ite _ (j.toNat = a), sw_ite _ (j.toNat = b), add_comm]
    · intro 𝔸 _ _ _ _ R hR
      simp only [formOf, natEntries, List.map_cons, List.map_nil, List.sum_cons, List.sum_nil, add_zero, hden R hR, if_neg e, hti, htj,
        star_mul', hc]
      module

theorem nambu_lo (R : MajoranaRep K 𝔸 S) {n : ℕ} {i : ℤ} (hi : i ∈ siteLabels n) : R.nambu n i.toNat = R.c i ∧ R.nambuDag n i.toNat = R.cdag i := by
  obtain ⟨h1, h2⟩ := hi
  rw [MajoranaRep.nambu, MajoranaRep.nambuDag, if_pos (by omega), if_pos (by omega), Int.toNat_of_nonneg h1]
  exact ⟨rfl, rfl⟩

theorem nambu_hi (R : MajoranaRep K 𝔸 S) {n : ℕ} {i : ℤ} (hi : i ∈ siteLabels n) : R.nambu n (i + n).toNat = R.cdag i ∧ R.nambuDag n (i + n).toNat = R.c i := by
  obtain ⟨h1, h2⟩ := hi
  rw [MajoranaRep.nambu, MajoranaRep.nambuDag, if_neg (by omega), if_neg (by omega), show (((i + n).toNat - n : ℕ) : ℤ) = i by omega]
  exact ⟨rfl, rfl⟩

theorem diag_zero {n : ℕ} (D : List (ℕ × ℕ × K)) (h : ∀ e ∈ D, e.1 ≠ e.2.1) : ∑ k ∈ Finset.range n, tget D k k = 0 := by
  apply Finset.sum_eq_zero
  intro k _
  apply tget_eq_zero
  intro e he
  by_contra hcon
  push Not at hcon
  exact h e he (hcon.1.trans hcon.2.symm)

/-- what has to be known about the BdG entries of a string -/
structure BdgOK (n : ℕ) (c : K) (s : OpString) (es : List (Int × Int × K)) : Prop where
  ok : bdgEntries n c s = .ok es
  range : ∀ e ∈ es, (0 ≤ e.1 ∧ e.1 < (2 * n : ℕ)) ∧ 0 ≤ e.2.1 ∧ e.2.1 < (2 * n : ℕ)
  herm : ∀ i j, tget (natEntries es) i j = star (tget (natEntries es) j i)
  ph : ∀ i j, i < 2 * n → j < 2 * n → tget (natEntries es) (halfSwap n i) (halfSwap n j) = -star (tget (natEntries es) i j)
  form : ∀ {𝔸 : Type} [Ring 𝔸] [Algebra K 𝔸] [StarRing 𝔸] [StarModule K 𝔸] (R : MajoranaRep K 𝔸 (siteLabels n)),
      (∀ i ∈ siteLabels n, star (R.a i) = R.a i ∧ star (R.b i) = R.b i) →
      formOf (fun i j => R.nambuDag n i * R.nambu n j) (natEntries es) = (2 * c) • R.fden s - (∑ k ∈ Finset.range n, tget (natEntries es) k k) • (1 : 𝔸)

theorem ite_eq_of {P Q : Prop} [Decidable P] [Decidable Q] (h : P ↔ Q) (x y : K) : (if P then x else y) = if Q then x else y := by
  simp only [h]

theorem bdgEntries_hopping {n : ℕ} {c : K} (hc : star c = c) {s : OpString} (hs : Hopping n s) : ∃ es, BdgOK n c s es := by
  obtain ⟨i, j, hl, hi, hj, hp, hden⟩ := hopping_den (K := K) hs
  have hi' := hi
  have hj' := hj
  obtain ⟨i1, i2⟩ := hi'
  obtain ⟨j1, j2⟩ := hj'
  by_cases e : i = j
  · subst e
    have hp := hp rfl
    refine ⟨[(i, i, c), (i + n, i + n, -c)], ?_, ?_, ?_, ?_, ?_⟩
    · rw [bdgEntries, hs.2.1]
      simp only [hl, pyGet, bind, Except.bind, List.getElem?_cons_zero, List.getElem?_cons_succ, ne_eq, not_true, if_false, hp, mul_one, hc]
      rfl
    · intro x hx
      simp only [List.mem_cons, List.not_mem_nil, or_false] at hx
      rcases hx with rfl | rfl <;> simp only <;> omega
    · intro a b
      simp only [natEntries, List.map_cons, List.map_nil, tget_cons, tget_nil, add_zero, star_add, star_ite, star_neg, hc]
      rw [sw_ite c, sw_ite (-c)]
    · intro a b ha hb
      simp only [natEntries, List.map_cons, List.map_nil, tget_cons, tget_nil, add_zero, star_add, star_ite, star_neg, hc]
      rw [ite_eq_of (Q := (i + n).toNat = a ∧ (i + n).toNat = b) (by simp only [halfSwap]; split <;> split <;> omega),
        ite_eq_of (P := (i + n).toNat = halfSwap n a ∧ _) (Q := i.toNat = a ∧ i.toNat = b) (by simp only [halfSwap]; split <;> split <;> omega)]
      split <;> split <;> ring
    · intro 𝔸 _ _ _ _ R hR
      have hd : ∑ k ∈ Finset.range n, tget (natEntries [(i, i, c), (i + n, i + n, -c)]) k k = c := by
        rw [Finset.sum_eq_single i.toNat]
        · simp only [natEntries, List.map_cons, List.map_nil, tget_cons, tget_nil]
          rw [if_pos (by simp), if_neg (by omega), add_zero, add_zero]
        · intro k hk hne
          rw [Finset.mem_range] at hk
          simp only [natEntries, List.map_cons, List.map_nil, tget_cons, tget_nil]
          rw [if_neg (by omega), if_neg (by omega), add_zero, add_zero]
        · intro h; exact absurd (Finset.mem_range.mpr (by omega)) h
      rw [hd, hden R hR, if_pos rfl, hp, one_smul]
      simp only [formOf, natEntries, List.map_cons, List.map_nil, List.sum_cons, List.sum_nil, add_zero]
      rw [(nambu_lo R hi).1, (nambu_lo R hi).2, (nambu_hi R hi).1, (nambu_hi R hi).2, R.c_mul_cdag hi]
      module
  · have hne : i.toNat ≠ j.toNat := by omega
    generalize ht : c * (s.pref.val : K) = t
    refine ⟨[(i, j, t), (j, i, star t), (i + n, j + n, -star t), (j + n, i + n, -t)], ?_, ?_, ?_, ?_, ?_⟩
    · rw [bdgEntries, hs.2.1]
      simp only [hl, pyGet, bind, Except.bind, List.getElem?_cons_zero, List.getElem?_cons_succ, if_pos e, ht]
      rfl
    · intro x hx
      simp only [List.mem_cons, List.not_mem_nil, or_false] at hx
      rcases hx with rfl | rfl | rfl | rfl <;> simp only <;> omega
    · intro a b
      simp only [natEntries, List.map_cons, List.map_nil, tget_cons, tget_nil, add_zero, star_add, star_ite, star_neg, star_star]
      rw [sw_ite _ (j.toNat = a), sw_ite _ (j.toNat = b), sw_ite _ ((j + n).toNat = a), sw_ite _ ((j + n).toNat = b)]
      ring
    · intro a b ha hb
      simp only [natEntries, List.map_cons, List.map_nil, tget_cons, tget_nil, add_zero, star_add, star_ite, star_neg, star_star]
      rw [ite_eq_of (P := i.toNat = halfSwap n a ∧ _) (Q := (i + n).toNat = a ∧ (j + n).toNat = b) (by simp only [halfSwap]; split <;> split <;> omega),
        ite_eq_of (P := j.toNat = halfSwap n a ∧ _) (Q := (j + n).toNat = a ∧ (i + n).toNat = b) (by simp only [halfSwap]; split <;> split <;> omega),
        ite_eq_of (P := (i + n).toNat = halfSwap n a ∧ _) (Q := i.toNat = a ∧ j.toNat = b) (by simp only [halfSwap]; split <;> split <;> omega),
        ite_eq_of (P := (j + n).toNat = halfSwap n a ∧ _) (Q := j.toNat = a ∧ i.toNat = b) (by simp only [halfSwap]; split <;> split <;> omega)]
      have neg_ite : ∀ (P : Prop) [Decidable P] (y : K), (if P then -y else 0) = -(if P then y else 0) := by intro P _ y; split <;> simp
      simp only [neg_ite]
      ring
    · intro 𝔸 _ _ _ _ R hR
      rw [diag_zero]
      · rw [hden R hR, if_neg e]
        simp only [formOf, natEntries, List.map_cons, List.map_nil, List.sum_cons, List.sum_nil, add_zero]
        rw [(nambu_lo R hi).1, (nambu_lo R hi).2, (nambu_hi R hi).1, (nambu_hi R hi).2, (nambu_lo R hj).1, (nambu_lo R hj).2, (nambu_hi R hj).1, (nambu_hi R hj).2,
          R.c_mul_cdag_other hi hj e, R.c_mul_cdag_other hj hi (Ne.symm e), ← ht, star_mul', hc]
        module
      · intro x hx
        simp only [natEntries, List.map_cons, List.map_nil, List.mem_cons, List.not_mem_nil, or_false] at hx
        rcases hx with rfl | rfl | rfl | rfl <;> simp only <;> omega

theorem bdgEntries_pairing {n : ℕ} {c : K} (hc : star c = c) {s : OpString} (hs : Pairing n s) : ∃ es, BdgOK n c s es := by
  obtain ⟨i, j, hl, hi, hj, e, hden⟩ := pairing_den (K := K) hs
  have hi' := hi
  have hj' := hj
  obtain ⟨i1, i2⟩ := hi'
  obtain ⟨j1, j2⟩ := hj'
  have hne : i.toNat ≠ j.toNat := by omega
  generalize ht : c * (s.pref.val : K) = t
  refine ⟨[(i, j + n, t), (j, i + n, -t), (i + n, j, -star t), (j + n, i, star t)], ?_, ?_, ?_, ?_, ?_⟩
  · rw [bdgEntries, hs.2]
    simp only [hl, pyGet, bind, Except.bind, List.getElem?_cons_zero, List.getElem?_cons_succ, if_pos e, ht]
    rfl
  · intro x hx
    simp only [List.mem_cons, List.not_mem_nil, or_false] at hx
    rcases hx with rfl | rfl | rfl | rfl <;> simp only <;> omega
  · intro a b
    simp only [natEntries, List.map_cons, List.map_nil, tget_cons, tget_nil, add_zero, star_add, star_ite, star_neg, star_star]
    rw [sw_ite _ ((i + n).toNat = a), sw_ite _ ((i + n).toNat = b), sw_ite _ ((j + n).toNat = a), sw_ite _ ((j + n).toNat = b)]
    ring
  · intro a b ha hb
    simp only [natEntries, List.map_cons, List.map_nil, tget_cons, tget_nil, add_zero, star_add, star_ite, star_neg, star_star]
    rw [ite_eq_of (P := i.toNat = halfSwap n a ∧ _) (Q := (i + n).toNat = a ∧ j.toNat = b) (by simp only [halfSwap]; split <;> split <;> omega),
      ite_eq_of (P := j.toNat = halfSwap n a ∧ _) (Q := (j + n).toNat = a ∧ i.toNat = b) (by simp only [halfSwap]; split <;> split <;> omega),
      ite_eq_of (P := (i + n).toNat = halfSwap n a ∧ _) (Q := i.toNat = a ∧ (j + n).toNat = b) (by simp only [halfSwap]; split <;> split <;> omega),
      ite_eq_of (P := (j + n).toNat = halfSwap n a ∧ _) (Q := j.toNat = a ∧ (i + n).toNat = b) (by simp only [halfSwap]; split <;> split <;> omega)]
    have neg_ite : ∀ (P : Prop) [Decidable P] (y : K), (if P then -y else 0) = -(if P then y else 0) := by intro P _ y; split <;> simp
    simp only [neg_ite]
    ring
  · intro 𝔸 _ _ _ _ R hR
    rw [diag_zero]
    · rw [hden R hR]
      simp only [formOf, natEntries, List.map_cons, List.map_nil, List.sum_cons, List.sum_nil, add_zero]
      rw [(nambu_lo R hi).1, (nambu_lo R hi).2, (nambu_hi R hi).1, (nambu_hi R hi).2, (nambu_lo R hj).1, (nambu_lo R hj).2, (nambu_hi R hj).1, (nambu_hi R hj).2,
        R.cdag_mul_cdag hj hi, R.c_mul_c hi hj, ← ht, star_mul', hc]
      module
    · intro x hx
      simp only [natEntries, List.map_cons, List.map_nil, List.mem_cons, List.not_mem_nil, or_false] at hx
      rcases hx with rfl | rfl | rfl | rfl <;> simp only <;> omega

end Qosy
