import Verif.Lemmas.StrAlgInst
import Verif.Model.Conversion

/-! # The Jordan-Wigner loop -/

namespace Qosy
open Coef
variable {K : Type} [Field K] [StarRing K] [Coef K]
variable {𝔸 : Type} [Ring 𝔸] [Algebra K 𝔸] {S : Set ℤ}

theorem wordProd_append {M : Type} [Monoid M] (site : Op → ℤ → M) : ∀ (o₁ o₂ : List Op) (l₁ l₂ : List ℤ), o₁.length = l₁.length →
    wordProd site (o₁ ++ o₂) (l₁ ++ l₂) = wordProd site o₁ l₁ * wordProd site o₂ l₂
  | [], _, [], _, _ => by simp [wordProd]
  | [], _, _ :: _, _, h => by simp at h
  | _ :: _, _, [], _, h => by simp at h
  | o :: os, o₂, l :: ls, l₂, h => by
    simp only [List.cons_append, wordProd]
    rw [wordProd_append site os o₂ ls l₂ (by simpa using h), mul_assoc]

theorem wordProd_replicate {M : Type} [Monoid M] (site : Op → ℤ → M) (o : Op) (n : ℕ) :
    wordProd site (List.replicate n o) ((List.range n).map Int.ofNat) = ((List.range n).map (fun k : ℕ => site o (k : ℤ))).prod := by
  induction n with
  | zero => simp [wordProd]
  | succ n ih =>
    rw [List.replicate_succ', List.range_succ, List.map_append, wordProd_append _ _ _ _ _ (by simp), ih]
    simp [wordProd]

theorem wordProd_jw {M : Type} [Monoid M] (site : Op → ℤ → M) (o p : Op) (n : ℕ) :
    wordProd site (List.replicate n o ++ [p]) ((List.range (n + 1)).map Int.ofNat)
      = ((List.range n).map (fun k : ℕ => site o (k : ℤ))).prod * site p n := by
  rw [List.range_succ, List.map_append, wordProd_append _ _ _ _ _ (by simp), wordProd_replicate]
  simp [wordProd]

/-- the loop of `_jordan_wigner` multiplies the site operators -/
theorem jwLoop_ok (T : StrAlg K 𝔸) (one : Op → Int → Py OpString) (site : Op → ℤ → 𝔸) : ∀ (ops : List Op) (labels : List ℤ),
    ops.length = labels.length →
    (∀ x ∈ ops.zip labels, ∃ s, one x.1 x.2 = .ok s ∧ T.Str s ∧ T.den s = site x.1 x.2) →
    ∀ (c0 : K) (s0 : OpString), T.Str s0 → s0.Canonical →
    ∃ (c : K) (s : OpString), jwLoop one ops labels (c0, s0) = .ok (c, s) ∧ T.Str s ∧ s.Canonical ∧ (IsPhase c0 → IsPhase c) ∧
      c0 • T.den s0 * wordProd site ops labels = c • T.den s
  | [], _, _, _, c0, s0, h0, h1 => ⟨c0, s0, rfl, h0, h1, id, by simp [wordProd]⟩
  | _ :: _, [], h, _, _, _, _, _ => by simp at h
  | o :: os, l :: ls, h, hone, c0, s0, h0, h1 => by
    obtain ⟨s, hs1, hs2, hs3⟩ := hone (o, l) (by simp)
    obtain ⟨p, p', C, hC⟩ := T.core s0 s h0 hs2
    obtain ⟨c, r, k1, k2, k3, k4, k5⟩ := jwLoop_ok T one site os ls (by simpa using h)
      (fun x hx => hone x (by simp [hx])) (c0 * p) C hC.str ⟨hC.sorted, hC.pref⟩
    refine ⟨c, r, ?_, k2, k3, fun hp => k4 (hp.mul hC.phase), ?_⟩
    · simp only [jwLoop, hs1, bind, Except.bind, hC.prod]
      exact k1
    · rw [← k5, wordProd, ← hs3, ← mul_assoc, smul_mul_assoc, hC.ab, smul_smul]

theorem jwLabels_down {i : ℤ} (hi : i ∈ jwLabels S) {k : ℤ} (h0 : 0 ≤ k) (hk : k ≤ i) : k ∈ jwLabels S :=
  ⟨h0, fun j h1 h2 => hi.2 j h1 (h2.trans hk)⟩

theorem jwLabels_mem {i : ℤ} (hi : i ∈ jwLabels S) : i ∈ S := hi.2 i hi.1 le_rfl

theorem PauliRep.jw_d (R : PauliRep K 𝔸 S) {i : ℤ} (hi : i ∈ jwLabels S) : R.jordanWigner.d i = R.Z i := by
  obtain ⟨n, rfl⟩ := Int.eq_ofNat_of_zero_le hi.1
  have hS : ∀ k : ℕ, k ≤ n → (k : ℤ) ∈ S := fun k hk => hi.2 k (by omega) (by omega)
  simp only [MajoranaRep.d, PauliRep.jordanWigner, Int.toNat_natCast]
  rw [(R.jwX n (hS n le_rfl)).same hS, R.x_mul_y n (hS n le_rfl), smul_smul, I_mul_I]
  simp

theorem PauliRep.jw_ds (R : PauliRep K 𝔸 S) {n : ℕ} (hi : (n : ℤ) ∈ jwLabels S) :
    ((List.range n).map (fun k : ℕ => R.jordanWigner.site .D (k : ℤ))).prod = R.zs n := by
  unfold PauliRep.zs
  congr 1
  apply List.map_congr_left
  intro k hk
  exact R.jw_d (jwLabels_down hi (by omega) (by have := List.mem_range.mp hk; omega))

theorem numAB_jw (n : ℕ) {o : Op} (h : o = .A ∨ o = .B) : numAB (List.replicate n Op.D ++ [o]) = 1 := by
  rcases h with rfl | rfl <;> simp [numAB, List.filter_append, List.filter_replicate]

theorem jw_string_majorana {n : ℕ} (hi : (n : ℤ) ∈ jwLabels S) {o : Op} (h : o = .A ∨ o = .B) :
    MajoranaString (jwLabels S) ⟨List.replicate n Op.D ++ [o], (List.range (n + 1)).map Int.ofNat, .majorana, .float1⟩ where
  type := rfl
  ops p hp := by
    simp only [List.mem_append, List.mem_replicate, List.mem_singleton] at hp
    rcases hp with ⟨_, rfl⟩ | rfl
    · simp
    · tauto
  len := by simp
  nodup := by
    apply (List.nodup_range).map
    intro a b hab
    simpa using hab
  mem l hl := by
    obtain ⟨k, hk, rfl⟩ := List.mem_map.mp hl
    have := List.mem_range.mp hk
    exact jwLabels_down hi (by simp) (by simp; omega)
  pref := by
    have := numAB_jw n h
    rw [numAB] at this
    rw [this]
    simp

theorem jw_string_pauli {n : ℕ} (hi : (n : ℤ) ∈ jwLabels S) {o : Op} (h : o = .X ∨ o = .Y) :
    PauliString S ⟨List.replicate n Op.Z ++ [o], (List.range (n + 1)).map Int.ofNat, .pauli, .float1⟩ where
  type := rfl
  ops p hp := by
    simp only [List.mem_append, List.mem_replicate, List.mem_singleton] at hp
    rcases hp with ⟨_, rfl⟩ | rfl
    · simp
    · tauto
  len := by simp
  nodup := by
    apply (List.nodup_range).map
    intro a b hab
    simpa using hab
  mem l hl := by
    obtain ⟨k, hk, rfl⟩ := List.mem_map.mp hl
    have := List.mem_range.mp hk
    exact jwLabels_mem (jwLabels_down hi (by simp) (by simp; omega))
  pref := by simp

/-- one Pauli operator as a Majorana string -/
theorem jwFromPauli_ok (R : PauliRep K 𝔸 S) {o : Op} (ho : o = .X ∨ o = .Y ∨ o = .Z) {l : ℤ} (hl : l ∈ jwLabels S) :
    ∃ s, jwFromPauli o l = .ok s ∧ MajoranaString (jwLabels S) s ∧ R.jordanWigner.den s = R.site o l := by
  obtain ⟨n, rfl⟩ := Int.eq_ofNat_of_zero_le hl.1
  have hS : ∀ k : ℕ, k ≤ n → (k : ℤ) ∈ S := fun k hk => hl.2 k (by omega) (by omega)
  have hsq := R.zs_sq n (fun k hk => hS k (by omega))
  have e : ((n : ℤ) + 1).toNat = n + 1 := by omega
  rcases ho with rfl | rfl | rfl
  · refine ⟨_, ?_, jw_string_majorana hl (Or.inl rfl), ?_⟩
    · simp only [jwFromPauli, jwString, Int.toNat_natCast, e]
      rw [mkOpString_majorana (by simp), numAB_jw n (Or.inl rfl)]; rfl
    · simp only [MajoranaRep.den, wordProd_jw, R.jw_ds hl, Pref.val, one_smul]
      show R.zs n * (R.zs n * R.X n) = R.X n
      rw [← mul_assoc, hsq, one_mul]
  · refine ⟨_, ?_, jw_string_majorana hl (Or.inr rfl), ?_⟩
    · simp only [jwFromPauli, jwString, Int.toNat_natCast, e]
      rw [mkOpString_majorana (by simp), numAB_jw n (Or.inr rfl)]; rfl
    · simp only [MajoranaRep.den, wordProd_jw, R.jw_ds hl, Pref.val, one_smul]
      show R.zs n * (R.zs n * R.Y n) = R.Y n
      rw [← mul_assoc, hsq, one_mul]
  · refine ⟨⟨[.D], [(n : ℤ)], .majorana, .float1⟩, ?_, ⟨rfl, by simp, rfl, by simp, by simpa using hl, by simp⟩, ?_⟩
    · simp only [jwFromPauli]
      rw [mkOpString_majorana (by simp)]; rfl
    · simp only [MajoranaRep.den, wordProd, Pref.val, one_smul, mul_one]
      exact R.jw_d hl

/-- one Majorana operator as a Pauli string -/
theorem jwFromMajorana_ok (R : PauliRep K 𝔸 S) {o : Op} (ho : o = .A ∨ o = .B ∨ o = .D) {l : ℤ} (hl : l ∈ jwLabels S) :
    ∃ s, jwFromMajorana o l = .ok s ∧ PauliString S s ∧ R.den s = R.jordanWigner.site o l := by
  obtain ⟨n, rfl⟩ := Int.eq_ofNat_of_zero_le hl.1
  have e : ((n : ℤ) + 1).toNat = n + 1 := by omega
  rcases ho with rfl | rfl | rfl
  · refine ⟨_, ?_, jw_string_pauli hl (Or.inl rfl), ?_⟩
    · simp only [jwFromMajorana, jwString, Int.toNat_natCast, e]
      rw [mkOpString_pauli]
    · simp only [PauliRep.den, wordProd_jw, Pref.val, one_smul]
      rfl
  · refine ⟨_, ?_, jw_string_pauli hl (Or.inr rfl), ?_⟩
    · simp only [jwFromMajorana, jwString, Int.toNat_natCast, e]
      rw [mkOpString_pauli]
    · simp only [PauliRep.den, wordProd_jw, Pref.val, one_smul]
      rfl
  · refine ⟨⟨[.Z], [(n : ℤ)], .pauli, .float1⟩, ?_, ⟨rfl, by simp, rfl, by simp, by simpa using jwLabels_mem hl, by simp⟩, ?_⟩
    · simp only [jwFromMajorana]
      rw [mkOpString_pauli]
    · simp only [PauliRep.den, wordProd, Pref.val, one_smul, mul_one]
      exact (R.jw_d hl).symm

/-- `_jordan_wigner` of a Pauli string, in one representation -/
theorem jordanWigner_pauli (R : PauliRep K 𝔸 S) {P : OpString} (h : PauliString (jwLabels S) P) :
    ∃ (c : K) (M : OpString), jordanWigner P = .ok (c, M) ∧ MajoranaString (jwLabels S) M ∧ M.Canonical ∧ IsPhase c ∧
      R.den P = c • R.jordanWigner.den M := by
  have hid : MajoranaString (jwLabels S) (identityString .majorana) := ⟨rfl, by simp [identityString], rfl, by simp [identityString],
    by simp [identityString], by simp [identityString]⟩
  obtain ⟨c, M, h1, h2, h3, h4, h5⟩ := jwLoop_ok R.jordanWigner.strAlg jwFromPauli R.site P.ops P.labels h.len
    (fun x hx => jwFromPauli_ok R (h.ops _ (List.of_mem_zip hx).1) (h.mem _ (List.of_mem_zip hx).2)) (P.pref.val)
    (identityString .majorana) hid ⟨by simp [identityString], Or.inr rfl⟩
  refine ⟨c, M, ?_, h2, h3, h4 (P.pref.val_phase), ?_⟩
  · simp only [jordanWigner, h.type, bind, Except.bind]
    rw [mkOpString_majorana rfl]
    exact h1
  · rw [PauliRep.den]
    have e : R.jordanWigner.strAlg.den (identityString .majorana) = 1 := by
      simp [MajoranaRep.strAlg, MajoranaRep.den, identityString, wordProd, Pref.val]
    rw [e, smul_mul_assoc, one_mul] at h5
    exact h5

/-- `_jordan_wigner` of a Majorana string, in one representation -/
theorem jordanWigner_majorana (R : PauliRep K 𝔸 S) {M : OpString} (h : MajoranaString (jwLabels S) M) :
    ∃ (c : K) (P : OpString), jordanWigner M = .ok (c, P) ∧ PauliString S P ∧ P.Canonical ∧ IsPhase c ∧
      R.jordanWigner.den M = c • R.den P := by
  have hid : PauliString S (identityString .pauli) := ⟨rfl, by simp [identityString], rfl, by simp [identityString],
    by simp [identityString], by simp [identityString]⟩
  obtain ⟨c, P, h1, h2, h3, h4, h5⟩ := jwLoop_ok R.strAlg jwFromMajorana R.jordanWigner.site M.ops M.labels h.len
    (fun x hx => jwFromMajorana_ok R (h.ops _ (List.of_mem_zip hx).1) (h.mem _ (List.of_mem_zip hx).2)) (M.pref.val)
    (identityString .pauli) hid ⟨by simp [identityString], Or.inr rfl⟩
  refine ⟨c, P, ?_, h2, h3, h4 (M.pref.val_phase), ?_⟩
  · simp only [jordanWigner, h.type, bind, Except.bind]
    rw [mkOpString_pauli]
    exact h1
  · rw [MajoranaRep.den]
    have e : R.strAlg.den (identityString .pauli) = 1 := by
      simp [PauliRep.strAlg, PauliRep.den, identityString, wordProd, Pref.val]
    rw [e, smul_mul_assoc, one_mul] at h5
    exact h5

/-- restriction to fewer labels -/
def PauliRep.restrict {T : Set ℤ} (R : PauliRep K 𝔸 T) (h : S ⊆ T) : PauliRep K 𝔸 S where
  X := R.X
  Y := R.Y
  Z := R.Z
  x_sq i hi := R.x_sq i (h hi)
  y_sq i hi := R.y_sq i (h hi)
  z_sq i hi := R.z_sq i (h hi)
  x_mul_y i hi := R.x_mul_y i (h hi)
  y_mul_z i hi := R.y_mul_z i (h hi)
  z_mul_x i hi := R.z_mul_x i (h hi)
  y_mul_x i hi := R.y_mul_x i (h hi)
  z_mul_y i hi := R.z_mul_y i (h hi)
  x_mul_z i hi := R.x_mul_z i (h hi)
  xx i hi j hj := R.xx i (h hi) j (h hj)
  xy i hi j hj := R.xy i (h hi) j (h hj)
  xz i hi j hj := R.xz i (h hi) j (h hj)
  yy i hi j hj := R.yy i (h hi) j (h hj)
  yz i hi j hj := R.yz i (h hi) j (h hj)
  zz i hi j hj := R.zz i (h hi) j (h hj)

/-- a faithful enough representation on any set of labels -/
noncomputable def waveOn (K : Type) [Field K] [StarRing K] [Coef K] (S : Set ℤ) : PauliRep K (Module.End K (Conf → K)) S :=
  (waveRep K).restrict (Set.subset_univ S)

theorem sq_eq_one_of {x y : 𝔸} [Nontrivial 𝔸] (hx : x * x = 1) (hy : y * y = 1) {c : K} (h : x = c • y) : c = 1 ∨ c = -1 := by
  rw [h, smul_mul_smul_comm, hy] at hx
  have h2 : (c * c - 1) • (1 : 𝔸) = 0 := by rw [sub_smul, hx, one_smul, sub_self]
  have h3 : c * c - 1 = 0 := by
    by_contra hne
    have := congrArg (fun x => (c * c - 1)⁻¹ • x) h2
    simp only [smul_smul, inv_mul_cancel₀ hne, one_smul, smul_zero] at this
    exact one_ne_zero this
  have h4 : (c - 1) * (c + 1) = 0 := by linear_combination h3
  rcases mul_eq_zero.mp h4 with h5 | h5
  · left; linear_combination h5
  · right; linear_combination h5

/-- equal multiples of canonical strings -/
theorem StrAlg.same_string [Nontrivial 𝔸] (T : StrAlg K 𝔸) {A B : OpString} (hA : T.Str A) (hB : T.Str B) (cA : A.Canonical)
    (cB : B.Canonical) {c : K} (h : T.den A = c • T.den B) : A = B ∧ c = 1 := by
  by_cases hAB : A = B
  · subst hAB
    refine ⟨rfl, ?_⟩
    have h1 : T.den A * T.den A = c • (T.den A * T.den A) := by
      rw [← smul_mul_assoc, ← h]
    rw [T.sq A hA] at h1
    have h2 : (c - 1) • (1 : 𝔸) = 0 := by rw [sub_smul, ← h1, one_smul, sub_self]
    by_contra hne
    have := congrArg (fun x => (c - 1)⁻¹ • x) h2
    simp only [smul_smul, inv_mul_cancel₀ (sub_ne_zero.mpr hne), one_smul, smul_zero] at this
    exact one_ne_zero this
  · exfalso
    have := T.independent (strs := [A, B]) (by simp [hAB]) (by
      intro s hs
      rcases List.mem_cons.mp hs with rfl | hs
      · exact ⟨hA, cA⟩
      · rw [List.mem_singleton] at hs; subst hs; exact ⟨hB, cB⟩) (w := fun i => if i = 0 then 1 else -c) (by
        simp [linComb, Fin.sum_univ_two, h]) 0 (by simp)
    simp at this

end Qosy
