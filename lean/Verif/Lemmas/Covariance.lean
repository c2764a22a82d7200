import Verif.Spec.Covariance
import Verif.Lemmas.GreedySymmetry
import Verif.Lemmas.PermGroup
import Verif.Lemmas.Reversal
import Mathlib.Data.Matrix.Mul

/-! # Symmetries and brackets -/

namespace Qosy
open Coef RealOps
open scoped ComplexOrder
variable {K : Type} [Field K] [StarRing K] [Coef K] [RealCoef K]
variable {𝔸 : Type} [Ring 𝔸] [Algebra K 𝔸]

/-- the valid canonical strings -/
def StrAlg.Can (R : StrAlg K 𝔸) (s : OpString) : Prop := R.Str s ∧ s.Canonical

/-- a rule that sends strings to signed strings and respects brackets up to a sign -/
structure Covariant (R : StrAlg K 𝔸) (mode : Mode) (T : Transformation K) (η : K) (ε : OpString → K) (f : OpString → OpString) : Prop where
  rule : SignRule T R.type R.Can ε f
  inj : Set.InjOn f {s | R.Can s}
  bracket : ∀ a h, R.Can a → R.Can h → ∃ (c : K) (C : OpString), R.Can C ∧ bracketOf mode (R.den a) (R.den h) = c • R.den C ∧
    bracketOf mode (ε a • R.den (f a)) (ε h • R.den (f h)) = (η * c) • ε C • R.den (f C)

omit [RealCoef K] in
/-- a relation between strings holds for every assignment of values to strings -/
theorem StrAlg.relation_any [Nontrivial 𝔸] (R : StrAlg K 𝔸) {M : Type} [AddCommGroup M] [Module K M] (τ : OpString → M) (ts : List (K × OpString))
    (hs : ∀ t ∈ ts, R.Can t.2) (h : denT R.den ts = 0) : denT τ ts = 0 := by
  set T := (ts.map Prod.snd).dedup with hT
  have hn : T.Nodup := List.nodup_dedup _
  have hmem : ∀ t ∈ ts, t.2 ∈ T := fun t ht => by
    rw [hT, List.mem_dedup]; exact List.mem_map_of_mem ht
  rw [← denT_eq_sum τ hn ts hmem]
  rw [← denT_eq_sum R.den hn ts hmem] at h
  refine Finset.sum_eq_zero fun i _ => ?_
  have := R.independent hn (fun s hs' => by
      rw [hT, List.mem_dedup] at hs'
      obtain ⟨t, ht, rfl⟩ := List.mem_map.mp hs'
      exact hs t ht) (w := fun i => coefT ts (T.getD i ⟨[], [], .pauli, .float1⟩)) (by
    rw [linComb]
    refine Eq.trans (Finset.sum_congr rfl fun i _ => ?_) h
    rw [List.getD_eq_getElem _ _ i.2]; rfl) i i.2
  rw [List.getD_eq_getElem _ _ i.2] at this
  rw [show coefT ts T[i] = 0 from this, zero_smul]

omit [StarRing K] [Coef K] [RealCoef K] in
theorem denT_neg {M : Type} [AddCommGroup M] [Module K M] (τ : OpString → M) (l : List (K × OpString)) :
    denT τ (l.map fun t => (-t.1, t.2)) = -denT τ l := by
  induction l with
  | nil => simp [denT]
  | cons a l ih => rw [List.map_cons, denT_cons, denT_cons, ih, neg_smul, neg_add]

omit [StarRing K] [Coef K] [RealCoef K] in
theorem denT_flatMap {M α : Type} [AddCommGroup M] [Module K M] (τ : OpString → M) (l : List α) (g : α → List (K × OpString)) :
    denT τ (l.flatMap g) = (l.map fun a => denT τ (g a)).sum := by
  induction l with
  | nil => simp [denT]
  | cons a l ih => rw [List.flatMap_cons, denT_append, ih, List.map_cons, List.sum_cons]

/-- brackets of operators are respected up to the sign -/
theorem Covariant.bracket_terms [Nontrivial 𝔸] {R : StrAlg K 𝔸} {mode : Mode} {T : Transformation K} {η : K} {ε : OpString → K} {f : OpString → OpString}
    (h : Covariant R mode T η ε f) {as hs rs : List (K × OpString)} (ha : ∀ t ∈ as, R.Can t.2) (hh : ∀ t ∈ hs, R.Can t.2) (hr : ∀ t ∈ rs, R.Can t.2)
    (he : bracketOf mode (denT R.den as) (denT R.den hs) = denT R.den rs) :
    bracketOf mode (denT (fun s => ε s • R.den (f s)) as) (denT (fun s => ε s • R.den (f s)) hs) = η • denT (fun s => ε s • R.den (f s)) rs := by
  classical
  set τ := fun s => ε s • R.den (f s) with hτ
  have key : ∀ a h', ∃ r : K × OpString, R.Can a → R.Can h' → R.Can r.2 ∧ bracketOf mode (R.den a) (R.den h') = r.1 • R.den r.2 ∧
      bracketOf mode (τ a) (τ h') = (η * r.1) • τ r.2 := fun a h' => by
    by_cases h1 : R.Can a
    · by_cases h2 : R.Can h'
      · obtain ⟨c, C, k⟩ := h.bracket a h' h1 h2
        exact ⟨(c, C), fun _ _ => k⟩
      · exact ⟨(0, a), fun _ k => absurd k h2⟩
    · exact ⟨(0, a), fun k => absurd k h1⟩
  choose r hr' using key
  set l : List (K × OpString) := as.flatMap fun a => hs.map fun h' => (a.1 * h'.1 * (r a.2 h'.2).1, (r a.2 h'.2).2) with hl
  have e1 : denT R.den l = bracketOf mode (denT R.den as) (denT R.den hs) := by
    rw [hl, denT_flatMap, bracketOf_den]
    congr 1
    refine List.map_congr_left fun a hma => ?_
    rw [denT, List.map_map]
    congr 1
    refine List.map_congr_left fun h' hmh => ?_
    rw [(hr' a.2 h'.2 (ha a hma) (hh h' hmh)).2.1, smul_smul]
    rfl
  have e2 : η • denT τ l = bracketOf mode (denT τ as) (denT τ hs) := by
    rw [hl, denT_flatMap, bracketOf_den, List.smul_sum, List.map_map]
    congr 1
    refine List.map_congr_left fun a hma => ?_
    simp only [Function.comp]
    rw [denT, List.map_map, List.smul_sum, List.map_map]
    congr 1
    refine List.map_congr_left fun h' hmh => ?_
    simp only [Function.comp]
    rw [(hr' a.2 h'.2 (ha a hma) (hh h' hmh)).2.2]
    simp only [hτ, smul_smul]
    congr 1
    ring
  have e3 := R.relation_any τ (l ++ rs.map fun t => (-t.1, t.2)) (fun t ht => by
      rcases List.mem_append.mp ht with ht | ht
      · rw [hl, List.mem_flatMap] at ht
        obtain ⟨a, hma, ht⟩ := ht
        obtain ⟨h', hmh, rfl⟩ := List.mem_map.mp ht
        exact (hr' a.2 h'.2 (ha a hma) (hh h' hmh)).1
      · obtain ⟨t', ht', rfl⟩ := List.mem_map.mp ht
        exact hr t' ht') (by
    rw [denT_append, e1, he, denT_neg, add_neg_cancel])
  rw [denT_append, denT_neg, add_neg_eq_zero] at e3
  rw [← e2, e3]

omit [RealCoef K] in
theorem Covariant.sign_ne {R : StrAlg K 𝔸} {mode : Mode} {T : Transformation K} {η : K} {ε : OpString → K} {f : OpString → OpString}
    (h : Covariant R mode T η ε f) {s : OpString} (hs : R.Can s) : star (ε s) * ε s = 1 := by
  rw [sign_star (h.rule.sign s hs), sign_mul_self (h.rule.sign s hs)]

/-- a combination of images of distinct strings -/
theorem Covariant.linComb {R : StrAlg K 𝔸} {mode : Mode} {T : Transformation K} {η : K} {ε : OpString → K} {f : OpString → OpString}
    (h : Covariant R mode T η ε f) {strs : List OpString} (hn : strs.Nodup) (hs : ∀ s ∈ strs, R.Can s) (w : ℕ → K) :
    ∃ w' : ℕ → K, (strs.map f).Nodup ∧ (∀ s ∈ strs.map f, R.Can s) ∧
      Qosy.linComb (fun s => ε s • R.den (f s)) strs w = Qosy.linComb R.den (strs.map f) w' ∧
      ∑ i : Fin (strs.map f).length, star (w' i) * w' i = ∑ i : Fin strs.length, star (w i) * w i := by
  have hl : (strs.map f).length = strs.length := List.length_map _
  refine ⟨fun i => w i * ((strs[i]?).map ε).getD 0, hn.map_on fun x hx y hy => h.inj (hs x hx) (hs y hy), fun s hs' => ?_, ?_, ?_⟩
  · obtain ⟨s, hm, rfl⟩ := List.mem_map.mp hs'
    exact h.rule.mem s (hs s hm)
  · rw [Qosy.linComb, Qosy.linComb, ← (finCongr hl).sum_comp]
    refine Finset.sum_congr rfl fun i _ => ?_
    have hi : (i : ℕ) < strs.length := hl ▸ i.2
    simp only [finCongr_apply, Fin.val_cast, List.getElem?_eq_getElem hi, Option.map_some, Option.getD_some, smul_smul, Fin.getElem_fin, List.getElem_map]
  · rw [← (finCongr hl).sum_comp (fun i : Fin strs.length => star (w i) * w i)]
    refine Finset.sum_congr rfl fun i _ => ?_
    have hi : (i : ℕ) < strs.length := hl ▸ i.2
    simp only [finCongr_apply, Fin.val_cast, List.getElem?_eq_getElem hi, Option.map_some, Option.getD_some, star_mul']
    rw [mul_mul_mul_comm, h.sign_ne (hs _ (List.getElem_mem hi)), mul_one]

/-- polarization -/
theorem form_zero {n : ℕ} {D : Matrix (Fin n) (Fin n) K} (h : ∀ v : Fin n → K, ∑ i, ∑ j, star (v i) * D i j * v j = 0) : D = 0 := by
  have h2 : (2 : K) ≠ 0 := toC_num_ne
  have key : ∀ (i j : Fin n) (x : K), D i i + x * D i j + star x * D j i + star x * x * D j j = 0 := by
    intro i j x
    have := h (fun k => (if k = i then 1 else 0) + if k = j then x else 0)
    simp only [star_add, apply_ite star, star_one, star_zero, add_mul, mul_add, ite_mul, mul_ite, one_mul, mul_one, zero_mul, mul_zero,
      Finset.sum_add_distrib, Finset.sum_ite_eq', Finset.mem_univ, if_true] at this
    linear_combination this
  have hd : ∀ i, D i i = 0 := fun i => by simpa using key i i 0
  ext i j
  have h1 := key i j 1
  have h3 := key i j I
  rw [hd, hd] at h1 h3
  rw [star_I] at h3
  simp only [star_one, one_mul] at h1
  have hI : (I : K) * I = -1 := I_mul_I
  have e : (2 : K) * D i j = 0 := by linear_combination h1 - I * h3 + (D i j - D j i) * hI
  simpa [h2] using e

omit [RealCoef K] in
/-- the form of the commutant matrix of a basis -/
theorem StrAlg.commutant_form (R : StrAlg K 𝔸) (mode : Mode) {b : Basis} {H : Operator K} (hb : ∀ s ∈ b.strs, R.Str s) (hH : ∀ s ∈ H.basis.strs, R.Str s) :
    ∃ C ext, commutantMatrix (.strings b) H mode = .ok (C, ext) ∧ C.ncols = b.strs.length ∧ (C.square b.strs.length).PosSemidef ∧ ext.strs.Nodup ∧ (∀ s ∈ ext.strs, R.Can s) ∧ ∀ v : ℕ → K, ∃ w : ℕ → K,
      bracketOf mode (linComb R.den b.strs v) (H.den R.den) = linComb R.den ext.strs w ∧
      ∑ i : Fin b.strs.length, ∑ j : Fin b.strs.length, star (v i) * C.get i j * v j = ∑ c : Fin ext.strs.length, star (w c) * w c := by
  obtain ⟨L, C, ext, -, h2, h3, h4, h5, h6⟩ := R.commutant_ok (x := .strings b) mode hb (by simp) hH
  refine ⟨C, ext, h2, by rw [h5]; exact List.length_map _, square_posSemidef h6, h3.ext_inv.2, h3.ext_str, fun v => ⟨L.mulVec v, ?_, ?_⟩⟩
  · have := h3.isLiouvillian.represents v
    rw [← this]
    congr 1
    have hl : b.strs.length = ((BasisArg.strings b : BasisArg K).den R.den).length := (List.length_map _).symm
    rw [linComb, ← (finCongr hl).sum_comp]
    refine Finset.sum_congr rfl fun i _ => ?_
    simp only [BasisArg.den, Fin.getElem_fin, List.getElem_map]
    rfl
  · have e : L.nrows = ext.strs.length := h3.nrows
    have := square_form h6 v
    rw [h3.ncols, e] at this
    rw [← this]
    have hl : b.strs.length = ((BasisArg.strings b : BasisArg K).den R.den).length := (List.length_map _).symm
    rw [← (finCongr hl).sum_comp]
    refine Finset.sum_congr rfl fun i _ => ?_
    rw [← (finCongr hl).sum_comp]
    rfl

omit [StarRing K] [Coef K] [RealCoef K] in
theorem linComb_terms {M : Type} [AddCommGroup M] [Module K M] (d : OpString → M) (l : List OpString) (w : ℕ → K) :
    linComb d l w = denT d (l.zipIdx.map fun e => (w e.2, e.1)) := by
  rw [linComb, denT, List.map_map, ← Fin.sum_univ_fun_getElem]
  have hl : l.length = (l.zipIdx).length := by simp
  rw [← (finCongr hl).sum_comp]
  refine Finset.sum_congr rfl fun i _ => ?_
  simp

omit [RealCoef K] in
/-- the denotation of the image of an operator -/
theorem Covariant.apply {R : StrAlg K 𝔸} {mode : Mode} {T : Transformation K} {η : K} {ε : OpString → K} {f : OpString → OpString}
    (h : Covariant R mode T η ε f) {A : Operator K} (hA : A.On R.type R.Can) :
    ∃ B, T.apply A = .ok B ∧ B.On R.type R.Can ∧ B.den R.den = A.den (fun s => ε s • R.den (f s)) :=
  apply_den h.rule.maps hA R.den _ fun s hs => by
    rw [Sends.image (h.rule.sends s hs)]
    simp [denT]

/-- the bracket with the image of a combination of strings -/
theorem Covariant.bracket_image [Nontrivial 𝔸] {R : StrAlg K 𝔸} {mode : Mode} {T : Transformation K} {η : K} {ε : OpString → K} {f : OpString → OpString}
    (h : Covariant R mode T η ε f) {H : Operator K} (hH : H.On R.type R.Can) {σ : K} (hσ : σ = 1 ∨ σ = -1)
    (hinv : H.den (fun s => ε s • R.den (f s)) = σ • H.den R.den) {l ext : List OpString} (hl : ∀ s ∈ l, R.Can s) (he : ∀ s ∈ ext, R.Can s)
    {v w : ℕ → K} (hw : bracketOf mode (Qosy.linComb R.den l v) (H.den R.den) = Qosy.linComb R.den ext w) :
    bracketOf mode (Qosy.linComb (fun s => ε s • R.den (f s)) l v) (H.den R.den) =
      Qosy.linComb (fun s => ε s • R.den (f s)) ext (fun i => σ * η * w i) := by
  have mem : ∀ {l : List OpString} (w : ℕ → K), (∀ s ∈ l, R.Can s) → ∀ t ∈ l.zipIdx.map (fun e => (w e.2, e.1)), R.Can t.2 := by
    intro l w hl t ht
    obtain ⟨e, he, rfl⟩ := List.mem_map.mp ht
    exact hl _ (List.fst_mem_of_mem_zipIdx he)
  have key := h.bracket_terms (mem v hl) (fun t ht => hH.mem _ (mem_terms ht)) (mem w he) (by rw [← linComb_terms, ← linComb_terms]; exact hw)
  rw [← linComb_terms, ← linComb_terms, show denT (fun s => ε s • R.den (f s)) H.terms = σ • H.den R.den from hinv, bracketOf_smul_right] at key
  have e : Qosy.linComb (fun s => ε s • R.den (f s)) ext (fun i => σ * η * w i) = σ • η • Qosy.linComb (fun s => ε s • R.den (f s)) ext w := by
    rw [smul_smul, Qosy.linComb, Qosy.linComb, Finset.smul_sum]
    exact Finset.sum_congr rfl fun i _ => by simp only [smul_smul, mul_assoc]
  rw [e, ← key, smul_smul, sign_mul_self hσ, one_smul]

/-- the commutant matrix of a symmetric operator commutes with the symmetry matrix -/
theorem Covariant.commutant [Nontrivial 𝔸] {R : StrAlg K 𝔸} {mode : Mode} {T : Transformation K} {η : K} (hη : η = 1 ∨ η = -1) {ε : OpString → K} {f : OpString → OpString}
    (h : Covariant R mode T η ε f) {b : Basis} (hb : b.Inv) (hs : ∀ s ∈ b.strs, R.Can s) (hcl : ∀ s ∈ b.strs, f s ∈ b.strs)
    {H : Operator K} (hH : H.On R.type R.Can) {σ : K} (hσ : σ = 1 ∨ σ = -1)
    (hinv : H.den (fun s => ε s • R.den (f s)) = σ • H.den R.den) {tol : ℚ} (htol : tol < 1) :
    ∃ S C ext, symmetryMatrix b T tol = .ok S ∧ commutantMatrix (.strings b) H mode = .ok (C, ext) ∧ C.ncols = b.strs.length ∧ (C.square b.strs.length).PosSemidef ∧
      S.rect b.strs.length b.strs.length * C.rect b.strs.length b.strs.length = C.rect b.strs.length b.strs.length * S.rect b.strs.length b.strs.length := by
  classical
  have hrule : SignRule T R.type (· ∈ b.strs) ε f :=
    ⟨fun s hm => h.rule.type s (hs s hm), fun s hm => h.rule.sends s (hs s hm), fun s hm => h.rule.sign s (hs s hm), hcl⟩
  obtain ⟨S, s1, s2, s3, s4⟩ := C41_signed hb (tol := tol) htol hrule (fun x hx y hy => h.inj (hs x hx) (hs y hy))
  obtain ⟨C, ext, c1, cn, cp, c2, c3, c4⟩ := R.commutant_form mode (b := b) (H := H) (fun s hm => (hs s hm).1) (fun s hm => (hH.mem s hm).1)
  refine ⟨S, C, ext, s1, c1, cn, cp, ?_⟩
  set n := b.strs.length with hn
  set Sm := S.rect n n with hSm
  set Cm := C.rect n n with hCm
  have form : ∀ v : Fin n → K, ∑ i, ∑ j, star ((Sm.mulVec v) i) * Cm i j * (Sm.mulVec v) j = ∑ i, ∑ j, star (v i) * Cm i j * v j := by
    intro v
    let v' : ℕ → K := fun i => if hi : i < n then v ⟨i, hi⟩ else 0
    let u' : ℕ → K := fun i => if hi : i < n then Sm.mulVec v ⟨i, hi⟩ else 0
    have hv' : ∀ i : Fin n, v' i = v i := fun i => by simp [v']
    have hu' : ∀ i : Fin n, u' i = Sm.mulVec v i := fun i => by simp [u']
    obtain ⟨w, w1, w2⟩ := c4 v'
    obtain ⟨z, z1, z2⟩ := c4 u'
    have hz : ∑ i, ∑ j, star ((Sm.mulVec v) i) * Cm i j * (Sm.mulVec v) j = ∑ c : Fin ext.strs.length, star (z c) * z c := by
      rw [← z2]
      exact Finset.sum_congr rfl fun i _ => Finset.sum_congr rfl fun j _ => by rw [hu', hu']; rfl
    have hw : ∑ i, ∑ j, star (v i) * Cm i j * v j = ∑ c : Fin ext.strs.length, star (w c) * w c := by
      rw [← w2]
      exact Finset.sum_congr rfl fun i _ => Finset.sum_congr rfl fun j _ => by rw [hv', hv']; rfl
    rw [hz, hw]
    have himg : Qosy.linComb R.den b.strs u' = Qosy.linComb (fun s => ε s • R.den (f s)) b.strs v' := by
      rw [Qosy.linComb, Qosy.linComb]
      have : ∀ j : Fin b.strs.length, v' j • ε b.strs[j] • R.den (f b.strs[j]) = ∑ i : Fin b.strs.length, (S.get i j * v' j) • R.den b.strs[i] := by
        intro j
        obtain ⟨m, hm, hme⟩ := List.getElem_of_mem (hcl _ (List.getElem_mem j.2))
        rw [Finset.sum_eq_single (⟨m, hm⟩ : Fin b.strs.length)]
        · have e := s2 m j hm j.2
          rw [if_pos hme.symm] at e
          show _ = (S.get m j * v' j) • R.den b.strs[m]
          rw [e, hme, smul_smul, mul_comm]
          rfl
        · intro i _ hi
          have e := s2 i j i.2 j.2
          rw [if_neg] at e
          · rw [e, zero_mul, zero_smul]
          · intro he
            exact hi (Fin.ext ((hb.2.getElem_inj_iff).mp (hme.trans he).symm))
        · intro hm'; exact absurd (Finset.mem_univ _) hm'
      rw [Finset.sum_congr rfl fun j _ => this j, Finset.sum_comm]
      refine Finset.sum_congr rfl fun i _ => ?_
      rw [← Finset.sum_smul]
      congr 1
      show u' i = _
      rw [hu' i, Matrix.mulVec, dotProduct]
      exact Finset.sum_congr rfl fun j _ => by rw [hv' j]; rfl
    have hbr := h.bracket_image hH hσ hinv hs c3 w1
    rw [← himg, z1] at hbr
    obtain ⟨x, x1, x2, x3, x4⟩ := h.linComb c2 c3 (fun i => σ * η * w i)
    rw [R.norm_unique c2 x1 c3 x2 (hbr.trans x3), x4]
    refine Finset.sum_congr rfl fun i _ => ?_
    have hs' : star (σ * η) * (σ * η) = 1 := by
      rw [sign_star (sign_mul hσ hη), sign_mul_self (sign_mul hσ hη)]
    rw [star_mul', mul_mul_mul_comm, hs', one_mul]
  have hD : Sm.conjTranspose * Cm * Sm - Cm = 0 := form_zero fun v => by
    have e1 : ∀ D : Matrix (Fin n) (Fin n) K, ∑ i, ∑ j, star (v i) * D i j * v j = star v ⬝ᵥ D.mulVec v := fun D => by
      simp only [dotProduct, Matrix.mulVec, Finset.mul_sum, mul_assoc, Pi.star_apply]
    have e2 := form v
    have e3 : ∑ i, ∑ j, star ((Sm.mulVec v) i) * Cm i j * (Sm.mulVec v) j = star (Sm.mulVec v) ⬝ᵥ Cm.mulVec (Sm.mulVec v) := by
      simp only [dotProduct, Matrix.mulVec, Finset.mul_sum, mul_assoc, Pi.star_apply]
    rw [e3, e1] at e2
    rw [e1, Matrix.sub_mulVec, dotProduct_sub, ← e2, Matrix.star_mulVec, ← Matrix.dotProduct_mulVec, Matrix.mulVec_mulVec, Matrix.mulVec_mulVec, sub_self]
  have hD' := sub_eq_zero.mp hD
  calc Sm * Cm = Sm * (Sm.conjTranspose * Cm * Sm) := by rw [hD']
    _ = (Sm * Sm.conjTranspose) * Cm * Sm := by simp only [Matrix.mul_assoc]
    _ = Cm * Sm := by rw [s4, Matrix.one_mul]

omit [RealCoef K] in
/-- rules that come from another representation in the same algebra -/
theorem Covariant.of_rep {R R' : StrAlg K 𝔸} (mode : Mode) (hStr : ∀ s, R.Str s → R'.Str s) {T : Transformation K} {ε : OpString → K}
    {f : OpString → OpString} (rule : SignRule T R.type R.Can ε f) (inj : Set.InjOn f {s | R.Can s}) (hden : ∀ s, R.Str s → R'.den s = ε s • R.den (f s)) :
    Covariant R mode T 1 ε f := by
  refine ⟨rule, inj, fun a h ha hh => ?_⟩
  rcases R.op_string mode ha.1 hh.1 with ⟨e1, e2⟩ | ⟨c, C, e1, e2, e3, -, e4, -, e5⟩
  · rcases R'.op_string mode (hStr a ha.1) (hStr h hh.1) with ⟨-, k2⟩ | ⟨c', C', k1, -⟩
    · refine ⟨0, a, ha, by rw [e2, zero_smul], ?_⟩
      rw [← hden a ha.1, ← hden h hh.1, k2, mul_zero, zero_smul]
    · rw [e1] at k1
      simp at k1
  · rcases R'.op_string mode (hStr a ha.1) (hStr h hh.1) with ⟨k1, -⟩ | ⟨c', C', k1, -, k3, -⟩
    · rw [e1] at k1
      simp at k1
    · rw [e1] at k1
      simp only [Except.ok.injEq, Prod.mk.injEq, Option.some.injEq] at k1
      obtain ⟨rfl, rfl⟩ := k1
      refine ⟨c, C, ⟨e2, e4, e5⟩, e3, ?_⟩
      rw [← hden a ha.1, ← hden h hh.1, ← hden C e2, k3, one_mul]

omit [RealCoef K] in
/-- the phase of a bracket of two strings -/
theorem StrAlg.phase [Nontrivial 𝔸] (R : StrAlg K 𝔸) {a h C : OpString} (ha : R.Str a) (hh : R.Str h) {c : K} :
    (operationOpString .commutator a h = .ok (c, some C) → star c = -c) ∧ (operationOpString .anticommutator a h = .ok (c, some C) → star c = c) := by
  obtain ⟨d, d', D, r⟩ := R.core a h ha hh
  have hsq : d' * d = 1 := by
    have e : R.den h * R.den a * (R.den a * R.den h) = 1 := by
      rw [mul_assoc, ← mul_assoc (R.den a) (R.den a), R.sq a ha, one_mul, R.sq h hh]
    rw [r.ab, r.ba, smul_mul_smul_comm, R.sq D r.str] at e
    exact R.smul_inj ha (by rw [← one_mul (R.den a), ← smul_mul_assoc, e, one_smul])
  have hph := r.phase
  have hI : (I : K) * I = -1 := I_mul_I
  have h2 : (2 : K) ≠ 0 := by
    intro h0
    have := congrArg toC h0
    rw [map_ofNat, map_zero] at this
    norm_num at this
  have h11 : (1 : K) ≠ -1 := fun e => h2 (by linear_combination e)
  constructor
  · intro hc
    rcases r.brackets with ⟨-, k, -⟩ | ⟨rfl, k, -⟩
    · rw [show operationOpString .commutator a h = commutatorS a h from rfl, k] at hc
      simp at hc
    · rw [show operationOpString .commutator a h = commutatorS a h from rfl, k] at hc
      simp only [Except.ok.injEq, Prod.mk.injEq, Option.some.injEq] at hc
      obtain ⟨rfl, -⟩ := hc
      rw [star_mul', star_ofNat]
      rcases hph with rfl | rfl | rfl | rfl
      · exact absurd (by linear_combination -hsq) h11
      · exact absurd (by linear_combination -hsq) h11
      · rw [star_I]; ring
      · rw [star_neg, star_I]; ring
  · intro hc
    rcases r.brackets with ⟨rfl, -, k⟩ | ⟨-, -, k⟩
    · rw [show operationOpString .anticommutator a h = anticommutatorS a h from rfl, k] at hc
      simp only [Except.ok.injEq, Prod.mk.injEq, Option.some.injEq] at hc
      obtain ⟨rfl, -⟩ := hc
      rw [star_mul', star_ofNat]
      rcases hph with rfl | rfl | rfl | rfl
      · rw [star_one]
      · rw [star_neg, star_one]
      · exact absurd (by linear_combination hI - hsq) h11
      · exact absurd (by linear_combination hI - hsq) h11
    · rw [show operationOpString .anticommutator a h = anticommutatorS a h from rfl, k] at hc
      simp at hc

omit [RealCoef K] in
/-- time reversal -/
theorem Covariant.of_reversed [Nontrivial 𝔸] {R : StrAlg K 𝔸} {R' : StrAlg K (Twist 𝔸)} {mode : Mode} (hm : mode ≠ .product) (hStr : ∀ s, R.Str s → R'.Str s) {T : Transformation K}
    {ε : OpString → K} (rule : SignRule T R.type R.Can ε id) (hden : ∀ s, R.Str s → R'.den s = Twist.of (ε s • R.den s)) :
    Covariant R mode T (bracketSign mode true) ε id := by
  have hbr : ∀ x y : 𝔸, bracketOf mode (Twist.of x) (Twist.of y) = Twist.of (bracketOf mode x y) := fun x y => by
    cases mode <;> simp [bracketOf]
  refine ⟨rule, Set.injOn_id _, fun a h ha hh => ?_⟩
  rcases R.op_string mode ha.1 hh.1 with ⟨e1, e2⟩ | ⟨c, C, e1, e2, e3, -, e4, -, e5⟩
  · rcases R'.op_string mode (hStr a ha.1) (hStr h hh.1) with ⟨-, k2⟩ | ⟨c', C', k1, -⟩
    · refine ⟨0, a, ha, by rw [e2, zero_smul], ?_⟩
      rw [hden a ha.1, hden h hh.1, hbr, map_eq_zero_iff _ Twist.of.injective] at k2
      rw [mul_zero, zero_smul]
      exact k2
    · rw [e1] at k1
      simp at k1
  · rcases R'.op_string mode (hStr a ha.1) (hStr h hh.1) with ⟨k1, -⟩ | ⟨c', C', k1, -, k3, -⟩
    · rw [e1] at k1
      simp at k1
    · rw [e1] at k1
      simp only [Except.ok.injEq, Prod.mk.injEq, Option.some.injEq] at k1
      obtain ⟨rfl, rfl⟩ := k1
      refine ⟨c, C, ⟨e2, e4, e5⟩, e3, ?_⟩
      rw [hden a ha.1, hden h hh.1, hden C e2, hbr, Twist.smul_of] at k3
      have k4 := Twist.of.injective k3
      have hc : star c = bracketSign mode true * c := by
        cases mode with
        | product => exact absurd rfl hm
        | commutator => rw [(R.phase ha.1 hh.1).1 e1, bracketSign, neg_one_mul]
        | anticommutator => rw [(R.phase ha.1 hh.1).2 e1]; simp [bracketSign]
      rw [← hc]
      exact k4

omit [RealCoef K] in
/-- products -/
theorem Covariant.mul [Nontrivial 𝔸] {R : StrAlg K 𝔸} {mode : Mode} {T U : Transformation K} {η η' : K} {ε ε' : OpString → K} {f f' : OpString → OpString}
    (hT : Covariant R mode T η ε f) (hU : Covariant R mode U η' ε' f') : Covariant R mode (T.mul U) (η * η') (fun s => ε' s * ε (f' s)) (fun s => f (f' s)) := by
  refine ⟨hT.rule.mul hU.rule, fun x hx y hy e => hU.inj hx hy (hT.inj (hU.rule.mem x hx) (hU.rule.mem y hy) e), fun a h ha hh => ?_⟩
  obtain ⟨c, C, c1, c2, c3⟩ := hU.bracket a h ha hh
  obtain ⟨d, D, d1, d2, d3⟩ := hT.bracket (f' a) (f' h) (hU.rule.mem a ha) (hU.rule.mem h hh)
  refine ⟨c, C, c1, c2, ?_⟩
  have sq := fun {s} (hs : R.Can s) => sign_mul_self (hU.rule.sign s hs)
  rw [bracketOf_smul, d2, smul_smul, smul_smul] at c3
  rw [mul_smul, mul_smul, bracketOf_smul, d3]
  have c4 : d • R.den D = (ε' a * ε' h * (η' * c * ε' C)) • R.den (f' C) := by
    rw [mul_smul (ε' a * ε' h), ← c3, smul_smul]
    congr 1
    linear_combination -(d * (ε' h * ε' h)) * sq ha - d * sq hh
  by_cases hd : d = 0
  · have : ε' a * ε' h * (η' * c * ε' C) = 0 := by
      refine R.smul_inj (hU.rule.mem C c1).1 ?_
      rw [← c4, hd, zero_smul, zero_smul]
    have ne := fun {s} (hs : R.Can s) => left_ne_zero_of_mul_eq_one (sq hs)
    have h0 : η' * c = 0 := by
      simpa only [mul_eq_zero, ne ha, ne hh, ne c1, false_or, or_false] using this
    rw [hd, mul_zero, zero_smul, smul_zero, mul_assoc η, h0, mul_zero, zero_smul]
  · have h2 : R.den D = (d⁻¹ * (ε' a * ε' h * (η' * c * ε' C))) • R.den (f' C) := by
      rw [mul_smul, ← c4, smul_smul, inv_mul_cancel₀ hd, one_smul]
    obtain ⟨rfl, h4⟩ := R.same_string d1.1 (hU.rule.mem C c1).1 d1.2 (hU.rule.mem C c1).2 h2
    rw [inv_mul_eq_one₀ hd] at h4
    simp only [smul_smul]
    congr 1
    rw [h4]
    linear_combination (η * η' * c * ε' C * ε (f' C)) * ((ε' h * ε' h) * sq ha + sq hh)

/-- the image of a commuting operator commutes -/
theorem Covariant.commutes [Nontrivial 𝔸] {R : StrAlg K 𝔸} {mode : Mode} {T : Transformation K} {η : K} {ε : OpString → K} {f : OpString → OpString}
    (h : Covariant R mode T η ε f) {H A : Operator K} (hH : H.On R.type R.Can) (hA : A.On R.type R.Can) {σ : K} (hσ : σ = 1 ∨ σ = -1)
    (hinv : H.den (fun s => ε s • R.den (f s)) = σ • H.den R.den) (hc : bracketOf mode (A.den R.den) (H.den R.den) = 0) :
    ∃ B, T.apply A = .ok B ∧ bracketOf mode (B.den R.den) (H.den R.den) = 0 := by
  obtain ⟨B, b1, -, b3⟩ := h.apply hA
  refine ⟨B, b1, ?_⟩
  have key := h.bracket_terms (rs := []) (fun t ht => hA.mem _ (mem_terms ht)) (fun t ht => hH.mem _ (mem_terms ht)) (by simp) (by rw [denT_nil]; exact hc)
  rw [show denT (fun s => ε s • R.den (f s)) H.terms = σ • H.den R.den from hinv, bracketOf_smul_right, denT_nil, smul_zero] at key
  rw [b3, Operator.den, ← one_smul K (bracketOf _ _ _), ← sign_mul_self hσ, mul_smul, key, smul_zero]

/-- brackets of images of operators, when nothing is cut off -/
theorem Covariant.operators [Nontrivial 𝔸] {R : StrAlg K 𝔸} {mode : Mode} {T : Transformation K} {η : K} {ε : OpString → K} {f : OpString → OpString}
    (h : Covariant R mode T η ε f) {A B X : Operator K} (hA : A.On R.type R.Can) (hB : B.On R.type R.Can) (hX : X.On R.type R.Can)
    (he : bracketOf mode (A.den R.den) (B.den R.den) = X.den R.den) :
    ∃ A' B' X', T.apply A = .ok A' ∧ T.apply B = .ok B' ∧ T.apply X = .ok X' ∧ A'.On R.type R.Can ∧ B'.On R.type R.Can ∧ X'.On R.type R.Can ∧
      bracketOf mode (A'.den R.den) (B'.den R.den) = η • X'.den R.den := by
  obtain ⟨A', a1, a2, a3⟩ := h.apply hA
  obtain ⟨B', b1, b2, b3⟩ := h.apply hB
  obtain ⟨X', x1, x2, x3⟩ := h.apply hX
  refine ⟨A', B', X', a1, b1, x1, a2, b2, x2, ?_⟩
  rw [a3, b3, x3]
  exact h.bracket_terms (fun t ht => hA.mem _ (mem_terms ht)) (fun t ht => hB.mem _ (mem_terms ht)) (fun t ht => hX.mem _ (mem_terms ht)) he

omit [RealCoef K] in
/-- strings are independent: the value determines the coefficients -/
theorem StrAlg.coef_eq_smul [Nontrivial 𝔸] (R : StrAlg K 𝔸) {A B : Operator K} (hA : A.On R.type R.Can) (hB : B.On R.type R.Can) {x : K}
    (h : A.den R.den = x • B.den R.den) (s : OpString) : A.coef s = x * B.coef s := by
  have one (l : List (K × OpString)) : denT (fun u => if u = s then (1 : K) else 0) l = coefT l s := by
    induction l with
    | nil => simp [denT]
    | cons a l ih => rw [denT_cons, coefT_cons, ih]; simp
  have hx (l : List (K × OpString)) {M : Type} [AddCommGroup M] [Module K M] (τ : OpString → M) : denT τ (l.map fun t => (-x * t.1, t.2)) = -x • denT τ l := by
    induction l with
    | nil => simp [denT]
    | cons a l ih => rw [List.map_cons, denT_cons, denT_cons, ih, smul_add, mul_smul]
  have key := R.relation_any (fun u => if u = s then (1 : K) else 0) (A.terms ++ B.terms.map fun t => (-x * t.1, t.2)) (fun t ht => by
      rcases List.mem_append.mp ht with ht | ht
      · exact hA.mem _ (mem_terms ht)
      · obtain ⟨u, hu, rfl⟩ := List.mem_map.mp ht
        exact hB.mem u.2 (mem_terms hu)) (by
      rw [denT_append, hx, neg_smul, ← sub_eq_add_neg, sub_eq_zero]; exact h)
  rw [denT_append, hx, one, one] at key
  simp only [Operator.coef]
  rw [smul_eq_mul] at key
  linear_combination key

omit [RealCoef K] in
theorem Operator.WF.coef_of_mem {A : Operator K} (hA : A.WF) {x : K × OpString} (hx : x ∈ A.terms) : A.coef x.2 = x.1 := by
  obtain ⟨i, hi, rfl⟩ := List.getElem_of_mem hx
  have h1 : i < A.basis.strs.length := by simp [Operator.terms] at hi; omega
  have := coefT_zip_mem hA.len hA.basis.2 i h1
  simpa [Operator.coef, Operator.terms] using this

omit [RealCoef K] in
/-- the terms of the image of an operator are the images of its terms -/
theorem Covariant.image_terms {R : StrAlg K 𝔸} {mode : Mode} {T : Transformation K} {η : K} {ε : OpString → K} {f : OpString → OpString}
    (h : Covariant R mode T η ε f) {A A' : Operator K} (hA : A.On R.type R.Can) (hA' : T.apply A = .ok A') {x : K × OpString} (hx : x ∈ A'.terms) :
    x.1 = 0 ∨ ∃ y ∈ A.terms, x.1 = ε y.2 * y.1 ∧ (ε y.2 = 1 ∨ ε y.2 = -1) := by
  classical
  obtain ⟨B, b1, b2, b3⟩ := apply_ok h.rule.maps hA
  obtain rfl : A' = B := Except.ok.inj (hA'.symm.trans b1)
  have h1 : x.1 = (A.terms.map fun y => y.1 * if f y.2 = x.2 then ε y.2 else 0).sum := by
    rw [← b2.wf.coef_of_mem hx, b3]
    congr 1
    refine List.map_congr_left fun y hy => ?_
    rw [Sends.entry (h.rule.sends y.2 (hA.mem _ (mem_terms hy)))]
  by_cases hy : ∃ y ∈ A.terms, f y.2 = x.2
  · obtain ⟨y, hy, e⟩ := hy
    refine Or.inr ⟨y, hy, ?_, h.rule.sign _ (hA.mem _ (mem_terms hy))⟩
    rw [h1, ← hA.wf.coef_of_mem hy, Operator.coef, coefT, ← List.sum_map_mul_left]
    congr 1
    refine List.map_congr_left fun z hz => ?_
    rw [← e]
    by_cases hzy : z.2 = y.2
    · rw [if_pos (by rw [hzy]), if_pos hzy, hzy, mul_comm]
    · rw [if_neg (fun e' => hzy (h.inj (hA.mem _ (mem_terms hz)) (hA.mem _ (mem_terms hy)) e')), if_neg hzy, mul_zero, mul_zero]
  · left
    rw [h1]
    refine List.sum_eq_zero fun z hz => ?_
    obtain ⟨y, hy', rfl⟩ := List.mem_map.mp hz
    rw [if_neg (fun e => hy ⟨y, hy', e⟩), mul_zero]

/-- nothing is cut from brackets of images -/
theorem Covariant.nothingCut {R : StrAlg K 𝔸} {mode : Mode} {T : Transformation K} {η : K} {ε : OpString → K} {f : OpString → OpString}
    (h : Covariant R mode T η ε f) {A B A' B' : Operator K} (hA : A.On R.type R.Can) (hB : B.On R.type R.Can) (hA' : T.apply A = .ok A')
    (hB' : T.apply B = .ok B') (hc : NothingCut mode A B) : NothingCut mode A' B' := by
  intro ta hta tb htb
  rcases h.image_terms hA hA' hta with e | ⟨a, ha, ea, sa⟩
  · left; rw [e, zero_mul]
  rcases h.image_terms hB hB' htb with e | ⟨b, hb, eb, sb⟩
  · left; rw [e, mul_zero]
  have hs : ta.1 * tb.1 = ε a.2 * ε b.2 * (a.1 * b.1) := by rw [ea, eb]; ring
  have hn : ‖toC (ta.1 * tb.1)‖ = ‖toC (a.1 * b.1)‖ := by
    rw [hs]
    rcases sign_mul sa sb with e | e <;> rw [e] <;> simp
  rcases hc a ha b hb with h0 | h0
  · left; rw [hs, h0, mul_zero]
  · right; rw [hn]; exact h0

/-- brackets of images of operators, when nothing is cut off -/
theorem Covariant.operation [Nontrivial 𝔸] {R : StrAlg K 𝔸} {mode : Mode} {T : Transformation K} {η : K} {ε : OpString → K} {f : OpString → OpString}
    (h : Covariant R mode T η ε f) {A B : Operator K} (hA : A.On R.type R.Can) (hB : B.On R.type R.Can) (hc : NothingCut mode A B) :
    ∃ A' B' X X' Y, T.apply A = .ok A' ∧ T.apply B = .ok B' ∧ operationOperator mode A B = .ok X ∧ T.apply X = .ok X' ∧
      operationOperator mode A' B' = .ok Y ∧ ∀ s, Y.coef s = η * X'.coef s := by
  have op {A B : Operator K} (hA : A.On R.type R.Can) (hB : B.On R.type R.Can) (hc : NothingCut mode A B) :
      ∃ X, operationOperator mode A B = .ok X ∧ X.On R.type R.Can ∧ X.den R.den = bracketOf mode (A.den R.den) (B.den R.den) := by
    obtain ⟨X, h1, h2, h3, h4, h5⟩ := R.operator mode (tol := tolOperator) (by norm_num [tolOperator]) hA.wf hB.wf (fun s hs => (hA.mem s hs).1) (fun s hs => (hB.mem s hs).1)
      hA.type hB.type
    refine ⟨X, h1, ⟨h2, h3, fun s hs => ⟨(h4 s hs).1, (h4 s hs).2.1, (h4 s hs).2.2.2⟩⟩, ?_⟩
    rw [h5]
    exact R.kept_exact mode fun ta hta tb htb => by
      have := hc ta hta tb htb
      simpa [tolOperator] using this
  obtain ⟨X, x1, x2, x3⟩ := op hA hB hc
  obtain ⟨A', B', X', a1, b1, y1, a2, b2, y2, key⟩ := h.operators hA hB x2 x3.symm
  obtain ⟨Y, z1, z2, z3⟩ := op a2 b2 (h.nothingCut hA hB a1 b1 hc)
  exact ⟨A', B', X, X', Y, a1, b1, x1, y1, z1, fun s => R.coef_eq_smul z2 y2 (z3.trans key) s⟩

section
variable {n : ℕ}

omit [StarRing K] [Coef K] [RealCoef K] in
theorem bracketSign_mul {mode : Mode} (a b : Bool) : (bracketSign mode a * bracketSign mode b : K) = bracketSign mode (a != b) := by
  cases mode <;> cases a <;> cases b <;> simp [bracketSign]

omit [StarRing K] [Coef K] [RealCoef K] in
theorem bracketSign_cases (mode : Mode) (a : Bool) : (bracketSign mode a : K) = 1 ∨ (bracketSign mode a : K) = -1 := by
  cases mode <;> cases a <;> simp [bracketSign]

omit [StarRing K] [Coef K] [RealCoef K] in
theorem canonical_rule {T : Transformation K} {t : OpType} {V : OpString → Prop} {ε : OpString → K} {f : OpString → OpString} (h : SignRule T t V ε f)
    (hf : ∀ s, V s → s.Canonical → (f s).Canonical) : SignRule T t (fun s => V s ∧ s.Canonical) ε f :=
  ⟨fun s hs => h.type s hs.1, fun s hs => h.sends s hs.1, fun s hs => h.sign s hs.1, fun s hs => ⟨h.mem s hs.1, hf s hs.1 hs.2⟩⟩

omit [RealCoef K] in
/-- symmetries of Pauli strings respect brackets -/
theorem StringSymmetry.pauli [Nontrivial 𝔸] (R : PauliRep K 𝔸 (siteLabels n)) {mode : Mode} (hm : mode ≠ .product) {T : Transformation K} {r : Bool}
    (h : StringSymmetry n .pauli T r) : ∃ ε f, Covariant R.strAlg mode T (bracketSign mode r) ε f := by
  have hV : TypedString .pauli (siteLabels n) = PauliString (siteLabels n) := by funext s; simp [TypedString]
  induction h with
  | permutation hp hn =>
    subst hn
    have hr := labelPermutation_signRule (K := K) hp .pauli
    have hi := relabel_injOn (t := .pauli) (relabelMap_inj hp)
    rw [hV] at hr hi
    rw [show (bracketSign mode false : K) = 1 by cases mode <;> rfl]
    refine ⟨_, _, Covariant.of_rep (R := R.strAlg) (R' := (R.relabelOn _ (relabelMap_inj hp) (relabelMap_mapsTo hp)).strAlg) mode (fun s hs => hs) (canonical_rule hr fun s hs _ => ?_) hi
      (fun s hs => R.den_relabel (relabelMap_inj hp) (relabelMap_mapsTo hp) hs)⟩
    exact TypedString.relabel_canonical (t := .pauli) (S := siteLabels _) (Or.inl ⟨rfl, hs⟩) (relabelMap_inj hp)
  | timeReversal =>
    have hr := timeReversal_signRule (K := K) .pauli (siteLabels n)
    rw [hV] at hr
    exact ⟨_, _, Covariant.of_reversed (R' := R.reversed.strAlg) hm (fun s hs => hs) (canonical_rule hr fun s _ hc => hc) (fun s hs => R.reversed_den hs)⟩
  | particleHole ht => cases ht
  | mul _ _ ih1 ih2 =>
    obtain ⟨ε, f, h1⟩ := ih1
    obtain ⟨ε', f', h2⟩ := ih2
    have := h1.mul h2
    rw [bracketSign_mul] at this
    exact ⟨_, _, this⟩

omit [RealCoef K] in
/-- symmetries of Majorana strings respect brackets -/
theorem StringSymmetry.majorana [Nontrivial 𝔸] (R : MajoranaRep K 𝔸 (siteLabels n)) {mode : Mode} (hm : mode ≠ .product) {T : Transformation K} {r : Bool}
    (h : StringSymmetry n .majorana T r) : ∃ ε f, Covariant R.strAlg mode T (bracketSign mode r) ε f := by
  have hV : TypedString .majorana (siteLabels n) = MajoranaString (siteLabels n) := by funext s; simp [TypedString]
  induction h with
  | permutation hp hn =>
    subst hn
    have hr := labelPermutation_signRule (K := K) hp .majorana
    have hi := relabel_injOn (t := .majorana) (relabelMap_inj hp)
    rw [hV] at hr hi
    rw [show (bracketSign mode false : K) = 1 by cases mode <;> rfl]
    refine ⟨_, _, Covariant.of_rep (R := R.strAlg) (R' := (R.relabelOn _ (relabelMap_inj hp) (relabelMap_mapsTo hp)).strAlg) mode (fun s hs => hs) (canonical_rule hr fun s hs _ => ?_) hi
      (fun s hs => R.den_relabel (relabelMap_inj hp) (relabelMap_mapsTo hp) hs)⟩
    exact TypedString.relabel_canonical (t := .majorana) (S := siteLabels _) (Or.inr ⟨rfl, hs⟩) (relabelMap_inj hp)
  | timeReversal =>
    have hr := timeReversal_signRule (K := K) .majorana (siteLabels n)
    rw [hV] at hr
    exact ⟨_, _, Covariant.of_reversed (R' := R.reversed.strAlg) hm (fun s hs => hs) (canonical_rule hr fun s _ hc => hc) (fun s hs => R.reversed_den hs)⟩
  | particleHole _ =>
    have hr := particleHole_signRule (K := K) (siteLabels n)
    have := Covariant.of_rep (R := R.strAlg) (R' := R.particleHole.strAlg) mode (fun s hs => hs) (canonical_rule hr fun s _ hc => hc) (Set.injOn_id _) (fun s hs => R.particleHole_den hs)
    rw [show (bracketSign mode false : K) = 1 by cases mode <;> rfl]
    exact ⟨_, _, this⟩
  | mul _ _ ih1 ih2 =>
    obtain ⟨ε, f, h1⟩ := ih1
    obtain ⟨ε', f', h2⟩ := ih2
    have := h1.mul h2
    rw [bracketSign_mul] at this
    exact ⟨_, _, this⟩

omit [RealCoef K] in
/-- symmetries of strings of either type respect brackets, in a faithful representation -/
theorem StringSymmetry.covariant {t : OpType} (ht : t = .pauli ∨ t = .majorana) {mode : Mode} (hm : mode ≠ .product) {T : Transformation K} {r : Bool}
    (h : StringSymmetry n t T r) : ∃ (R : StrAlg K (Module.End K (Conf → K))) (ε : OpString → K) (f : OpString → OpString), R.type = t ∧
      R.Str = TypedString t (siteLabels n) ∧ Covariant R mode T (bracketSign mode r) ε f := by
  rcases ht with rfl | rfl
  · obtain ⟨ε, f, h1⟩ := h.pauli (waveOn K (siteLabels n)) hm
    refine ⟨_, ε, f, rfl, ?_, h1⟩
    funext s; simp [TypedString, PauliRep.strAlg]
  · obtain ⟨ε, f, h1⟩ := h.majorana ((waveMajorana K).relabelOn id (Set.injOn_id _) (Set.mapsTo_univ _ _)) hm
    refine ⟨_, ε, f, rfl, ?_, h1⟩
    funext s; simp [TypedString, MajoranaRep.strAlg]

end

end Qosy
