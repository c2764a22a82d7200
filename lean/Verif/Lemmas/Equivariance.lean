import Verif.Lemmas.Covariance
import Verif.Lemmas.Description
import Verif.Lemmas.LieAlgebra
import Verif.Spec.Equivariance

/-! # Transformed problems have transformed answers -/

namespace Qosy
open Matrix Coef
variable {ι : Type} [Fintype ι] [DecidableEq ι]

theorem BasisArg.den_terms {M : Type} [Ring M] [Algebra ℂ M] (x : BasisArg ℂ) (d : OpString → M) : x.den d = x.elementTerms.map (denT d) := by
  cases x with
  | strings b => simp [BasisArg.den, BasisArg.elementTerms, denT]
  | operators l => simp only [BasisArg.den, BasisArg.elementTerms, List.map_map]; rfl

theorem BasisArg.All.terms {V : OpString → Prop} {x : BasisArg ℂ} (h : x.All V) : ∀ ts ∈ x.elementTerms, ∀ t ∈ ts, V t.2 := by
  cases x with
  | strings b =>
    intro ts hts t ht
    simp only [BasisArg.elementTerms, List.mem_map] at hts
    obtain ⟨s, hs, rfl⟩ := hts
    rw [List.mem_singleton.mp ht]
    exact h s hs
  | operators l =>
    intro ts hts t ht
    simp only [BasisArg.elementTerms, List.mem_map] at hts
    obtain ⟨A, hA, rfl⟩ := hts
    exact h A hA _ (List.of_mem_zip ht).2

/-- combinations of images of distinct strings, with their inner products -/
theorem Covariant.linComb₂ {𝔸 : Type} [Ring 𝔸] [Algebra ℂ 𝔸] {R : StrAlg ℂ 𝔸} {mode : Mode} {T : Transformation ℂ} {η : ℂ} {ε : OpString → ℂ} {f : OpString → OpString}
    (h : Covariant R mode T η ε f) {strs : List OpString} (hn : strs.Nodup) (hs : ∀ s ∈ strs, R.Can s) :
    ∃ g : (ℕ → ℂ) → ℕ → ℂ, (strs.map f).Nodup ∧ (∀ s ∈ strs.map f, R.Can s) ∧
      (∀ w, Qosy.linComb (fun s => ε s • R.den (f s)) strs w = Qosy.linComb R.den (strs.map f) (g w)) ∧
      ∀ v w, ∑ i : Fin (strs.map f).length, star (g v i) * g w i = ∑ i : Fin strs.length, star (v i) * w i := by
  have hl : (strs.map f).length = strs.length := List.length_map _
  refine ⟨fun w i => w i * ((strs[i]?).map ε).getD 0, hn.map_on fun x hx y hy => h.inj (hs x hx) (hs y hy), fun s hs' => ?_, fun w => ?_, fun v w => ?_⟩
  · obtain ⟨s, hm, rfl⟩ := List.mem_map.mp hs'
    exact h.rule.mem s (hs s hm)
  · rw [Qosy.linComb, Qosy.linComb, ← (finCongr hl).sum_comp]
    refine Finset.sum_congr rfl fun i _ => ?_
    have hi : (i : ℕ) < strs.length := hl ▸ i.2
    simp only [finCongr_apply, Fin.val_cast, List.getElem?_eq_getElem hi, Option.map_some, Option.getD_some, smul_smul, Fin.getElem_fin, List.getElem_map]
  · rw [← (finCongr hl).sum_comp (fun i : Fin strs.length => star (v i) * w i)]
    refine Finset.sum_congr rfl fun i _ => ?_
    have hi : (i : ℕ) < strs.length := hl ▸ i.2
    simp only [finCongr_apply, Fin.val_cast, List.getElem?_eq_getElem hi, Option.map_some, Option.getD_some, star_mul']
    rw [mul_mul_mul_comm, h.sign_ne (hs _ (List.getElem_mem hi)), mul_one]

/-- the commutant matrix of the images is the commutant matrix -/
theorem Covariant.commutant_image [Nonempty ι] {R : StrAlg ℂ (Matrix ι ι ℂ)} (hR : ∀ s, R.Str s → star (R.den s) = R.den s) {mode : Mode} {T : Transformation ℂ} {η : ℂ}
    (hη : η = 1 ∨ η = -1) {ε : OpString → ℂ} {f : OpString → OpString} (h : Covariant R mode T η ε f) {x x' : BasisArg ℂ} (hx : x.All R.Can) (hx' : x'.All R.Can)
    (hne : x ≠ .operators []) (hne' : x' ≠ .operators []) {O O' : Operator ℂ} (hO : ∀ s ∈ O.basis.strs, R.Can s) (hO' : ∀ s ∈ O'.basis.strs, R.Can s)
    (e : x'.den R.den = x.den (𝔸 := Matrix ι ι ℂ) fun s => ε s • R.den (f s)) (eO : O'.den R.den = O.den (M := Matrix ι ι ℂ) fun s => ε s • R.den (f s)) :
    ∃ C C' ext ext', commutantMatrix x O mode = .ok (C, ext) ∧ commutantMatrix x' O' mode = .ok (C', ext') ∧ SameEntries C C' ∧ C.nrows = C.ncols := by
  have hstr : ∀ {x : BasisArg ℂ}, x.All R.Can → x.All R.Str := fun {x} h => by
    cases x with
    | strings b => exact fun s hs => (h s hs).1
    | operators l => exact fun A hA s hs => (h A hA s hs).1
  obtain ⟨L, C, ext, -, a2, a3, a4, a5, a6⟩ := R.commutant_ok mode (hstr hx) hne fun s hs => (hO s hs).1
  obtain ⟨L', C', ext', -, b2, b3, b4, b5, b6⟩ := R.commutant_ok mode (hstr hx') hne' fun s hs => (hO' s hs).1
  have hlen : (x'.den R.den).length = (x.den R.den).length := by rw [e, BasisArg.den_terms, BasisArg.den_terms, List.length_map, List.length_map]
  refine ⟨C, C', ext, ext', a2, b2, ⟨by rw [a4, b4, hlen], by rw [a5, b5, hlen], fun i hi j hj => ?_⟩, by rw [a4, a5]⟩
  obtain ⟨g, g1, g2, g3, g4⟩ := h.linComb₂ a3.ext_inv.2 a3.ext_str
  have mem : ∀ {l : List OpString} (w : ℕ → ℂ), (∀ s ∈ l, R.Can s) → ∀ t ∈ l.zipIdx.map (fun e => (w e.2, e.1)), R.Can t.2 := by
    intro l w hl t ht
    obtain ⟨e, he, rfl⟩ := List.mem_map.mp ht
    exact hl _ (List.fst_mem_of_mem_zipIdx he)
  have key : ∀ k < (x.den R.den).length, Qosy.linComb R.den ext'.strs (fun c => L'.get c k) = Qosy.linComb R.den (ext.strs.map f) (g fun c => η * L.get c k) := fun k hk => by
    have h1 := a3.col k hk
    have h2 := b3.col k (by rw [hlen]; exact hk)
    have hk' : k < x.elementTerms.length := by rwa [BasisArg.den_terms, List.length_map] at hk
    have d1 : ((x.den R.den)[k]?).getD 0 = denT R.den x.elementTerms[k] := by
      rw [BasisArg.den_terms, List.getElem?_map, List.getElem?_eq_getElem hk']; rfl
    have d2 : ((x'.den R.den)[k]?).getD 0 = denT (fun s => ε s • R.den (f s)) x.elementTerms[k] := by
      rw [e, BasisArg.den_terms, List.getElem?_map, List.getElem?_eq_getElem hk']; rfl
    simp only [d1] at h1
    simp only [d2] at h2
    have h3 := h.bracket_terms (as := x.elementTerms[k]) (hs := O.terms) (fun t ht => hx.terms _ (List.getElem_mem hk') t ht)
      (fun t ht => hO _ (List.of_mem_zip ht).2) (mem (fun c => L.get c k) a3.ext_str) (h1.symm.trans (linComb_terms R.den ext.strs fun c => L.get c k))
    refine Eq.trans (h2.trans ?_) (g3 _)
    rw [eO]
    refine h3.trans ((congrArg (η • ·) (linComb_terms (fun s => ε s • R.den (f s)) ext.strs fun c => L.get c k).symm).trans ?_)
    show η • Qosy.linComb _ _ _ = _
    rw [Qosy.linComb, Qosy.linComb, Finset.smul_sum]
    exact Finset.sum_congr rfl fun i _ => by rw [smul_smul]
  have hin := StrAlg.inner_eq hR hR b3.ext_inv.2 b3.ext_str g1 g2 (key i (by rw [← a4]; exact hi)) (key j (by rw [← a5]; exact hj))
  rw [g4] at hin
  have c1 : ∀ (m n : ℕ) (h : m = n) (f : ℕ → ℂ), ∑ k : Fin m, f k = ∑ k : Fin n, f k := by rintro m _ rfl f; rfl
  rw [a6, b6, c1 _ _ a3.nrows fun k => star (L.get k i) * L.get k j, c1 _ _ b3.nrows fun k => star (L'.get k i) * L'.get k j]
  refine Eq.trans ?_ hin.symm
  refine Finset.sum_congr rfl fun k _ => ?_
  rw [star_mul', mul_mul_mul_comm, sign_star hη, sign_mul_self hη, one_mul]

/-- the Lie algebra of the images consists of the images -/
theorem Covariant.lie_image {𝔸 : Type} [Ring 𝔸] [Algebra ℂ 𝔸] [Nontrivial 𝔸] {R : StrAlg ℂ 𝔸} {T : Transformation ℂ} {η : ℂ} (hη : η ≠ 0) {ε : OpString → ℂ}
    {f : OpString → OpString} (h : Covariant R .commutator T η ε f) {gens gens' r r' : List OpString} (hg : ∀ s ∈ gens, R.Can s)
    (hgg : ∀ s', s' ∈ gens' ↔ ∃ s ∈ gens, s' = f s) (a : IsLieAlgebra ℂ R.den R.Str gens r) (b : IsLieAlgebra ℂ R.den R.Str gens' r') :
    ∀ s', s' ∈ r' ↔ ∃ s ∈ r, s' = f s := by
  have hg' : ∀ s ∈ gens', R.Can s := fun s hs => by
    obtain ⟨u, hu, rfl⟩ := (hgg s).mp hs
    exact h.rule.mem u (hg u hu)
  have ca := canonical_of_lie a hg
  have cb := canonical_of_lie b hg'
  have nz : ∀ {s : OpString}, R.Can s → ∀ {c : ℂ}, c • R.den s = 0 → c = 0 := fun {s} hs {c} e => by
    rcases smul_eq_zero.mp e with e | e
    · exact e
    · have := R.sq s hs.1
      rw [e, mul_zero] at this
      exact absurd this zero_ne_one
  have same : ∀ {s u : OpString}, R.Can s → R.Can u → ∀ {c d : ℂ}, c ≠ 0 → c • R.den s = d • R.den u → s = u ∧ d ≠ 0 := fun {s u} hs hu {c d} hc e => by
    refine ⟨(R.same_string hs.1 hu.1 hs.2 hu.2 (c := c⁻¹ * d) (by rw [mul_smul, ← e, smul_smul, inv_mul_cancel₀ hc, one_smul])).1, fun h0 => hc (nz hs ?_)⟩
    rw [e, h0, zero_smul]
  have sgn : ∀ {s : OpString}, R.Can s → ε s ≠ 0 := fun {s} hs => by rcases h.rule.sign s hs with e | e <;> rw [e] <;> norm_num
  -- the bracket of two images
  have br : ∀ {a b : OpString}, R.Can a → R.Can b → ∃ (c d : ℂ) (C : OpString), R.Can C ∧ R.den a * R.den b - R.den b * R.den a = c • R.den C ∧
      R.den (f a) * R.den (f b) - R.den (f b) * R.den (f a) = d • R.den (f C) ∧ (c = 0 ↔ d = 0) := fun {a b} ha hb => by
    obtain ⟨c, C, h1, h2, h3⟩ := h.bracket a b ha hb
    have e1 : R.den a * R.den b - R.den b * R.den a = c • R.den C := h2
    have e2 : (ε a * ε b) • (R.den (f a) * R.den (f b) - R.den (f b) * R.den (f a)) = (η * c * ε C) • R.den (f C) := by
      rw [mul_smul (η * c), ← h3]
      show _ = (ε a • R.den (f a)) * (ε b • R.den (f b)) - (ε b • R.den (f b)) * (ε a • R.den (f a))
      rw [smul_mul_smul_comm, smul_mul_smul_comm, smul_sub, mul_comm (ε b)]
    have hne : ε a * ε b ≠ 0 := mul_ne_zero (sgn ha) (sgn hb)
    refine ⟨c, (ε a * ε b)⁻¹ * (η * c * ε C), C, h1, e1, ?_, ?_⟩
    · rw [mul_smul, ← e2, smul_smul, inv_mul_cancel₀ hne, one_smul]
    · constructor
      · rintro rfl; simp
      · intro e
        have := (mul_eq_zero.mp e).resolve_left (inv_ne_zero hne)
        have := (mul_eq_zero.mp this).resolve_right (sgn h1)
        exact (mul_eq_zero.mp this).resolve_left hη
  intro s'
  constructor
  · refine b.least {s' | ∃ s ∈ r, s' = f s} (fun s hs => ?_) (fun x hx y hy C c hC1 hC2 hc e => ?_) s'
    · obtain ⟨u, hu, rfl⟩ := (hgg s).mp hs
      exact ⟨u, a.contains u hu, rfl⟩
    · obtain ⟨x, hx, rfl⟩ := hx
      obtain ⟨y, hy, rfl⟩ := hy
      obtain ⟨c₁, d, D, k1, k2, k3, k4⟩ := br (ca x hx) (ca y hy)
      rw [e] at k3
      obtain ⟨rfl, hd⟩ := same ⟨hC1, hC2⟩ (h.rule.mem D k1) hc k3
      have hc₁ : c₁ ≠ 0 := fun h0 => hd (k4.mp h0)
      rcases a.closed x hx y hy with h0 | ⟨E, hE, c₂, hc₂, e₂⟩
      · rw [k2] at h0
        exact absurd (nz k1 h0) hc₁
      · rw [k2] at e₂
        obtain ⟨rfl, -⟩ := same k1 (ca E hE) hc₁ e₂
        exact ⟨D, hE, rfl⟩
  · rintro ⟨s, hs, rfl⟩
    refine (a.least {s | R.Can s ∧ f s ∈ r'} (fun s hs => ⟨hg s hs, b.contains _ ((hgg _).mpr ⟨s, hs, rfl⟩)⟩) (fun x hx y hy C c hC1 hC2 hc e => ?_) s hs).2
    refine ⟨⟨hC1, hC2⟩, ?_⟩
    obtain ⟨c₁, d, D, k1, k2, k3, k4⟩ := br hx.1 hy.1
    rw [e] at k2
    obtain ⟨rfl, hc₁⟩ := same ⟨hC1, hC2⟩ k1 hc k2
    have hd : d ≠ 0 := fun h0 => hc₁ (k4.mpr h0)
    rcases b.closed _ hx.2 _ hy.2 with h0 | ⟨E, hE, c₂, hc₂, e₂⟩
    · rw [k3] at h0
      exact absurd (nz (h.rule.mem _ k1) h0) hd
    · rw [k3] at e₂
      obtain ⟨e₃, -⟩ := same (h.rule.mem _ k1) (cb E hE) hd e₂
      rw [e₃]
      exact hE

end Qosy
