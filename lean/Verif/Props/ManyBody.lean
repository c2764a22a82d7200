import Verif.Lemmas.ManyBody
import Verif.Props.QuadraticSpectrum
import Verif.Props.Spectrum

/-! # C100: the many-body spectrum of quadratic Hamiltonians -/

namespace Qosy
open Matrix
variable {n : ℕ} {num : Eigensolvers}

/-- the Jordan-Wigner operators on `n` sites -/
private noncomputable def siteMajoranas (n : ℕ) : MajoranaRep ℂ (Matrix (Cfg n) (Cfg n) ℂ) (siteLabels n) :=
  (matRep ℂ n).jordanWigner.relabel id Function.injective_id (fun _ h => siteLabels_jw h)

private theorem siteMajoranas_star (i : ℤ) (hi : i ∈ siteLabels n) : star ((siteMajoranas n).a i) = (siteMajoranas n).a i ∧ star ((siteMajoranas n).b i) = (siteMajoranas n).b i :=
  jordanWigner_star (matRep ℂ n) (matRep_star ℂ n) i (siteLabels_jw hi)

private theorem siteLabels_sub : siteLabels n ⊆ jwLabels (siteLabels n) := fun _ h => siteLabels_jw h

private theorem quadratic_valid {s : OpString} (h : Hopping n s ∨ Pairing n s) : ValidString (jwLabels (siteLabels n)) s := by
  rcases h with h | h
  · exact Or.inr (Or.inr (h.1.mono siteLabels_sub))
  · exact Or.inr (Or.inr (h.1.mono siteLabels_sub))

private theorem quadratic_den {s : OpString} (h : Hopping n s ∨ Pairing n s) : (matRep ℂ n).anyDen s = (siteMajoranas n).fden s := by
  have ht : s.opType = .fermion := by
    rcases h with h | h
    · exact h.1.type
    · exact h.1.type
  rw [PauliRep.anyDen, ht]
  rfl

private theorem quadratic_convertible {s : OpString} (h : Hopping n s ∨ Pairing n s) : FermionConvertible s false := by
  have hf : FermionString (siteLabels n) s := by
    rcases h with h | h
    · exact h.1
    · exact h.1
  have hlen : s.labels.length = 2 := by
    rw [← hf.len]
    rcases h with h | h
    · rw [h.2.1]; rfl
    · rw [h.2]; rfl
  obtain ⟨i, j, hl⟩ : ∃ i j, s.labels = [i, j] := List.length_eq_two.mp hlen
  refine ⟨lt_of_le_of_lt (List.toFinset_card_le _) (by omega), Or.inl (by rw [hl]; simp), ?_⟩
  rcases h with h | h
  · have h1 : s.cdagLabels = [i] := by simp [OpString.cdagLabels, hl, h.2.1]
    have h2 : s.cLabels = [j] := by simp [OpString.cLabels, hl, h.2.1]
    by_cases hij : i = j
    · exact Or.inl (by rw [OpString.OwnConjugate, h1, h2, hij]; rfl)
    · exact Or.inr (Or.inr ⟨i, by rw [h1, h2]; simp [hij]⟩)
  · have h1 : s.cdagLabels = [i, j] := by simp [OpString.cdagLabels, hl, h.2]
    have h2 : s.cLabels = [] := by simp [OpString.cLabels, hl, h.2]
    exact Or.inr (Or.inr ⟨i, by rw [h1, h2]; simp⟩)

private theorem free_result (hnum : num.Exact) {A : Operator ℂ} (hA : A.WF) (hs : ∀ s ∈ A.basis.strs, ValidString (jwLabels (siteLabels n)) s)
    (hf : ∀ s ∈ A.basis.strs, s.opType = .fermion → FermionConvertible s false) {E : List ℝ} {f : Fin E.length → Matrix (Cfg n) (Cfg n) ℂ} (hm : CanonicalModes f)
    (hE : E.length = n) {κ : ℂ} (hκ : star κ = κ) (hH : A.den (matRep ℂ n).anyDen = ∑ k : Fin E.length, (E[k] : ℂ) • (star (f k) * f k) + κ • 1)
    (htr : A.opType ≠ .fermion → (A.den (matRep ℂ n).anyDen).trace = 0) :
    ∃ vals vecs, diagonalize num A n "Hermitian" none = .ok (vals, vecs) ∧ FreeSpectrum E vals := by
  have hherm : (A.den (matRep ℂ n).anyDen).IsHermitian := by
    rw [hH, Matrix.IsHermitian, ← Matrix.star_eq_conjTranspose, star_add, star_sum, star_smul, star_one, hκ]
    congr 1
    refine Finset.sum_congr rfl fun k _ => ?_
    rw [star_smul, star_mul, star_star]
    exact congrArg (· • _) (Complex.conj_ofReal _)
  obtain ⟨pairs, c, vecs, h1, -, h3, h4, -, -, h7, h8⟩ := C81_energies hnum hA hs hf hherm (numVecs := none) (by simp)
  refine ⟨_, vecs, h1, ?_⟩
  have hcard : Fintype.card (Cfg n) = 2 ^ n := by simp
  have ht := hm.trace (fun k => (E[k] : ℂ)) κ
  rw [← hH, hcard] at ht
  push_cast at ht
  have h2 : (2 : ℂ) ^ n ≠ 0 := pow_ne_zero _ two_ne_zero
  refine hm.spectrum (by rw [hcard, hE]) hH (by rw [hcard]; exact h3) h4 ?_
  by_cases hfer : A.opType = .fermion
  · rw [h8 hfer, ht, mul_div_cancel_right₀ _ h2]
  · rw [h7 hfer, Complex.ofReal_zero]
    rw [htr hfer] at ht
    exact ((mul_eq_zero.mp ht.symm).resolve_right h2).symm

/-- **C100** (tight binding): the energies of the `2 ^ n` states that `diagonalize` returns for hopping operators are the sums `½ ∑ ± E_k` of the energies
that `diagonalize_quadratic_tightbinding` returns, one for every choice of the signs. -/
theorem C100_tight_binding (hnum : num.Exact) {A : Operator ℂ} (hA : A.WF) (ht : A.opType = .fermion) (hs : ∀ s ∈ A.basis.strs, Hopping n s)
    (hreal : ∀ c ∈ A.coeffs, star c = c) :
    ∃ E orbitals vals vecs, diagonalizeTightBinding num A n none = .ok (E, orbitals) ∧ E.length = n ∧ diagonalize num A n "Hermitian" none = .ok (vals, vecs) ∧
      FreeSpectrum E vals := by
  obtain ⟨M, pairs, -, h2, h3, -, h5⟩ := C82_tight_binding hnum hA ht hs hreal (numVecs := none) (by simp)
  obtain ⟨c1, -, c3⟩ := h5 (siteMajoranas n) siteMajoranas_star
  have hden : A.den (matRep ℂ n).anyDen = A.den (siteMajoranas n).fden := Operator.den_congr fun s h => quadratic_den (Or.inl (hs s h))
  obtain ⟨vals, vecs, v1, v2⟩ := free_result (E := pairs.map Prod.fst) (f := fun k => (siteMajoranas n).orbital (pairs[(k : ℕ)]'(by simpa using k.2)).2) (κ := 0) hnum hA (fun s h => quadratic_valid (Or.inl (hs s h)))
    (fun s h _ => quadratic_convertible (Or.inl (hs s h))) (by
      intro k l
      have := c1 (finCongr (List.length_map _) k) (finCongr (List.length_map _) l)
      simpa [Fin.ext_iff] using this) (by rw [List.length_map]; exact h3) (star_zero _) (by
      rw [hden, c3 rfl, zero_smul, add_zero, ← (finCongr (List.length_map (as := pairs) Prod.fst)).sum_comp]
      refine Finset.sum_congr rfl fun k _ => ?_
      simp) (fun h => absurd ht h)
  exact ⟨_, _, vals, vecs, h2, by rw [List.length_map]; exact h3, v1, v2⟩

private theorem quasiparticle_result (hnum : num.Exact) {A : Operator ℂ} (hA : A.WF) (hs : ∀ s ∈ A.basis.strs, ValidString (jwLabels (siteLabels n)) s)
    (hf : ∀ s ∈ A.basis.strs, s.opType = .fermion → FermionConvertible s false) {κ : ℂ} (hκ : star κ = κ) {pairs : List (ℝ × (Fin n → ℂ) × (Fin n → ℂ))}
    (hlen : pairs.length = n) (h0 : ∀ p ∈ pairs, 0 ≤ p.1) (hq : Quasiparticles (siteMajoranas n) (A.den (matRep ℂ n).anyDen) κ pairs)
    (hform : FreeForm (siteMajoranas n) (A.den (matRep ℂ n).anyDen) κ pairs)
    (htr : A.opType ≠ .fermion → (A.den (matRep ℂ n).anyDen).trace = 0) :
    ∃ vals vecs, diagonalize num A n "Hermitian" none = .ok (vals, vecs) ∧ FreeSpectrum (pairs.map Prod.fst) vals := by
  obtain ⟨uv, u1, u2⟩ := hq.modes
  refine free_result (E := pairs.map Prod.fst) (f := fun k => (siteMajoranas n).bogoliubov (uv (finCongr (List.length_map _) k)).1 (uv (finCongr (List.length_map _) k)).2)
    (κ := κ - 1 / 2 * ∑ k : Fin pairs.length, (pairs[k].1 : ℂ)) hnum hA hs hf (by
      intro k l
      have := u2 (finCongr (List.length_map _) k) (finCongr (List.length_map _) l)
      simpa [Fin.ext_iff] using this) (by rw [List.length_map]; exact hlen) ?_ ?_ htr
  · rw [star_sub, hκ, star_mul', star_sum]
    congr 2
    · norm_num
    · exact Finset.sum_congr rfl fun k _ => Complex.conj_ofReal _
  · have hform' : A.den (matRep ℂ n).anyDen = _ := hform
    rw [hform', ← (finCongr (List.length_map (as := pairs) Prod.fst)).sum_comp]
    congr 1
    refine Finset.sum_congr rfl fun k _ => ?_
    have hk : (k : ℕ) < pairs.length := by simpa using k.2
    rcases (h0 _ (List.getElem_mem hk)).eq_or_lt with h | h
    · simp [← h]
    · have := u1 (finCongr (List.length_map _) k) (by simpa using h)
      rw [this]
      simp

/-- **C100** (BdG, Fermion operators): the energies of the `2 ^ n` states that `diagonalize` returns for quadratic Fermion operators are the sums `½ ∑ ± E_k`
of the energies that `diagonalize_bdg` returns. -/
theorem C100_bdg (hnum : num.Exact) {A : Operator ℂ} (hA : A.WF) (ht : A.opType = .fermion) (hs : ∀ s ∈ A.basis.strs, Hopping n s ∨ Pairing n s)
    (hreal : ∀ c ∈ A.coeffs, star c = c) {sigma : Option ℝ} :
    ∃ E us vs vals vecs, diagonalizeBdg num A n sigma none = .ok (E, us, vs) ∧ E.length = n ∧ diagonalize num A n "Hermitian" none = .ok (vals, vecs) ∧
      FreeSpectrum E vals := by
  obtain ⟨M, pairs, h1, h2, h3, h4, -, h6⟩ := C82_bdg hnum ht hs hreal (numVecs := none) (by simp) (sigma := sigma) (Or.inr rfl)
  obtain ⟨M', m1, -, -, m4, -⟩ := C48_bdg ht hs hreal
  obtain rfl : M' = M := by rw [h1] at m1; exact (Except.ok.inj m1).symm
  have hlen : pairs.length = n := by rw [h3]; simp; omega
  have hden : A.den (matRep ℂ n).anyDen = A.den (siteMajoranas n).fden := Operator.den_congr fun s h => quadratic_den (hs s h)
  obtain ⟨q1, q2⟩ := h6 (siteMajoranas n) siteMajoranas_star
  obtain ⟨vals, vecs, v1, v2⟩ := quasiparticle_result hnum hA (fun s h => quadratic_valid (hs s h)) (fun s h _ => quadratic_convertible (hs s h))
    (κ := 1 / 2 * ∑ i ∈ Finset.range n, M'.get i i) (by
      rw [star_mul', star_sum]
      congr 1
      · norm_num
      · exact Finset.sum_congr rfl fun k _ => (m4 k k).symm) hlen h4 (by rw [hden]; exact q1) (by rw [hden]; exact q2 rfl) (fun h => absurd ht h)
  exact ⟨_, _, _, vals, vecs, h2, by rw [List.length_map]; exact hlen, v1, v2⟩

private theorem trace_anticommute {x y : Matrix (Cfg n) (Cfg n) ℂ} (h : x * y = -(y * x)) : (x * y).trace = 0 := by
  have := congrArg Matrix.trace h
  rw [Matrix.trace_neg, Matrix.trace_mul_comm y x] at this
  exact self_eq_neg.mp this

private theorem majorana_trace {s : OpString} (h : QuadraticMajorana n s) : ((siteMajoranas n).den s).trace = 0 := by
  obtain ⟨h1, h2 | ⟨p, q, h2, hp, hq⟩⟩ := h
  · have hl := h1.len
    rw [h2] at hl
    obtain ⟨j, hj⟩ : ∃ j, s.labels = [j] := List.length_eq_one_iff.mp hl.symm
    have hjm : j ∈ siteLabels n := h1.mem j (by rw [hj]; simp)
    rw [MajoranaRep.den, h2, hj, Matrix.trace_smul]
    have : (wordProd (siteMajoranas n).site [Op.D] [j]).trace = 0 := by
      show ((siteMajoranas n).d j * 1).trace = 0
      rw [mul_one, MajoranaRep.d, Matrix.trace_neg, Matrix.trace_smul, trace_anticommute ((siteMajoranas n).ab j hjm j hjm), smul_zero, neg_zero]
    rw [this, smul_zero]
  · have hl := h1.len
    rw [h2] at hl
    obtain ⟨i, j, hij⟩ : ∃ i j, s.labels = [i, j] := List.length_eq_two.mp hl.symm
    have him : i ∈ siteLabels n := h1.mem i (by rw [hij]; simp)
    have hjm : j ∈ siteLabels n := h1.mem j (by rw [hij]; simp)
    have hne : i ≠ j := by
      have := h1.nodup
      rw [hij] at this
      simpa using this
    rw [MajoranaRep.den, h2, hij, Matrix.trace_smul]
    have : (wordProd (siteMajoranas n).site [p, q] [i, j]).trace = 0 := by
      show ((siteMajoranas n).site p i * ((siteMajoranas n).site q j * 1)).trace = 0
      rw [mul_one]
      rcases hp with rfl | rfl <;> rcases hq with rfl | rfl
      · exact trace_anticommute ((siteMajoranas n).aa i him j hjm hne)
      · exact trace_anticommute ((siteMajoranas n).ab i him j hjm)
      · exact trace_anticommute ((siteMajoranas n).ba i him j hjm)
      · exact trace_anticommute ((siteMajoranas n).bb i him j hjm hne)
    rw [this, smul_zero]

private theorem majorana_den {s : OpString} (h : QuadraticMajorana n s) : (matRep ℂ n).anyDen s = (siteMajoranas n).den s := by
  rw [PauliRep.anyDen, h.1.type]
  rfl

/-- **C100** (BdG, Majorana operators): the same -/
theorem C100_bdg_majorana (hnum : num.Exact) {A : Operator ℂ} (hA : A.WF) (ht : A.opType = .majorana) (hs : ∀ s ∈ A.basis.strs, QuadraticMajorana n s)
    (hreal : ∀ c ∈ A.coeffs, star c = c) {sigma : Option ℝ} :
    ∃ E us vs vals vecs, diagonalizeBdg num A n sigma none = .ok (E, us, vs) ∧ E.length = n ∧ diagonalize num A n "Hermitian" none = .ok (vals, vecs) ∧
      FreeSpectrum E vals := by
  obtain ⟨M, pairs, h1, h2, h3, h4, -, h6⟩ := C82_bdg_majorana hnum hA ht hs hreal (numVecs := none) (by simp) (sigma := sigma) (Or.inr rfl)
  obtain ⟨M', m1, -, -, m4, -⟩ := C48_bdg_majorana hA ht hs hreal
  obtain rfl : M' = M := by rw [h1] at m1; exact (Except.ok.inj m1).symm
  have hlen : pairs.length = n := by rw [h3]; simp; omega
  have hden : A.den (matRep ℂ n).anyDen = A.den (siteMajoranas n).den := Operator.den_congr fun s h => majorana_den (hs s h)
  obtain ⟨q1, q2⟩ := h6 (siteMajoranas n) siteMajoranas_star
  have key : ∀ l : List (ℂ × OpString), (∀ t ∈ l, star t.1 = t.1) →
      star ((l.map fun t => t.1 * (if t.2.ops = [.D] then 1 else 0)).sum) = (l.map fun t => t.1 * (if t.2.ops = [.D] then 1 else 0)).sum := by
    intro l hl
    induction l with
    | nil => simp
    | cons t l ih =>
      rw [List.map_cons, List.sum_cons, star_add, ih fun t ht => hl t (List.mem_cons_of_mem _ ht), star_mul', hl t (by simp)]
      congr 2
      split <;> simp
  obtain ⟨vals, vecs, v1, v2⟩ := quasiparticle_result hnum hA (fun s h => Or.inr (Or.inl ((hs s h).1.mono siteLabels_sub)))
    (fun s h hf => by rw [(hs s h).1.type] at hf; cases hf)
    (κ := 1 / 2 * ∑ i ∈ Finset.range n, M'.get i i + (A.terms.map (fun t => t.1 * (if t.2.ops = [.D] then 1 else 0))).sum) (by
      rw [star_add, star_mul', star_sum]
      congr 1
      · congr 1
        · norm_num
        · exact Finset.sum_congr rfl fun k _ => (m4 k k).symm
      · exact key _ fun t ht => hreal _ (List.of_mem_zip ht).1) hlen h4 (by rw [hden]; exact q1) (by rw [hden]; exact q2 rfl) (fun _ => by
      rw [hden, Operator.den, denT, Matrix.trace_list_sum, List.map_map]
      refine List.sum_eq_zero fun x hx => ?_
      obtain ⟨t, ht, rfl⟩ := List.mem_map.mp hx
      show (t.1 • (siteMajoranas n).den t.2).trace = 0
      rw [Matrix.trace_smul, majorana_trace (hs _ (mem_terms ht)), smul_zero])
  exact ⟨_, _, _, vals, vecs, h2, by rw [List.length_map]; exact hlen, v1, v2⟩

/-- **C56** (partial, many-body energies): if the blocks of the real Schur decomposition are aligned, then the energies that `diagonalize` returns are the sums
`½ ∑ ± ε_m` of the energies that `diagonalize_quadratic` returns. -/
theorem C56_spectrum_partial (hnum : num.Exact) {A : Operator ℂ} (hA : A.WF) (ht : A.opType = .majorana) (hs : ∀ s ∈ A.basis.strs, QuadraticMajorana n s)
    (hreal : ∀ c ∈ A.coeffs, star c = c) {thr : ℝ} (hthr : 0 ≤ thr) :
    ∃ M : Mat ℂ, quadraticMatrix A n = .ok M ∧ ∀ T Z : Dense ℝ, IsSchur Complex.ofRealHom n M T Z →
      ∃ shift ε Z' vals vecs, quadraticModes thr n T Z = .ok (shift, ε, Z') ∧ diagonalize num A n "Hermitian" none = .ok (vals, vecs) ∧ FreeSpectrum ε vals := by
  obtain ⟨M, h1, h2⟩ := C56_modes_partial ht hs hreal Complex.ofRealHom Complex.conj_ofReal hthr
  refine ⟨M, h1, fun T Z hS => ?_⟩
  obtain ⟨shift, ε, Z', e1, e2, -, e4⟩ := h2 T Z hS
  obtain ⟨f1, f2, f3⟩ := e4 (siteMajoranas n) siteMajoranas_star
  have hden : A.den (matRep ℂ n).anyDen = A.den (siteMajoranas n).den := Operator.den_congr fun s h => majorana_den (hs s h)
  have hlt : ∀ k : Fin ε.length, (k : ℕ) < n := fun k => by have := k.2; omega
  obtain ⟨vals, vecs, v1, v2⟩ := free_result (E := ε) (f := fun k => (siteMajoranas n).mode Complex.ofRealHom n Z' k) (κ := (shift : ℂ)) hnum hA
    (fun s h => Or.inr (Or.inl ((hs s h).1.mono siteLabels_sub))) (fun s h hf => by rw [(hs s h).1.type] at hf; cases hf) (by
      intro k l
      obtain ⟨c1, c2⟩ := f2 k (hlt k) l (hlt l)
      refine ⟨c1, ?_⟩
      show _ * star _ + star _ * _ = _
      rw [f1 l (hlt l), c2]
      by_cases h : k = l
      · rw [if_pos h, if_pos (congrArg Fin.val h), one_smul]
      · rw [if_neg h, if_neg (fun h' => h (Fin.ext h')), zero_smul]) e2 (Complex.conj_ofReal _) (by
      rw [hden, f3]
      congr 1
      rw [show Finset.range n = Finset.range ε.length by rw [e2], Finset.sum_range]
      refine Finset.sum_congr rfl fun k _ => ?_
      rw [f1 k (hlt k), List.getD_eq_getElem _ _ k.2]
      rfl) (fun _ => by
      rw [hden, Operator.den, denT, Matrix.trace_list_sum, List.map_map]
      refine List.sum_eq_zero fun x hx => ?_
      obtain ⟨t, ht, rfl⟩ := List.mem_map.mp hx
      show (t.1 • (siteMajoranas n).den t.2).trace = 0
      rw [Matrix.trace_smul, majorana_trace (hs _ (mem_terms ht)), smul_zero])
  exact ⟨shift, ε, Z', vals, vecs, e1, v1, v2⟩

/-! ### The hypotheses can be met -/

/-- the four energies of a hopping term and a pairing term of two orbitals -/
example : ∃ (num : Eigensolvers) (E : List ℝ) (us vs : List (List ℂ)) (vals : List ℂ) (vecs : List (List ℂ)), num.Exact ∧
    diagonalizeBdg num pairedOrbitals 2 = .ok (E, us, vs) ∧ diagonalize num pairedOrbitals 2 = .ok (vals, vecs) ∧ E.length = 2 ∧ vals.length = 4 ∧ FreeSpectrum E vals := by
  obtain ⟨num, hnum⟩ := exists_exactEigensolvers
  obtain ⟨E, us, vs, vals, vecs, h1, h2, h3, h4⟩ := C100_bdg (n := 2) hnum (A := pairedOrbitals) (Operator.WF.mk' (by decide) rfl (by decide)) rfl (by
    intro s hs
    simp only [pairedOrbitals, Basis.ofList, List.mem_cons, List.not_mem_nil, or_false] at hs
    rcases hs with rfl | rfl
    · exact Or.inl ⟨⟨rfl, rfl, by decide, by decide, by decide, by intro l hl; fin_cases hl <;> exact ⟨by decide, by decide⟩⟩, rfl, by decide⟩
    · exact Or.inr ⟨⟨rfl, rfl, by decide, by decide, by decide, by intro l hl; fin_cases hl <;> exact ⟨by decide, by decide⟩⟩, rfl⟩)
    (by intro c hc; simp only [pairedOrbitals, List.mem_cons, List.not_mem_nil, or_false] at hc; rcases hc with rfl | rfl <;> simp) (sigma := none)
  refine ⟨num, E, us, vs, vals, vecs, hnum, h1, h3, h2, ?_, h4⟩
  obtain ⟨σ, -⟩ := h4
  have := Fintype.card_congr σ
  rw [Fintype.card_fin, Fintype.card_fun, Fintype.card_bool, Fintype.card_fin, h2] at this
  exact this

end Qosy
