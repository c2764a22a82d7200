import Verif.Lemmas.QuadraticSpectrum
import Verif.Lemmas.SpectrumExact
import Verif.Props.Quadratic

/-! # C82: energies and modes of quadratic Hamiltonians -/

namespace Qosy
open Matrix
variable {n : ℕ} {num : Eigensolvers}

/-- **C82** (tight binding): `diagonalize_quadratic_tightbinding` returns the energies and orbitals of fermions: the operators `f = Σ x̄_i c_i` of the
columns satisfy the canonical anticommutation relations, lower the energy by their energies, have the lowest energies, and if all are asked for then
the operator is `Σ E_k f†_k f_k`. -/
theorem C82_tight_binding (hnum : num.Exact) {A : Operator ℂ} (hA : A.WF) (ht : A.opType = .fermion) (hs : ∀ s ∈ A.basis.strs, Hopping n s)
    (hreal : ∀ c ∈ A.coeffs, star c = c) {numVecs : Option ℕ} (hk : ∀ k ∈ numVecs, 0 < k ∧ k + 1 < n) :
    ∃ (M : Mat ℂ) (pairs : List (ℝ × (Fin n → ℂ))), tightBindingMatrix A n = .ok M ∧
      diagonalizeTightBinding num A n numVecs = .ok (pairs.map Prod.fst, pairs.map fun p => List.ofFn p.2) ∧ pairs.length = numVecs.getD n ∧
      LowestEigenpairs (Matrix.of fun i j : Fin n => M.get i j) pairs ∧
      ∀ {𝔸 : Type} [Ring 𝔸] [Algebra ℂ 𝔸] [StarRing 𝔸] [StarModule ℂ 𝔸] (R : MajoranaRep ℂ 𝔸 (siteLabels n)),
        (∀ i ∈ siteLabels n, star (R.a i) = R.a i ∧ star (R.b i) = R.b i) →
        CanonicalModes (fun k : Fin pairs.length => R.orbital pairs[k].2) ∧
        (∀ p ∈ pairs, A.den R.fden * R.orbital p.2 - R.orbital p.2 * A.den R.fden = -((p.1 : ℂ) • R.orbital p.2)) ∧
        (numVecs = none → A.den R.fden = ∑ k : Fin pairs.length, (pairs[k].1 : ℂ) • (star (R.orbital pairs[k].2) * R.orbital pairs[k].2)) := by
  obtain ⟨M, h1, h2, h3, h4, h5⟩ := C48_tight_binding hA ht hs hreal
  obtain ⟨r, r1, r2, r3⟩ := hermitian_ok hnum h3 h4 hk
  refine ⟨M, r, h1, ?_, r2, r3, ?_⟩
  · rw [diagonalizeTightBinding, h1]
    simp only [bind, Except.bind, r1, List.map_map]
    refine congrArg Except.ok (Prod.ext (List.map_congr_left fun p _ => rfl) (List.map_congr_left fun p _ => ?_))
    exact ofFn_finCongr h3 p.2
  · intro 𝔸 _ _ _ _ R hR
    have ho := r3.orthonormal.family
    refine ⟨orbital_canonical R hR ho, ?_, ?_⟩
    · intro p hp
      have he := r3.eigen p hp
      obtain ⟨M', m1, m2⟩ := C48_tight_binding_modes hA ht hs hreal
      obtain rfl : M' = M := by rw [h1] at m1; exact (Except.ok.inj m1).symm
      have := m2 (fun i => if h : i < n then p.2 ⟨i, h⟩ else 0) p.1 (Complex.conj_ofReal _) (fun i hi => by
        have := congrFun he ⟨i, hi⟩
        rw [Finset.sum_range, dif_pos hi]
        simpa [Matrix.mulVec, dotProduct] using this) R hR
      simp only [Finset.sum_range, Fin.is_lt, dite_true, Fin.eta] at this
      exact this
    · intro hn
      subst hn
      have hlen : r.length = n := r2
      rw [h5 R hR]
      simp only [Finset.sum_range]
      have := orbital_decomposition R hR (D := Matrix.of fun i j : Fin n => M.get i j) (x := fun k => r[(finCongr hlen.symm) k].2) (E := fun k => r[(finCongr hlen.symm) k].1)
        (fun k l => by rw [ho]; exact if_congr (finCongr hlen.symm).injective.eq_iff rfl rfl) (fun k i => by
          have := congrFun (r3.eigen _ (List.getElem_mem (finCongr hlen.symm k).2)) i
          simpa [Matrix.mulVec, dotProduct] using this)
      simp only [Matrix.of_apply] at this
      rw [this, ← (finCongr hlen.symm).sum_comp]

/-- **C82** (BdG, Fermion operators): `diagonalize_bdg` returns the quasiparticle energies, not negative and in descending order, and the coefficients of
the quasiparticles `f = Σ V_i c_i + U_i c†_i`.  They lower the energy by their energies.  They are fermions, except that two of energy zero need not
anticommute; those can be replaced by fermions.  If all are asked for then the operator is `Σ E_k f†_k f_k` plus a constant. -/
theorem C82_bdg (hnum : num.Exact) {A : Operator ℂ} (ht : A.opType = .fermion) (hs : ∀ s ∈ A.basis.strs, Hopping n s ∨ Pairing n s)
    (hreal : ∀ c ∈ A.coeffs, star c = c) {numVecs : Option ℕ} (hk : ∀ k ∈ numVecs, 0 < k ∧ k + 1 < 2 * n) {sigma : Option ℝ} (hsig : sigma = none ∨ numVecs = none) :
    ∃ (M : Mat ℂ) (pairs : List (ℝ × (Fin n → ℂ) × (Fin n → ℂ))), bdgMatrix A n = .ok M ∧
      diagonalizeBdg num A n sigma numVecs = .ok (pairs.map Prod.fst, pairs.map fun p => List.ofFn p.2.1, pairs.map fun p => List.ofFn p.2.2) ∧
      pairs.length = min n (numVecs.getD (2 * n)) ∧ (∀ p ∈ pairs, 0 ≤ p.1) ∧ (pairs.Pairwise fun p q => q.1 ≤ p.1) ∧
      ∀ {𝔸 : Type} [Ring 𝔸] [Algebra ℂ 𝔸] [StarRing 𝔸] [StarModule ℂ 𝔸] (R : MajoranaRep ℂ 𝔸 (siteLabels n)),
        (∀ i ∈ siteLabels n, star (R.a i) = R.a i ∧ star (R.b i) = R.b i) →
        Quasiparticles R (A.den R.fden) (1 / 2 * ∑ i ∈ Finset.range n, M.get i i) pairs ∧
        (numVecs = none → FreeForm R (A.den R.fden) (1 / 2 * ∑ i ∈ Finset.range n, M.get i i) pairs) := by
  obtain ⟨M, h1, h2, h3, h4, h5, h6⟩ := C48_bdg ht hs hreal
  obtain ⟨ps, pairs, p1, p2, p3, p4, p5, p6, p7, p8⟩ := bdg_result hnum h3 h4 h5 hk
  refine ⟨M, pairs, h1, ?_, p5, p6, p7, fun R hR => ?_⟩
  · rw [diagonalizeBdg, h1, ← p2, ← p3, ← p4]
    have hnam : num.nambu M.toarray sigma numVecs = num.hermitian M.toarray numVecs := by
      cases sigma <;> cases numVecs <;> first | rfl | simp at hsig
    show (num.nambu M.toarray sigma numVecs >>= fun r => sortEigenpairs num.argsort r >>= _) = _
    rw [hnam, ← bind_assoc, p1]
    rfl
  · rw [h6 R hR]
    exact p8 R hR _

/-- **C82** (BdG, Majorana operators): the same; the constant is then the sum of the coefficients of the strings `d_j` and half the trace of the hopping
matrix. -/
theorem C82_bdg_majorana (hnum : num.Exact) {A : Operator ℂ} (hA : A.WF) (ht : A.opType = .majorana) (hs : ∀ s ∈ A.basis.strs, QuadraticMajorana n s)
    (hreal : ∀ c ∈ A.coeffs, star c = c) {numVecs : Option ℕ} (hk : ∀ k ∈ numVecs, 0 < k ∧ k + 1 < 2 * n) {sigma : Option ℝ} (hsig : sigma = none ∨ numVecs = none) :
    ∃ (M : Mat ℂ) (pairs : List (ℝ × (Fin n → ℂ) × (Fin n → ℂ))), bdgMatrix A n = .ok M ∧
      diagonalizeBdg num A n sigma numVecs = .ok (pairs.map Prod.fst, pairs.map fun p => List.ofFn p.2.1, pairs.map fun p => List.ofFn p.2.2) ∧
      pairs.length = min n (numVecs.getD (2 * n)) ∧ (∀ p ∈ pairs, 0 ≤ p.1) ∧ (pairs.Pairwise fun p q => q.1 ≤ p.1) ∧
      ∀ {𝔸 : Type} [Ring 𝔸] [Algebra ℂ 𝔸] [StarRing 𝔸] [StarModule ℂ 𝔸] (R : MajoranaRep ℂ 𝔸 (siteLabels n)),
        (∀ i ∈ siteLabels n, star (R.a i) = R.a i ∧ star (R.b i) = R.b i) →
        Quasiparticles R (A.den R.den) (1 / 2 * ∑ i ∈ Finset.range n, M.get i i + (A.terms.map (fun t => t.1 * (if t.2.ops = [.D] then 1 else 0))).sum) pairs ∧
        (numVecs = none → FreeForm R (A.den R.den) (1 / 2 * ∑ i ∈ Finset.range n, M.get i i + (A.terms.map (fun t => t.1 * (if t.2.ops = [.D] then 1 else 0))).sum) pairs) := by
  obtain ⟨M, h1, h2, h3, h4, h5, h6⟩ := C48_bdg_majorana hA ht hs hreal
  obtain ⟨ps, pairs, p1, p2, p3, p4, p5, p6, p7, p8⟩ := bdg_result hnum h3 h4 h5 hk
  refine ⟨M, pairs, h1, ?_, p5, p6, p7, fun R hR => ?_⟩
  · rw [diagonalizeBdg, h1, ← p2, ← p3, ← p4]
    have hnam : num.nambu M.toarray sigma numVecs = num.hermitian M.toarray numVecs := by
      cases sigma <;> cases numVecs <;> first | rfl | simp at hsig
    show (num.nambu M.toarray sigma numVecs >>= fun r => sortEigenpairs num.argsort r >>= _) = _
    rw [hnam, ← bind_assoc, p1]
    rfl
  · rw [h6 R hR]
    exact p8 R hR _

/-- **C82** (too many vectors): all but one of the modes of a tight-binding operator, or `2 * n - 1` of a BdG operator, cannot be asked for. -/
theorem C82_large (hnum : num.Exact) {A : Operator ℂ} (hA : A.WF) (ht : A.opType = .fermion) (hreal : ∀ c ∈ A.coeffs, star c = c) {k : ℕ} :
    ((∀ s ∈ A.basis.strs, Hopping n s) → n ≤ k + 1 → ∃ e, diagonalizeTightBinding num A n (some k) = .error e) ∧
    ((∀ s ∈ A.basis.strs, Hopping n s ∨ Pairing n s) → 2 * n ≤ k + 1 → ∃ e, diagonalizeBdg num A n none (some k) = .error e) := by
  constructor
  · intro hs hk
    obtain ⟨M, h1, h2, h3, h4, h5⟩ := C48_tight_binding hA ht hs hreal
    obtain ⟨e, he⟩ := hnum.large _ M.toarray k (by rw [h3]; exact hk)
    refine ⟨e, ?_⟩
    rw [diagonalizeTightBinding, h1]
    simp only [bind, Except.bind, Eigensolvers.hermitian, he]
  · intro hs hk
    obtain ⟨M, h1, h2, h3, h4, h5, h6⟩ := C48_bdg ht hs hreal
    obtain ⟨e, he⟩ := hnum.large _ M.toarray k (by rw [h3]; exact hk)
    refine ⟨e, ?_⟩
    rw [diagonalizeBdg, h1]
    simp only [bind, Except.bind, Eigensolvers.nambu, Eigensolvers.hermitian, he]

/-! ### Zero modes -/

/-- the operator without terms -/
def zeroFermion : Operator ℂ := ⟨[], Basis.ofList [], .fermion⟩

/-- an eigensolver may return any orthonormal basis of a degenerate eigenspace -/
noncomputable def mixedEigh (eigh : Eigh) : Eigh := open Classical in fun n D =>
  match n, D with
  | 2, D => if lowerHermitian D = 0 then ⟨fun _ => 0, ((Real.sqrt 2 : ℂ)⁻¹) • !![1, 1; 1, -1]⟩ else eigh 2 D
  | n, D => eigh n D

theorem sqrt_two_inv : ((Real.sqrt 2 : ℂ)⁻¹) * (Real.sqrt 2 : ℂ)⁻¹ = 1 / 2 := by
  rw [← mul_inv, ← Complex.ofReal_mul, Real.mul_self_sqrt (by norm_num)]; norm_num

theorem mixedEigh_exact (h : num.Exact) : ({ num with eigh := mixedEigh num.eigh } : Eigensolvers).Exact := by
  have hne : ∀ n (D : Matrix (Fin n) (Fin n) ℂ), n ≠ 2 → mixedEigh num.eigh n D = num.eigh n D := by
    intro n D hn
    rw [mixedEigh]
    exact fun _ h _ => hn h
  have h2 : ∀ D : Matrix (Fin 2) (Fin 2) ℂ, mixedEigh num.eigh 2 D = open Classical in if lowerHermitian D = 0 then
      ⟨fun _ => 0, ((Real.sqrt 2 : ℂ)⁻¹) • !![1, 1; 1, -1]⟩ else num.eigh 2 D := fun D => rfl
  refine ⟨?_, ?_, h.eigsh, h.large, h.shifted, h.singular, h.eig, h.eigs, h.argsort⟩
  · intro n D hD
    show IsEigh D (mixedEigh num.eigh n D)
    by_cases hn : n = 2
    · subst hn
      rw [h2]
      split
      · rename_i h0
        rw [lowerHermitian_eq hD] at h0
        subst h0
        have hs : star ((Real.sqrt 2 : ℂ)⁻¹) = (Real.sqrt 2 : ℂ)⁻¹ := by rw [star_inv₀]; congr 1; exact Complex.conj_ofReal _
        have hU : (!![1, 1; 1, -1] : Matrix (Fin 2) (Fin 2) ℂ)ᴴ = !![1, 1; 1, -1] := by
          ext i j; fin_cases i <;> fin_cases j <;> simp
        have hU2 : (!![1, 1; 1, -1] : Matrix (Fin 2) (Fin 2) ℂ) * !![1, 1; 1, -1] = (2 : ℂ) • 1 := by
          ext i j; fin_cases i <;> fin_cases j <;> norm_num
        refine ⟨?_, ?_, ?_⟩
        · simp only
          rw [Matrix.conjTranspose_smul, hs, hU, smul_mul_smul_comm, sqrt_two_inv, hU2, smul_smul]; norm_num
        · simp only
          rw [Matrix.conjTranspose_smul, hs, hU, smul_mul_smul_comm, sqrt_two_inv, hU2, smul_smul]; norm_num
        · simp
      · exact h.eigh 2 D hD
    · rw [hne n D hn]
      exact h.eigh n D hD
  · intro n D E hDE hd
    show mixedEigh num.eigh n D = mixedEigh num.eigh n E
    by_cases hn : n = 2
    · subst hn
      rw [h2, h2, lowerHermitian_congr hDE hd, h.triangle 2 D E hDE hd]
    · rw [hne n D hn, hne n E hn]
      exact h.triangle n D E hDE hd

/-- **C82 needs energies other than zero**: nothing in `diagonalize_bdg` pairs zero modes.  For the operator zero of one orbital the result may be
`f = (c ± c†)/√2`, whose square is not zero but `±1/2`. -/
theorem C82_refuted : ∃ num : Eigensolvers, num.Exact ∧ ∃ (u v : Fin 1 → ℂ) (c : ℂ), c ≠ 0 ∧
    diagonalizeBdg num zeroFermion 1 = .ok ([0], [List.ofFn u], [List.ofFn v]) ∧
    ∀ {𝔸 : Type} [Ring 𝔸] [Algebra ℂ 𝔸] [StarRing 𝔸] [StarModule ℂ 𝔸] (R : MajoranaRep ℂ 𝔸 (siteLabels 1)),
      R.bogoliubov u v * R.bogoliubov u v = c • 1 := by
  obtain ⟨num₀, h₀⟩ := exists_exactEigensolvers
  set num : Eigensolvers := { num₀ with eigh := mixedEigh num₀.eigh } with hnumdef
  have hnum : num.Exact := mixedEigh_exact h₀
  let M : Mat ℂ := ⟨2, 2, []⟩
  have hM : bdgMatrix zeroFermion 1 = .ok M := rfl
  have hT : M.toarray = 0 := by ext i j; rfl
  have hl0 : lowerHermitian (0 : Matrix (Fin 2) (Fin 2) ℂ) = 0 := lowerHermitian_eq Matrix.isHermitian_zero
  have hE : num.eigh 2 (0 : Matrix (Fin 2) (Fin 2) ℂ) = ⟨fun _ => 0, ((Real.sqrt 2 : ℂ)⁻¹) • !![1, 1; 1, -1]⟩ := by
    show mixedEigh num₀.eigh 2 0 = _
    rw [mixedEigh, if_pos hl0]
  obtain ⟨ps, s1, s2, -⟩ := sortEigenpairs_ok hnum.argsort (List.ofFn fun k => ((num.eigh 2 0).evals k, fun i => (num.eigh 2 (0 : Matrix (Fin 2) (Fin 2) ℂ)).evecs i k))
  have hlen : ps.length = 2 := by rw [← s2.length_eq]; simp
  have hps : ∀ p ∈ ps, p.1 = 0 ∧ p.2 0 * p.2 1 ≠ 0 := by
    intro p hp
    obtain ⟨k, rfl⟩ := List.mem_ofFn.mp (s2.mem_iff.mpr hp)
    rw [hE]
    refine ⟨rfl, ?_⟩
    have hne : ((Real.sqrt 2 : ℂ)⁻¹) ≠ 0 := fun h => by have := sqrt_two_inv; rw [h] at this; norm_num at this
    fin_cases k <;> simp
  obtain ⟨p, p', rfl⟩ := List.length_eq_two.mp hlen
  obtain ⟨q1, q2⟩ := hps p (by simp)
  refine ⟨num, hnum, fun _ => p.2 0, fun _ => p.2 1, p.2 0 * p.2 1, q2, ?_, ?_⟩
  · rw [diagonalizeBdg, hM]
    simp only [bind, Except.bind]
    have : num.nambu M.toarray none none = .ok (List.ofFn fun k => ((num.eigh 2 0).evals k, fun i => (num.eigh 2 (0 : Matrix (Fin 2) (Fin 2) ℂ)).evecs i k)) := by
      rw [hT]; rfl
    rw [this]
    simp only
    rw [show sortEigenpairs num.argsort _ = _ from s1]
    simp [q1]
  · intro 𝔸 _ _ _ _ R
    have h0 : (0 : ℤ) ∈ siteLabels 1 := ⟨le_rfl, by norm_num⟩
    have hcc : ∀ x : 𝔸, x = -x → x = 0 := fun x hx => by
      have : (2 : ℂ) • x = 0 := by rw [two_smul]; nth_rewrite 1 [hx]; exact neg_add_cancel x
      have := congrArg ((1 / 2 : ℂ) • ·) this
      simpa [smul_smul] using this
    have h1 := hcc _ (R.c_mul_c h0 h0)
    have h2 := hcc _ (R.cdag_mul_cdag h0 h0)
    have h3 := R.c_mul_cdag h0
    simp only [MajoranaRep.bogoliubov, Finset.univ_unique, Finset.sum_singleton, Fin.default_eq_zero, Fin.val_zero, Nat.cast_zero]
    rw [add_mul, mul_add, mul_add, smul_mul_smul_comm, smul_mul_smul_comm, smul_mul_smul_comm, smul_mul_smul_comm, h1, h2, h3]
    simp only [smul_zero, add_zero, zero_add, smul_sub]
    rw [mul_comm (p.2 1)]
    abel

/-! ### The hypotheses can be met -/

/-- a hopping term and a pairing term of two orbitals -/
def pairedOrbitals : Operator ℂ :=
  ⟨[1, 2], Basis.ofList [⟨[.CDag, .C], [0, 1], .fermion, .float1⟩, ⟨[.CDag, .CDag], [0, 1], .fermion, .float1⟩], .fermion⟩

example : ∃ (num : Eigensolvers) (pairs : List (ℝ × (Fin 2 → ℂ) × (Fin 2 → ℂ))), num.Exact ∧ pairs.length = 2 ∧
    diagonalizeBdg num pairedOrbitals 2 = .ok (pairs.map Prod.fst, pairs.map fun p => List.ofFn p.2.1, pairs.map fun p => List.ofFn p.2.2) := by
  obtain ⟨num, hnum⟩ := exists_exactEigensolvers
  obtain ⟨M, pairs, -, h2, h3, -⟩ := C82_bdg (n := 2) hnum (A := pairedOrbitals) rfl (by
    intro s hs
    simp only [pairedOrbitals, Basis.ofList, List.mem_cons, List.not_mem_nil, or_false] at hs
    rcases hs with rfl | rfl
    · exact Or.inl ⟨⟨rfl, rfl, by decide, by decide, by decide, by intro l hl; fin_cases hl <;> exact ⟨by decide, by decide⟩⟩, rfl, by decide⟩
    · exact Or.inr ⟨⟨rfl, rfl, by decide, by decide, by decide, by intro l hl; fin_cases hl <;> exact ⟨by decide, by decide⟩⟩, rfl⟩)
    (by intro c hc; simp only [pairedOrbitals, List.mem_cons, List.not_mem_nil, or_false] at hc; rcases hc with rfl | rfl <;> simp) (numVecs := none) (by simp) (sigma := none) (Or.inl rfl)
  exact ⟨num, pairs, hnum, h3, h2⟩

end Qosy
