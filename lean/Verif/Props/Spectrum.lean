import Verif.Lemmas.SpectrumExact
import Verif.Lemmas.Quadratic
import Verif.Props.Diagonalization

/-! # C81: `diagonalize` -/

namespace Qosy
open Matrix
variable {n : ℕ} {num : Eigensolvers}

/-- **C81** (Hermitian operators): `diagonalize` returns the eigenstates of the operator with the lowest energies, sorted by energy: all of them, or the
number asked for.  The energies of Pauli and Majorana operators are exact; from those of Fermion operators the mean of all energies, `tr H / 2 ** n`, is
subtracted. -/
theorem C81_energies (hnum : num.Exact) {A : Operator ℂ} (hA : A.WF) (hs : ∀ s ∈ A.basis.strs, ValidString (jwLabels (siteLabels n)) s)
    (hf : ∀ s ∈ A.basis.strs, s.opType = .fermion → FermionConvertible s false) (hH : (A.den (matRep ℂ n).anyDen).IsHermitian) {numVecs : Option ℕ}
    (hk : ∀ k ∈ numVecs, 0 < k ∧ k + 1 < 2 ^ n) :
    ∃ (pairs : List (ℝ × (Cfg n → ℂ))) (c : ℝ) (vecs : List (List ℂ)),
      diagonalize num A n "Hermitian" numVecs = .ok (pairs.map (fun p => ((p.1 - c : ℝ) : ℂ)), vecs) ∧ List.Forall₂ (IsState n) vecs (pairs.map Prod.snd) ∧
      pairs.length = numVecs.getD (2 ^ n) ∧ LowestEigenpairs (A.den (matRep ℂ n).anyDen) pairs ∧ (pairs.Pairwise fun p q => p.1 ≤ q.1) ∧
      (numVecs = none → ∀ u : Cfg n → ℂ, (∀ p ∈ pairs, ∑ σ, star (p.2 σ) * u σ = 0) → u = 0) ∧
      (A.opType ≠ .fermion → c = 0) ∧ (A.opType = .fermion → (c : ℂ) = (A.den (matRep ℂ n).anyDen).trace / 2 ^ n) := by
  obtain ⟨C, k, c1, c2, c3, c4, c5⟩ := convertOperator_pauli hA hs hf
  obtain ⟨M, m1, m2⟩ := C43_operator c2
  obtain ⟨e, e1, e2⟩ := toarray_submatrix m2
  obtain ⟨c, rfl⟩ : ∃ c : ℝ, (c : ℂ) = k := by
    have : star k = k := by
      by_cases h : A.opType = .fermion
      · rw [c5 h]; exact shift_real hH
      · rw [c4 h, star_zero]
    exact ⟨k.re, Complex.conj_eq_iff_re.mp this⟩
  set H := A.den (matRep ℂ n).anyDen with hHd
  set D := C.den (matRep ℂ n).den with hD
  have hDh : D.IsHermitian := by
    have : D = H - (c : ℂ) • 1 := by rw [c3, add_sub_cancel_right]
    rw [this]
    refine hH.sub ?_
    rw [Matrix.IsHermitian, Matrix.conjTranspose_smul, Matrix.conjTranspose_one]
    exact congrArg (· • (1 : Matrix (Cfg n) (Cfg n) ℂ)) (Complex.conj_ofReal c)
  have hTh : M.toarray.IsHermitian := by rw [e1]; exact hDh.submatrix _
  -- the pairs that the eigensolver returns
  obtain ⟨r, r1, r2, r3, r4⟩ : ∃ r : List (ℝ × (Fin M.ncols → ℂ)), num.hermitian M.toarray numVecs = .ok r ∧ r.length = numVecs.getD (2 ^ n) ∧ LowestEigenpairs M.toarray r ∧
      (numVecs = none → ∀ u : Fin M.ncols → ℂ, (∀ p ∈ r, ∑ i, star (p.2 i) * u i = 0) → u = 0) := by
    cases numVecs with
    | none =>
      have h := hnum.eigh _ _ hTh
      refine ⟨_, rfl, by simp [m2.ncols], lowest_of_eigh h, fun _ u hu => ?_⟩
      have h0 : (num.eigh M.ncols M.toarray).evecsᴴ *ᵥ u = 0 := by
        funext k
        exact hu (_, fun i => (num.eigh M.ncols M.toarray).evecs i k) (by rw [List.mem_ofFn]; exact ⟨k, rfl⟩)
      have := congrArg ((num.eigh M.ncols M.toarray).evecs *ᵥ ·) h0
      simpa [Matrix.mulVec_mulVec, h.complete] using this
    | some k =>
      obtain ⟨h1, h2⟩ := hk k rfl
      obtain ⟨r, r1, r2, r3⟩ := hnum.eigsh _ M.toarray k hTh h1 (by rw [m2.ncols]; exact h2)
      exact ⟨r, r1, r2, r3, by simp⟩
  obtain ⟨s, s1, s2, s3⟩ := sortEigenpairs_ok hnum.argsort r
  have l1 := (r3.perm s2)
  rw [e1] at l1
  have l2 := (l1.reindex e).shift c
  rw [← c3] at l2
  refine ⟨(s.map fun p => (p.1, p.2 ∘ e.symm)).map fun p => (p.1 + c, p.2), c, s.map fun p => List.ofFn p.2, ?_, ?_, ?_, l2, ?_, ?_, ?_, ?_⟩
  · rw [diagonalize, c1]
    simp only [bind, Except.bind, m1, if_true, r1, s1, List.map_map]
    refine congrArg Except.ok (Prod.ext ?_ rfl)
    refine List.map_congr_left fun p _ => ?_
    simp
  · rw [List.map_map, List.map_map]
    rw [List.forall₂_map_left_iff, List.forall₂_map_right_iff]
    exact List.forall₂_same.mpr fun p _ => e2 p.2
  · rw [List.length_map, List.length_map, ← s2.length_eq, r2]
  · rw [List.pairwise_map, List.pairwise_map]
    exact s3.imp fun h => by simpa using h
  · intro hn u hu
    have := r4 hn (u ∘ e) (fun p hp => by
      have := hu (p.1 + c, p.2 ∘ e.symm) (by
        rw [List.map_map, List.mem_map]
        exact ⟨p, s2.mem_iff.mp hp, rfl⟩)
      rw [← e.sum_comp] at this
      simpa using this)
    funext i
    obtain ⟨k, rfl⟩ := e.surjective i
    exact congrFun this k
  · intro h
    exact_mod_cast c4 h
  · exact c5

/-- **C81** (variational principle): the energy number `j` is at most the expectation value of every state that is orthogonal to the states before; in
particular no state has an energy below the first. -/
theorem C81_variational {H : Matrix (Cfg n) (Cfg n) ℂ} (hH : H.IsHermitian) {pairs : List (ℝ × (Cfg n → ℂ))} (h : LowestEigenpairs H pairs)
    (hs : pairs.Pairwise fun p q => p.1 ≤ q.1) : ∀ j (hj : j < pairs.length), BoundsRest H ((pairs.take j).map Prod.snd) pairs[j].1 :=
  fun _ hj => h.minmax hH hs hj

/-- **C81** (too many vectors): at least `2 ** n - 1` eigenvectors cannot be asked for; only `num_vecs=None` gives all of them. -/
theorem C81_large (hnum : num.Exact) {A : Operator ℂ} (hA : A.WF) (hs : ∀ s ∈ A.basis.strs, ValidString (jwLabels (siteLabels n)) s)
    (hf : ∀ s ∈ A.basis.strs, s.opType = .fermion → FermionConvertible s false) {k : ℕ} (hk : 2 ^ n ≤ k + 1) :
    ∃ e, diagonalize num A n "Hermitian" (some k) = .error e := by
  obtain ⟨C, c, c1, c2, -⟩ := convertOperator_pauli hA hs hf
  obtain ⟨M, m1, m2⟩ := C43_operator c2
  obtain ⟨e, he⟩ := hnum.large _ M.toarray k (by rw [m2.ncols]; exact hk)
  refine ⟨e, ?_⟩
  rw [diagonalize, c1]
  simp only [bind, Except.bind, m1, if_true, Eigensolvers.hermitian, he]

/-- **C81** (all energies): if the states found are complete, every eigenvalue of the operator is among the energies. -/
theorem C81_complete {H : Matrix (Cfg n) (Cfg n) ℂ} (hH : H.IsHermitian) {pairs : List (ℝ × (Cfg n → ℂ))} (h : LowestEigenpairs H pairs)
    (hc : ∀ u : Cfg n → ℂ, (∀ p ∈ pairs, ∑ σ, star (p.2 σ) * u σ = 0) → u = 0) {μ : ℂ} {ψ : Cfg n → ℂ} (hψ : ψ ≠ 0) (he : H.mulVec ψ = μ • ψ) :
    ∃ p ∈ pairs, μ = p.1 := by
  by_contra hne
  push Not at hne
  refine hψ (hc ψ fun p hp => ?_)
  have h1 := sum_star_mulVec hH p.2 ψ
  rw [he, h.eigen p hp] at h1
  have e1 : ∑ i, star (p.2 i) * (μ • ψ) i = μ * ∑ i, star (p.2 i) * ψ i := by
    rw [Finset.mul_sum]; exact Finset.sum_congr rfl fun i _ => by simp only [Pi.smul_apply, smul_eq_mul]; ring
  have e2 : ∑ i, star (((p.1 : ℂ) • p.2) i) * ψ i = p.1 * ∑ i, star (p.2 i) * ψ i := by
    rw [Finset.mul_sum]; exact Finset.sum_congr rfl fun i _ => by
      simp only [Pi.smul_apply, smul_eq_mul, star_mul']; rw [show star (p.1 : ℂ) = p.1 from Complex.conj_ofReal _]; ring
  rw [e1, e2] at h1
  have h2 : (μ - p.1) * ∑ i, star (p.2 i) * ψ i = 0 := by rw [sub_mul, h1, sub_self]
  exact (mul_eq_zero.mp h2).resolve_left (sub_ne_zero.mpr (hne p hp))

/-- **C81** (other modes): the pairs returned are normalised eigenvectors with their eigenvalues, and without a number of vectors every eigenvalue is
among them.  From the eigenvalues of Fermion operators the mean `tr H / 2 ** n` is subtracted. -/
theorem C81_general (hnum : num.Exact) {A : Operator ℂ} (hA : A.WF) (hs : ∀ s ∈ A.basis.strs, ValidString (jwLabels (siteLabels n)) s)
    (hf : ∀ s ∈ A.basis.strs, s.opType = .fermion → FermionConvertible s false) {mode : String} (hm : mode ≠ "Hermitian") {numVecs : Option ℕ}
    (hk : ∀ k ∈ numVecs, 0 < k ∧ k + 1 < 2 ^ n) :
    ∃ (pairs : List (ℂ × (Cfg n → ℂ))) (c : ℂ) (vecs : List (List ℂ)),
      diagonalize num A n mode numVecs = .ok (pairs.map (fun p => p.1 - c), vecs) ∧ List.Forall₂ (IsState n) vecs (pairs.map Prod.snd) ∧
      pairs.length = numVecs.getD (2 ^ n) ∧ (∀ p ∈ pairs, ∑ σ, ‖p.2 σ‖ ^ 2 = 1 ∧ (A.den (matRep ℂ n).anyDen).mulVec p.2 = p.1 • p.2) ∧
      (numVecs = none → ∀ (μ : ℂ) (ψ : Cfg n → ℂ), ψ ≠ 0 → (A.den (matRep ℂ n).anyDen).mulVec ψ = μ • ψ → ∃ p ∈ pairs, p.1 = μ) ∧
      (A.opType ≠ .fermion → c = 0) ∧ (A.opType = .fermion → c = (A.den (matRep ℂ n).anyDen).trace / 2 ^ n) := by
  obtain ⟨C, c, c1, c2, c3, c4, c5⟩ := convertOperator_pauli hA hs hf
  obtain ⟨M, m1, m2⟩ := C43_operator c2
  obtain ⟨e, e1, e2⟩ := toarray_submatrix m2
  set H := A.den (matRep ℂ n).anyDen with hHd
  set D := C.den (matRep ℂ n).den with hD
  have hmul : ∀ (u : Cfg n → ℂ), H.mulVec u = D.mulVec u + c • u := fun u => by
    rw [c3, Matrix.add_mulVec, Matrix.smul_mulVec, Matrix.one_mulVec]
  have hsub : ∀ (u : Cfg n → ℂ) i, D.mulVec u (e i) = M.toarray.mulVec (u ∘ e) i := fun u i => by
    rw [e1]
    simp only [Matrix.mulVec, dotProduct, Matrix.submatrix_apply, Function.comp]
    exact (e.sum_comp _).symm
  obtain ⟨r, r1, r2, r3, r4⟩ : ∃ r : List (ℂ × (Fin M.ncols → ℂ)), num.general M.toarray numVecs = .ok r ∧ r.length = numVecs.getD (2 ^ n) ∧
      (∀ p ∈ r, ∑ i, ‖p.2 i‖ ^ 2 = 1 ∧ M.toarray.mulVec p.2 = p.1 • p.2) ∧
      (numVecs = none → ∀ (μ : ℂ) (v : Fin M.ncols → ℂ), v ≠ 0 → M.toarray.mulVec v = μ • v → μ ∈ r.map Prod.fst) := by
    cases numVecs with
    | none =>
      obtain ⟨h1, h2, h3⟩ := hnum.eig _ M.toarray
      exact ⟨_, rfl, by rw [h1, m2.ncols]; rfl, h2, fun _ => h3⟩
    | some k =>
      obtain ⟨h1, h2⟩ := hk k rfl
      obtain ⟨r, r1, r2, r3⟩ := hnum.eigs _ M.toarray k h1 (by rw [m2.ncols]; exact h2)
      exact ⟨r, r1, r2, r3, by simp⟩
  refine ⟨r.map fun p => (p.1 + c, p.2 ∘ e.symm), c, r.map fun p => List.ofFn p.2, ?_, ?_, ?_, ?_, ?_, c4, c5⟩
  · rw [diagonalize, c1]
    simp only [bind, Except.bind, m1, hm, if_false, r1, List.map_map]
    refine congrArg Except.ok (Prod.ext ?_ rfl)
    refine List.map_congr_left fun p _ => ?_
    simp
  · rw [List.map_map, List.forall₂_map_left_iff, List.forall₂_map_right_iff]
    exact List.forall₂_same.mpr fun p _ => e2 p.2
  · rw [List.length_map, r2]
  · intro p hp
    obtain ⟨q, hq, rfl⟩ := List.mem_map.mp hp
    obtain ⟨q1, q2⟩ := r3 q hq
    refine ⟨?_, ?_⟩
    · rw [← q1, ← e.sum_comp]
      simp
    · rw [hmul]
      funext σ
      obtain ⟨i, rfl⟩ := e.surjective σ
      have h := congrFun q2 i
      simp only [Pi.add_apply, hsub, Pi.smul_apply, smul_eq_mul, Function.comp] at h ⊢
      have hcomp : (fun x => q.2 (e.symm (e x))) = q.2 := by funext x; rw [e.symm_apply_apply]
      rw [show ((q.2 ∘ e.symm) ∘ e) = q.2 from hcomp, h, e.symm_apply_apply]
      ring
  · intro hn μ ψ hψ he
    have := r4 hn (μ - c) (ψ ∘ e) (fun h0 => hψ (by
      funext σ
      obtain ⟨i, rfl⟩ := e.surjective σ
      exact congrFun h0 i)) (by
      funext i
      have h := congrFun he (e i)
      rw [hmul] at h
      simp only [Pi.add_apply, hsub, Pi.smul_apply, smul_eq_mul, Function.comp] at h ⊢
      linear_combination h)
    obtain ⟨p, hp, hp1⟩ := List.mem_map.mp this
    exact ⟨_, List.mem_map_of_mem hp, by simp [hp1]⟩

/-! ### Where the energies are wrong -/

/-- the number operator `c_0† c_0` of one orbital -/
def numberOperator : Operator ℂ := ⟨[1], Basis.ofList [⟨[.CDag, .C], [0, 0], .fermion, .float1⟩], .fermion⟩

theorem numberOperator_wf : numberOperator.WF :=
  ⟨Basis.Inv.ofList (by simp), by simp [numberOperator, Basis.ofList], by simp [numberOperator, Basis.ofList]⟩

theorem numberOperator_string : FermionString (jwLabels (siteLabels 1)) ⟨[.CDag, .C], [0, 0], .fermion, .float1⟩ :=
  ⟨rfl, rfl, by decide, by decide, by decide, fun l hl => by
    have : l = 0 := by simpa using hl
    subst this
    exact ⟨le_rfl, fun k h1 h2 => ⟨h1, by omega⟩⟩⟩

theorem numberOperator_convertible : FermionConvertible ⟨[.CDag, .C], [0, 0], .fermion, .float1⟩ false :=
  ⟨by decide, Or.inl (by decide), Or.inl (by decide)⟩

/-- it is a Hermitian projection of trace 1 -/
theorem numberOperator_den : (numberOperator.den (matRep ℂ 1).anyDen).IsHermitian ∧
    numberOperator.den (matRep ℂ 1).anyDen * numberOperator.den (matRep ℂ 1).anyDen = numberOperator.den (matRep ℂ 1).anyDen ∧
    (numberOperator.den (matRep ℂ 1).anyDen).trace = 1 := by
  have h0 : (0 : ℤ) ∈ jwLabels (siteLabels 1) := ⟨le_rfl, fun k h1 h2 => ⟨h1, by omega⟩⟩
  set R := (matRep ℂ 1).jordanWigner with hR
  have hst := jordanWigner_star (matRep ℂ 1) (matRep_star ℂ 1)
  have hden : numberOperator.den (matRep ℂ 1).anyDen = R.cdag 0 * R.c 0 := by
    rw [numberOperator, Operator.den_single, one_smul]
    simp only [PauliRep.anyDen]
    rw [MajoranaRep.fden, if_pos (by decide), MajoranaRep.fword]
    simp [wordProd, Pref.val, MajoranaRep.fsite, hR]
  rw [hden]
  refine ⟨?_, ?_, ?_⟩
  · rw [Matrix.IsHermitian, ← Matrix.star_eq_conjTranspose, star_mul, R.star_c hst h0, R.star_cdag hst h0]
  · rw [R.cdag_mul_c h0, smul_mul_smul_comm, sub_mul, one_mul, mul_sub, mul_one, R.d_sq 0 h0]
    rw [show (1 : Matrix (Cfg 1) (Cfg 1) ℂ) - R.d 0 - (R.d 0 - 1) = (2 : ℂ) • (1 - R.d 0) by rw [two_smul]; abel, smul_smul]
    norm_num
  · have hd : (R.d 0).trace = 0 := by
      have h1 : (R.a 0 * R.b 0).trace = 0 := by
        have h2 := congrArg Matrix.trace (R.ba 0 h0 0 h0)
        rw [Matrix.trace_neg, Matrix.trace_mul_comm] at h2
        exact self_eq_neg.mp h2
      rw [MajoranaRep.d, Matrix.trace_neg, Matrix.trace_smul, h1, smul_zero, neg_zero]
    rw [R.cdag_mul_c h0, Matrix.trace_smul, Matrix.trace_sub, trace_one_cfg, hd]
    norm_num

/-- **C81 is false for Fermion operators**: `diagonalize` of the number operator of one orbital, whose eigenvalues are 0 and 1, returns energies none of
which is an eigenvalue. -/
theorem C81_refuted (hnum : num.Exact) : ∃ vals vecs, diagonalize num numberOperator 1 = .ok (vals, vecs) ∧ vals.length = 2 ∧
    ∀ x ∈ vals, ∀ ψ : Cfg 1 → ℂ, (numberOperator.den (matRep ℂ 1).anyDen).mulVec ψ = x • ψ → ψ = 0 := by
  obtain ⟨d1, d2, d3⟩ := numberOperator_den
  obtain ⟨pairs, c, vecs, h1, -, h3, h4, -, -, -, h8⟩ := C81_energies hnum numberOperator_wf
    (by intro s hs; simp only [numberOperator, Basis.ofList, List.mem_singleton] at hs; subst hs; exact Or.inr (Or.inr numberOperator_string))
    (by intro s hs _; simp only [numberOperator, Basis.ofList, List.mem_singleton] at hs; subst hs; exact numberOperator_convertible) d1 (numVecs := none) (by simp)
  refine ⟨_, _, h1, by rw [List.length_map, h3]; rfl, fun x hx ψ hψ => ?_⟩
  have hc := h8 rfl
  rw [d3] at hc
  obtain ⟨p, hp, rfl⟩ := List.mem_map.mp hx
  have key : ∀ (μ : ℂ) (v : Cfg 1 → ℂ), (numberOperator.den (matRep ℂ 1).anyDen).mulVec v = μ • v → v = 0 ∨ μ * μ = μ := by
    intro μ v hv
    have h := congrArg (fun D => D.mulVec v) d2
    simp only [← Matrix.mulVec_mulVec] at h
    rw [hv, Matrix.mulVec_smul, hv, smul_smul] at h
    by_cases h0 : v = 0
    · exact Or.inl h0
    · exact Or.inr (smul_left_injective ℂ h0 h)
  rcases key _ _ (h4.eigen p hp) with h | h
  · have := h4.orthonormal.1 p.2 (List.mem_map_of_mem hp)
    rw [h] at this
    simp at this
  · refine (key _ ψ hψ).resolve_right fun h' => ?_
    push_cast at h'
    rw [hc] at h'
    norm_num at h'
    have h5 : (p.1 : ℂ) = 3 / 4 := by linear_combination h - h'
    rw [h5] at h
    norm_num at h

/-- the operator `1j * Z_0` -/
noncomputable def imaginaryZ : Operator ℂ := ⟨[Complex.I], Basis.ofList [⟨[.Z], [0], .pauli, .float1⟩], .pauli⟩

theorem imaginaryZ_den : imaginaryZ.den (matRep ℂ 1).anyDen = Complex.I • (matZ 0 : Matrix (Cfg 1) (Cfg 1) ℂ) := by
  rw [imaginaryZ, Operator.den_single]
  congr 1
  simp [PauliRep.anyDen, PauliRep.den, wordProd, Pref.val, PauliRep.site, matRep]

/-- **C81 needs Hermitian operators**: in its default mode `diagonalize` reads the lower triangle of the matrix only.  The eigenvalues of `1j * Z_0` are
`±1j`, but two zeros are returned. -/
theorem C81_refuted_nonhermitian (hnum : num.Exact) : ∃ vecs, diagonalize num imaginaryZ 1 = .ok ([0, 0], vecs) ∧
    ∀ ψ : Cfg 1 → ℂ, (imaginaryZ.den (matRep ℂ 1).anyDen).mulVec ψ = (0 : ℂ) • ψ → ψ = 0 := by
  have hs : PauliString (jwLabels (siteLabels 1)) ⟨[.Z], [0], .pauli, .float1⟩ :=
    ⟨rfl, by decide, rfl, by decide, fun l hl => by
      have : l = 0 := by simpa using hl
      subst this
      exact ⟨le_rfl, fun k h1 h2 => ⟨h1, by omega⟩⟩, by decide⟩
  obtain ⟨C, k, c1, c2, c3, c4, -⟩ := convertOperator_pauli (A := imaginaryZ) (n := 1)
    ⟨Basis.Inv.ofList (by simp), by simp [imaginaryZ, Basis.ofList], by simp [imaginaryZ, Basis.ofList]⟩
    (by intro s h; simp only [imaginaryZ, Basis.ofList, List.mem_singleton] at h; subst h; exact Or.inl hs)
    (by intro s h; simp only [imaginaryZ, Basis.ofList, List.mem_singleton] at h; subst h; simp)
  rw [c4 (by decide), zero_smul, add_zero] at c3
  obtain ⟨M, m1, m2⟩ := C43_operator c2
  obtain ⟨e, e1, -⟩ := toarray_submatrix m2
  rw [← c3, imaginaryZ_den] at e1
  have hzero : num.eigh M.ncols M.toarray = num.eigh M.ncols 0 := by
    refine hnum.triangle _ _ _ (fun i j hij => ?_) fun i => ?_
    · rw [e1]
      have : e j ≠ e i := fun h => (ne_of_lt hij) (e.injective h)
      simp [matZ, mono, this]
    · rw [e1]
      simp only [Matrix.submatrix_apply, Matrix.smul_apply, matZ, mono, if_true, Matrix.zero_apply]
      split <;> simp
  have hev : ∀ k, (num.eigh M.ncols 0).evals k = 0 := by
    have h := hnum.eigh _ (0 : Matrix (Fin M.ncols) (Fin M.ncols) ℂ) Matrix.isHermitian_zero
    have h2 := congrArg ((num.eigh M.ncols 0).evecsᴴ * ·) h.eigen
    simp only [Matrix.zero_mul, Matrix.mul_zero] at h2
    rw [← Matrix.mul_assoc, h.orthonormal, Matrix.one_mul] at h2
    intro k
    have := congrFun (congrFun h2 k) k
    simpa using this.symm
  obtain ⟨s, s1, s2, -⟩ := sortEigenpairs_ok hnum.argsort (List.ofFn fun k => ((num.eigh M.ncols M.toarray).evals k, fun i => (num.eigh M.ncols M.toarray).evecs i k))
  refine ⟨s.map fun p => List.ofFn p.2, ?_, ?_⟩
  · rw [diagonalize, c1]
    simp only [bind, Except.bind, m1, if_true, Eigensolvers.hermitian, s1]
    refine congrArg Except.ok (Prod.ext ?_ rfl)
    have hl : s.length = 2 := by rw [← s2.length_eq, List.length_ofFn, m2.ncols]; rfl
    have h0 : ∀ p ∈ s, (p.1 : ℂ) = 0 := fun p hp => by
      obtain ⟨k, rfl⟩ := List.mem_ofFn.mp (s2.mem_iff.mpr hp)
      simp [hzero, hev]
    refine (List.eq_replicate_iff (n := 2) (a := (0 : ℂ)) (l := s.map fun p => (p.1 : ℂ))).mpr ⟨by rw [List.length_map]; exact hl, fun x hx => ?_⟩
    obtain ⟨p, hp, rfl⟩ := List.mem_map.mp hx
    exact h0 p hp
  · intro ψ hψ
    rw [imaginaryZ_den, zero_smul] at hψ
    have h := congrArg (Matrix.mulVec (Complex.I • (matZ 0 : Matrix (Cfg 1) (Cfg 1) ℂ))) hψ
    rw [Matrix.mulVec_mulVec, smul_mul_smul_comm, show (matZ 0 * matZ 0 : Matrix (Cfg 1) (Cfg 1) ℂ) = 1 from (matRep ℂ 1).z_sq 0 ⟨le_rfl, by norm_num⟩, Complex.I_mul_I, Matrix.mulVec_zero, Matrix.smul_mulVec, Matrix.one_mulVec] at h
    simpa using h

/-! ### The hypotheses can be met -/

example : ∃ num : Eigensolvers, num.Exact := exists_exactEigensolvers

/-- the two eigenstates of the number operator are found in the right order -/
example : ∃ (num : Eigensolvers) (pairs : List (ℝ × (Cfg 1 → ℂ))), num.Exact ∧ pairs.length = 2 ∧
    LowestEigenpairs (numberOperator.den (matRep ℂ 1).anyDen) pairs ∧ pairs.Pairwise fun p q => p.1 ≤ q.1 := by
  obtain ⟨num, hnum⟩ := exists_exactEigensolvers
  obtain ⟨pairs, c, vecs, -, -, h3, h4, h5, -⟩ := C81_energies hnum numberOperator_wf
    (by intro s hs; simp only [numberOperator, Basis.ofList, List.mem_singleton] at hs; subst hs; exact Or.inr (Or.inr numberOperator_string))
    (by intro s hs _; simp only [numberOperator, Basis.ofList, List.mem_singleton] at hs; subst hs; exact numberOperator_convertible)
    numberOperator_den.1 (numVecs := none) (by simp)
  exact ⟨num, pairs, hnum, h3, h4, h5⟩

end Qosy
