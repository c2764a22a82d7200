import Verif.Props.QuadraticSpectrum
import Verif.Lemmas.BdgShift

/-! # Quasiparticles next to a given energy (property C95) -/

namespace Qosy
open Matrix
variable {n : ℕ} {num : Eigensolvers}

/-- **C95** (fermions, `sigma=0`): `diagonalize_bdg` fails if there is a zero mode and otherwise returns the quasiparticles with the smallest energies.  `M` is the
matrix of the operator, as in C48. -/
theorem C95_zero (hnum : num.Exact) {A : Operator ℂ} (ht : A.opType = .fermion) (hs : ∀ s ∈ A.basis.strs, Hopping n s ∨ Pairing n s)
    (hreal : ∀ c ∈ A.coeffs, star c = c) {k : ℕ} (hk : 0 < k ∧ k + 1 < 2 * n) :
    ∃ M : Mat ℂ, bdgMatrix A n = .ok M ∧
      (IsEigenvalue (Matrix.of fun i j : Fin (2 * n) => M.get i j) 0 → ∃ e, diagonalizeBdg num A n (some 0) (some k) = .error e) ∧
      (¬ IsEigenvalue (Matrix.of fun i j : Fin (2 * n) => M.get i j) 0 → ∃ pairs : List (ℝ × (Fin n → ℂ) × (Fin n → ℂ)),
        diagonalizeBdg num A n (some 0) (some k) = .ok (pairs.map Prod.fst, pairs.map fun p => List.ofFn p.2.1, pairs.map fun p => List.ofFn p.2.2) ∧
        pairs.length = min n k ∧ (∀ p ∈ pairs, 0 < p.1) ∧ (pairs.Pairwise fun p q => q.1 ≤ p.1) ∧
        ∀ {𝔸 : Type} [Ring 𝔸] [Algebra ℂ 𝔸] [StarRing 𝔸] [StarModule ℂ 𝔸] [Nontrivial 𝔸] (R : MajoranaRep ℂ 𝔸 (siteLabels n)),
          (∀ i ∈ siteLabels n, star (R.a i) = R.a i ∧ star (R.b i) = R.b i) →
          Quasiparticles R (A.den R.fden) (1 / 2 * ∑ i ∈ Finset.range n, M.get i i) pairs ∧ (k ≤ n → LowestModes R (A.den R.fden) pairs)) := by
  obtain ⟨M, h1, h2, h3, h4, h5, h6⟩ := C48_bdg ht hs hreal
  refine ⟨M, h1, fun h0 => ?_, fun h0 => ?_⟩
  · obtain ⟨e, he⟩ := (shifted_ok hnum h3 h4 hk).1 h0
    refine ⟨e, ?_⟩
    rw [diagonalizeBdg, h1]
    simp only [bind, Except.bind, Eigensolvers.nambu, he]
  · obtain ⟨ps, pairs, p1, p2, p3, p4, p5, p6, p7, p8⟩ := bdg_shift_result hnum h3 h4 h5 hk h0
    refine ⟨pairs, ?_, p5, p6, p7, fun R hR => ?_⟩
    · rw [diagonalizeBdg, h1, ← p2, ← p3, ← p4]
      show (num.shifted M.ncols M.toarray k 0 >>= fun r => sortEigenpairs num.argsort r >>= _) = _
      rw [← bind_assoc, p1]
      rfl
    · rw [h6 R hR]
      exact ⟨(p8 R hR _).1, (p8 R hR _).2 inferInstance⟩

/-- **C95** (Majorana operators, `sigma=0`) -/
theorem C95_zero_majorana (hnum : num.Exact) {A : Operator ℂ} (hA : A.WF) (ht : A.opType = .majorana) (hs : ∀ s ∈ A.basis.strs, QuadraticMajorana n s)
    (hreal : ∀ c ∈ A.coeffs, star c = c) {k : ℕ} (hk : 0 < k ∧ k + 1 < 2 * n) :
    ∃ M : Mat ℂ, bdgMatrix A n = .ok M ∧
      (IsEigenvalue (Matrix.of fun i j : Fin (2 * n) => M.get i j) 0 → ∃ e, diagonalizeBdg num A n (some 0) (some k) = .error e) ∧
      (¬ IsEigenvalue (Matrix.of fun i j : Fin (2 * n) => M.get i j) 0 → ∃ pairs : List (ℝ × (Fin n → ℂ) × (Fin n → ℂ)),
        diagonalizeBdg num A n (some 0) (some k) = .ok (pairs.map Prod.fst, pairs.map fun p => List.ofFn p.2.1, pairs.map fun p => List.ofFn p.2.2) ∧
        pairs.length = min n k ∧ (∀ p ∈ pairs, 0 < p.1) ∧ (pairs.Pairwise fun p q => q.1 ≤ p.1) ∧
        ∀ {𝔸 : Type} [Ring 𝔸] [Algebra ℂ 𝔸] [StarRing 𝔸] [StarModule ℂ 𝔸] [Nontrivial 𝔸] (R : MajoranaRep ℂ 𝔸 (siteLabels n)),
          (∀ i ∈ siteLabels n, star (R.a i) = R.a i ∧ star (R.b i) = R.b i) →
          Quasiparticles R (A.den R.den) (1 / 2 * ∑ i ∈ Finset.range n, M.get i i + (A.terms.map (fun t => t.1 * (if t.2.ops = [.D] then 1 else 0))).sum) pairs ∧
          (k ≤ n → LowestModes R (A.den R.den) pairs)) := by
  obtain ⟨M, h1, h2, h3, h4, h5, h6⟩ := C48_bdg_majorana hA ht hs hreal
  refine ⟨M, h1, fun h0 => ?_, fun h0 => ?_⟩
  · obtain ⟨e, he⟩ := (shifted_ok hnum h3 h4 hk).1 h0
    refine ⟨e, ?_⟩
    rw [diagonalizeBdg, h1]
    simp only [bind, Except.bind, Eigensolvers.nambu, he]
  · obtain ⟨ps, pairs, p1, p2, p3, p4, p5, p6, p7, p8⟩ := bdg_shift_result hnum h3 h4 h5 hk h0
    refine ⟨pairs, ?_, p5, p6, p7, fun R hR => ?_⟩
    · rw [diagonalizeBdg, h1, ← p2, ← p3, ← p4]
      show (num.shifted M.ncols M.toarray k 0 >>= fun r => sortEigenpairs num.argsort r >>= _) = _
      rw [← bind_assoc, p1]
      rfl
    · rw [h6 R hR]
      exact ⟨(p8 R hR _).1, (p8 R hR _).2 inferInstance⟩

/-- **C95** (any `sigma`): each energy belongs to a mode of the operator, but the operator `Σ v_i c_i + u_i c†_i` may raise the energy instead of lowering it. -/
theorem C95_partial (hnum : num.Exact) {A : Operator ℂ} (ht : A.opType = .fermion) (hs : ∀ s ∈ A.basis.strs, Hopping n s ∨ Pairing n s)
    (hreal : ∀ c ∈ A.coeffs, star c = c) {k : ℕ} (hk : 0 < k ∧ k + 1 < 2 * n) (σ : ℝ) :
    (∃ e, diagonalizeBdg num A n (some σ) (some k) = .error e) ∨ ∃ pairs : List (ℝ × (Fin n → ℂ) × (Fin n → ℂ)),
      diagonalizeBdg num A n (some σ) (some k) = .ok (pairs.map Prod.fst, pairs.map fun p => List.ofFn p.2.1, pairs.map fun p => List.ofFn p.2.2) ∧
      pairs.length = min n k ∧ (∀ p ∈ pairs, 0 ≤ p.1) ∧
      ∀ {𝔸 : Type} [Ring 𝔸] [Algebra ℂ 𝔸] [StarRing 𝔸] [StarModule ℂ 𝔸] (R : MajoranaRep ℂ 𝔸 (siteLabels n)),
        (∀ i ∈ siteLabels n, star (R.a i) = R.a i ∧ star (R.b i) = R.b i) → ∀ p ∈ pairs,
        A.den R.fden * R.bogoliubov p.2.1 p.2.2 - R.bogoliubov p.2.1 p.2.2 * A.den R.fden = -((p.1 : ℂ) • R.bogoliubov p.2.1 p.2.2) ∨
        A.den R.fden * R.bogoliubov p.2.1 p.2.2 - R.bogoliubov p.2.1 p.2.2 * A.den R.fden = (p.1 : ℂ) • R.bogoliubov p.2.1 p.2.2 := by
  obtain ⟨M, h1, h2, h3, h4, h5, h6⟩ := C48_bdg ht hs hreal
  by_cases h0 : IsEigenvalue (Matrix.of fun i j : Fin (2 * n) => M.get i j) σ
  · obtain ⟨e, he⟩ := (shifted_ok hnum h3 h4 hk).1 h0
    refine Or.inl ⟨e, ?_⟩
    rw [diagonalizeBdg, h1]
    simp only [bind, Except.bind, Eigensolvers.nambu, he]
  · refine Or.inr ?_
    obtain ⟨r, r1, r2, r3, r4⟩ := (shifted_ok hnum h3 h4 hk).2 h0
    obtain ⟨ps, s1, s2, s3⟩ := sortEigenpairs_ok hnum.argsort (r.map fun p => (p.1, p.2 ∘ finCongr h3))
    refine ⟨(ps.take n).map fun p => (|p.1|, fun i : Fin n => p.2 ⟨i, by omega⟩, fun i : Fin n => p.2 ⟨n + i, by omega⟩), ?_, ?_, ?_, ?_⟩
    · rw [diagonalizeBdg, h1]
      simp only [bind, Except.bind, Eigensolvers.nambu, r1, s1, List.map_map]
      refine congrArg Except.ok (Prod.ext rfl (Prod.ext ?_ ?_))
      · refine List.map_congr_left fun p hp => ?_
        refine List.ext_getElem (by simp [h3]; omega) fun k h1 h2 => ?_
        simp
      · refine List.map_congr_left fun p hp => ?_
        refine List.ext_getElem (by simp [h3]; omega) fun k h1 h2 => ?_
        simp
    · rw [List.length_map, List.length_take, ← s2.length_eq, List.length_map, r2]
    · intro p hp
      obtain ⟨p', -, rfl⟩ := List.mem_map.mp hp
      exact abs_nonneg _
    · intro 𝔸 _ _ _ _ R hR p hp
      obtain ⟨p', hp', rfl⟩ := List.mem_map.mp hp
      obtain ⟨p'', hp'', rfl⟩ := List.mem_map.mp (s2.mem_iff.mpr (List.mem_of_mem_take hp'))
      have hb : R.bogoliubov (fun i : Fin n => p''.2 ⟨i, by omega⟩) (fun i : Fin n => p''.2 ⟨n + i, by omega⟩) = ∑ i, p''.2 i • R.nambuDag n i := bogoliubov_eq R p''.2
      have hbr := bdg_bracket R h4 h5 (1 / 2 * ∑ i ∈ Finset.range n, M.get i i) p''.2
      rw [← h6 R hR, r3 p'' hp'', Ring.lie_def] at hbr
      have hbr' : A.den R.fden * (∑ i, p''.2 i • R.nambuDag n i) - (∑ i, p''.2 i • R.nambuDag n i) * A.den R.fden = (p''.1 : ℂ) • ∑ i, p''.2 i • R.nambuDag n i := by
        rw [hbr, Finset.smul_sum]
        exact Finset.sum_congr rfl fun i _ => by rw [Pi.smul_apply, smul_eq_mul, mul_smul]
      simp only [Function.comp, finCongr_apply, Fin.cast_mk]
      rw [hb, hbr']
      rcases abs_choice p''.1 with h | h
      · right; rw [h]
      · left; rw [h]; push_cast; rw [neg_smul, neg_neg]

/-! ### A value of `sigma` above zero -/

/-- `n_0 + 2 n_1` -/
def twoLevels : Operator ℂ :=
  ⟨[1, 2], Basis.ofList [⟨[.CDag, .C], [0, 0], .fermion, .float1⟩, ⟨[.CDag, .C], [1, 1], .fermion, .float1⟩], .fermion⟩

/-- the eigenvalues of its matrix -/
def twoLevelsEval (i : ℕ) : ℝ := if i = 0 then 1 else if i = 1 then 2 else if i = 2 then -1 else -2

theorem twoLevels_matrix : ∃ M : Mat ℂ, bdgMatrix twoLevels 2 = .ok M ∧ ∀ i j, i < 4 → j < 4 → M.get i j = if i = j then (twoLevelsEval i : ℂ) else 0 := by
  refine ⟨_, rfl, ?_⟩
  intro i j hi hj
  interval_cases i <;> interval_cases j <;> simp [Mat.get, Pref.val, twoLevelsEval]

theorem twoLevels_strings : ∀ s ∈ twoLevels.basis.strs, Hopping 2 s ∨ Pairing 2 s := by
  intro s hs
  simp only [twoLevels, Basis.ofList, List.mem_cons, List.not_mem_nil, or_false] at hs
  rcases hs with rfl | rfl
  · exact Or.inl ⟨⟨rfl, rfl, by decide, by decide, by decide, by intro l hl; fin_cases hl <;> exact ⟨by decide, by decide⟩⟩, rfl, by decide⟩
  · exact Or.inl ⟨⟨rfl, rfl, by decide, by decide, by decide, by intro l hl; fin_cases hl <;> exact ⟨by decide, by decide⟩⟩, rfl, by decide⟩

theorem twoLevels_real : ∀ c ∈ twoLevels.coeffs, star c = c := by
  intro c hc
  simp only [twoLevels, List.mem_cons, List.not_mem_nil, or_false] at hc
  rcases hc with rfl | rfl <;> simp

theorem twoLevels_mulVec {M : Mat ℂ} (hM : ∀ i j, i < 4 → j < 4 → M.get i j = if i = j then (twoLevelsEval i : ℂ) else 0) (w : Fin (2 * 2) → ℂ) (i : Fin (2 * 2)) :
    (Matrix.of fun i j : Fin (2 * 2) => M.get i j).mulVec w i = (twoLevelsEval i : ℂ) * w i := by
  rw [Matrix.mulVec, dotProduct, Finset.sum_eq_single i]
  · rw [Matrix.of_apply, hM i i i.2 i.2, if_pos rfl]
  · intro j _ hj
    rw [Matrix.of_apply, hM i j i.2 j.2, if_neg (fun h => hj (Fin.ext h.symm)), zero_mul]
  · simp

theorem twoLevels_eigen {M : Mat ℂ} (hM : ∀ i j, i < 4 → j < 4 → M.get i j = if i = j then (twoLevelsEval i : ℂ) else 0) {w : Fin (2 * 2) → ℂ} {x : ℝ}
    (h : (Matrix.of fun i j : Fin (2 * 2) => M.get i j).mulVec w = (x : ℂ) • w) {i : Fin (2 * 2)} (hi : w i ≠ 0) : x = twoLevelsEval i := by
  have := congrFun h i
  rw [twoLevels_mulVec hM, Pi.smul_apply, smul_eq_mul] at this
  exact_mod_cast (mul_right_cancel₀ hi this).symm

theorem twoLevels_not_eigenvalue {M : Mat ℂ} (hM : ∀ i j, i < 4 → j < 4 → M.get i j = if i = j then (twoLevelsEval i : ℂ) else 0) {x : ℝ}
    (h : ∀ i < 4, x ≠ twoLevelsEval i) : ¬ IsEigenvalue (Matrix.of fun i j : Fin (2 * 2) => M.get i j) x := by
  rintro ⟨w, hw, he⟩
  obtain ⟨i, hi⟩ := Function.ne_iff.mp hw
  exact h i i.2 (twoLevels_eigen hM he hi)

/-- **C95 fails for `sigma > 0`**: for `n_0 + 2 n_1` and `sigma=1.5` the result is the operator `c†_0` with the energy 1, which it raises the energy by. -/
theorem C95_refuted (hnum : num.Exact) : ∃ z : ℂ, z ≠ 0 ∧ diagonalizeBdg num twoLevels 2 (some (3 / 2)) (some 1) = .ok ([1], [[z, 0]], [[0, 0]]) ∧
    ∀ {𝔸 : Type} [Ring 𝔸] [Algebra ℂ 𝔸] [StarRing 𝔸] [StarModule ℂ 𝔸] (R : MajoranaRep ℂ 𝔸 (siteLabels 2)),
      (∀ i ∈ siteLabels 2, star (R.a i) = R.a i ∧ star (R.b i) = R.b i) →
      R.bogoliubov ![z, 0] ![0, 0] = z • R.cdag 0 ∧
      twoLevels.den R.fden * R.bogoliubov ![z, 0] ![0, 0] - R.bogoliubov ![z, 0] ![0, 0] * twoLevels.den R.fden = (1 : ℂ) • R.bogoliubov ![z, 0] ![0, 0] := by
  obtain ⟨M, h1, h2, h3, h4, h5, h6⟩ := C48_bdg (K := ℂ) (n := 2) (A := twoLevels) rfl twoLevels_strings twoLevels_real
  obtain ⟨M', h1', hM⟩ := twoLevels_matrix
  obtain rfl : M = M' := by rw [h1] at h1'; exact Except.ok.inj h1'
  have hσ : ¬ IsEigenvalue (Matrix.of fun i j : Fin (2 * 2) => M.get i j) (3 / 2) := twoLevels_not_eigenvalue hM (by
    intro i hi; interval_cases i <;> norm_num [twoLevelsEval])
  obtain ⟨r, r1, r2, r3, r4⟩ := (shifted_ok hnum h3 h4 (k := 1) ⟨by norm_num, by norm_num⟩ (σ := 3 / 2)).2 hσ
  obtain ⟨p, rfl⟩ := List.length_eq_one_iff.mp r2
  have hp := r3 p (by simp)
  have hnorm : ∑ i, ‖p.2 i‖ ^ 2 = 1 := r4.orthonormal.1 p.2 (by simp)
  -- the first component is not zero
  have hz : p.2 0 ≠ 0 := by
    intro hz
    obtain ⟨i, hi⟩ : ∃ i, p.2 i ≠ 0 := by
      by_contra h
      push Not at h
      simp [h] at hnorm
    have hx := twoLevels_eigen hM hp hi
    have hi0 : i ≠ 0 := fun h => hi (h ▸ hz)
    have hu := isUnit_sub_of_not_eigenvalue hσ
    have hinv : ((Matrix.of fun i j : Fin (2 * 2) => M.get i j) - ((3 / 2 : ℝ) : ℂ) • 1)⁻¹.mulVec (Pi.single 0 1) = (-2 : ℂ) • Pi.single 0 1 := by
      have : ((Matrix.of fun i j : Fin (2 * 2) => M.get i j) - ((3 / 2 : ℝ) : ℂ) • 1).mulVec ((-2 : ℂ) • Pi.single 0 1) = Pi.single 0 1 := by
        funext j
        rw [Matrix.sub_mulVec, Pi.sub_apply, twoLevels_mulVec hM, Matrix.smul_mulVec, Matrix.one_mulVec]
        fin_cases j <;> norm_num [twoLevelsEval, Pi.single_apply]
      rw [← this, Matrix.mulVec_mulVec, Matrix.nonsing_inv_mul _ hu, Matrix.one_mulVec]
      rw [this]
    have hb := r4.lowest (1 / (p.1 - 3 / 2), p.2) (by simp) (Pi.single 0 1) (by simp [hz, Pi.single_apply])
    rw [hinv] at hb
    have e1 : (∑ j : Fin (2 * 2), star ((Pi.single 0 1 : Fin (2 * 2) → ℂ) j) * ((-2 : ℂ) • (Pi.single 0 1 : Fin (2 * 2) → ℂ)) j).re = -2 := by
      simp [Pi.single_apply]
    have e2 : ∑ j : Fin (2 * 2), ‖(Pi.single 0 1 : Fin (2 * 2) → ℂ) j‖ ^ 2 = 1 := by
      rw [Finset.sum_eq_single 0] <;> simp +contextual [Pi.single_apply]
    rw [e1, e2, mul_one, hx] at hb
    fin_cases i
    · exact hi0 rfl
    all_goals norm_num [twoLevelsEval] at hb
  have hx : p.1 = 1 := by have := twoLevels_eigen hM hp hz; simpa [twoLevelsEval] using this
  have hother : ∀ i : Fin (2 * 2), i ≠ 0 → p.2 i = 0 := by
    intro i hi
    by_contra h
    have := twoLevels_eigen hM hp h
    rw [hx] at this
    fin_cases i
    · exact hi rfl
    all_goals norm_num [twoLevelsEval] at this
  obtain ⟨ps, s1, s2, s3⟩ := sortEigenpairs_ok hnum.argsort ([p].map fun p => (p.1, p.2 ∘ finCongr h3))
  have hps : ps = [(p.1, p.2 ∘ finCongr h3)] := List.perm_singleton.mp s2.symm
  refine ⟨p.2 0, hz, ?_, fun R hR => ?_⟩
  · rw [diagonalizeBdg, h1]
    simp only [bind, Except.bind, Eigensolvers.nambu, r1, s1]
    rw [hps]
    have hof : List.ofFn (p.2 ∘ finCongr h3) = [p.2 0, 0, 0, 0] := by
      rw [ofFn_finCongr]
      show [p.2 0, p.2 1, p.2 2, p.2 3] = _
      rw [hother 1 (by decide), hother 2 (by decide), hother 3 (by decide)]
    simp [hof, hx]
  · have hb := bogoliubov_eq R p.2
    have hu : (fun i : Fin 2 => p.2 ⟨i, by omega⟩) = ![p.2 0, 0] := by
      funext i; fin_cases i
      · rfl
      · exact hother 1 (by decide)
    have hv : (fun i : Fin 2 => p.2 ⟨2 + i, by omega⟩) = ![0, 0] := by
      funext i; fin_cases i
      · exact hother 2 (by decide)
      · exact hother 3 (by decide)
    rw [hu, hv] at hb
    refine ⟨by simp [MajoranaRep.bogoliubov, Fin.sum_univ_two], ?_⟩
    have hbr := bdg_bracket R h4 h5 (1 / 2 * ∑ i ∈ Finset.range 2, M.get i i) p.2
    rw [← h6 R hR, r3 p (by simp), Ring.lie_def, ← hb] at hbr
    rw [hbr, hb, hx, Complex.ofReal_one, one_smul, one_smul]

/-! ### The hypotheses can be met -/

example : ∃ (num : Eigensolvers) (e : ℝ) (u v : List ℂ), num.Exact ∧ 0 < e ∧ diagonalizeBdg num twoLevels 2 (some 0) (some 1) = .ok ([e], [u], [v]) := by
  obtain ⟨num, hnum⟩ := exists_exactEigensolvers
  obtain ⟨M, h1, -, h2⟩ := C95_zero hnum (n := 2) (A := twoLevels) rfl twoLevels_strings twoLevels_real (k := 1) ⟨by norm_num, by norm_num⟩
  obtain ⟨M', h1', hM⟩ := twoLevels_matrix
  obtain rfl : M = M' := by rw [h1] at h1'; exact Except.ok.inj h1'
  obtain ⟨pairs, p1, p2, p3, -⟩ := h2 (twoLevels_not_eigenvalue hM (by intro i hi; interval_cases i <;> norm_num [twoLevelsEval]))
  obtain ⟨p, rfl⟩ := List.length_eq_one_iff.mp p2
  exact ⟨num, p.1, _, _, hnum, p3 p (by simp), p1⟩

end Qosy
