import Verif.Lemmas.GeneratorCumulative

/-!
# What the default options make of three coefficients with sum zero

`sparsify` with and then without orthogonalization turns any orthonormal basis of `{v : v_0 + v_1 + v_2 = 0}` into multiples of
`e_a - e_c` and `e_b - e_c`, which are not orthogonal.
-/

namespace Qosy

/-- the vectors with sum zero -/
theorem sum_zero_three (v : Fin 3 → ℂ) (σ : Equiv.Perm (Fin 3)) (h : v 0 + v 1 + v 2 = 0) : v (σ 0) + v (σ 1) + v (σ 2) = 0 := by
  have h1 : ∑ i, v (σ i) = ∑ i, v i := Equiv.sum_comp σ v
  rw [Fin.sum_univ_three, Fin.sum_univ_three, h] at h1
  exact h1

theorem fin_three_perm (σ : Equiv.Perm (Fin 3)) (i : Fin 3) : i = σ 0 ∨ i = σ 1 ∨ i = σ 2 := by
  obtain ⟨k, rfl⟩ := σ.surjective i
  fin_cases k <;> simp

theorem sort_two {argsort : List ℕ → List ℕ} (hsort : IsSort argsort) {a b : ℕ} (h : a < b) : argsort [a, b] = [0, 1] := by
  obtain ⟨h1, h2⟩ := hsort [a, b]
  have h1' : (argsort [a, b]).Perm [0, 1] := h1
  obtain ⟨i, j, e⟩ : ∃ i j, argsort [a, b] = [i, j] := List.length_eq_two.mp h1'.length_eq
  rw [e] at h1' h2 ⊢
  have hi : i = 0 ∨ i = 1 := by simpa using h1'.mem_iff.mp (List.mem_cons_self ..)
  have hj : j = 0 ∨ j = 1 := by simpa using h1'.mem_iff.mp (List.mem_cons_of_mem _ (List.mem_cons_self ..))
  have hn : i ≠ j := by simpa using h1'.nodup_iff.mpr (by decide)
  rcases hi with rfl | rfl <;> rcases hj with rfl | rfl
  · exact absurd rfl hn
  · rfl
  · simp at h2
    omega
  · exact absurd rfl hn

theorem finrank_sum_zero {q : List (Fin 3 → ℂ)} (hspan : ∀ v : Fin 3 → ℂ, v ∈ colSpan q ↔ v 0 + v 1 + v 2 = 0) (hi : IndependentColumns q) : q.length = 2 := by
  have h1 : IndependentColumns [(![1, -1, 0] : Fin 3 → ℂ), ![0, 1, -1]] := by
    rw [IndependentColumns, Fintype.linearIndependent_iff]
    intro g hg
    have e : ∑ i : Fin 2, g i • [(![1, -1, 0] : Fin 3 → ℂ), ![0, 1, -1]][i] = 0 := hg
    rw [Fin.sum_univ_two] at e
    have e0 := congrFun e 0
    have e2 := congrFun e 2
    simp at e0 e2
    intro i
    have : ∀ i : Fin 2, g i = 0 := by intro i; fin_cases i <;> assumption
    exact this i
  have h2 : colSpan [(![1, -1, 0] : Fin 3 → ℂ), ![0, 1, -1]] = colSpan q := by
    apply le_antisymm
    · rw [colSpan, Submodule.span_le]
      intro v hv
      simp only [List.mem_cons, List.not_mem_nil, or_false] at hv
      refine (hspan v).mpr ?_
      rcases hv with rfl | rfl <;> simp
    · intro v hv
      have h := (hspan v).mp hv
      have e : v = v 0 • (![1, -1, 0] : Fin 3 → ℂ) + (-(v 2)) • ![0, 1, -1] := by
        funext i
        fin_cases i
        · simp
        · simp; linear_combination h
        · simp
      rw [e]
      exact Submodule.add_mem _ (Submodule.smul_mem _ _ (Submodule.subset_span (by simp))) (Submodule.smul_mem _ _ (Submodule.subset_span (by simp)))
  rw [← hi.finrank, ← h2, h1.finrank]
  rfl

/-- the two columns of the LU decomposition of a basis of the vectors with sum zero -/
theorem lu_sum_zero {cols pl : List (Fin 3 → ℂ)} (h : IsPermutedLu cols pl) (hc : IndependentColumns cols)
    (hspan : ∀ v : Fin 3 → ℂ, v ∈ colSpan cols ↔ v 0 + v 1 + v 2 = 0) :
    ∃ (p0 p1 : Fin 3 → ℂ) (σ : Equiv.Perm (Fin 3)), pl = [p0, p1] ∧ p0 (σ 0) = 1 ∧ p1 (σ 0) = 0 ∧ p1 (σ 1) = 1 ∧ p1 (σ 2) = -1 ∧
      (∀ v : Fin 3 → ℂ, v ∈ colSpan pl ↔ v 0 + v 1 + v 2 = 0) ∧ IndependentColumns pl := by
  have hl := finrank_sum_zero hspan hc
  have hl' : pl.length = 2 := by rw [h.len, hl]; rfl
  have hi := h.independent
  have hs : colSpan cols = colSpan pl := by
    apply Submodule.eq_of_le_of_finrank_eq h.span_le
    rw [hc.finrank, hi.finrank, hl, hl']
  obtain ⟨p0, p1, rfl⟩ : ∃ p0 p1, pl = [p0, p1] := List.length_eq_two.mp hl'
  obtain ⟨σ, hσ⟩ := h.lower
  have a : p0 (σ 0) = 1 := by simpa using hσ 0 0 (by decide) (by simp) le_rfl
  have b : p1 (σ 0) = 0 := by simpa using hσ 0 1 (by decide) (by simp) (by decide)
  have c : p1 (σ 1) = 1 := by simpa using hσ 1 1 (by decide) (by simp) le_rfl
  have hm : p1 0 + p1 1 + p1 2 = 0 := by
    rw [← hspan, hs]
    exact Submodule.subset_span (by simp)
  have d := sum_zero_three p1 σ hm
  rw [b, c] at d
  refine ⟨p0, p1, σ, rfl, a, b, c, by linear_combination d, fun v => by rw [← hs]; exact hspan v, hi⟩

theorem countNonzero_lt {n : ℕ} {tol : ℝ} {v w : Fin n → ℂ} {i : Fin n} (hi : ‖v i‖ ≤ tol) (hw : ∀ j, tol < ‖w j‖) : countNonzero tol v < countNonzero tol w := by
  classical
  unfold countNonzero
  have h1 : (List.finRange n).filter (fun j => tol < ‖w j‖) = List.finRange n := by
    rw [List.filter_eq_self]
    intro j _
    simpa using hw j
  rw [h1]
  apply lt_of_le_of_ne (List.length_filter_le _ _)
  intro h
  have h2 := List.length_filter_eq_length_iff.mp h i (List.mem_finRange i)
  simp only [decide_eq_true_eq] at h2
  linarith

/-- the first call, `sparsify(vecs, orthogonalize=True)`: the first vector vanishes at one position -/
theorem sparsify_sum_zero {lu : PermutedLu} (hlu : ExactLu lu) {argsort : List ℕ → List ℕ} (hsort : IsSort argsort) {vecs : List (Fin 3 → ℂ)}
    (hv : OrthonormalColumns vecs) (hspan : ∀ v : Fin 3 → ℂ, v ∈ colSpan vecs ↔ v 0 + v 1 + v 2 = 0) :
    ∃ (g0 g1 : Fin 3 → ℂ) (a : Fin 3), sparsify lu argsort vecs true = .ok [g0, g1] ∧ OrthonormalColumns [g0, g1] ∧
      (∀ v : Fin 3 → ℂ, v ∈ colSpan [g0, g1] ↔ v 0 + v 1 + v 2 = 0) ∧ g0 a = 0 := by
  have hc := orthonormal_independent hv
  have hl := finrank_sum_zero hspan hc
  obtain ⟨p0, p1, σ, e, a, b, c, d, s, hi⟩ := lu_sum_zero (hlu 3 vecs) hc hspan
  have hrev : IndependentColumns [p1, p0] := IndependentColumns.perm (List.Perm.swap _ _ _) (e ▸ hi)
  obtain ⟨q, q1, q2, q3, q4⟩ := gramSchmidt_independent hrev
  have hq3 : ∀ v : Fin 3 → ℂ, v ∈ colSpan q ↔ v 0 + v 1 + v 2 = 0 := by
    intro v
    rw [q3, ← s, e]
    exact iff_of_eq (congrArg (v ∈ ·) (colSpan_perm (List.Perm.swap _ _ _)))
  obtain ⟨g0, g1, rfl⟩ : ∃ g0 g1, q = [g0, g1] := List.length_eq_two.mp (by rw [q4]; rfl)
  have hp1 : vnorm p1 ≠ 0 := fun h0 => hrev.ne_zero (List.mem_cons_self ..) (vnorm_eq_zero.mp h0)
  have hg0 : g0 = vdiv p1 (vnorm p1) := by
    rw [gramSchmidt] at q1
    simp only [Nat.reduceEqDiff, OfNat.ofNat_ne_zero, if_false, hp1, gsLoop] at q1
    split at q1
    · simp only [Option.some.injEq, List.singleton_append, List.cons.injEq] at q1
      exact q1.1.symm
    · simp at q1
  have g0a : g0 (σ 0) = 0 := by rw [hg0]; simp [vdiv, b]
  have g0b : g0 (σ 2) = - g0 (σ 1) := by rw [hg0]; simp [vdiv, c, d]; ring
  have g0c : g0 (σ 1) ≠ 0 := by rw [hg0]; simpa [vdiv, c] using hp1
  have hsum : ∀ v w : Fin 3 → ℂ, vdot v w = star (v (σ 0)) * w (σ 0) + star (v (σ 1)) * w (σ 1) + star (v (σ 2)) * w (σ 2) := by
    intro v w
    rw [vdot, ← Equiv.sum_comp σ, Fin.sum_univ_three]
  -- the second vector
  have hort : vdot g0 g1 = 0 := (q2 0 1 (by simp) (by simp)).trans (if_neg (by decide))
  have hun : vdot g1 g1 = 1 := (q2 1 1 (by simp) (by simp)).trans (if_pos rfl)
  have hs1 := sum_zero_three g1 σ ((hq3 g1).mp (Submodule.subset_span (by simp)))
  rw [hsum, g0a, g0b] at hort
  have hyz : g1 (σ 2) = g1 (σ 1) := by
    have h0 : star (g0 (σ 1)) * (g1 (σ 1) - g1 (σ 2)) = 0 := by
      rw [star_zero, star_neg] at hort
      linear_combination hort
    have := (mul_eq_zero.mp h0).resolve_left (star_ne_zero.mpr g0c)
    linear_combination -this
  have hx : g1 (σ 0) = -2 * g1 (σ 1) := by rw [hyz] at hs1; linear_combination hs1
  have hy : ‖g1 (σ 1)‖ ^ 2 = 1 / 6 := by
    rw [hsum, hyz, hx] at hun
    have h6 : (6 : ℂ) * (star (g1 (σ 1)) * g1 (σ 1)) = 1 := by
      rw [star_mul', star_neg] at hun
      have : star (2 : ℂ) = 2 := by simp
      rw [this] at hun
      linear_combination hun
    have h7 : star (g1 (σ 1)) * g1 (σ 1) = ((‖g1 (σ 1)‖ ^ 2 : ℝ) : ℂ) := by
      rw [Complex.star_def, Complex.conj_mul']; push_cast; rfl
    rw [h7] at h6
    have h8 : 6 * ‖g1 (σ 1)‖ ^ 2 = 1 := by exact_mod_cast h6
    linarith
  have hbig : ∀ j, (1 / 10 ^ 12 : ℝ) < ‖g1 j‖ := by
    have h1 : (1 / 10 ^ 12 : ℝ) < ‖g1 (σ 1)‖ := by
      by_contra hcon
      push Not at hcon
      nlinarith [norm_nonneg (g1 (σ 1))]
    intro j
    rcases fin_three_perm σ j with rfl | rfl | rfl
    · rw [hx, norm_mul, norm_neg]
      have : ‖(2 : ℂ)‖ = 2 := by simp
      rw [this]
      linarith [norm_nonneg (g1 (σ 1))]
    · exact h1
    · rw [hyz]; exact h1
  refine ⟨g0, g1, σ 0, ?_, q2, hq3, g0a⟩
  have hun : ∀ v ∈ [g0, g1], vnorm v = 1 := fun v hv => q2.unit hv
  have hne : ∀ v ∈ [g0, g1], v ≠ 0 := fun v hv h0 => by have := hun v hv; rw [h0, vnorm_eq_zero.mpr rfl] at this; exact zero_ne_one this
  unfold sparsify sparsifyLu
  rw [if_neg (by rw [hl]; decide)]
  simp only [e, List.reverse_cons, List.reverse_nil, List.nil_append, List.singleton_append, if_true, q1, bind, Except.bind, hl]
  rw [if_neg (by simp)]
  simp only [show ([g0, g1] : List (Fin 3 → ℂ)).take 2 = [g0, g1] from rfl]
  rw [mapM_normalize hne, map_normalize_unit hun]
  simp only [List.map_cons, List.map_nil]
  rw [sort_two hsort (countNonzero_lt (i := σ 0) (by rw [g0a, norm_zero]; positivity) hbig)]
  rfl

/-- **the default options**: multiples of `e_a - e_c` and `e_b - e_c`, in some order -/
theorem chosenVectors_sum_zero {lu : PermutedLu} (hlu : ExactLu lu) {argsort : List ℕ → List ℕ} (hsort : IsSort argsort) {vecs : List (Fin 3 → ℂ)}
    (hv : OrthonormalColumns vecs) (hspan : ∀ v : Fin 3 → ℂ, v ∈ colSpan vecs ↔ v 0 + v 1 + v 2 = 0) :
    ∃ (q : List (Fin 3 → ℂ)) (a b c : Fin 3) (α β : ℂ), chosenVectors lu argsort true false vecs = .ok q ∧ a ≠ b ∧ a ≠ c ∧ b ≠ c ∧
      q.Perm [α • (Pi.single a 1 - Pi.single c 1), β • (Pi.single b 1 - Pi.single c 1)] ∧ (∀ v ∈ q, vnorm v = 1) := by
  obtain ⟨g0, g1, a, s1, s2, s3, g0a⟩ := sparsify_sum_zero hlu hsort hv hspan
  have hc := orthonormal_independent s2
  obtain ⟨p0, p1, σ, e, x0, x1, x2, x3, s, hi⟩ := lu_sum_zero (hlu 3 [g0, g1]) hc s3
  obtain ⟨U, u1, u2⟩ := (show IsPermutedLu [g0, g1] [p0, p1] from e ▸ hlu 3 [g0, g1]).upper
  have hp0 : p0 a = 0 := by
    have h0 := u2 0 (by simp)
    have h0' : g0 = ∑ i : Fin 2, U i 0 • [p0, p1][i] := h0
    rw [Fin.sum_univ_two] at h0'
    have e10 : U 1 0 = 0 := u1 1 0 (by decide)
    simp only [Fin.val_zero, Fin.val_one, e10, zero_smul, add_zero] at h0'
    have hU : U 0 0 ≠ 0 := by
      intro hz
      apply hc.ne_zero (List.mem_cons_self ..)
      rw [h0', hz, zero_smul]
    have h1 := congrFun h0' a
    rw [g0a] at h1
    have h2 : U 0 0 * p0 a = 0 := h1.symm
    exact (mul_eq_zero.mp h2).resolve_left hU
  have hab : a ≠ σ 0 := fun h => by rw [← h, hp0] at x0; exact zero_ne_one x0
  obtain ⟨c, hca, hcb⟩ : ∃ c : Fin 3, a ≠ c ∧ σ 0 ≠ c := by
    have : ∀ a b : Fin 3, ∃ c : Fin 3, a ≠ c ∧ b ≠ c := by decide
    exact this a (σ 0)
  obtain ⟨b, hb⟩ : ∃ b, b = σ 0 := ⟨_, rfl⟩
  rw [← hb] at x0 x1 hab hcb
  have hall : ∀ i : Fin 3, i = a ∨ i = b ∨ i = c := by
    have : ∀ a b c : Fin 3, a ≠ b → a ≠ c → b ≠ c → ∀ i : Fin 3, i = a ∨ i = b ∨ i = c := by decide
    exact this a b c hab hca hcb
  have hsum : ∀ v : Fin 3 → ℂ, v 0 + v 1 + v 2 = 0 → v a + v b + v c = 0 := by
    intro v h
    have key : ∀ a b c : Fin 3, a ≠ b → a ≠ c → b ≠ c → (a = 0 ∧ b = 1 ∧ c = 2) ∨ (a = 0 ∧ b = 2 ∧ c = 1) ∨ (a = 1 ∧ b = 0 ∧ c = 2) ∨
      (a = 1 ∧ b = 2 ∧ c = 0) ∨ (a = 2 ∧ b = 0 ∧ c = 1) ∨ (a = 2 ∧ b = 1 ∧ c = 0) := by decide
    rcases key a b c hab hca hcb with ⟨rfl, rfl, rfl⟩ | ⟨rfl, rfl, rfl⟩ | ⟨rfl, rfl, rfl⟩ | ⟨rfl, rfl, rfl⟩ | ⟨rfl, rfl, rfl⟩ | ⟨rfl, rfl, rfl⟩ <;> linear_combination h
  have k0 := hsum p0 ((s p0).mp (e ▸ Submodule.subset_span (by simp)))
  have k1 := hsum p1 ((s p1).mp (e ▸ Submodule.subset_span (by simp)))
  have e0 : p0 = Pi.single b 1 - Pi.single c 1 := by
    funext i
    rcases hall i with rfl | rfl | rfl
    · simp [hp0, hab, hca]
    · simp [x0, hcb]
    · have : p0 i = -1 := by rw [hp0, x0] at k0; linear_combination k0
      simp [this, hcb.symm]
  have e1 : p1 = p1 a • (Pi.single a 1 - Pi.single c 1) := by
    funext i
    rcases hall i with rfl | rfl | rfl
    · simp [hca]
    · simp [x1, hab.symm, hcb]
    · have : p1 i = - p1 a := by rw [x1] at k1; linear_combination k1
      simp [this, hca.symm]
  have hrev : IndependentColumns [p1, p0] := IndependentColumns.perm (List.Perm.swap _ _ _) (e ▸ hi)
  have hne : ∀ v ∈ [p1, p0], v ≠ 0 := fun v hv => hrev.ne_zero hv
  obtain ⟨q, q1, q2, -⟩ := mapM_pyGet_perm (l := [vdiv p1 (vnorm p1), vdiv p0 (vnorm p0)])
    (hsort ([vdiv p1 (vnorm p1), vdiv p0 (vnorm p0)].map (countNonzero (1 / 10 ^ 12)))).1
  refine ⟨q, a, b, c, (vnorm p1 : ℂ)⁻¹ * p1 a, (vnorm p0 : ℂ)⁻¹, ?_, hab, hca, hcb, ?_, ?_⟩
  · unfold chosenVectors
    simp only [if_true, s1, bind, Except.bind, Bool.false_eq_true, if_false]
    unfold sparsify sparsifyLu
    rw [if_neg (by simp)]
    simp only [e, List.reverse_cons, List.reverse_nil, List.nil_append, List.singleton_append, Bool.false_eq_true, if_false, bind, Except.bind]
    rw [if_neg (by simp)]
    simp only [List.length_cons, List.length_nil, List.take_succ_cons, List.take_zero, List.take_nil]
    rw [mapM_normalize hne]
    exact q1
  · refine q2.trans (List.Perm.of_eq ?_)
    rw [vdiv_eq, vdiv_eq, mul_smul, ← e1, ← e0]
  · intro v hv
    have := q2.mem_iff.mp hv
    simp only [List.mem_cons, List.not_mem_nil, or_false] at this
    rcases this with rfl | rfl
    · exact vnorm_vdiv (hne _ (by simp))
    · exact vnorm_vdiv (hne _ (by simp))

end Qosy
