import Verif.Props.Counting
import Verif.Props.EnergyArithmetic

/-! # C123: the energies of sums of anticommuting strings -/

namespace Qosy
variable {n : ℕ} {num : Eigensolvers}

private theorem anticomm_den {𝔸 : Type} [Ring 𝔸] [Algebra ℂ 𝔸] {den : OpString → 𝔸} {x : OpString} : ∀ ts : List (ℂ × OpString),
    (∀ t ∈ ts, den x * den t.2 + den t.2 * den x = 0) → den x * denT den ts + denT den ts * den x = 0
  | [], _ => by simp [denT]
  | a :: ts, h => by
    have ih := anticomm_den ts fun t ht => h t (List.mem_cons_of_mem _ ht)
    have h1 := h a List.mem_cons_self
    rw [denT_cons, mul_add, add_mul, mul_smul_comm, smul_mul_assoc]
    calc _ = a.1 • (den x * den a.2 + den a.2 * den x) + (den x * denT den ts + denT den ts * den x) := by rw [smul_add]; abel
      _ = 0 := by rw [h1, ih, smul_zero, add_zero]

private theorem square_den {𝔸 : Type} [Ring 𝔸] [Algebra ℂ 𝔸] {den : OpString → 𝔸} : ∀ ts : List (ℂ × OpString), (∀ t ∈ ts, den t.2 * den t.2 = 1) →
    ts.Pairwise (fun a b => den a.2 * den b.2 + den b.2 * den a.2 = 0) → denT den ts * denT den ts = (ts.map fun t => t.1 * t.1).sum • (1 : 𝔸)
  | [], _, _ => by simp [denT]
  | a :: ts, hsq, h => by
    obtain ⟨h1, h2⟩ := List.pairwise_cons.mp h
    have ih := square_den ts (fun t ht => hsq t (List.mem_cons_of_mem _ ht)) h2
    have h3 := anticomm_den ts h1
    rw [denT_cons, List.map_cons, List.sum_cons, add_smul, ← ih, ← hsq a List.mem_cons_self]
    rw [add_mul, mul_add, mul_add, smul_mul_smul_comm, smul_mul_assoc, mul_smul_comm]
    calc _ = (a.1 * a.1) • (den a.2 * den a.2) + a.1 • (den a.2 * denT den ts + denT den ts * den a.2) + denT den ts * denT den ts := by rw [smul_add]; abel
      _ = _ := by rw [h3, smul_zero, add_zero]

private theorem sum_signed {N : ℝ} (hN : 0 < N) : ∀ es : List ℝ, (∀ E ∈ es, |E| = N) → es.sum = N * ((es.count N : ℝ) - es.count (-N))
  | [], _ => by simp
  | E :: es, h => by
    have ih := sum_signed hN es fun x hx => h x (List.mem_cons_of_mem _ hx)
    have hne : N ≠ -N := by linarith
    rcases eq_or_eq_neg_of_abs_eq (h E List.mem_cons_self) with rfl | rfl
    · rw [List.sum_cons, ih, List.count_cons_self, List.count_cons_of_ne hne]
      push_cast; ring
    · rw [List.sum_cons, ih, List.count_cons_self, List.count_cons_of_ne hne.symm]
      push_cast; ring

/-- **C123**: let `A` be a sum of Pauli or Majorana strings with real coefficients whose strings anticommute pairwise: the number of anticommuting pairs of
letters is odd.  All energies of `diagonalize` are `norm()` or `-norm()`, and if the identity is not among the strings both occur equally often. -/
theorem C123_energies (hnum : num.Exact) {A : Operator ℂ} (hA : RealOperator n A)
    (hanti : ∀ s ∈ A.basis.strs, ∀ u ∈ A.basis.strs, s ≠ u → Odd (anticommutingPairs A.opType s u)) :
    ∃ es, HasEnergies num A n none es ∧ (∀ E ∈ es, |E| = A.norm .l2) ∧
      (identityString A.opType ∉ A.basis.strs → es.count (A.norm .l2) = es.count (-A.norm .l2)) := by
  obtain ⟨R, r1, r2, r3, r4, r5, r6, r7⟩ := realOperator_on hA
  obtain ⟨es, e1, e2, -, -⟩ := C113_coefficients hnum hA
  obtain ⟨p, c, vecs, h1, -, -, h4, -, -, h7, -⟩ := C81_energies hnum r6.wf r6.mem r6.convertible r6.hermitian (numVecs := none) (by simp)
  have hes : es = p.map Prod.fst := by
    obtain ⟨⟨v, hv⟩, -⟩ := e1
    rw [h1] at hv
    simp only [Except.ok.injEq, Prod.mk.injEq] at hv
    refine List.map_injective_iff.mpr Complex.ofReal_injective ?_
    rw [← hv.1, List.map_map]
    exact List.map_congr_left fun x _ => by simp [h7 r7]
  have typed : ∀ s ∈ A.basis.strs, TypedString A.opType (siteLabels n) s := fun s hs => by
    rcases hA.1 with h | h
    · exact Or.inl ⟨h.type, (h.mem s hs).1⟩
    · exact Or.inr ⟨h.type, (h.mem s hs).1⟩
  have anti : ∀ s ∈ A.basis.strs, ∀ u ∈ A.basis.strs, s ≠ u → R.den s * R.den u + R.den u * R.den s = 0 := fun s hs u hu hne => by
    have k := (C122_strings (K := ℂ) (typed s hs) (typed u hu)).2.mpr (hanti s hs u hu hne)
    rcases R.op_string .anticommutator (r2 s hs).1 (r2 u hu).1 with k' | ⟨c, C, k', -⟩
    · exact k'.2
    · rw [show (operationOpString .anticommutator s u : Py (ℂ × Option OpString)) = .ok (0, none) from k] at k'
      simp at k'
  have hsnd : A.terms.map Prod.snd = A.basis.strs := List.map_snd_zip (le_of_eq r6.wf.len.symm)
  have hfst : A.terms.map Prod.fst = A.coeffs := List.map_fst_zip (le_of_eq r6.wf.len)
  have hpw : A.terms.Pairwise fun a b => R.den a.2 * R.den b.2 + R.den b.2 * R.den a.2 = 0 := by
    have hn : (A.terms.map Prod.snd).Pairwise (· ≠ ·) := by rw [hsnd]; exact r6.wf.basis.2
    rw [List.pairwise_map] at hn
    exact hn.imp_of_mem fun ha hb hne => anti _ (mem_terms ha) _ (mem_terms hb) hne
  have hsq := square_den A.terms (fun t ht => R.sq _ (r2 _ (mem_terms ht)).1) hpw
  have hN0 : 0 ≤ A.norm .l2 := Real.sqrt_nonneg _
  have hN : (A.terms.map fun t => t.1 * t.1).sum = ((A.norm .l2 ^ 2 : ℝ) : ℂ) := by
    rw [Operator.norm, Real.sq_sqrt (List.sum_nonneg (by
      intro x hx
      obtain ⟨y, -, rfl⟩ := List.mem_map.mp hx
      positivity)), show (fun t : ℂ × OpString => t.1 * t.1) = (fun x : ℂ => x * x) ∘ Prod.fst from rfl, ← List.map_map, hfst]
    have hr := hA.2
    generalize A.coeffs = l at hr
    induction l with
    | nil => simp
    | cons x l ih =>
      rw [List.map_cons, List.sum_cons, List.map_cons, List.sum_cons, Complex.ofReal_add, ih fun y hy => hr y (List.mem_cons_of_mem _ hy)]
      congr 1
      rw [Complex.ofReal_pow, ← Complex.conj_mul', ← Complex.star_def, hr x List.mem_cons_self]
  have habs : ∀ E ∈ es, |E| = A.norm .l2 := by
    intro E hE
    rw [hes] at hE
    obtain ⟨q, hq, rfl⟩ := List.mem_map.mp hE
    have k := h4.eigen q hq
    rw [r1] at k
    have hu := h4.orthonormal.1 q.2 (List.mem_map_of_mem hq)
    have k2 : ((q.1 : ℂ) * q.1) • q.2 = ((A.norm .l2 ^ 2 : ℝ) : ℂ) • q.2 := by
      have : (A.den R.den * A.den R.den).mulVec q.2 = ((q.1 : ℂ) * q.1) • q.2 := by
        rw [← Matrix.mulVec_mulVec, k, Matrix.mulVec_smul, k, smul_smul]
      rw [← this, show A.den R.den * A.den R.den = _ from hsq, hN, Matrix.smul_mulVec, Matrix.one_mulVec]
    have hne : q.2 ≠ 0 := fun h0 => by
      rw [h0] at hu
      simp at hu
    have k3 := smul_left_injective ℂ hne k2
    have k4 : q.1 * q.1 = A.norm .l2 ^ 2 := by exact_mod_cast k3
    rw [← abs_of_nonneg hN0, ← sq_eq_sq_iff_abs_eq_abs, ← k4, pow_two]
  refine ⟨es, e1, habs, fun hid => ?_⟩
  rcases hN0.eq_or_lt with h0 | hpos
  · rw [← h0, neg_zero]
  · have hs := sum_signed hpos es habs
    have hz : A.coef (identityString A.opType) = 0 := coefT_of_not_mem (by rw [hsnd]; exact hid)
    rw [hz, mul_zero, Complex.ofReal_eq_zero] at e2
    rw [e2] at hs
    have := (mul_eq_zero.mp hs.symm).resolve_left hpos.ne'
    exact_mod_cast sub_eq_zero.mp this

/-- the four energies of `X_0 Z_1 + 2 Z_0` are `√5` and `-√5`, equally often -/
example : ∃ (num : Eigensolvers) (es : List ℝ), num.Exact ∧ HasEnergies num twoSpins 2 none es ∧ es.length = 4 ∧ (∀ E ∈ es, |E| = √5) ∧ es.count √5 = es.count (-√5) := by
  obtain ⟨num, hnum⟩ := exists_exactEigensolvers
  have hN : twoSpins.norm .l2 = √5 := by
    rw [Operator.norm]
    congr 1
    simp [twoSpins]
    norm_num
  obtain ⟨es, h1, h2, h3⟩ := C123_energies hnum twoSpins_real (by
    simp only [twoSpins, Basis.ofList]
    decide)
  rw [hN] at h2 h3
  exact ⟨num, es, hnum, h1, h1.2.1, h2, h3 (by simp only [twoSpins, Basis.ofList]; decide)⟩

end Qosy
