import Verif.Lemmas.Energies
import Verif.Lemmas.Spectrum
import Mathlib.Analysis.InnerProductSpace.Basic
import Mathlib.Algebra.Order.BigOperators.Ring.Finset

/-! # Lemmas: the energies of sums and multiples of operators -/

namespace Qosy
variable {ι : Type} [Fintype ι] [DecidableEq ι]

/-- the eigenvalues of a sum of Hermitian matrices are at least the sums of eigenvalues of the matrices (Weyl) -/
theorem LowestEigenpairs.weyl {D E : Matrix ι ι ℂ} (hD : D.IsHermitian) (hE : E.IsHermitian) {r s q : List (ℝ × (ι → ℂ))} (hr : LowestEigenpairs D r)
    (hs : LowestEigenpairs E s) (hq : LowestEigenpairs (D + E) q) (hrs : r.Pairwise fun p q => p.1 ≤ q.1) (hss : s.Pairwise fun p q => p.1 ≤ q.1)
    (hqs : q.Pairwise fun p q => p.1 ≤ q.1) {i₀ j : ℕ} (hir : i₀ < r.length) (hjs : j < s.length) (hjq : i₀ + j < q.length) : r[i₀].1 + s[j].1 ≤ q[i₀ + j].1 := by
  -- a combination of the first `i₀ + j + 1` vectors of `q` orthogonal to the first `i₀` vectors of `r` and the first `j` vectors of `s`
  have hqi : ∀ i : Fin (i₀ + j + 1), (i : ℕ) < q.length := fun i => by omega
  let f : (Fin (i₀ + j + 1) → ℂ) →ₗ[ℂ] (Fin i₀ ⊕ Fin j → ℂ) :=
    { toFun := fun c k => ∑ x, star ((Sum.elim (fun k : Fin i₀ => (r[(k : ℕ)]'(by omega)).2) (fun k : Fin j => (s[(k : ℕ)]'(by omega)).2) k) x) *
        ∑ i : Fin (i₀ + j + 1), c i * (q[(i : ℕ)]'(hqi i)).2 x
      map_add' := fun c d => by
        funext k
        simp only [Pi.add_apply, add_mul, Finset.sum_add_distrib, mul_add]
      map_smul' := fun a c => by
        funext k
        simp only [Pi.smul_apply, smul_eq_mul, RingHom.id_apply, Finset.mul_sum]
        exact Finset.sum_congr rfl fun x _ => Finset.sum_congr rfl fun i _ => by ring }
  have hk : LinearMap.ker f ≠ ⊥ := LinearMap.ker_ne_bot_of_finrank_lt (by simp)
  obtain ⟨c, hc, hc0⟩ := Submodule.exists_mem_ne_zero_of_ne_bot hk
  let u : ι → ℂ := fun x => ∑ i : Fin (i₀ + j + 1), c i * (q[(i : ℕ)]'(hqi i)).2 x
  have hb1 := hr.minmax hD hrs hir u (fun v hv => by
    obtain ⟨p, hp, rfl⟩ := List.mem_map.mp hv
    obtain ⟨k, hk, rfl⟩ := List.mem_iff_getElem.mp hp
    have hkj : k < i₀ := by
      rw [List.length_take] at hk
      omega
    rw [List.getElem_take]
    exact congrFun (LinearMap.mem_ker.mp hc) (Sum.inl ⟨k, hkj⟩))
  have hb2 := hs.minmax hE hss hjs u (fun v hv => by
    obtain ⟨p, hp, rfl⟩ := List.mem_map.mp hv
    obtain ⟨k, hk, rfl⟩ := List.mem_iff_getElem.mp hp
    have hkj : k < j := by
      rw [List.length_take] at hk
      omega
    rw [List.getElem_take]
    exact congrFun (LinearMap.mem_ker.mp hc) (Sum.inr ⟨k, hkj⟩))
  have hb : (r[i₀].1 + s[j].1) * ∑ x, ‖u x‖ ^ 2 ≤ (∑ x, star (u x) * (D + E).mulVec u x).re := by
    rw [add_mul]
    refine (add_le_add hb1 hb2).trans (le_of_eq ?_)
    rw [← Complex.add_re, ← Finset.sum_add_distrib]
    congr 1
    exact Finset.sum_congr rfl fun x _ => by rw [Matrix.add_mulVec, Pi.add_apply, mul_add]
  have hfam : ∀ i i' : Fin (i₀ + j + 1), ∑ x, star ((q[(i : ℕ)]'(hqi i)).2 x) * (q[(i' : ℕ)]'(hqi i')).2 x = if i = i' then 1 else 0 := by
    intro i i'
    have := hq.orthonormal.family ⟨i, hqi i⟩ ⟨i', hqi i'⟩
    simpa [Fin.ext_iff] using this
  have hDu : (D + E).mulVec u = fun x => ∑ i : Fin (i₀ + j + 1), ((q[(i : ℕ)]'(hqi i)).1 : ℂ) * c i * (q[(i : ℕ)]'(hqi i)).2 x := by
    have e : u = ∑ i : Fin (i₀ + j + 1), c i • (q[(i : ℕ)]'(hqi i)).2 := by
      funext x
      simp [u, Finset.sum_apply]
    rw [e, Matrix.mulVec_sum]
    funext x
    rw [Finset.sum_apply]
    refine Finset.sum_congr rfl fun i _ => ?_
    rw [Matrix.mulVec_smul, hq.eigen _ (List.getElem_mem _)]
    simp only [Pi.smul_apply, smul_eq_mul]
    ring
  have hform : ∀ d : Fin (i₀ + j + 1) → ℂ, ∑ x, star (u x) * ∑ i : Fin (i₀ + j + 1), d i * (q[(i : ℕ)]'(hqi i)).2 x = ∑ i, star (c i) * d i := by
    intro d
    have e : ∀ x, star (u x) * ∑ i : Fin (i₀ + j + 1), d i * (q[(i : ℕ)]'(hqi i)).2 x =
        ∑ i' : Fin (i₀ + j + 1), ∑ i : Fin (i₀ + j + 1), star (c i') * d i * (star ((q[(i' : ℕ)]'(hqi i')).2 x) * (q[(i : ℕ)]'(hqi i)).2 x) := by
      intro x
      rw [show star (u x) = ∑ i' : Fin (i₀ + j + 1), star (c i' * (q[(i' : ℕ)]'(hqi i')).2 x) from star_sum _ _, Finset.sum_mul_sum]
      refine Finset.sum_congr rfl fun i' _ => Finset.sum_congr rfl fun i _ => ?_
      rw [star_mul']
      ring
    rw [Finset.sum_congr rfl fun x _ => e x, Finset.sum_comm]
    refine Finset.sum_congr rfl fun i' _ => ?_
    rw [Finset.sum_comm]
    simp only [← Finset.mul_sum, hfam]
    simp
  have hn : ∑ x, ‖u x‖ ^ 2 = ∑ i, ‖c i‖ ^ 2 := by
    have e : ∀ z : ℂ, star z * z = ((‖z‖ ^ 2 : ℝ) : ℂ) := fun z => by
      rw [Complex.star_def, Complex.conj_mul', Complex.ofReal_pow]
    have := hform c
    simp only [e] at this
    have h1 : ∑ x, ((‖u x‖ ^ 2 : ℝ) : ℂ) = ∑ i, ((‖c i‖ ^ 2 : ℝ) : ℂ) := by
      rw [← this]
      exact Finset.sum_congr rfl fun x _ => (e (u x)).symm
    exact_mod_cast h1
  have hE' : (∑ x, star (u x) * (D + E).mulVec u x).re = ∑ i : Fin (i₀ + j + 1), (q[(i : ℕ)]'(hqi i)).1 * ‖c i‖ ^ 2 := by
    rw [hDu, hform, Complex.re_sum]
    refine Finset.sum_congr rfl fun i _ => ?_
    rw [show star (c i) * (((q[(i : ℕ)]'(hqi i)).1 : ℂ) * c i) = (((q[(i : ℕ)]'(hqi i)).1 * ‖c i‖ ^ 2 : ℝ) : ℂ) by
      rw [mul_left_comm, Complex.star_def, Complex.conj_mul']
      push_cast
      rfl, Complex.ofReal_re]
  rw [hE', hn] at hb
  have hle : ∑ i : Fin (i₀ + j + 1), (q[(i : ℕ)]'(hqi i)).1 * ‖c i‖ ^ 2 ≤ q[i₀ + j].1 * ∑ i, ‖c i‖ ^ 2 := by
    rw [Finset.mul_sum]
    refine Finset.sum_le_sum fun i _ => mul_le_mul_of_nonneg_right ?_ (by positivity)
    rcases Nat.lt_or_ge i (i₀ + j) with h | h
    · exact List.pairwise_iff_getElem.mp hqs i (i₀ + j) (hqi i) hjq h
    · have : (i : ℕ) = i₀ + j := by omega
      simp only [this]
      exact le_rfl
  have hpos : 0 < ∑ i, ‖c i‖ ^ 2 := by
    obtain ⟨i, hi⟩ := Function.ne_iff.mp hc0
    exact Finset.sum_pos' (fun _ _ => by positivity) ⟨i, Finset.mem_univ _, by have : c i ≠ 0 := hi; positivity⟩
  exact le_of_mul_le_mul_right (hb.trans hle) hpos

/-- multiples with a non-negative number -/
theorem LowestEigenpairs.smul {D : Matrix ι ι ℂ} {r : List (ℝ × (ι → ℂ))} (h : LowestEigenpairs D r) {x : ℝ} (hx : 0 ≤ x) :
    LowestEigenpairs ((x : ℂ) • D) (r.map fun p => (x * p.1, p.2)) where
  orthonormal := by rw [List.map_map]; exact h.orthonormal
  eigen := by
    intro p' hp'
    obtain ⟨p, hp, rfl⟩ := List.mem_map.mp hp'
    rw [Matrix.smul_mulVec, h.eigen p hp, smul_smul, Complex.ofReal_mul]
  lowest := by
    intro p' hp'
    obtain ⟨p, hp, rfl⟩ := List.mem_map.mp hp'
    rw [List.map_map]
    intro u hu
    have := mul_le_mul_of_nonneg_left (h.lowest p hp u hu) hx
    have e : ∑ i, star (u i) * (((x : ℂ) • D).mulVec u) i = (x : ℂ) * ∑ i, star (u i) * (D.mulVec u) i := by
      rw [Finset.mul_sum]
      exact Finset.sum_congr rfl fun i _ => by rw [Matrix.smul_mulVec, Pi.smul_apply, smul_eq_mul]; ring
    rw [e, Complex.re_ofReal_mul, mul_assoc]
    exact this

/-- the negative matrix has the negative eigenvalues in the other order -/
theorem LowestEigenpairs.neg {D : Matrix ι ι ℂ} {r : List (ℝ × (ι → ℂ))} (h : LowestEigenpairs D r)
    (hfull : ∀ u : ι → ℂ, (∀ p ∈ r, ∑ i, star (p.2 i) * u i = 0) → u = 0) : LowestEigenpairs (-D) (r.map fun p => (-p.1, p.2)).reverse where
  orthonormal := by
    have e : ((r.map fun p => (-p.1, p.2)).reverse.map Prod.snd) = (r.map Prod.snd).reverse := by rw [List.map_reverse, List.map_map]; rfl
    rw [e]
    refine ⟨fun v hv => h.orthonormal.1 v (List.mem_reverse.mp hv), List.pairwise_reverse.mpr (h.orthonormal.2.imp fun {v w} hvw => ?_)⟩
    have := congrArg star hvw
    rw [star_sum, star_zero] at this
    rw [← this]
    exact Finset.sum_congr rfl fun i _ => by rw [star_mul', star_star, mul_comm]
  eigen := by
    intro p' hp'
    obtain ⟨p, hp, rfl⟩ := List.mem_map.mp (List.mem_reverse.mp hp')
    rw [Matrix.neg_mulVec, h.eigen p hp, Complex.ofReal_neg, neg_smul]
  lowest := by
    intro p _ u hu
    have := hfull u (fun p hp => hu _ (List.mem_map.mpr ⟨(-p.1, p.2), List.mem_reverse.mpr (List.mem_map.mpr ⟨p, hp, rfl⟩), rfl⟩))
    subst this
    simp

/-- the strings are orthogonal with respect to the trace -/
theorem StrAlg.trace_mul (R : StrAlg ℂ (Matrix ι ι ℂ)) {s t : OpString} (hs : R.Str s ∧ s.Canonical) (ht : R.Str t ∧ t.Canonical) :
    (R.den s * R.den t).trace = if s = t then (Fintype.card ι : ℂ) else 0 := by
  split
  · rename_i h
    rw [h, R.sq t ht.1, Matrix.trace_one]
  · rename_i h
    rcases isEmpty_or_nonempty ι with hι | hι
    · simp [Matrix.trace]
    obtain ⟨u, ε, h1, h2, h3⟩ := R.sep s t hs.1 ht.1 hs.2 ht.2 h
    have hε : ∀ s, R.Str s → ε s * ε s = 1 := by
      intro s hs
      have e1 : R.den s = (ε s * ε s) • R.den s := by
        calc R.den s = u * (u * R.den s) := by rw [← mul_assoc, h1, one_mul]
          _ = (ε s * ε s) • R.den s := by rw [h2 s hs, mul_smul_comm, ← mul_assoc, h2 s hs, smul_mul_assoc, mul_assoc, h1, mul_one, smul_smul]
      have e2 : (1 - ε s * ε s) • (1 : Matrix ι ι ℂ) = 0 := by
        rw [← R.sq s hs, ← smul_mul_assoc, sub_smul, one_smul, ← e1, sub_self, zero_mul]
      rcases smul_eq_zero.mp e2 with e | e
      · linear_combination -e
      · exact absurd e one_ne_zero
    have hprod : ε s * ε t = -1 := by
      have e1 := hε s hs.1
      have e2 := hε t ht.1
      have e3 : (ε s - ε t) * (ε s + ε t) = 0 := by linear_combination e1 - e2
      rcases mul_eq_zero.mp e3 with e | e
      · exact absurd (sub_eq_zero.mp e) h3
      · linear_combination ε s * e - e1
    have key : (R.den s * R.den t).trace = ε s * ε t * (R.den s * R.den t).trace := by
      calc (R.den s * R.den t).trace = (u * (u * (R.den s * R.den t))).trace := by rw [← mul_assoc u u, h1, one_mul]
        _ = (u * (R.den s * R.den t) * u).trace := by rw [Matrix.trace_mul_comm]
        _ = ((ε s * ε t) • (R.den s * R.den t)).trace := by
          congr 1
          rw [← mul_assoc u, h2 s hs.1, smul_mul_assoc, mul_assoc (R.den s) u, h2 t ht.1, mul_smul_comm, smul_smul, smul_mul_assoc, mul_assoc, mul_assoc, h1, mul_one]
        _ = _ := by rw [Matrix.trace_smul, smul_eq_mul]
    rw [hprod] at key
    have : (2 : ℂ) * (R.den s * R.den t).trace = 0 := by linear_combination key
    simpa using this

/-- the trace of the square of a combination of different strings -/
theorem StrAlg.trace_square (R : StrAlg ℂ (Matrix ι ι ℂ)) {strs : List OpString} (hn : strs.Nodup) (hs : ∀ s ∈ strs, R.Str s ∧ s.Canonical) (c : ℕ → ℂ) :
    (linComb R.den strs c ^ 2).trace = Fintype.card ι * ∑ i : Fin strs.length, c i ^ 2 := by
  rw [pow_two, linComb, Finset.sum_mul_sum, Matrix.trace_sum, Finset.mul_sum]
  refine Finset.sum_congr rfl fun i _ => ?_
  rw [Matrix.trace_sum, Finset.sum_eq_single i]
  · rw [smul_mul_smul_comm, Matrix.trace_smul, R.trace_mul (hs strs[i] (List.getElem_mem _)) (hs strs[i] (List.getElem_mem _)), if_pos rfl, smul_eq_mul]
    ring
  · intro j _ hj
    rw [smul_mul_smul_comm, Matrix.trace_smul, R.trace_mul (hs strs[i] (List.getElem_mem _)) (hs strs[j] (List.getElem_mem _)), if_neg, smul_zero]
    exact fun e => hj (Fin.ext ((List.Nodup.getElem_inj_iff hn).mp e).symm)
  · simp

theorem StrAlg.trace_linComb (R : StrAlg ℂ (Matrix ι ι ℂ)) {e : OpString} (he : R.Str e ∧ e.Canonical) (hR1 : R.den e = 1) {ts : List (ℂ × OpString)}
    (hs : ∀ t ∈ ts, R.Str t.2 ∧ t.2.Canonical) : (denT R.den ts).trace = Fintype.card ι * coefT ts e := by
  induction ts with
  | nil => simp [coefT]
  | cons t ts ih =>
    rw [denT_cons, Matrix.trace_add, ih fun x hx => hs x (List.mem_cons_of_mem _ hx), Matrix.trace_smul, coefT_cons, mul_add, smul_eq_mul]
    congr 1
    by_cases h : t.2 = e
    · rw [if_pos h, h, hR1, Matrix.trace_one, mul_comm]
    · have h1 := StrAlg.trace R he hR1 t.2 (hs t List.mem_cons_self).1 (hs t List.mem_cons_self).2 h
      rw [Matrix.traceLinearMap_apply] at h1
      rw [if_neg h, h1]
      simp

/-- a Hermitian matrix with square one has expectation values between -1 and 1 -/
theorem abs_expectation_le {d : Matrix ι ι ℂ} (hd : d.IsHermitian) (h1 : d * d = 1) (u : ι → ℂ) :
    |(∑ i, star (u i) * (d.mulVec u) i).re| ≤ ∑ i, ‖u i‖ ^ 2 := by
  have hsq : ∀ v : ι → ℂ, ((∑ i, ‖v i‖ ^ 2 : ℝ) : ℂ) = ∑ i, star (v i) * v i := fun v => by
    rw [Complex.ofReal_sum]
    exact Finset.sum_congr rfl fun i _ => by rw [Complex.star_def, Complex.conj_mul', Complex.ofReal_pow]
  have hdu : ∑ i, ‖(d.mulVec u) i‖ ^ 2 = ∑ i, ‖u i‖ ^ 2 := by
    have : ((∑ i, ‖(d.mulVec u) i‖ ^ 2 : ℝ) : ℂ) = ((∑ i, ‖u i‖ ^ 2 : ℝ) : ℂ) := by
      rw [hsq, hsq]
      show dotProduct (star (d.mulVec u)) (d.mulVec u) = dotProduct (star u) u
      rw [Matrix.star_mulVec, Matrix.dotProduct_mulVec, Matrix.vecMul_vecMul, hd.eq, h1, Matrix.vecMul_one]
    exact_mod_cast this
  have key : ∀ ε : ℝ, ε ^ 2 = 1 → ε * (∑ i, star (u i) * (d.mulVec u) i).re ≤ ∑ i, ‖u i‖ ^ 2 := by
    intro ε hε
    have h0 : 0 ≤ ∑ i, ‖u i - ε * (d.mulVec u) i‖ ^ 2 := by positivity
    have e : ∀ i, ‖u i - ε * (d.mulVec u) i‖ ^ 2 = ‖u i‖ ^ 2 + ‖(d.mulVec u) i‖ ^ 2 - 2 * (ε * (star (u i) * (d.mulVec u) i).re) := by
      intro i
      generalize (d.mulVec u) i = z
      generalize u i = w
      rw [← Complex.normSq_eq_norm_sq, ← Complex.normSq_eq_norm_sq, ← Complex.normSq_eq_norm_sq, Complex.normSq_apply, Complex.normSq_apply, Complex.normSq_apply]
      simp only [Complex.star_def, Complex.mul_re, Complex.conj_re, Complex.conj_im, Complex.sub_re, Complex.sub_im, Complex.mul_im, Complex.ofReal_re, Complex.ofReal_im]
      linear_combination (z.re ^ 2 + z.im ^ 2) * hε
    rw [Finset.sum_congr rfl fun i _ => e i, Finset.sum_sub_distrib, Finset.sum_add_distrib, hdu, ← Finset.mul_sum, ← Finset.mul_sum, ← Complex.re_sum] at h0
    linarith
  rw [abs_le]
  have a := key 1 (by norm_num)
  have b := key (-1) (by norm_num)
  constructor <;> linarith

/-- the expectation values of a real combination of such matrices -/
theorem abs_expectation_denT {den : OpString → Matrix ι ι ℂ} {ts : List (ℂ × OpString)} (hd : ∀ t ∈ ts, (den t.2).IsHermitian ∧ den t.2 * den t.2 = 1)
    (hr : ∀ t ∈ ts, star t.1 = t.1) (u : ι → ℂ) :
    |(∑ i, star (u i) * ((denT den ts).mulVec u) i).re| ≤ (ts.map fun t => ‖t.1‖).sum * ∑ i, ‖u i‖ ^ 2 := by
  induction ts with
  | nil => simp
  | cons t ts ih =>
    obtain ⟨x, hx⟩ := Complex.conj_eq_iff_real.mp (hr t List.mem_cons_self)
    have h1 := ih (fun t ht => hd t (List.mem_cons_of_mem _ ht)) (fun t ht => hr t (List.mem_cons_of_mem _ ht))
    have h2 := abs_expectation_le (hd t List.mem_cons_self).1 (hd t List.mem_cons_self).2 u
    have e : (∑ i, star (u i) * ((denT den (t :: ts)).mulVec u) i).re =
        x * (∑ i, star (u i) * ((den t.2).mulVec u) i).re + (∑ i, star (u i) * ((denT den ts).mulVec u) i).re := by
      rw [← Complex.re_ofReal_mul, ← Complex.add_re, Finset.mul_sum, ← Finset.sum_add_distrib]
      congr 1
      refine Finset.sum_congr rfl fun i _ => ?_
      rw [denT_cons, Matrix.add_mulVec, Matrix.smul_mulVec, Pi.add_apply, Pi.smul_apply, smul_eq_mul, hx]
      ring
    rw [e, List.map_cons, List.sum_cons, add_mul]
    refine (abs_add_le _ _).trans (add_le_add ?_ h1)
    rw [abs_mul, hx, Complex.norm_real, Real.norm_eq_abs]
    exact mul_le_mul_of_nonneg_left h2 (abs_nonneg _)

end Qosy
