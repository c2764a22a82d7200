import Verif.Lemmas.GreedySolve
import Verif.Lemmas.FermionToMajorana

/-! # `selected_ci_greedy`: the main loop -/

namespace Qosy
open Coef RealOps
variable {K : Type} [Field K] [StarRing K] [Coef K] [RealCoef K]
variable {𝔸 : Type} [Ring 𝔸] [Algebra K 𝔸]

/-! ### the commutator norm is unique -/

theorem sum_over_strings {M : Type} [AddCommMonoid M] {strs : List OpString} (hn : strs.Nodup) {U : Finset OpString} (hU : strs.toFinset ⊆ U)
    (g : ℕ → OpString → M) : ∑ i : Fin strs.length, g i strs[i] = ∑ s ∈ U, if s ∈ strs then g (strs.idxOf s) s else 0 := by
  have e1 : ∑ s ∈ U, (if s ∈ strs then g (strs.idxOf s) s else 0) = ∑ s ∈ strs.toFinset, g (strs.idxOf s) s := by
    rw [← Finset.sum_subset hU (f := fun s => if s ∈ strs then g (strs.idxOf s) s else 0)]
    · exact Finset.sum_congr rfl fun s hs => if_pos (List.mem_toFinset.mp hs)
    · intro s _ hs
      exact if_neg (fun h => hs (List.mem_toFinset.mpr h))
  rw [e1, List.sum_toFinset _ hn, ← Fin.sum_univ_fun_getElem]
  refine Finset.sum_congr rfl fun i _ => ?_
  rw [show strs[i] = strs[(i : ℕ)] from rfl, List.Nodup.idxOf_getElem hn]

/-- equal combinations of distinct strings have the same norm -/
theorem StrAlg.norm_unique [Nontrivial 𝔸] (R : StrAlg K 𝔸) {s1 s2 : List OpString} {w1 w2 : ℕ → K} (n1 : s1.Nodup) (n2 : s2.Nodup)
    (p1 : ∀ s ∈ s1, R.Str s ∧ s.Canonical) (p2 : ∀ s ∈ s2, R.Str s ∧ s.Canonical) (e : linComb R.den s1 w1 = linComb R.den s2 w2) :
    ∑ i : Fin s1.length, star (w1 i) * w1 i = ∑ i : Fin s2.length, star (w2 i) * w2 i := by
  classical
  obtain ⟨c, q1⟩ : ∃ c, c = ∑ i : Fin s1.length, star (w1 i) * w1 i := ⟨_, rfl⟩
  obtain ⟨c', q2⟩ : ∃ c, c = ∑ i : Fin s2.length, star (w2 i) * w2 i := ⟨_, rfl⟩
  rw [← q1, ← q2]
  set U := s1.toFinset ∪ s2.toFinset with hU
  have u1 : s1.toFinset ⊆ U := Finset.subset_union_left
  have u2 : s2.toFinset ⊆ U := Finset.subset_union_right
  let f1 : OpString → K := fun s => if s ∈ s1 then w1 (s1.idxOf s) else 0
  let f2 : OpString → K := fun s => if s ∈ s2 then w2 (s2.idxOf s) else 0
  have l1 : linComb R.den s1 w1 = ∑ s ∈ U, f1 s • R.den s := by
    rw [linComb, sum_over_strings n1 u1 (fun i s => w1 i • R.den s)]
    refine Finset.sum_congr rfl fun s _ => ?_
    simp only [f1]; split <;> simp
  have l2 : linComb R.den s2 w2 = ∑ s ∈ U, f2 s • R.den s := by
    rw [linComb, sum_over_strings n2 u2 (fun i s => w2 i • R.den s)]
    refine Finset.sum_congr rfl fun s _ => ?_
    simp only [f2]; split <;> simp
  have m1 : c = ∑ s ∈ U, star (f1 s) * f1 s := by
    rw [q1, sum_over_strings n1 u1 (fun i _ => star (w1 i) * w1 i)]
    refine Finset.sum_congr rfl fun s _ => ?_
    simp only [f1]; split <;> simp
  have m2 : c' = ∑ s ∈ U, star (f2 s) * f2 s := by
    rw [q2, sum_over_strings n2 u2 (fun i _ => star (w2 i) * w2 i)]
    refine Finset.sum_congr rfl fun s _ => ?_
    simp only [f2]; split <;> simp
  have hz : linComb R.den U.toList (fun i => (U.toList[i]?).elim 0 (fun s => f1 s - f2 s)) = 0 := by
    have : linComb R.den U.toList (fun i => (U.toList[i]?).elim 0 (fun s => f1 s - f2 s)) = ∑ s ∈ U, (f1 s - f2 s) • R.den s := by
      rw [linComb, ← Finset.sum_map_toList U (fun s => (f1 s - f2 s) • R.den s), ← Fin.sum_univ_fun_getElem]
      refine Finset.sum_congr rfl fun i _ => ?_
      rw [List.getElem?_eq_getElem i.2]; rfl
    rw [this]
    simp only [sub_smul]
    rw [Finset.sum_sub_distrib, ← l1, ← l2, e, sub_self]
  have hf : ∀ s ∈ U, f1 s = f2 s := by
    intro s hs
    obtain ⟨i, hi, rfl⟩ := List.mem_iff_getElem.mp (Finset.mem_toList.mpr hs)
    have := R.independent (Finset.nodup_toList U) (fun s hs => by
      rcases Finset.mem_union.mp (Finset.mem_toList.mp hs) with h | h
      · exact p1 s (List.mem_toFinset.mp h)
      · exact p2 s (List.mem_toFinset.mp h)) hz i hi
    rw [List.getElem?_eq_getElem hi] at this
    exact sub_eq_zero.mp this
  rw [m1, m2]
  exact Finset.sum_congr rfl fun s hs => by rw [hf s hs]

theorem IsComNorm.unique [Nontrivial 𝔸] (R : StrAlg K 𝔸) {O H : 𝔸} {c c' : K} (h : IsComNorm (fun s => R.Str s ∧ s.Canonical) R.den O H c)
    (h' : IsComNorm (fun s => R.Str s ∧ s.Canonical) R.den O H c') : c = c' := by
  obtain ⟨s1, w1, n1, p1, e1, q1⟩ := h
  obtain ⟨s2, w2, n2, p2, e2, q2⟩ := h'
  rw [q1, q2]
  exact R.norm_unique n1 n2 p1 p2 (e1.symm.trans e2)

theorem IsComNorm.nonneg {P : OpString → Prop} {den : OpString → 𝔸} {O H : 𝔸} {c : K} (h : IsComNorm P den O H c) : IsReal c ∧ 0 ≤ toR c := by
  obtain ⟨s1, w1, _, _, _, rfl⟩ := h
  refine ⟨IsReal.sum fun i _ => IsReal.star_mul_self _, ?_⟩
  rw [toR_sum]
  exact Finset.sum_nonneg fun c _ => by rw [toR_mul_self_star]; positivity

theorem den_linComb {O : Operator K} (h : O.coeffs.length = O.basis.len) (den : OpString → 𝔸) :
    O.den den = linComb den O.basis.strs (fun j => O.coeffs.getD j 0) := by
  show (List.map _ (O.coeffs.zip O.basis.strs)).sum = _
  rw [← Fin.sum_univ_fun_getElem]
  have hl : (O.coeffs.zip O.basis.strs).length = O.basis.strs.length := by
    rw [List.length_zip, h]; exact min_self _
  rw [linComb, ← Fin.sum_congr' _ hl]
  refine Finset.sum_congr rfl fun i _ => ?_
  have hi : (i : ℕ) < O.coeffs.length := by rw [h]; exact i.2.trans_eq hl
  simp [List.getElem?_eq_getElem hi]

/-! ### the eigenvectors projected onto a target -/

theorem form_add (M : Mat K) (n : ℕ) (u w : ℕ → K) (o : K) : M.form n (fun j => u j + o * w j) =
    M.form n u + o * (∑ i : Fin n, star (u i) * ∑ j : Fin n, M.get i j * w j) + star o * (∑ i : Fin n, star (w i) * ∑ j : Fin n, M.get i j * u j) +
      star o * o * M.form n w := by
  unfold Mat.form
  simp only [Finset.mul_sum, ← Finset.sum_add_distrib]
  refine Finset.sum_congr rfl fun i _ => Finset.sum_congr rfl fun j _ => ?_
  rw [star_add, star_mul]; ring

theorem form_smul (M : Mat K) (n : ℕ) (u : ℕ → K) (o : K) : M.form n (fun j => u j * o) = star o * o * M.form n u := by
  unfold Mat.form
  simp only [Finset.mul_sum]
  refine Finset.sum_congr rfl fun i _ => Finset.sum_congr rfl fun j _ => ?_
  rw [star_mul]; ring

theorem eigen_cross {M : Mat K} {n : ℕ} (hM : M.IsHermitian n) {v : ℕ → K} {x : K} (hx : IsReal x) (h : ∀ i, i < n → ∑ j : Fin n, M.get i j * v j = x * v i)
    (u : ℕ → K) (hu : ∑ i : Fin n, star (u i) * v i = 0) :
    ∑ i : Fin n, star (u i) * ∑ j : Fin n, M.get i j * v j = 0 ∧ ∑ i : Fin n, star (v i) * ∑ j : Fin n, M.get i j * u j = 0 := by
  have h1 : ∑ i : Fin n, star (u i) * ∑ j : Fin n, M.get i j * v j = 0 := by
    have : ∀ i : Fin n, star (u i) * ∑ j : Fin n, M.get i j * v j = x * (star (u i) * v i) := by
      intro i; rw [h i i.2]; ring
    simp only [this]
    rw [← Finset.mul_sum, hu, mul_zero]
  refine ⟨h1, ?_⟩
  have : ∑ i : Fin n, star (v i) * ∑ j : Fin n, M.get i j * u j = star (∑ i : Fin n, star (u i) * ∑ j : Fin n, M.get i j * v j) := by
    simp only [star_sum, star_mul, star_star, Finset.mul_sum, Finset.sum_mul]
    rw [Finset.sum_comm]
    refine Finset.sum_congr rfl fun i _ => Finset.sum_congr rfl fun j _ => ?_
    rw [hM.2.2 i j i.2 j.2]; ring
  rw [this, h1, star_zero]

theorem getD_zipWith_add {n : ℕ} {v w : List K} (hv : v.length = n) (hw : w.length = n) (o : K) (j : ℕ) :
    (List.zipWith (fun x y => x + o * y) v w).getD j 0 = v.getD j 0 + o * w.getD j 0 := by
  by_cases hj : j < n
  · rw [List.getD_eq_getElem _ _ (by simp; omega), List.getD_eq_getElem _ _ (by omega), List.getD_eq_getElem _ _ (by omega)]
    simp
  · rw [List.getD_eq_default _ _ (by simp; omega), List.getD_eq_default _ _ (by omega), List.getD_eq_default _ _ (by omega)]
    simp

theorem getD_real {v : List K} (h : ∀ x ∈ v, IsReal x) (j : ℕ) : IsReal (v.getD j 0) := by
  by_cases hj : j < v.length
  · rw [List.getD_eq_getElem _ _ hj]; exact h _ (List.getElem_mem _)
  · rw [List.getD_eq_default _ _ (by omega)]; exact .zero

theorem projectedVector_ok {target : Operator K} (ht : ∀ x ∈ target.coeffs, IsReal x) {b : Basis} (hb : b.Inv) :
    ∃ t, projectedVector target b = .ok t ∧ t.length = b.len ∧ ∀ x ∈ t, IsReal x := by
  have key : ∀ (l : List (K × OpString)) (v : List K), (∀ e ∈ l, IsReal e.1) → v.length = b.len → (∀ x ∈ v, IsReal x) →
      ∃ t, l.foldlM (fun v t => if b.contains t.2 then (do
        let i ← b.index t.2
        .ok (v.set i t.1) : Py (List K)) else .ok v) v = .ok t ∧ t.length = b.len ∧ ∀ x ∈ t, IsReal x := by
    intro l
    induction l with
    | nil => intro v _ h1 h2; exact ⟨v, rfl, h1, h2⟩
    | cons e l ih =>
      intro v hl h1 h2
      have hl' := fun x hx => hl x (List.mem_cons_of_mem _ hx)
      by_cases hc : b.contains e.2 = true
      · have hm : e.2 ∈ b.strs := by
          have hc' := hc
          rw [hb.1, Basis.contains_ofList] at hc'
          simpa using hc'
        have : b.index e.2 = .ok (b.strs.idxOf e.2) := by
          rw [hb.1, Basis.index_ofList, if_pos hm]; rfl
        obtain ⟨t, t1, t2⟩ := ih (v.set (b.strs.idxOf e.2) e.1) hl' (by simpa using h1) (fun x hx => by
          rcases List.mem_or_eq_of_mem_set hx with h | h
          · exact h2 x h
          · exact h ▸ hl e (List.mem_cons_self ..))
        refine ⟨t, ?_, t2⟩
        rw [List.foldlM_cons, if_pos hc]
        simp only [this, bind, Except.bind] at t1 ⊢
        exact t1
      · obtain ⟨t, t1, t2⟩ := ih v hl' h1 h2
        refine ⟨t, ?_, t2⟩
        rw [List.foldlM_cons, if_neg hc]
        exact t1
  exact key _ _ (fun e he => ht _ (List.of_mem_zip he).1) (by simp) (fun x hx => by rw [List.eq_of_mem_replicate hx]; exact .zero)

/-- a normalised real vector and its commutator norm -/
structure VecOK (M : Mat K) (n : ℕ) (v : List K) (c : K) : Prop where
  len : v.length = n
  real : ∀ x ∈ v, IsReal x
  unit : ∑ j : Fin n, star (v.getD j 0) * v.getD j 0 = 1
  norm : c = M.form n (fun j => v.getD j 0)

theorem zipWith_real {v w : List K} (hv : ∀ x ∈ v, IsReal x) (hw : ∀ x ∈ w, IsReal x) {o : K} (ho : IsReal o) :
    ∀ x ∈ List.zipWith (fun x y => x + o * y) v w, IsReal x := by
  intro x hx
  rw [← List.map_uncurry_zip_eq_zipWith] at hx
  obtain ⟨e, he, rfl⟩ := List.mem_map.mp hx
  obtain ⟨h1, h2⟩ := List.of_mem_zip he
  exact (hv _ h1).add (ho.mul (hw _ h2))

theorem highestFidelity_ok {num : Numerics K} (hnum : IsNumerics num) {M : Mat K} {b : Basis} (hb : b.Inv) (hM : M.IsHermitian b.len)
    (hpos : ∀ u, 0 ≤ toR (M.form b.len u)) {r : List K × List (List K)} (hr : IsEigenpairs M b.len r) (hreal : ∀ v ∈ r.2, ∀ x ∈ v, IsReal x)
    {target : Operator K} (ht : ∀ x ∈ target.coeffs, IsReal x) :
    highestFidelity num target r.2 r.1 b = .error .zeroDivision ∨ ∃ v c f, highestFidelity num target r.2 r.1 b = .ok (v, c, f) ∧ VecOK M b.len v c := by
  obtain ⟨t, t1, t2, t3⟩ := projectedVector_ok ht hb
  have key : ∀ (l : List (List K × K)) (acc : List K × K),
      (∀ e ∈ l, e.1.length = b.len ∧ (∀ x ∈ e.1, IsReal x) ∧ IsReal e.2 ∧ 0 ≤ toR e.2 ∧ ∑ j : Fin b.len, star (e.1.getD j 0) * e.1.getD j 0 = 1 ∧
        ∀ i, i < b.len → ∑ j : Fin b.len, M.get i j * e.1.getD j 0 = e.2 * e.1.getD i 0) →
      l.Pairwise (fun e e' => ip b.len e.1 e'.1 = 0) → acc.1.length = b.len → (∀ x ∈ acc.1, IsReal x) → (∀ e ∈ l, ip b.len acc.1 e.1 = 0) →
      acc.2 = M.form b.len (fun j => acc.1.getD j 0) →
      let res := l.foldl (fun acc e =>
        let overlap := innerL e.1 t
        (List.zipWith (fun x y => x + overlap * y) acc.1 e.1, acc.2 + star overlap * overlap * reAbs e.2)) acc
      res.1.length = b.len ∧ (∀ x ∈ res.1, IsReal x) ∧ res.2 = M.form b.len (fun j => res.1.getD j 0) := by
    intro l
    induction l with
    | nil => intro acc _ _ h1 h2 _ h3; exact ⟨h1, h2, h3⟩
    | cons e l ih =>
      intro acc hl hp h1 h2 h3 h4
      obtain ⟨a1, a2, a3, a4, a5, a6⟩ := hl e (List.mem_cons_self ..)
      have hp' := List.pairwise_cons.mp hp
      have ho : IsReal (innerL e.1 t) := by
        rw [innerL_eq a1 t2]
        refine IsReal.sum fun j _ => ?_
        have := getD_real a2 (j : ℕ)
        rw [this]
        exact this.mul (getD_real t3 j)
      have hg : ∀ j, (List.zipWith (fun x y => x + innerL e.1 t * y) acc.1 e.1).getD j 0 = acc.1.getD j 0 + innerL e.1 t * e.1.getD j 0 :=
        getD_zipWith_add h1 a1 _
      simp only [List.foldl_cons]
      refine ih _ (fun e' he' => hl e' (List.mem_cons_of_mem _ he')) hp'.2 (by simp; omega) (zipWith_real h2 a2 ho) ?_ ?_
      · intro e' he'
        have q1 := h3 e' (List.mem_cons_of_mem _ he')
        have q2 := hp'.1 e' he'
        show ip b.len (List.zipWith _ acc.1 e.1) e'.1 = 0
        have : ip b.len (List.zipWith (fun x y => x + innerL e.1 t * y) acc.1 e.1) e'.1 = ip b.len acc.1 e'.1 + star (innerL e.1 t) * ip b.len e.1 e'.1 := by
          unfold ip
          rw [Finset.mul_sum, ← Finset.sum_add_distrib]
          refine Finset.sum_congr rfl fun j _ => ?_
          rw [hg, star_add, star_mul]; ring
        rw [this, q1, q2]; simp
      · show acc.2 + _ = M.form b.len (fun j => (List.zipWith _ acc.1 e.1).getD j 0)
        have : M.form b.len (fun j => (List.zipWith (fun x y => x + innerL e.1 t * y) acc.1 e.1).getD j 0) =
            M.form b.len (fun j => acc.1.getD j 0 + innerL e.1 t * e.1.getD j 0) := by simp only [hg]
        rw [this, form_add, ← h4]
        obtain ⟨c1, c2⟩ := eigen_cross hM a3 (v := fun j => e.1.getD j 0) a6 (fun j => acc.1.getD j 0) (h3 e (List.mem_cons_self ..))
        have q : M.form b.len (fun j => e.1.getD j 0) = e.2 := by
          rw [form_eq]
          have : ∀ i : Fin b.len, star (e.1.getD i 0) * ∑ j : Fin b.len, M.get i j * e.1.getD j 0 = e.2 * (star (e.1.getD i 0) * e.1.getD i 0) := by
            intro i
            rw [a6 i i.2]; ring
          simp only [this]
          rw [← Finset.mul_sum, a5, mul_one]
        rw [c1, c2, q, reAbs_of_nonneg a4]
        ring
  have hz : ∀ e ∈ r.2.zip r.1, (e.2, e.1) ∈ r.1.zip r.2 := by
    intro e he
    rw [← List.zip_swap] at he
    obtain ⟨e', h1, rfl⟩ := List.mem_map.mp he
    exact h1
  have hpw : (r.2.zip r.1).Pairwise (fun e e' => ip b.len e.1 e'.1 = 0) := by
    have : ((r.2.zip r.1).map Prod.fst).Pairwise (fun v w => ip b.len v w = 0) := by
      rw [List.map_fst_zip (by rw [hr.len])]; exact hr.orthogonal
    exact List.pairwise_map.mp this
  obtain ⟨k1, k2, k3⟩ := key (r.2.zip r.1) (List.replicate b.len 0, 0) (by
      intro e he
      have he' := hz e he
      obtain ⟨m1, m2⟩ := List.of_mem_zip he
      refine ⟨hr.dim _ m1, hreal _ m1, hr.real _ m2, ?_, hr.unit _ m1, hr.eigen _ he'⟩
      have := hr.value he'
      rw [show e.2 = M.form b.len (fun j => e.1.getD j 0) from this]
      exact hpos _) hpw (by simp) (fun x hx => by rw [List.eq_of_mem_replicate hx]; exact .zero) (by
      intro e _
      unfold ip
      refine Finset.sum_eq_zero fun j _ => ?_
      simp [List.getD_replicate]) (by
      symm
      unfold Mat.form
      refine Finset.sum_eq_zero fun i _ => Finset.sum_eq_zero fun j _ => ?_
      simp [List.getD_replicate])
  unfold highestFidelity
  simp only [t1, bind, Except.bind]
  generalize hres : (r.2.zip r.1).foldl _ _ = res at k1 k2 k3 ⊢
  obtain ⟨V, c⟩ := res
  dsimp only at k1 k2 k3 ⊢
  have hVV : IsReal (innerL V V) ∧ 0 ≤ toR (innerL V V) := by
    rw [innerL_eq k1 k1]
    refine ⟨IsReal.sum fun i _ => IsReal.star_mul_self _, ?_⟩
    rw [toR_sum]
    exact Finset.sum_nonneg fun c _ => by rw [toR_mul_self_star]; positivity
  obtain ⟨n1, n2⟩ := hnum.sqrt _ hVV.1 hVV.2
  split
  · exact Or.inl rfl
  · rename_i hne
    have hn0 : num.sqrt (innerL V V) ≠ 0 := fun h => hne ((reZero_iff n1).mpr h)
    refine Or.inr ⟨_, _, _, rfl, ?_⟩
    have hgd : ∀ j, (V.map (· / num.sqrt (innerL V V))).getD j 0 = V.getD j 0 * (num.sqrt (innerL V V))⁻¹ := by
      intro j
      by_cases hj : j < V.length
      · rw [List.getD_eq_getElem _ _ (by simpa using hj), List.getD_eq_getElem _ _ hj, List.getElem_map, div_eq_mul_inv]
      · rw [List.getD_eq_default _ _ (by simp; omega), List.getD_eq_default _ _ (by omega), zero_mul]
    refine ⟨by simpa using k1, ?_, ?_, ?_⟩
    · intro x hx
      obtain ⟨y, hy, rfl⟩ := List.mem_map.mp hx
      exact (k2 y hy).div n1
    · simp only [hgd]
      have : ∀ j : Fin b.len, star (V.getD j 0 * (num.sqrt (innerL V V))⁻¹) * (V.getD j 0 * (num.sqrt (innerL V V))⁻¹) =
          (star (V.getD j 0) * V.getD j 0) * ((num.sqrt (innerL V V)) ^ 2)⁻¹ := by
        intro j
        rw [star_mul, n1.inv]; ring
      simp only [this]
      rw [← Finset.sum_mul, ← innerL_eq k1 k1, n2]
      apply mul_inv_cancel₀
      rw [← n2]; exact pow_ne_zero _ hn0
    · simp only [hgd]
      rw [form_smul, ← k3, n1.inv]
      rw [div_eq_mul_inv]; ring

/-! ### one step -/

/-- what is recorded for one step: a normalised real operator of valid strings and its commutator norm, the least one if `least` -/
structure GreedyRec (R : StrAlg K 𝔸) (H : Operator K) (least : Prop) (O : Operator K) (c : K) : Prop where
  basis : GoodBasis R O.basis
  len : O.coeffs.length = O.basis.len
  type : O.opType = R.type
  real : ∀ x ∈ O.coeffs, IsReal x
  unit : O.IsUnit
  norm : IsComNorm (fun s => R.Str s ∧ s.Canonical) R.den (O.den R.den) (H.den R.den) c
  least : least → Nontrivial 𝔸 → IsLeastComNorm (fun s => R.Str s ∧ s.Canonical) R.den O (H.den R.den) c

theorem toC_num_ne : (2 : K) ≠ 0 := by
  intro h
  have := congrArg toC h
  rw [map_ofNat, map_zero] at this
  norm_num at this

theorem VecOK.record {R : StrAlg K 𝔸} {H : Operator K} {b : Basis} (hb : GoodBasis R b) {M : Mat K} (hM : CommForm R H b M) {v : List K} {c : K}
    (h : VecOK M b.len v c) {least : Prop} (hl : least → Rayleigh M b.len c) : GreedyRec R H least ⟨v, b, R.type⟩ c where
  basis := hb
  len := h.len
  type := rfl
  real := h.real
  unit := by
    have := h.unit
    rw [← innerL_eq h.len h.len] at this
    unfold Operator.IsUnit
    rw [← this]
    unfold innerL
    congr 1
    rw [List.zipWith_self]
  norm := by
    rw [den_linComb (O := ⟨v, b, R.type⟩) h.len, h.norm]
    exact hM.norm _ (fun j _ => getD_real h.real j)
  least := by
    intro h1 _ u c' hu h2 h3
    have e : c' = M.form b.len u := IsComNorm.unique R h3 (hM.norm u (fun j _ => hu j))
    have := hl h1 u
    have q : ∑ j : Fin b.len, ‖toC (u j)‖ ^ 2 = 1 := by
      have := congrArg toR h2
      rw [toR_sum] at this
      simp only [toR_mul_self_star] at this
      rw [show ∑ j : Fin b.len, ‖toC (u j)‖ ^ 2 = toR (1 : K) from this]
      simp [toR]
    rw [q, mul_one] at this
    rwa [e]

theorem isBest_add {initial : Operator K} {ops : List (Operator K)} {norms : List K} {best : Operator K} {bestNorm : Option K} (hl : ops.length = norms.length)
    (h : IsBest initial ops norms best bestNorm) {O : Operator K} {c : K} (hc : 0 ≤ toR c) :
    IsBest initial (ops ++ [O]) (norms ++ [c]) (if improves c bestNorm then O else best) (if improves c bestNorm then some c else bestNorm) := by
  rcases h with ⟨rfl, rfl, rfl⟩ | ⟨i, d, h1, h2, rfl, h3, h4⟩
  · have : ops = [] := List.length_eq_zero_iff.mp hl
    subst this
    refine Or.inr ⟨0, c, rfl, rfl, rfl, ?_, fun j c' hj => absurd hj (Nat.not_lt_zero _)⟩
    intro c' hc'
    simp at hc'
    rw [hc']
  · have hi : i < norms.length := (List.getElem?_eq_some_iff.mp h2).1
    have e : improves c (some d) = reLt c d := by
      show reLt (reAbs c) d = _
      rw [reAbs_of_nonneg hc]
    rw [e]
    by_cases hlt : reLt c d = true
    · rw [if_pos hlt, if_pos hlt]
      rw [reLt_iff'] at hlt
      refine Or.inr ⟨ops.length, c, by simp, by rw [hl]; simp, rfl, ?_, ?_⟩
      · intro c' hc'
        rcases List.mem_append.mp hc' with h | h
        · exact (hlt.trans_le (h3 c' h)).le
        · simp at h; rw [h]
      · intro j c' hj hc'
        rw [List.getElem?_append_left (by omega)] at hc'
        exact hlt.trans_le (h3 c' (List.mem_of_getElem? hc'))
    · rw [if_neg hlt, if_neg hlt]
      rw [reLt_iff', not_lt] at hlt
      refine Or.inr ⟨i, d, by rw [List.getElem?_append_left (by omega)]; exact h1, by rw [List.getElem?_append_left hi]; exact h2, rfl, ?_, ?_⟩
      · intro c' hc'
        rcases List.mem_append.mp hc' with h | h
        · exact h3 c' h
        · simp at h; rwa [h]
      · intro j c' hj hc'
        rw [List.getElem?_append_left (by omega)] at hc'
        exact h4 j c' hj hc'

/-- the records of the steps so far -/
structure GreedyDone (R : StrAlg K 𝔸) (H : Operator K) (least : Prop) (initial : Operator K) (s : GreedyState K) : Prop where
  records : List.Forall₂ (GreedyRec R H least) s.operators s.comNorms
  best : IsBest initial s.operators s.comNorms s.bestOperator s.bestComNorm

/-- the invariant of the main loop -/
structure GreedyInv (R : StrAlg K 𝔸) (H : Operator K) (least : Prop) (initial : Operator K) (s : GreedyState K) : Prop
    extends GreedyDone R H least initial s where
  cache : s.explored.Coherent R (· ∈ H.termStrs)
  good : GoodBasis R s.basis
  nonempty : 0 < s.basis.len
  prev : s.previousBasis = s.basis
  first : s.step = 0 → s.basis = Basis.ofList initial.basis.strs
  later : s.step ≠ 0 → s.operator.coeffs.length = s.basis.len ∧ s.operator.basis.strs = s.basis.strs
  vecs : 1 ≤ s.numVecs
  count : s.comNorms.length = s.step

theorem greedyFinish_ok {R : StrAlg K 𝔸} {H : Operator K} {num : Numerics K} (hnum : IsNumerics num) {args : GreedyArgs K} {least : Prop} {initial : Operator K}
    {s : GreedyState K} (hs : GreedyInv R H least initial s) {b : Basis} (hb : GoodBasis R b) {st : Explored K} (hst : st.Coherent R (· ∈ H.termStrs))
    {M : Mat K} (hM : CommForm R H b M) {v first : List K} {c : K} (hv : VecOK M b.len v c) (hl : least → Rayleigh M b.len c) (hf : first.length = b.len)
    {size : ℕ} (hsize : args.maxSizes[s.step]? = some size) (e : Bool) :
    (greedyFinish num args s b st e first v c = .error .valueError ∧ (size = 0 ∨ ∀ x ∈ first, ‖toC x‖ ≤ ((if gotWorse c s.bestComNorm then s.threshold / 2 else s.threshold : ℚ) : ℝ))) ∨
    ∃ s' stop, greedyFinish num args s b st e first v c = .ok (s', stop) ∧ GreedyDone R H least initial s' ∧ s'.comNorms.length = s.step + 1 ∧
      s'.operators.getLast? = some ⟨v, b, R.type⟩ ∧
      s'.threshold = (if gotWorse c s.bestComNorm then s.threshold / 2 else s.threshold) ∧
      (IsTruncation b first s'.threshold size s'.basis ∧ s'.operator.basis = s'.basis ∧ s'.operator.coeffs = v.take s'.basis.len) ∧
      (stop = false → GreedyInv R H least initial s' ∧ s'.step = s.step + 1) := by
  have hrec := hv.record hb hM hl
  have hlen := hs.records.length_eq
  have hbest := isBest_add hlen hs.best (O := ⟨v, b, R.type⟩) (c := c) hrec.norm.nonneg.2
  have hpos : 0 < b.len := by
    by_contra h
    have : b.len = 0 := by omega
    have hu := hv.unit
    rw [this] at hu
    simp at hu
  have hbe : Basis.ofList b.strs = b := hb.1.1.symm
  have hop : mkOperator v b.strs none = .ok ⟨v, b, R.type⟩ := by
    rw [mkOperator_none_ok (t := R.type) (by intro h; rw [Basis.len, h] at hpos; simp at hpos) hb.1.2 (fun s hs => R.str_type s (hb.2 s hs)), hbe]
  set θ := (if gotWorse c s.bestComNorm then s.threshold / 2 else s.threshold) with hθ
  obtain ⟨strs, t1, t2, t3⟩ := truncateBasis_ok hnum.argsort hb.1.2 (vector := first) (filterFun := none) (vec := first) rfl (hf : first.length = b.strs.length) θ size
  have hsub : ∀ t ∈ strs, t ∈ b.strs := fun t ht => (t3.above t ht).1
  have hsmall : strs.length ≤ b.len := (t2.subperm hsub).length_le
  obtain ⟨cs, c1, c2⟩ := mapM_forall₂ (l := strs) (f := fun os => (do
      let i ← (Basis.ofList strs).index os
      pyGet v i : Py K)) (Q := fun os x => v[strs.idxOf os]? = some x) (by
    intro os hos
    have hi : strs.idxOf os < v.length := by
      have := List.idxOf_lt_length_iff.mpr hos
      rw [hv.len]; omega
    refine ⟨v[strs.idxOf os], ?_, List.getElem?_eq_getElem hi⟩
    rw [Basis.index_ofList, if_pos hos]
    simp only [bind, Except.bind, pyGet_lt hi])
  have hcs : cs = v.take strs.length := by
    apply List.ext_getElem?
    intro i
    by_cases hi : i < strs.length
    · have hi' : i < cs.length := by rw [← c2.length_eq]; exact hi
      have := (List.forall₂_iff_get.mp c2).2 i hi hi'
      simp only [List.get_eq_getElem] at this
      rw [List.Nodup.idxOf_getElem t2] at this
      rw [List.getElem?_take_of_lt hi, this, List.getElem?_eq_getElem hi']
    · rw [List.getElem?_eq_none (by rw [← c2.length_eq]; omega), List.getElem?_eq_none (by simp; omega)]
  by_cases hne : strs = []
  · left
    refine ⟨?_, ?_⟩
    · unfold greedyFinish
      simp only [hop, pyGet, hsize, bind, Except.bind]
      rw [← hθ, t1]
      subst hne
      rfl
    · by_contra hcon
      push Not at hcon
      obtain ⟨h0, x, hx, hlt⟩ := hcon
      obtain ⟨i, hi, rfl⟩ := List.mem_iff_getElem.mp hx
      have hi' : i < b.strs.length := by
        have : i < b.len := by omega
        exact this
      have hco : coefAt b first b.strs[i] = first[i] := by
        unfold coefAt
        rw [List.Nodup.idxOf_getElem hb.1.2, List.getD_eq_getElem _ _ hi]
      rcases t3.full b.strs[i] (List.getElem_mem _) (by rw [hco]; exact hlt) with h | h
      · rw [hne] at h; simp [Basis.ofList] at h
      · rw [hne] at h; simp [Basis.ofList, Basis.len] at h; omega
  · right
    have hop' : mkOperator cs strs none = .ok ⟨cs, Basis.ofList strs, R.type⟩ :=
      mkOperator_none_ok (t := R.type) hne t2 (fun s hs => R.str_type s (hb.2 s (hsub s hs)))
    have hdone : ∀ (A : Explored K) (B : Basis) (O : Operator K) (pb : Basis) (θ : ℚ) (nv stp : ℕ) (ee : Bool), GreedyDone R H least initial
        ⟨A, B, O, s.operators ++ [⟨v, b, R.type⟩], s.comNorms ++ [c], if improves c s.bestComNorm then ⟨v, b, R.type⟩ else s.bestOperator,
          if improves c s.bestComNorm then some c else s.bestComNorm, pb, θ, nv, stp, ee⟩ := fun _ _ _ _ _ _ _ _ =>
      ⟨List.rel_append hs.records (.cons hrec .nil), hbest⟩
    refine ⟨_, reached (if improves c s.bestComNorm then some c else s.bestComNorm) args.targetComNorm, ?_, hdone st (Basis.ofList strs) ⟨cs, Basis.ofList strs, R.type⟩
      (if reached (if improves c s.bestComNorm then some c else s.bestComNorm) args.targetComNorm then s.previousBasis else Basis.ofList strs) θ s.numVecs
      (if reached (if improves c s.bestComNorm then some c else s.bestComNorm) args.targetComNorm then s.step else s.step + 1) (e || (match args.minRelativeChange with
    | some m => decide (1 ≤ s.step) && (gotWorse c s.bestComNorm || smallChange c s.bestComNorm m)
    | none => false)), ?_, ?_, rfl, ⟨t3, rfl, hcs⟩, ?_⟩
    · unfold greedyFinish
      simp only [hop, pyGet, hsize, bind, Except.bind]
      rw [← hθ, t1]
      simp only [bind, Except.bind, pyGet] at c1
      simp only []
      rw [show (Basis.ofList strs).strs = strs from rfl, c1]
      simp only [hop']
      rfl
    · simp [hs.count]
    · simp
    · intro hstop
      refine ⟨⟨hdone _ _ _ _ _ _ _ _, hst, ⟨Basis.Inv.ofList t2, fun t ht => hb.2 t (hsub t ht)⟩, List.length_pos_iff.mpr hne, ?_, ?_, ?_, hs.vecs, ?_⟩, ?_⟩
      · simp only [hstop]; rfl
      · intro h; simp only [hstop] at h; simp at h
      · intro _; exact ⟨c2.length_eq.symm, rfl⟩
      · simp [hstop, hs.count]
      · simp [hstop]

theorem greedyStep_ok (R : StrAlg K 𝔸) {num : Numerics K} (hnum : IsNumerics num) {H : Operator K} {args : GreedyArgs K} (ha : GreedyOK R.Str H args)
    {s : GreedyState K} (hs : GreedyInv R H args.least args.initialOperator s) {numH : ℕ} (hn : args.numHTerms[s.step]? = some numH) (fuel : ℕ) :
    ∃ b st M r, GoodBasis R b ∧ 0 < b.len ∧ st.Coherent R (· ∈ H.termStrs) ∧ CommForm R H b M ∧ Solved M b.len r ∧
      (args.orthOps = none → IsEigenpairs M b.len r ∧ ∀ x ∈ r.1.head?, Rayleigh M b.len x) ∧
      greedyStep num args fuel s = (do
        let r ← greedyAccept num args s (if s.step = 0 then args.initialOperator else s.operator) b st r.1 r.2
        .ok (some r)) ∧ (∀ t ∈ s.basis.strs, t ∈ b.strs) ∧ b.len ≤ s.basis.len + numH + 2 * args.numOTerms := by
  set O := if s.step = 0 then args.initialOperator else s.operator with hO
  have hO1 : O.coeffs.length = s.basis.len ∧ O.basis.strs = s.basis.strs := by
    rw [hO]
    split
    · rename_i h
      rw [hs.first h, ha.initial.len]
      exact ⟨rfl, rfl⟩
    · rename_i h
      exact hs.later h
  obtain ⟨b1, st1, e1, g1, c1, i1, l1⟩ := greedyExpandH_ok R hnum.argsort ha.str ha.nodup numH hs.good hO1.1 hs.cache
  obtain ⟨b2, e2, g2, i2, l2⟩ := greedyExpandO_ok (R := R) hnum.argsort args.numOTerms (A := O) (by rw [hO1.1, hO1.2]; rfl)
    (fun t ht => hs.good.2 t (hO1.2 ▸ ht)) g1
  obtain ⟨r, M, st2, e3, m1, m2, m3, m4⟩ := greedySolve_ok R hnum ha.str ha.nodup c1 g2 ha.com ha.transformations hs.vecs
  refine ⟨b2, st2, M, r, g2, ?_, m2, m1, m3, m4, ?_, fun t ht => i2 t (i1 t ht), by omega⟩
  · obtain ⟨t, ht⟩ := List.exists_mem_of_length_pos (show 0 < s.basis.strs.length from hs.nonempty)
    exact List.length_pos_of_mem (i2 t (i1 t ht))
  · unfold greedyStep
    simp only [← hO, pyGet, hn, ha.com, e1, e2, ha.transformations, e3, bind, Except.bind]

theorem greedyChoose_ok {R : StrAlg K 𝔸} {num : Numerics K} (hnum : IsNumerics num) {H : Operator K} {args : GreedyArgs K} (ha : GreedyOK R.Str H args)
    {s : GreedyState K} (hs : GreedyInv R H args.least args.initialOperator s) {b : Basis} (hb : GoodBasis R b) (hpos : 0 < b.len) {M : Mat K} (hM : CommForm R H b M)
    {r : List K × List (List K)} (hr : Solved M b.len r) (ho : args.orthOps = none → IsEigenpairs M b.len r ∧ ∀ x ∈ r.1.head?, Rayleigh M b.len x) :
    (greedyChoose num args s b r.1 r.2 = .error .zeroDivision ∧ args.targetOperator ≠ none) ∨
    ∃ v c f, greedyChoose num args s b r.1 r.2 = .ok (v, c, f) ∧ VecOK M b.len v c ∧ (args.least → Rayleigh M b.len c ∧ pyGet r.2 0 = .ok v) ∧
      (args.targetOperator = none → f = none ∧ pyGet r.2 0 = .ok v) := by
  unfold greedyChoose
  cases ht : args.targetOperator with
  | none =>
    right
    have h1 : 0 < r.1.length := List.length_pos_iff.mpr (hr.nonempty hpos)
    have h2 : 0 < r.2.length := by rw [← hr.len]; exact h1
    refine ⟨r.2[0], r.1[0], none, ?_, ⟨hr.dim _ (List.getElem_mem _), hr.real _ (List.getElem_mem _), hr.unit _ (List.getElem_mem _), ?_⟩, fun hl => ⟨?_, pyGet_lt h2⟩, fun _ => ⟨rfl, pyGet_lt h2⟩⟩
    · simp only [pyGet_lt h1, pyGet_lt h2, bind, Except.bind]
    · exact hr.norm (r.1[0], r.2[0]) (List.mem_iff_getElem.mpr ⟨0, by simp; omega, by simp⟩)
    · refine (ho hl.2).2 _ ?_
      rw [List.head?_eq_getElem?, List.getElem?_eq_getElem h1]; rfl
  | some T =>
    obtain ⟨h1, h2⟩ := ha.target T ht
    have hT : ∀ x ∈ (if s.step = 0 then T else s.bestOperator).coeffs, IsReal x := by
      split
      · exact h2
      · rename_i h0
        rcases hs.best with ⟨h, _⟩ | ⟨i, c, h, _⟩
        · have := hs.count
          rw [h] at this
          exact absurd this.symm h0
        · obtain ⟨c', _, hrec⟩ := forall₂_mem_right hs.records.flip (List.mem_of_getElem? h)
          exact hrec.real
    rcases highestFidelity_ok hnum hb.1 hM.herm hM.nonneg (ho h1).1 hr.real hT with h | ⟨v, c, f, h, h'⟩
    · left
      simp only [h, bind, Except.bind]
      simp
    · right
      refine ⟨v, c, some f, by simp only [h, bind, Except.bind], h', fun hl => ?_, by simp⟩
      rw [GreedyArgs.least, ht] at hl
      simp at hl

theorem greedyAccept_inv {R : StrAlg K 𝔸} {num : Numerics K} (hnum : IsNumerics num) {H : Operator K} {args : GreedyArgs K} (ha : GreedyOK R.Str H args)
    {s : GreedyState K} (hs : GreedyInv R H args.least args.initialOperator s) (hstep : s.step < args.numSteps) {b : Basis} (hb : GoodBasis R b) (hpos : 0 < b.len)
    {st : Explored K} (hst : st.Coherent R (· ∈ H.termStrs)) {M : Mat K} (hM : CommForm R H b M)
    {r : List K × List (List K)} (hr : Solved M b.len r) (ho : args.orthOps = none → IsEigenpairs M b.len r ∧ ∀ x ∈ r.1.head?, Rayleigh M b.len x)
    {s' : GreedyState K} {stop : Bool}
    (h : greedyAccept num args s (if s.step = 0 then args.initialOperator else s.operator) b st r.1 r.2 = .ok (s', stop)) :
    GreedyDone R H args.least args.initialOperator s' ∧ s'.comNorms.length ≤ args.numSteps ∧ (stop = false → GreedyInv R H args.least args.initialOperator s') := by
  rcases greedyChoose_ok hnum ha hs hb hpos hM hr ho with ⟨h1, _⟩ | ⟨v, c, f, h1, h2, h3, _⟩
  · unfold greedyAccept at h
    simp only [h1, bind, Except.bind] at h
    simp at h
  · unfold greedyAccept at h
    simp only [h1, bind, Except.bind] at h
    split at h
    · simp only [Except.ok.injEq, Prod.mk.injEq] at h
      obtain ⟨rfl, rfl⟩ := h
      refine ⟨⟨hs.records, hs.best⟩, by rw [show _ = s.step from hs.count]; omega, fun _ => ⟨⟨hs.records, hs.best⟩, hst, ?_, ?_, rfl, ?_, ?_, Nat.le_succ_of_le hs.vecs, hs.count⟩⟩
      · simp only [hs.prev]; exact hs.good
      · simp only [hs.prev]; exact hs.nonempty
      · intro h0; simp only [hs.prev]; exact hs.first h0
      · intro h0
        have h0' : s.step ≠ 0 := h0
        simp only [hs.prev, if_neg h0']; exact hs.later h0
    · have h20 : 0 < r.2.length := by rw [← hr.len]; exact List.length_pos_iff.mpr (hr.nonempty hpos)
      simp only [pyGet_lt h20] at h
      cases hsz : args.maxSizes[s.step]? with
      | none =>
        exfalso
        unfold greedyFinish at h
        simp only [pyGet, hsz, bind, Except.bind] at h
        split at h <;> simp at h
      | some size =>
        rcases greedyFinish_ok hnum hs hb hst hM h2 (fun hl => (h3 hl).1) (hr.dim _ (List.getElem_mem h20)) hsz (s.endEarly || lowFidelity args f) with ⟨h4, _⟩ | ⟨s2, stop2, h4, h5, h6, _, _, _, h7⟩
        · rw [h4] at h; simp at h
        · rw [h4] at h
          simp only [Except.ok.injEq, Prod.mk.injEq] at h
          obtain ⟨rfl, rfl⟩ := h
          exact ⟨h5, by omega, fun hh => (h7 hh).1⟩

theorem greedyLoop_inv (R : StrAlg K 𝔸) {num : Numerics K} (hnum : IsNumerics num) {H : Operator K} {args : GreedyArgs K} (ha : GreedyOK R.Str H args) (fuel : ℕ) :
    ∀ (n : ℕ) {s s' : GreedyState K}, GreedyInv R H args.least args.initialOperator s → s.step ≤ args.numSteps → greedyLoop num args fuel n s = .ok (some s') →
      GreedyDone R H args.least args.initialOperator s' ∧ s'.comNorms.length ≤ args.numSteps := by
  intro n
  induction n with
  | zero =>
    intro s s' hs hle h
    unfold greedyLoop at h
    split at h
    · simp at h
    · simp only [Except.ok.injEq, Option.some.injEq] at h
      subst h
      exact ⟨hs.toGreedyDone, by rw [hs.count]; exact hle⟩
  | succ n ih =>
    intro s s' hs hle h
    unfold greedyLoop at h
    split at h
    · rename_i hc
      cases hn : args.numHTerms[s.step]? with
      | none =>
        simp [greedyStep, pyGet, hn, bind, Except.bind] at h
      | some numH =>
        obtain ⟨b, st, M, r, g1, g2, g3, g4, g5, g6, g7, g8, g9⟩ := greedyStep_ok R hnum ha hs hn fuel
        rw [g7] at h
        cases hacc : greedyAccept num args s (if s.step = 0 then args.initialOperator else s.operator) b st r.1 r.2 with
        | error e => simp [hacc, bind, Except.bind] at h
        | ok p =>
          obtain ⟨s1, stop⟩ := p
          obtain ⟨q1, q2, q3⟩ := greedyAccept_inv hnum ha hs hc.1 g1 g2 g3 g4 g5 g6 hacc
          simp only [hacc, bind, Except.bind] at h
          cases stop with
          | true =>
            simp at h
            subst h
            exact ⟨q1, q2⟩
          | false =>
            simp at h
            have q4 := q3 rfl
            exact ih q4 (by rw [← q4.count]; exact q2) h
    · simp only [Except.ok.injEq, Option.some.injEq] at h
      subst h
      exact ⟨hs.toGreedyDone, by rw [hs.count]; exact hle⟩

theorem greedyInit_inv {R : StrAlg K 𝔸} {H : Operator K} {args : GreedyArgs K} (ha : GreedyOK R.Str H args) (he : args.explored.Coherent R (· ∈ H.termStrs)) :
    GreedyInv R H args.least args.initialOperator (greedyInit args) := by
  have hb : emptyBasis.iadd args.initialOperator.basis = Basis.ofList args.initialOperator.basis.strs := by
    have := Basis.iadd_ofList List.nodup_nil args.initialOperator.basis
    rw [show Basis.ofList [] = emptyBasis from rfl, unionList_eq_filter _ ha.initial.basis.2] at this
    rw [this]
    simp
  refine ⟨⟨.nil, Or.inl ⟨rfl, rfl, rfl⟩⟩, he, ?_, ?_, rfl, fun _ => hb, fun h => absurd rfl h, ha.vecs, rfl⟩
  · show GoodBasis R (emptyBasis.iadd args.initialOperator.basis)
    rw [hb, ← ha.initial.basis.1]; exact ⟨ha.initial.basis, ha.initialStr⟩
  · show 0 < (emptyBasis.iadd args.initialOperator.basis).len
    rw [hb]
    exact List.length_pos_iff.mpr ha.nonempty

/-- a normalised vector whose entries are at most `θ` has `1 ≤ n θ²` -/
theorem unit_bound {n : ℕ} {v : List K} (hl : v.length = n) (hu : ∑ j : Fin n, star (v.getD j 0) * v.getD j 0 = 1) {θ : ℚ} (h : ∀ x ∈ v, ‖toC x‖ ≤ (θ : ℝ)) :
    0 < θ ∧ 1 ≤ n * θ ^ 2 := by
  have e := congrArg toR hu
  rw [toR_sum] at e
  simp only [toR_mul_self_star] at e
  have e1 : toR (1 : K) = 1 := by simp [toR]
  rw [e1] at e
  have hb : ∀ j : Fin n, ‖toC (v.getD j 0)‖ ≤ (θ : ℝ) := by
    intro j
    have hj : (j : ℕ) < v.length := by omega
    rw [List.getD_eq_getElem _ _ hj]
    exact h _ (List.getElem_mem _)
  have hn : 0 < n := by
    by_contra h0
    have : n = 0 := by omega
    subst this
    simp at e
  have h0 : (0 : ℝ) ≤ θ := (norm_nonneg _).trans (hb ⟨0, hn⟩)
  have h1 : (1 : ℝ) ≤ n * (θ : ℝ) ^ 2 := by
    rw [← e]
    refine (Finset.sum_le_sum fun j _ => pow_le_pow_left₀ (norm_nonneg _) (hb j) 2).trans ?_
    simp
  have h2 : (1 : ℚ) ≤ n * θ ^ 2 := by exact_mod_cast h1
  refine ⟨lt_of_le_of_ne (by exact_mod_cast h0) fun e => ?_, h2⟩
  rw [← e] at h2
  norm_num at h2

theorem greedyAccept_total {R : StrAlg K 𝔸} {num : Numerics K} (hnum : IsNumerics num) {H : Operator K} {args : GreedyArgs K} (ha : GreedyOK R.Str H args)
    (ht : args.targetOperator = none)
    {s : GreedyState K} (hs : GreedyInv R H args.least args.initialOperator s) {b : Basis} (hb : GoodBasis R b) (hpos : 0 < b.len)
    {st : Explored K} (hst : st.Coherent R (· ∈ H.termStrs)) {M : Mat K} (hM : CommForm R H b M)
    {r : List K × List (List K)} (hr : Solved M b.len r) (ho : args.orthOps = none → IsEigenpairs M b.len r ∧ ∀ x ∈ r.1.head?, Rayleigh M b.len x)
    {size : ℕ} (hsize : args.maxSizes[s.step]? = some size) :
    (greedyAccept num args s (if s.step = 0 then args.initialOperator else s.operator) b st r.1 r.2 = .error .valueError ∧
      (size = 0 ∨ (0 < s.threshold ∧ 1 ≤ b.len * s.threshold ^ 2))) ∨
    ∃ s' stop, greedyAccept num args s (if s.step = 0 then args.initialOperator else s.operator) b st r.1 r.2 = .ok (s', stop) ∧
      (s'.threshold ≤ max s.threshold 0 ∧ s'.basis.len ≤ size) ∧
      (stop = false → GreedyInv R H args.least args.initialOperator s' ∧ s'.step = s.step + 1) := by
  rcases greedyChoose_ok hnum ha hs hb hpos hM hr ho with ⟨_, h1⟩ | ⟨v, c, f, h1, h2, h3, h4⟩
  · exact absurd ht h1
  · have hf := (h4 ht).1
    subst hf
    have h20 : 0 < r.2.length := by rw [← hr.len]; exact List.length_pos_iff.mpr (hr.nonempty hpos)
    have e : greedyAccept num args s (if s.step = 0 then args.initialOperator else s.operator) b st r.1 r.2 =
        greedyFinish num args s b st (s.endEarly || lowFidelity args (none : Option K)) r.2[0] v c := by
      unfold greedyAccept
      simp only [h1, bind, Except.bind, pyGet_lt h20]
      simp [lowFidelity]
    rw [e]
    rcases greedyFinish_ok hnum hs hb hst hM h2 (fun hl => (h3 hl).1) (hr.dim _ (List.getElem_mem h20)) hsize (s.endEarly || lowFidelity args (none : Option K)) with ⟨h5, h6⟩ | ⟨s2, stop2, h5, _, _, _, h6, h8, h7⟩
    · left
      refine ⟨h5, h6.imp id fun hx => ?_⟩
      obtain ⟨k1, k2⟩ := unit_bound (hr.dim _ (List.getElem_mem h20)) (hr.unit _ (List.getElem_mem h20)) hx
      split at k1
      · rename_i hg
        rw [if_pos hg] at k2
        refine ⟨by linarith, k2.trans (mul_le_mul_of_nonneg_left ?_ (by positivity))⟩
        rw [div_pow]
        have := sq_nonneg s.threshold
        linarith
      · rename_i hg
        rw [if_neg hg] at k2
        exact ⟨k1, k2⟩
    · right
      refine ⟨s2, stop2, h5, ⟨?_, h8.1.size⟩, h7⟩
      rw [h6]
      split
      · rcases le_total 0 s.threshold with h | h
        · exact le_max_of_le_left (by linarith)
        · exact le_max_of_le_right (by linarith)
      · exact le_max_left _ _

theorem greedyLoop_total (R : StrAlg K 𝔸) {num : Numerics K} (hnum : IsNumerics num) {H : Operator K} {args : GreedyArgs K} (ha : GreedyOK R.Str H args)
    (ht : args.targetOperator = none) (h1 : args.numSteps ≤ args.numHTerms.length) (h2 : args.numSteps ≤ args.maxSizes.length)
    {size terms : ℕ} (h3 : ∀ z ∈ args.maxSizes, z ≤ size) (h4 : ∀ t ∈ args.numHTerms, t ≤ terms) (fuel : ℕ) :
    ∀ (n : ℕ) {s : GreedyState K}, GreedyInv R H args.least args.initialOperator s → s.basis.len ≤ size → args.numSteps ≤ s.step + n →
      (∃ s', greedyLoop num args fuel n s = .ok (some s')) ∨
        (greedyLoop num args fuel n s = .error .valueError ∧ ((∃ z ∈ args.maxSizes, z = 0) ∨
          (0 < s.threshold ∧ 1 ≤ ((size + terms + 2 * args.numOTerms : ℕ) : ℚ) * s.threshold ^ 2))) := by
  intro n
  induction n with
  | zero =>
    intro s hs hlen hle
    left
    unfold greedyLoop
    rw [if_neg (by omega)]
    exact ⟨s, rfl⟩
  | succ n ih =>
    intro s hs hlen hle
    unfold greedyLoop
    split
    · rename_i hc
      have hn : args.numHTerms[s.step]? = some args.numHTerms[s.step] := List.getElem?_eq_getElem (by omega)
      have hz : args.maxSizes[s.step]? = some args.maxSizes[s.step] := List.getElem?_eq_getElem (by omega)
      obtain ⟨b, st, M, r, g1, g2, g3, g4, g5, g6, g7, g8, g9⟩ := greedyStep_ok R hnum ha hs hn fuel
      rcases greedyAccept_total hnum ha ht hs g1 g2 g3 g4 g5 g6 hz with ⟨q1, q2⟩ | ⟨s', stop, q1, q2, q3⟩
      · right
        simp only [g7, q1, bind, Except.bind]
        refine ⟨trivial, q2.imp (fun h => ⟨_, List.getElem_mem _, h⟩) fun h => ⟨h.1, h.2.trans (mul_le_mul_of_nonneg_right ?_ (sq_nonneg _))⟩⟩
        have := h4 _ (List.getElem_mem (show s.step < args.numHTerms.length by omega))
        exact_mod_cast (show b.len ≤ size + terms + 2 * args.numOTerms by omega)
      · simp only [g7, q1, bind, Except.bind]
        cases stop with
        | true => left; exact ⟨s', rfl⟩
        | false =>
          obtain ⟨q4, q5⟩ := q3 rfl
          rcases ih q4 (q2.2.trans (h3 _ (List.getElem_mem _))) (by omega) with ⟨s2, e⟩ | ⟨e, h⟩
          · left; exact ⟨s2, by simpa using e⟩
          · right
            refine ⟨by simpa using e, h.imp id fun h => ?_⟩
            have hpos : 0 < s.threshold := by
              by_contra hθ
              have := q2.1
              rw [max_eq_right (not_lt.mp hθ)] at this
              linarith [h.1]
            have hle : s'.threshold ≤ s.threshold := by
              have := q2.1
              rwa [max_eq_left hpos.le] at this
            exact ⟨hpos, h.2.trans (mul_le_mul_of_nonneg_left (pow_le_pow_left₀ h.1.le hle 2) (by positivity))⟩
    · left; exact ⟨s, rfl⟩

theorem greedyReach_inv (R : StrAlg K 𝔸) {num : Numerics K} (hnum : IsNumerics num) {H : Operator K} {args : GreedyArgs K} (ha : GreedyOK R.Str H args)
    (he : args.explored.Coherent R (· ∈ H.termStrs)) {fuel : ℕ} {s : GreedyState K} (h : GreedyReach num args fuel s) :
    GreedyInv R H args.least args.initialOperator s := by
  induction h with
  | init => exact greedyInit_inv ha he
  | @step s s' _ h1 _ h2 hs =>
    cases hn : args.numHTerms[s.step]? with
    | none => simp [greedyStep, pyGet, hn, bind, Except.bind] at h2
    | some numH =>
      obtain ⟨b, st, M, r, g1, g2, g3, g4, g5, g6, g7, g8, g9⟩ := greedyStep_ok R hnum ha hs hn fuel
      rw [g7] at h2
      cases hacc : greedyAccept num args s (if s.step = 0 then args.initialOperator else s.operator) b st r.1 r.2 with
      | error e => simp [hacc, bind, Except.bind] at h2
      | ok p =>
        simp only [hacc, bind, Except.bind, Except.ok.injEq, Option.some.injEq] at h2
        subst h2
        exact (greedyAccept_inv hnum ha hs h1 g1 g2 g3 g4 g5 g6 hacc).2.2 rfl

theorem greedyStep_truncation (R : StrAlg K 𝔸) {num : Numerics K} (hnum : IsNumerics num) {H : Operator K} {args : GreedyArgs K} (ha : GreedyOK R.Str H args)
    (ht : args.targetOperator = none) {s : GreedyState K} (hs : GreedyInv R H args.least args.initialOperator s) {fuel : ℕ} {s' : GreedyState K} {stop : Bool}
    (h : greedyStep num args fuel s = .ok (some (s', stop))) :
    ∃ O size, s'.operators.getLast? = some O ∧ args.maxSizes[s.step]? = some size ∧ (IsTruncation O.basis O.coeffs s'.threshold size s'.basis ∧
      s'.operator.basis = s'.basis ∧ s'.operator.coeffs = O.coeffs.take s'.basis.len) ∧ ∃ numH, args.numHTerms[s.step]? = some numH ∧
      (∀ t ∈ s.basis.strs, t ∈ O.basis.strs) ∧ O.basis.len ≤ s.basis.len + numH + 2 * args.numOTerms := by
  cases hn : args.numHTerms[s.step]? with
  | none => simp [greedyStep, pyGet, hn, bind, Except.bind] at h
  | some numH =>
    obtain ⟨b, st, M, r, g1, g2, g3, g4, g5, g6, g7, g8, g9⟩ := greedyStep_ok R hnum ha hs hn fuel
    rw [g7] at h
    rcases greedyChoose_ok hnum ha hs g1 g2 g4 g5 g6 with ⟨_, h1⟩ | ⟨v, c, f, h1, h2, h3, h4⟩
    · exact absurd ht h1
    · obtain ⟨rfl, hv⟩ := h4 ht
      have e : greedyAccept num args s (if s.step = 0 then args.initialOperator else s.operator) b st r.1 r.2 =
          greedyFinish num args s b st (s.endEarly || lowFidelity args (none : Option K)) v v c := by
        unfold greedyAccept
        simp only [h1, bind, Except.bind, hv]
        simp [lowFidelity]
      rw [e] at h
      cases hsz : args.maxSizes[s.step]? with
      | none =>
        exfalso
        unfold greedyFinish at h
        simp only [pyGet, hsz, bind, Except.bind] at h
        split at h
        · simp at h
        · rename_i h'
          split at h' <;> simp at h'
      | some size =>
        rcases greedyFinish_ok hnum hs g1 g3 g4 h2 (fun hl => (h3 hl).1) h2.len hsz (s.endEarly || lowFidelity args (none : Option K)) with ⟨h5, _⟩ | ⟨s2, stop2, h5, _, _, h6, _, h7, _⟩
        · rw [h5] at h; simp [bind, Except.bind] at h
        · rw [h5] at h
          simp only [bind, Except.bind, Except.ok.injEq, Option.some.injEq, Prod.mk.injEq] at h
          obtain ⟨rfl, rfl⟩ := h
          exact ⟨_, size, h6, rfl, h7, numH, rfl, g8, g9⟩

end Qosy
