import Verif.Props.Counting
import Verif.Props.EnergyArithmetic

/-! # C124: the energies of sums of commuting strings -/

namespace Qosy
variable {n : ℕ} {num : Eigensolvers}

private theorem commute_den {𝔸 : Type} [Ring 𝔸] [Algebra ℂ 𝔸] {den : OpString → 𝔸} {x : 𝔸} (ts : List (ℂ × OpString)) (h : ∀ t ∈ ts, Commute x (den t.2)) :
    Commute x (denT den ts) := by
  induction ts with
  | nil => simp [denT]
  | cons a ts ih =>
    rw [denT_cons]
    exact ((h a List.mem_cons_self).smul_right a.1).add_right (ih fun t ht => h t (List.mem_cons_of_mem _ ht))

private theorem joint {ι : Type} [Fintype ι] [DecidableEq ι] {M : Matrix ι ι ℂ} {d : OpString → Matrix ι ι ℂ} {E : ℂ} {v : ι → ℂ} (hv : v ≠ 0) (hM : M.mulVec v = E • v)
    {l : List OpString} (hsq : ∀ s ∈ l, d s * d s = 1) (hcM : ∀ s ∈ l, Commute (d s) M) (hc : ∀ s ∈ l, ∀ u ∈ l, Commute (d s) (d u)) :
    ∀ k : List OpString, (∀ s ∈ k, s ∈ l) → ∃ w : ι → ℂ, w ≠ 0 ∧ M.mulVec w = E • w ∧ ∀ s ∈ k, (d s).mulVec w = w ∨ (d s).mulVec w = -w
  | [], _ => ⟨v, hv, hM, by simp⟩
  | s :: k, hk => by
    obtain ⟨w, w1, w2, w3⟩ := joint hv hM hsq hcM hc k fun u hu => hk u (List.mem_cons_of_mem _ hu)
    have hs := hk s List.mem_cons_self
    set y := (d s).mulVec w with hy
    have hsy : (d s).mulVec y = w := by rw [hy, Matrix.mulVec_mulVec, hsq s hs, Matrix.one_mulVec]
    have hMy : M.mulVec y = E • y := by
      rw [hy, Matrix.mulVec_mulVec, ← (hcM s hs).eq, ← Matrix.mulVec_mulVec, w2, Matrix.mulVec_smul]
    have huy : ∀ u ∈ k, ((d u).mulVec w = w → (d u).mulVec y = y) ∧ ((d u).mulVec w = -w → (d u).mulVec y = -y) := fun u hu => by
      have e : (d u).mulVec y = (d s).mulVec ((d u).mulVec w) := by
        rw [hy, Matrix.mulVec_mulVec, Matrix.mulVec_mulVec, (hc u (hk u (List.mem_cons_of_mem _ hu)) s hs).eq]
      exact ⟨fun h => by rw [e, h], fun h => by rw [e, h, Matrix.mulVec_neg]⟩
    by_cases h0 : w + y = 0
    · refine ⟨w, w1, w2, fun u hu => ?_⟩
      rcases List.mem_cons.mp hu with rfl | hu
      · exact Or.inr (eq_neg_of_add_eq_zero_right h0)
      · exact w3 u hu
    · refine ⟨w + y, h0, by rw [Matrix.mulVec_add, w2, hMy, smul_add], fun u hu => ?_⟩
      rcases List.mem_cons.mp hu with rfl | hu
      · exact Or.inl (by rw [Matrix.mulVec_add, ← hy, hsy, add_comm])
      · rcases w3 u hu with h | h
        · exact Or.inl (by rw [Matrix.mulVec_add, h, (huy u hu).1 h])
        · exact Or.inr (by rw [Matrix.mulVec_add, h, (huy u hu).2 h, neg_add])

/-- **C124**: let `A` be a sum of Pauli or Majorana strings with real coefficients whose strings commute pairwise: the number of anticommuting pairs of letters
is even.  Every energy of `diagonalize` is a sum of all coefficients with signs. -/
theorem C124_energies (hnum : num.Exact) {A : Operator ℂ} (hA : RealOperator n A)
    (hcomm : ∀ s ∈ A.basis.strs, ∀ u ∈ A.basis.strs, Even (anticommutingPairs A.opType s u)) :
    ∃ es, HasEnergies num A n none es ∧ ∀ E ∈ es, ∃ ε : OpString → ℂ, (∀ s, ε s = 1 ∨ ε s = -1) ∧ (E : ℂ) = (A.terms.map fun t => ε t.2 * t.1).sum := by
  obtain ⟨R, r1, r2, r3, r4, r5, r6, r7⟩ := realOperator_on hA
  obtain ⟨es, e1, -, -, -⟩ := C113_coefficients hnum hA
  obtain ⟨p, c, vecs, h1, -, -, h4, -, -, h7, -⟩ := C81_energies hnum r6.wf r6.mem r6.convertible r6.hermitian (numVecs := none) (by simp)
  have hes : es = p.map Prod.fst := by
    obtain ⟨⟨v, hv⟩, -⟩ := e1
    rw [h1] at hv
    simp only [Except.ok.injEq, Prod.mk.injEq] at hv
    refine List.map_injective_iff.mpr Complex.ofReal_injective ?_
    rw [← hv.1, List.map_map]
    exact List.map_congr_left fun x _ => by simp [h7 r7]
  have typed : ∀ s ∈ A.basis.strs, TypedString A.opType (siteLabels n) s := fun s hs => by
    rcases hA.1 with h | h
    · exact Or.inl ⟨h.type, (h.mem s hs).1⟩
    · exact Or.inr ⟨h.type, (h.mem s hs).1⟩
  have comm : ∀ s ∈ A.basis.strs, ∀ u ∈ A.basis.strs, Commute (R.den s) (R.den u) := fun s hs u hu => by
    have k := (C122_strings (K := ℂ) (typed s hs) (typed u hu)).1.mpr (hcomm s hs u hu)
    rcases R.op_string .commutator (r2 s hs).1 (r2 u hu).1 with k' | ⟨c, C, k', -⟩
    · exact sub_eq_zero.mp k'.2
    · rw [show (operationOpString .commutator s u : Py (ℂ × Option OpString)) = .ok (0, none) from k] at k'
      simp at k'
  refine ⟨es, e1, fun E hE => ?_⟩
  rw [hes] at hE
  obtain ⟨q, hq, rfl⟩ := List.mem_map.mp hE
  have k := h4.eigen q hq
  rw [r1] at k
  have hne : q.2 ≠ 0 := fun h0 => by
    have hu := h4.orthonormal.1 q.2 (List.mem_map_of_mem hq)
    rw [h0] at hu
    simp at hu
  obtain ⟨w, w1, w2, w3⟩ := joint (d := R.den) hne k (fun s hs => R.sq s (r2 s hs).1) (fun s hs => commute_den A.terms fun t ht => comm s hs _ (mem_terms ht)) comm
    A.basis.strs fun _ h => h
  classical
  refine ⟨fun s => if (R.den s).mulVec w = w then 1 else -1, fun s => by simp only []; split <;> simp, ?_⟩
  have key : ∀ ts : List (ℂ × OpString), (∀ t ∈ ts, t.2 ∈ A.basis.strs) →
      (denT R.den ts).mulVec w = (ts.map fun t => (if (R.den t.2).mulVec w = w then 1 else -1) * t.1).sum • w := by
    intro ts hts
    induction ts with
    | nil => simp [denT]
    | cons a ts ih =>
      rw [denT_cons, Matrix.add_mulVec, ih fun t ht => hts t (List.mem_cons_of_mem _ ht), List.map_cons, List.sum_cons, add_smul, Matrix.smul_mulVec]
      congr 1
      by_cases hw : (R.den a.2).mulVec w = w
      · rw [if_pos hw, hw, one_mul]
      · rw [if_neg hw, (w3 _ (hts a List.mem_cons_self)).resolve_left hw, neg_one_mul, neg_smul, smul_neg]
  have := key A.terms fun t ht => mem_terms ht
  rw [show denT R.den A.terms = A.den R.den from rfl, w2] at this
  exact smul_left_injective ℂ w1 this

/-! ### non-vacuity: `X_0 X_1 + 2 Z_0 Z_1` -/

private noncomputable def bellSum : Operator ℂ := ⟨[1, 2], Basis.ofList [⟨[.X, .X], [0, 1], .pauli, .float1⟩, ⟨[.Z, .Z], [0, 1], .pauli, .float1⟩], .pauli⟩

example : ∃ (num : Eigensolvers) (es : List ℝ), num.Exact ∧ HasEnergies num bellSum 2 none es ∧ es.length = 4 ∧
    ∀ E ∈ es, (E : ℂ) = 3 ∨ (E : ℂ) = 1 ∨ (E : ℂ) = -1 ∨ (E : ℂ) = -3 := by
  obtain ⟨num, hnum⟩ := exists_exactEigensolvers
  obtain ⟨es, h1, h2⟩ := C124_energies (n := 2) (A := bellSum) hnum (by
    refine ⟨Or.inl ⟨Operator.WF.mk' (by simp) rfl (by simp), rfl, ?_⟩, ?_⟩
    · intro s hs
      simp only [bellSum, Basis.ofList, List.mem_cons, List.not_mem_nil, or_false] at hs
      rcases hs with rfl | rfl
      · exact ⟨⟨rfl, by simp, rfl, by simp, by simp [siteLabels], by simp⟩, by simp, Or.inr rfl⟩
      · exact ⟨⟨rfl, by simp, rfl, by simp, by simp [siteLabels], by simp⟩, by simp, Or.inr rfl⟩
    · intro x hx
      simp only [bellSum, List.mem_cons, List.not_mem_nil, or_false] at hx
      rcases hx with rfl | rfl <;> simp) (by
    simp only [bellSum, Basis.ofList]
    decide)
  refine ⟨num, es, hnum, h1, h1.2.1, fun E hE => ?_⟩
  obtain ⟨ε, e1, e2⟩ := h2 E hE
  rw [e2]
  simp only [bellSum, Operator.terms, Basis.ofList, List.zip_cons_cons, List.zip_nil_right, List.map_cons, List.map_nil, List.sum_cons, List.sum_nil]
  rcases e1 ⟨[.X, .X], [0, 1], .pauli, .float1⟩ with h | h <;> rcases e1 ⟨[.Z, .Z], [0, 1], .pauli, .float1⟩ with h' | h' <;> rw [h, h'] <;> norm_num

end Qosy
