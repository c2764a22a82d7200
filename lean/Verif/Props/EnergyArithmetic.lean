import Verif.Lemmas.EnergyArithmetic
import Verif.Spec.EnergyArithmetic
import Verif.Props.Energies
import Verif.Props.Operator

/-! # C113: the energies returned by `diagonalize` follow the arithmetic of operators -/

namespace Qosy
variable {n : ℕ} {num num' num'' : Eigensolvers}

private theorem energies (hnum : num.Exact) {A : Operator ℂ} (hA : Diagonalizable n A) {numVecs : Option ℕ} (hk : ∀ k ∈ numVecs, 0 < k ∧ k + 1 < 2 ^ n) :
    ∃ (pairs : List (ℝ × (Cfg n → ℂ))) (c : ℝ), HasEnergies num A n numVecs (pairs.map fun p => p.1 - c) ∧ pairs.length = numVecs.getD (2 ^ n) ∧
      LowestEigenpairs (A.den (matRep ℂ n).anyDen) pairs ∧ (pairs.Pairwise fun p q => p.1 ≤ q.1) ∧
      (numVecs = none → ∀ u : Cfg n → ℂ, (∀ p ∈ pairs, ∑ σ, star (p.2 σ) * u σ = 0) → u = 0) ∧
      (c : ℂ) = if A.opType = .fermion then (A.den (matRep ℂ n).anyDen).trace / 2 ^ n else 0 := by
  obtain ⟨pairs, c, vecs, h1, -, h3, h4, h5, h6, h7, h8⟩ := C81_energies hnum hA.wf hA.mem hA.convertible hA.hermitian hk
  refine ⟨pairs, c, ⟨⟨vecs, ?_⟩, by rw [List.length_map]; exact h3, ?_⟩, h3, h4, h5, h6, ?_⟩
  · rw [h1, List.map_map]; rfl
  · exact List.pairwise_map.mpr (h5.imp fun {p q} h => sub_le_sub_right h c)
  · split
    · rename_i h; exact h8 h
    · rename_i h; rw [h7 h]; simp

/-- **C113**: a multiple `x * A`, `x ≥ 0`, has the energies of `A` times `x`. -/
theorem C113_scale (hnum : num.Exact) (hnum' : num'.Exact) {A : Operator ℂ} (hA : Diagonalizable n A) {x : ℝ} (hx : 0 ≤ x) {numVecs : Option ℕ}
    (hk : ∀ k ∈ numVecs, 0 < k ∧ k + 1 < 2 ^ n) :
    ∃ B es, A.smul (x : ℂ) = .ok B ∧ HasEnergies num A n numVecs es ∧ HasEnergies num' B n numVecs (es.map (x * ·)) := by
  obtain ⟨B, b1, b2, b3, b4, b5⟩ := C07_smul hA.wf (x : ℂ)
  have hden : ∀ d : OpString → Matrix (Cfg n) (Cfg n) ℂ, B.den d = (x : ℂ) • A.den d := fun d => denT_smul d _ b5
  have hB : Diagonalizable n B := ⟨b2, by rw [b4]; exact hA.mem, by rw [b4]; exact hA.convertible, by
    rw [hden, Matrix.IsHermitian, Matrix.conjTranspose_smul, hA.hermitian.eq]
    congr 1
    exact Complex.conj_ofReal x⟩
  obtain ⟨p, c, h1, h2, h3, h4, -, h6⟩ := energies hnum hA hk
  obtain ⟨q, d, g1, g2, g3, g4, -, g6⟩ := energies hnum' hB hk
  refine ⟨B, _, b1, h1, ?_⟩
  have hs := h3.smul hx
  rw [← hden] at hs
  have hd : d = x * c := by
    rw [b3, hden, Matrix.trace_smul] at g6
    apply Complex.ofReal_injective
    rw [g6, Complex.ofReal_mul, h6]
    split
    · rw [smul_eq_mul, mul_div_assoc]
    · simp
  have he := g3.take hB.hermitian hs g4 (List.pairwise_map.mpr (h4.imp fun {a b} h => mul_le_mul_of_nonneg_left h hx)) (by rw [List.length_map, g2, h2])
  rw [List.map_map, List.take_of_length_le (by rw [List.length_map, g2, h2])] at he
  convert g1 using 1
  have e : (q.map fun p => p.1 - d) = (q.map Prod.fst).map (· - d) := by rw [List.map_map]; rfl
  rw [e, he, List.map_map, List.map_map]
  exact List.map_congr_left fun a _ => by simp only [Function.comp_apply, hd]; ring

/-- **C113**: `-A` has the negative energies, in the other order. -/
theorem C113_neg (hnum : num.Exact) (hnum' : num'.Exact) {A : Operator ℂ} (hA : Diagonalizable n A) :
    ∃ B es, A.neg = .ok B ∧ HasEnergies num A n none es ∧ HasEnergies num' B n none (es.map (-·)).reverse := by
  obtain ⟨B, b1, b2, b3, b4, b5⟩ := C07_neg hA.wf
  have hden : ∀ d : OpString → Matrix (Cfg n) (Cfg n) ℂ, B.den d = -A.den d := fun d => by
    rw [← neg_one_smul ℂ (A.den d)]
    exact denT_smul d _ (fun s => by rw [show coefT B.terms s = B.coef s from rfl, b5, neg_one_mul]; rfl)
  have hB : Diagonalizable n B := ⟨b2, by rw [b4]; exact hA.mem, by rw [b4]; exact hA.convertible, by
    rw [hden, Matrix.IsHermitian, Matrix.conjTranspose_neg, hA.hermitian.eq]⟩
  obtain ⟨p, c, h1, h2, h3, h4, h5, h6⟩ := energies hnum hA (numVecs := none) (by simp)
  obtain ⟨q, d, g1, g2, g3, g4, -, g6⟩ := energies hnum' hB (numVecs := none) (by simp)
  refine ⟨B, _, b1, h1, ?_⟩
  have hs := h3.neg (h5 rfl)
  rw [← hden] at hs
  have hd : d = -c := by
    rw [b3, hden, Matrix.trace_neg] at g6
    apply Complex.ofReal_injective
    rw [g6, Complex.ofReal_neg, h6]
    split
    · rw [neg_div]
    · simp
  have he := g3.take hB.hermitian hs g4 (List.pairwise_reverse.mpr (List.pairwise_map.mpr (h4.imp fun {a b} h => neg_le_neg h)))
    (by rw [List.length_reverse, List.length_map, g2, h2])
  rw [List.take_of_length_le (by rw [List.length_map, List.length_reverse, List.length_map, g2, h2]), List.map_reverse, List.map_map] at he
  convert g1 using 1
  have e : (q.map fun p => p.1 - d) = (q.map Prod.fst).map (· - d) := by rw [List.map_map]; rfl
  rw [e, he, List.map_reverse, List.map_map, List.map_map]
  congr 1
  exact List.map_congr_left fun a _ => by simp only [Function.comp_apply, hd]; ring

private theorem diagonalizable_add {A B C : Operator ℂ} (hA : Diagonalizable n A) (hB : Diagonalizable n B) (hC : C.WF)
    (hm : C.basis.strs = mergedStrings A.basis.strs B.basis.strs) (hc : ∀ s, C.coef s = A.coef s + B.coef s) :
    Diagonalizable n C ∧ C.den (matRep ℂ n).anyDen = A.den (matRep ℂ n).anyDen + B.den (matRep ℂ n).anyDen := by
  have hden : C.den (matRep ℂ n).anyDen = A.den (matRep ℂ n).anyDen + B.den (matRep ℂ n).anyDen := denT_add _ hc
  have hmem : ∀ s ∈ C.basis.strs, s ∈ A.basis.strs ∨ s ∈ B.basis.strs := by
    rw [hm]
    intro s hs
    rcases List.mem_append.mp hs with h | h
    · exact Or.inl h
    · exact Or.inr (List.mem_of_mem_filter h)
  refine ⟨⟨hC, fun s hs => (hmem s hs).elim (hA.mem s) (hB.mem s), fun s hs => (hmem s hs).elim (hA.convertible s) (hB.convertible s), ?_⟩, hden⟩
  rw [hden]
  exact hA.hermitian.add hB.hermitian

/-- **C113**: the energies of a sum are at least the sums of energies: the `i`-th energy of `A` plus the `j`-th energy of `B` is at most the `(i+j)`-th
energy of `A + B`, however many energies are asked for. -/
theorem C113_sum (hnum : num.Exact) (hnum' : num'.Exact) (hnum'' : num''.Exact) {A B : Operator ℂ} (hA : Diagonalizable n A) (hB : Diagonalizable n B)
    (ht : A.opType = B.opType) {k l m : Option ℕ} (hk : ∀ x ∈ k, 0 < x ∧ x + 1 < 2 ^ n) (hl : ∀ x ∈ l, 0 < x ∧ x + 1 < 2 ^ n) (hm : ∀ x ∈ m, 0 < x ∧ x + 1 < 2 ^ n) :
    ∃ C as bs cs, A.add B = .ok C ∧ HasEnergies num A n k as ∧ HasEnergies num' B n l bs ∧ HasEnergies num'' C n m cs ∧
      ∀ (i j : ℕ) (hi : i < as.length) (hj : j < bs.length) (hij : i + j < cs.length), as[i] + bs[j] ≤ cs[i + j] := by
  obtain ⟨C, c1, -, c3, c4, c5, c6⟩ := C07_add hA.wf hB.wf ht
  obtain ⟨hC, hden⟩ := diagonalizable_add hA hB c3 c5 c6
  obtain ⟨p, x, h1, h2, h3, h4, -, h6⟩ := energies hnum hA hk
  obtain ⟨q, y, g1, g2, g3, g4, -, g6⟩ := energies hnum' hB hl
  obtain ⟨r, z, f1, f2, f3, f4, -, f6⟩ := energies hnum'' hC hm
  refine ⟨C, _, _, _, c1, h1, g1, f1, fun i j hi hj hij => ?_⟩
  have hz : z = x + y := by
    apply Complex.ofReal_injective
    rw [Complex.ofReal_add, f6, h6, g6, c4, ← ht, hden, Matrix.trace_add]
    split
    · rw [add_div]
    · simp
  rw [hden] at f3
  rw [List.length_map] at hi hj hij
  have := h3.weyl hA.hermitian hB.hermitian g3 f3 h4 g4 f4 hi hj hij
  rw [List.getElem_map, List.getElem_map, List.getElem_map]
  linarith

/-- **C113**: adding a multiple `x` of the identity shifts the energies by `x`. -/
theorem C113_identity (hnum : num.Exact) (hnum' : num'.Exact) {A : Operator ℂ} (hA : Diagonalizable n A) (ht : A.opType = .pauli ∨ A.opType = .majorana) (x : ℝ)
    {numVecs : Option ℕ} (hk : ∀ k ∈ numVecs, 0 < k ∧ k + 1 < 2 ^ n) :
    ∃ E B es, mkOperator [(x : ℂ)] [identityString A.opType] none = .ok E ∧ A.add E = .ok B ∧ HasEnergies num A n numVecs es ∧
      HasEnergies num' B n numVecs (es.map (· + x)) := by
  have hE : ∃ E, mkOperator [(x : ℂ)] [identityString A.opType] none = .ok E ∧ E.WF ∧ E.opType = A.opType ∧ E.terms = [((x : ℂ), identityString A.opType)] ∧
      E.basis.strs = [identityString A.opType] := by
    obtain ⟨E, e1, e2, e3, e4⟩ := C07_constructor (cs := [(x : ℂ)]) (strs := [identityString A.opType]) (by simp) rfl (t := A.opType) (by simp [identityString])
    refine ⟨⟨[(x : ℂ)], Basis.ofList [identityString A.opType], A.opType⟩, rfl, Operator.WF.mk' (by simp) rfl (by simp [identityString]), rfl, rfl, rfl⟩
  obtain ⟨E, e1, e2, e3, e4, e5⟩ := hE
  have hden : E.den (matRep ℂ n).anyDen = (x : ℂ) • 1 := by
    rw [Operator.den, e4, denT_cons, denT_nil, add_zero]
    congr 1
    rcases ht with h | h
    · rw [h, PauliRep.anyDen]; exact (matRep ℂ n).den_identity
    · rw [h, PauliRep.anyDen]; simp [MajoranaRep.den, identityString, wordProd, Pref.val]
  have hEd : Diagonalizable n E := ⟨e2, fun s hs => by
      rw [e5, List.mem_singleton] at hs
      subst hs
      rcases ht with h | h
      · rw [h]; exact Or.inl (identity_pauli _).1
      · rw [h]; exact Or.inr (Or.inl (identity_majorana _).1),
    fun s hs hf => by
      rw [e5, List.mem_singleton] at hs
      subst hs
      rcases ht with h | h <;> · rw [h] at hf; simp [identityString] at hf,
    by
      rw [hden, Matrix.IsHermitian, Matrix.conjTranspose_smul, Matrix.conjTranspose_one]
      congr 1
      exact Complex.conj_ofReal x⟩
  have hnf : A.opType ≠ .fermion := by rcases ht with h | h <;> rw [h] <;> simp
  obtain ⟨B, c1, -, c3, c4, c5, c6⟩ := C07_add hA.wf e2 e3.symm
  obtain ⟨hB, hdenB⟩ := diagonalizable_add hA hEd c3 c5 c6
  obtain ⟨p, c, h1, h2, h3, h4, -, h6⟩ := energies hnum hA hk
  obtain ⟨q, d, g1, g2, g3, g4, -, g6⟩ := energies hnum' hB hk
  rw [if_neg hnf, Complex.ofReal_eq_zero] at h6
  rw [c4, if_neg hnf, Complex.ofReal_eq_zero] at g6
  subst h6 g6
  refine ⟨E, B, _, e1, c1, h1, ?_⟩
  have hs := h3.shift x
  rw [← hden, ← hdenB] at hs
  have he := g3.take hB.hermitian hs g4 (List.pairwise_map.mpr (h4.imp fun {a b} h => add_le_add_left h x)) (by rw [List.length_map, g2, h2])
  rw [List.map_map, List.take_of_length_le (by rw [List.length_map, g2, h2])] at he
  convert g1 using 1
  simp only [sub_zero]
  rw [show (q.map fun p => p.1) = q.map Prod.fst from rfl, he, List.map_map]
  rfl

theorem realOperator_on {A : Operator ℂ} (h : RealOperator n A) : ∃ R : StrAlg ℂ (Matrix (Cfg n) (Cfg n) ℂ), A.den (matRep ℂ n).anyDen = A.den R.den ∧
    (∀ s ∈ A.basis.strs, R.Str s ∧ s.Canonical) ∧ (∀ s ∈ A.basis.strs, (R.den s).IsHermitian) ∧
    (R.Str (identityString A.opType) ∧ (identityString A.opType).Canonical) ∧ R.den (identityString A.opType) = 1 ∧ Diagonalizable n A ∧ A.opType ≠ .fermion := by
  obtain ⟨h | h, hr⟩ := h
  · have hA : A.On .pauli (PauliString (siteLabels n)) := ⟨h.wf, h.type, fun s hs => (h.mem s hs).1⟩
    have hH : ∀ s ∈ A.basis.strs, star ((matRep ℂ n).den s) = (matRep ℂ n).den s := fun s hs => star_den_matRep (hA.mem s hs)
    refine ⟨(matRep ℂ n).strAlg, den_pauli hA, h.mem, hH, ?_, ?_, diagonalizable_pauli hA (hermitian_of_real hH fun x hx => hr _ (List.of_mem_zip hx).1), by rw [h.type]; simp⟩
    · rw [h.type]; exact identity_pauli _
    · rw [h.type]; exact (matRep ℂ n).den_identity
  · have hA : A.On .majorana (MajoranaString (siteLabels n)) := ⟨h.wf, h.type, fun s hs => (h.mem s hs).1⟩
    have hH : ∀ s ∈ A.basis.strs, star ((siteMajoranas n).den s) = (siteMajoranas n).den s := fun s hs => MajoranaRep.star_den _ siteMajoranas_star (hA.mem s hs)
    refine ⟨(siteMajoranas n).strAlg, den_majorana hA, h.mem, hH, ?_, ?_, diagonalizable_majorana hA (hermitian_of_real hH fun x hx => hr _ (List.of_mem_zip hx).1), by rw [h.type]; simp⟩
    · rw [h.type]; exact identity_majorana _
    · rw [h.type]; exact majorana_identity _

private theorem card_cfg : (Fintype.card (Cfg n) : ℂ) = 2 ^ n := by
  simp [Cfg]

private theorem ofReal_list_sum (l : List ℝ) : ((l.sum : ℝ) : ℂ) = (l.map Complex.ofReal).sum := by
  induction l with
  | nil => simp
  | cons x l ih => simp [ih]

/-- **C113**: the mean of all energies is the coefficient of the identity, the mean of their squares is the square of the norm of the operator, and no energy
exceeds the sum of the magnitudes of the coefficients. -/
theorem C113_coefficients (hnum : num.Exact) {A : Operator ℂ} (hA : RealOperator n A) :
    ∃ es, HasEnergies num A n none es ∧ ((es.sum : ℝ) : ℂ) = 2 ^ n * A.coef (identityString A.opType) ∧
      (es.map (· ^ 2)).sum = 2 ^ n * A.norm .l2 ^ 2 ∧ ∀ E ∈ es, |E| ≤ (A.coeffs.map (‖·‖)).sum := by
  obtain ⟨R, r1, r2, r3, r4, r5, r6, r7⟩ := realOperator_on hA
  obtain ⟨p, c, h1, h2, h3, h4, -, h6⟩ := energies hnum r6 (numVecs := none) (by simp)
  rw [if_neg r7, Complex.ofReal_eq_zero] at h6
  subst h6
  simp only [sub_zero] at h1
  have hcard : p.length = Fintype.card (Cfg n) := by rw [h2]; simp [Cfg]
  rw [r1] at h3
  refine ⟨_, h1, ?_, ?_, ?_⟩
  · have e := h3.trace_pow hcard 1
    rw [pow_one, Operator.den, R.trace_linComb r4 r5 (fun t ht => r2 _ (mem_terms ht)), card_cfg] at e
    rw [show A.coef (identityString A.opType) = coefT A.terms (identityString A.opType) from rfl, e]
    simp only [pow_one]
    rw [ofReal_list_sum, List.map_map]
    rfl
  · have e := h3.trace_pow hcard 2
    rw [den_linComb r6.wf.len, R.trace_square r6.wf.basis.2 r2, card_cfg] at e
    apply Complex.ofReal_injective
    have e1 : ((((p.map fun p => p.1).map (· ^ 2)).sum : ℝ) : ℂ) = (p.map fun p => (p.1 : ℂ) ^ 2).sum := by
      rw [ofReal_list_sum, List.map_map, List.map_map]
      congr 1
      exact List.map_congr_left fun x _ => by simp
    rw [e1, ← e, Operator.norm, Real.sq_sqrt (List.sum_nonneg (by
      intro x hx
      obtain ⟨y, -, rfl⟩ := List.mem_map.mp hx
      positivity)), Complex.ofReal_mul, Complex.ofReal_pow, Complex.ofReal_ofNat]
    congr 1
    rw [ofReal_list_sum, List.map_map, ← Fin.sum_univ_fun_getElem]
    have hl : A.coeffs.length = A.basis.strs.length := r6.wf.len
    rw [← Fin.sum_congr' _ hl]
    refine Finset.sum_congr rfl fun i _ => ?_
    have hi : (i : ℕ) < A.coeffs.length := i.2
    simp only [Fin.val_cast, Function.comp_apply]
    rw [List.getD_eq_getElem _ _ hi, pow_two]
    nth_rewrite 1 [← hA.2 _ (List.getElem_mem hi)]
    rw [Complex.star_def, Complex.conj_mul', Complex.ofReal_pow]
  · intro E hE
    obtain ⟨q, hq, rfl⟩ := List.mem_map.mp hE
    have hu := h3.orthonormal.1 q.2 (List.mem_map_of_mem hq)
    have hb := abs_expectation_denT (den := R.den) (ts := A.terms) (fun t ht => ⟨r3 _ (mem_terms ht), R.sq _ (r2 _ (mem_terms ht)).1⟩)
      (fun t ht => hA.2 _ (List.of_mem_zip ht).1) q.2
    rw [show denT R.den A.terms = A.den R.den from rfl, h3.eigen q hq, hu, mul_one] at hb
    have e : (∑ i, star (q.2 i) * ((q.1 : ℂ) • q.2) i).re = q.1 := by
      have : ∑ i, star (q.2 i) * ((q.1 : ℂ) • q.2) i = ((q.1 * ∑ i, ‖q.2 i‖ ^ 2 : ℝ) : ℂ) := by
        rw [Complex.ofReal_mul, Complex.ofReal_sum, Finset.mul_sum]
        refine Finset.sum_congr rfl fun i _ => ?_
        rw [Pi.smul_apply, smul_eq_mul, Complex.ofReal_pow, ← Complex.conj_mul', Complex.star_def]
        ring
      rw [this, hu, mul_one, Complex.ofReal_re]
    rw [e] at hb
    refine hb.trans (le_of_eq ?_)
    rw [Operator.terms, show (fun t : ℂ × OpString => ‖t.1‖) = (‖·‖) ∘ Prod.fst from rfl, ← List.map_map, List.map_fst_zip (le_of_eq r6.wf.len)]

/-! ### examples -/

/-- `X_0 Z_1 + 2 Z_0` on two sites -/
noncomputable def twoSpins : Operator ℂ := ⟨[1, 2], Basis.ofList [⟨[.X, .Z], [0, 1], .pauli, .float1⟩, ⟨[.Z], [0], .pauli, .float1⟩], .pauli⟩

theorem twoSpins_real : RealOperator 2 twoSpins := by
  refine ⟨Or.inl ⟨Operator.WF.mk' (by simp) rfl (by simp), rfl, ?_⟩, ?_⟩
  · intro s hs
    simp only [twoSpins, Basis.ofList, List.mem_cons, List.not_mem_nil, or_false] at hs
    rcases hs with rfl | rfl
    · exact ⟨⟨rfl, by simp, rfl, by simp, by simp [siteLabels], by simp⟩, by simp, Or.inr rfl⟩
    · exact ⟨⟨rfl, by simp, rfl, by simp, by simp [siteLabels], by simp⟩, by simp, Or.inr rfl⟩
  · intro x hx
    simp only [twoSpins, List.mem_cons, List.not_mem_nil, or_false] at hx
    rcases hx with rfl | rfl <;> simp

/-- the four energies of `X_0 Z_1 + 2 Z_0` add up to 0, their squares to 20, and they are between -3 and 3 -/
example : ∃ (num : Eigensolvers) (es : List ℝ), num.Exact ∧ HasEnergies num twoSpins 2 none es ∧ es.length = 4 ∧ ((es.sum : ℝ) : ℂ) = 0 ∧ (es.map (· ^ 2)).sum = 20 ∧
    ∀ E ∈ es, |E| ≤ 3 := by
  obtain ⟨num, hnum⟩ := exists_exactEigensolvers
  obtain ⟨es, h1, h2, h3, h4⟩ := C113_coefficients hnum twoSpins_real
  refine ⟨num, es, hnum, h1, h1.2.1, ?_, ?_, ?_⟩
  · rw [h2]
    simp [twoSpins, Operator.coef, coefT, Operator.terms, identityString, Basis.ofList]
  · rw [h3, Operator.norm, Real.sq_sqrt (by simp [twoSpins]; norm_num)]
    simp [twoSpins]
    norm_num
  · intro E hE
    refine (h4 E hE).trans (le_of_eq ?_)
    simp [twoSpins]
    norm_num

/-- the hypotheses of the other theorems hold for it, too -/
example : Diagonalizable 2 twoSpins ∧ twoSpins.opType = .pauli := ⟨(realOperator_on twoSpins_real).choose_spec.2.2.2.2.2.1, rfl⟩

end Qosy
