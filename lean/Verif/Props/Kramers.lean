import Verif.Lemmas.Kramers
import Verif.Spec.Kramers
import Verif.Props.Energies
import Verif.Props.StringAlgebra

/-! # C111: symmetries show in the energies returned by `diagonalize` -/

namespace Qosy
open Matrix
variable {n : ℕ} {num : Eigensolvers}

private theorem typed_pauli : TypedString .pauli (siteLabels n) = PauliString (siteLabels n) := by funext s; simp [TypedString]

private theorem typed_majorana : TypedString .majorana (siteLabels n) = MajoranaString (siteLabels n) := by funext s; simp [TypedString]

private theorem reversed_pauli {A : Operator ℂ} (hA : A.On .pauli (PauliString (siteLabels n))) :
    ∃ B, (timeReversal : Transformation ℂ).apply A = .ok B ∧ B.On .pauli (PauliString (siteLabels n)) ∧
      B.den (matRep ℂ n).den = A.den (fun s => trSign ℂ s • (matRep ℂ n).den s) := by
  have h := timeReversal_signRule (K := ℂ) .pauli (siteLabels n)
  rw [typed_pauli] at h
  exact apply_den h.maps hA _ _ (fun s hs => by rw [Sends.image (h.sends s hs)]; simp [denT])

/-- a symmetric sum of strings commutes with the time reversal of states -/
private theorem symmetric_reverse {A : Operator ℂ} (hA : A.On .pauli (PauliString (siteLabels n))) (hreal : ∀ x ∈ A.terms, star x.1 = x.1) (ψ : Cfg n → ℂ) :
    (A.den (fun s => trSign ℂ s • (matRep ℂ n).den s)).mulVec (reverseState ψ) = reverseState ((A.den (matRep ℂ n).den).mulVec ψ) := by
  have hs : ∀ t ∈ A.terms, PauliString (siteLabels n) t.2 := fun t ht => hA.mem _ (mem_terms ht)
  rw [Operator.den, Operator.den]
  revert hs hreal
  induction A.terms with
  | nil => intro _ _; simp [reverseState_zero]
  | cons t ts ih =>
    intro hreal hs
    rw [denT_cons, denT_cons, add_mulVec, add_mulVec, reverseState_add, ih (fun x hx => hreal x (List.mem_cons_of_mem _ hx)) (fun x hx => hs x (List.mem_cons_of_mem _ hx)),
      smul_mulVec, smul_mulVec, smul_mulVec, reverseState_smul, hreal t List.mem_cons_self, den_reverse (hs t List.mem_cons_self)]
    have ht := (hs t List.mem_cons_self).type
    rw [trSign, if_neg (by rw [ht]; simp), smul_smul ((-1 : ℂ) ^ _), ← pow_add, Even.neg_one_pow ⟨_, rfl⟩, one_smul]

/-- even multiplicities of the eigenvalues are even multiplicities of the energies -/
private theorem even_energies (hnum : num.Exact) {A : Operator ℂ} (hA : Diagonalizable n A) (ht : A.opType ≠ .fermion)
    (h : ∀ r : List (ℝ × (Cfg n → ℂ)), LowestEigenpairs (A.den (matRep ℂ n).anyDen) r → (∀ u : Cfg n → ℂ, (∀ p ∈ r, ∑ σ, star (p.2 σ) * u σ = 0) → u = 0) →
      ∀ E : ℝ, Even (Fintype.card {k : Fin r.length // r[k].1 = E})) :
    ∃ vals vecs, diagonalize num A n "Hermitian" none = .ok (vals, vecs) ∧ vals.length = 2 ^ n ∧ ∀ E, Even (vals.count E) := by
  obtain ⟨q, c, vecs, h1, -, h3, h4, -, h6, h7, -⟩ := C81_energies hnum hA.wf hA.mem hA.convertible hA.hermitian (numVecs := none) (by simp)
  refine ⟨_, vecs, h1, by rw [List.length_map]; exact h3, ?_⟩
  intro E
  have hc : c = 0 := h7 ht
  subst hc
  simp only [sub_zero]
  by_cases hE : ∃ x : ℝ, (x : ℂ) = E
  · obtain ⟨x, rfl⟩ := hE
    have := h q h4 (h6 rfl) x
    rw [card_positions q Prod.fst x] at this
    rw [← count_ofReal, List.map_map] at this
    exact this
  · rw [List.count_eq_zero_of_not_mem]
    · exact Even.zero
    · intro h
      obtain ⟨p, -, hp⟩ := List.mem_map.mp h
      exact hE ⟨p.1, hp⟩

/-- **C111** (Kramers): on an odd number of spins every energy of a time reversal symmetric operator occurs an even number of times. -/
theorem C111_kramers (hnum : num.Exact) {A : Operator ℂ} (hA : A.On .pauli (PauliString (siteLabels n))) (hreal : ∀ x ∈ A.terms, star x.1 = x.1) (hn : Odd n)
    {B : Operator ℂ} (hB : (timeReversal : Transformation ℂ).apply A = .ok B) (hsym : ∀ s, B.coef s = A.coef s) :
    ∃ vals vecs, diagonalize num A n "Hermitian" none = .ok (vals, vecs) ∧ vals.length = 2 ^ n ∧ ∀ E, Even (vals.count E) := by
  have hH := hermitian_of_real (fun s hs => star_den_matRep (hA.mem s hs)) hreal
  obtain ⟨B', b1, b2, b3⟩ := reversed_pauli hA
  obtain rfl : B = B' := by rw [hB] at b1; simpa using b1
  have hden : A.den (fun s => trSign ℂ s • (matRep ℂ n).den s) = A.den (matRep ℂ n).den := by
    rw [← b3]
    exact denT_congr _ hsym
  refine even_energies hnum (diagonalizable_pauli hA hH) (by rw [hA.type]; simp) fun r h4 h6 x => ?_
  rw [den_pauli hA] at h4
  exact kramers_even h4 hn (fun ψ => by
    have := symmetric_reverse hA hreal ψ
    rw [hden] at this
    exact this) hH h6 x

private theorem den_commute {A : Operator ℂ} {d : OpString → Matrix (Cfg n) (Cfg n) ℂ} {X : Matrix (Cfg n) (Cfg n) ℂ} (h : ∀ u ∈ A.basis.strs, X * d u - d u * X = 0) :
    A.den d * X = X * A.den d := by
  have hs : ∀ t ∈ A.terms, X * d t.2 = d t.2 * X := fun t ht => sub_eq_zero.mp (h _ (mem_terms ht))
  rw [Operator.den]
  revert hs
  induction A.terms with
  | nil => intro _; simp
  | cons t ts ih =>
    intro hs
    rw [denT_cons, Matrix.add_mul, Matrix.mul_add, ih (fun x hx => hs x (List.mem_cons_of_mem _ hx)), Matrix.smul_mul, Matrix.mul_smul, hs t List.mem_cons_self]

/-- a bracket that vanishes according to the program -/
private theorem bracket_zero {𝔸 : Type} [Ring 𝔸] [Algebra ℂ 𝔸] {d : OpString → 𝔸} {x : 𝔸} {r : Py (ℂ × Option OpString)} (h : BracketExact d x r) (h0 : r = .ok (0, none)) : x = 0 := by
  rcases h with ⟨c, C, h1, -⟩ | ⟨-, h⟩
  · rw [h0] at h1
    simp at h1
  · exact h

private theorem zero_bracket {𝔸 : Type} [Ring 𝔸] [Algebra ℂ 𝔸] {d : OpString → 𝔸} {x : 𝔸} {r : Py (ℂ × Option OpString)} (h : BracketExact d x r) (h0 : x = 0) : r = .ok (0, none) := by
  rcases h with ⟨c, C, -, -, -, h⟩ | ⟨h, -⟩
  · exact absurd h0 h
  · exact h

/-- **C111** (anticommuting symmetries): if two strings commute with every string of the operator and anticommute with each other, every energy
occurs an even number of times. -/
theorem C111_anticommuting (hnum : num.Exact) {A : Operator ℂ} {s t : OpString}
    (hA : A.On .pauli (PauliString (siteLabels n)) ∧ PauliString (siteLabels n) s ∧ PauliString (siteLabels n) t ∨
      A.On .majorana (MajoranaString (siteLabels n)) ∧ MajoranaString (siteLabels n) s ∧ MajoranaString (siteLabels n) t) (hreal : ∀ x ∈ A.terms, star x.1 = x.1)
    (hs : ∀ u ∈ A.basis.strs, (commutatorS s u : Py (ℂ × Option OpString)) = .ok (0, none)) (ht : ∀ u ∈ A.basis.strs, (commutatorS t u : Py (ℂ × Option OpString)) = .ok (0, none))
    (hst : (anticommutatorS s t : Py (ℂ × Option OpString)) = .ok (0, none)) :
    ∃ vals vecs, diagonalize num A n "Hermitian" none = .ok (vals, vecs) ∧ vals.length = 2 ^ n ∧ ∀ E, Even (vals.count E) := by
  rcases hA with ⟨hA, h1, h2⟩ | ⟨hA, h1, h2⟩
  · have hH := hermitian_of_real (fun s hs => star_den_matRep (hA.mem s hs)) hreal
    refine even_energies hnum (diagonalizable_pauli hA hH) (by rw [hA.type]; simp) fun r h4 h6 x => ?_
    rw [den_pauli hA] at h4
    exact anticommuting_even h4 hH h6 (C05_pauli_square (matRep ℂ n) h1) (C05_pauli_square (matRep ℂ n) h2)
      (den_commute fun u hu => bracket_zero (C03_pauli_brackets (matRep ℂ n) h1 (hA.mem u hu)).1 (hs u hu))
      (den_commute fun u hu => bracket_zero (C03_pauli_brackets (matRep ℂ n) h2 (hA.mem u hu)).1 (ht u hu))
      (eq_neg_of_add_eq_zero_left (bracket_zero (C03_pauli_brackets (matRep ℂ n) h1 h2).2 hst)) x
  · have hH := hermitian_of_real (fun s hs => MajoranaRep.star_den _ siteMajoranas_star (hA.mem s hs)) hreal
    refine even_energies hnum (diagonalizable_majorana hA hH) (by rw [hA.type]; simp) fun r h4 h6 x => ?_
    rw [den_majorana hA] at h4
    exact anticommuting_even h4 hH h6 (C05_majorana_square (siteMajoranas n) h1) (C05_majorana_square (siteMajoranas n) h2)
      (den_commute fun u hu => bracket_zero (C03_majorana_brackets (siteMajoranas n) h1 (hA.mem u hu)).1 (hs u hu))
      (den_commute fun u hu => bracket_zero (C03_majorana_brackets (siteMajoranas n) h2 (hA.mem u hu)).1 (ht u hu))
      (eq_neg_of_add_eq_zero_left (bracket_zero (C03_majorana_brackets (siteMajoranas n) h1 h2).2 hst)) x

/-- opposite operators with the same energies -/
private theorem opposite_energies (hnum : num.Exact) {A B : Operator ℂ} (hA : Diagonalizable n A) (hB : Diagonalizable n B) (hta : A.opType ≠ .fermion) (htb : B.opType ≠ .fermion)
    (hneg : B.den (matRep ℂ n).anyDen = -A.den (matRep ℂ n).anyDen) {vals : List ℂ} {vecs vecs' : List (List ℂ)}
    (hv : diagonalize num A n "Hermitian" none = .ok (vals, vecs)) (hv' : diagonalize num B n "Hermitian" none = .ok (vals, vecs')) (E : ℂ) : vals.count E = vals.count (-E) := by
  obtain ⟨q, c, w, h1, -, h3, h4, -, -, h7, -⟩ := C81_energies hnum hA.wf hA.mem hA.convertible hA.hermitian (numVecs := none) (by simp)
  obtain ⟨r, d, w', g1, -, g3, g4, -, -, g7, -⟩ := C81_energies hnum hB.wf hB.mem hB.convertible hB.hermitian (numVecs := none) (by simp)
  rw [hv] at h1
  rw [hv'] at g1
  rw [h7 hta] at h1
  rw [g7 htb] at g1
  simp only [Except.ok.injEq, Prod.mk.injEq, sub_zero] at h1 g1
  have e : ∀ k : ℕ, (vals.map (· ^ k)).sum = ((vals.map (-·)).map (· ^ k)).sum := by
    intro k
    have a1 : (vals.map (· ^ k)).sum = (A.den (matRep ℂ n).anyDen ^ k).trace := by
      rw [h4.trace_pow (by rw [h3]; simp [Cfg]) k, h1.1, List.map_map]
      rfl
    have a2 : (vals.map (· ^ k)).sum = (B.den (matRep ℂ n).anyDen ^ k).trace := by
      rw [g4.trace_pow (by rw [g3]; simp [Cfg]) k, g1.1, List.map_map]
      rfl
    rw [List.map_map]
    have a3 : (fun x : ℂ => x ^ k) ∘ (fun x => -x) = fun x => (-1) ^ k * x ^ k := by
      funext x
      simp only [Function.comp_apply]
      rw [neg_pow]
    rw [a3, List.sum_map_mul_left]
    rw [hneg, neg_pow, show ((-1 : Matrix (Cfg n) (Cfg n) ℂ) ^ k) = ((-1 : ℂ) ^ k) • (1 : Matrix (Cfg n) (Cfg n) ℂ) by
      rcases Nat.even_or_odd k with h | h <;> simp [h.neg_one_pow], smul_mul_assoc, one_mul, Matrix.trace_smul, smul_eq_mul, ← a1] at a2
    exact a2
  have := count_of_moments (N := 1) (M := 1) (a := vals) (b := vals.map (-·)) (fun k => by rw [e k]) E
  rw [one_mul, one_mul] at this
  rw [this]
  conv_lhs => rw [← neg_neg E]
  exact List.count_map_of_injective vals _ neg_injective (-E)

private theorem opposite_pauli {A B : Operator ℂ} (hnum : num.Exact) (hA : A.On .pauli (PauliString (siteLabels n))) (hB : B.On .pauli (PauliString (siteLabels n)))
    (hreal : ∀ x ∈ A.terms, star x.1 = x.1) (hsym : ∀ s, B.coef s = -A.coef s) {vals : List ℂ} {vecs vecs' : List (List ℂ)}
    (hv : diagonalize num A n "Hermitian" none = .ok (vals, vecs)) (hl : vals.length = 2 ^ n) (hv' : diagonalize num B n "Hermitian" none = .ok (vals, vecs')) :
    SymmetricEnergies num A n := by
  have hH := hermitian_of_real (fun s hs => star_den_matRep (hA.mem s hs)) hreal
  have hneg : B.den (matRep ℂ n).den = -A.den (matRep ℂ n).den := by
    rw [← neg_one_smul ℂ]
    exact denT_smul _ _ (fun s => by rw [neg_one_mul]; exact hsym s)
  refine ⟨vals, vecs, hv, hl, opposite_energies hnum (diagonalizable_pauli hA hH) (diagonalizable_pauli hB (by rw [hneg]; exact hH.neg)) (by rw [hA.type]; simp) (by rw [hB.type]; simp) ?_ hv hv'⟩
  rw [den_pauli hA, den_pauli hB, hneg]

private theorem opposite_majorana {A B : Operator ℂ} (hnum : num.Exact) (hA : A.On .majorana (MajoranaString (siteLabels n))) (hB : B.On .majorana (MajoranaString (siteLabels n)))
    (hreal : ∀ x ∈ A.terms, star x.1 = x.1) (hsym : ∀ s, B.coef s = -A.coef s) {vals : List ℂ} {vecs vecs' : List (List ℂ)}
    (hv : diagonalize num A n "Hermitian" none = .ok (vals, vecs)) (hl : vals.length = 2 ^ n) (hv' : diagonalize num B n "Hermitian" none = .ok (vals, vecs')) :
    SymmetricEnergies num A n := by
  have hH := hermitian_of_real (fun s hs => MajoranaRep.star_den _ siteMajoranas_star (hA.mem s hs)) hreal
  have hneg : B.den (siteMajoranas n).den = -A.den (siteMajoranas n).den := by
    rw [← neg_one_smul ℂ]
    exact denT_smul _ _ (fun s => by rw [neg_one_mul]; exact hsym s)
  refine ⟨vals, vecs, hv, hl, opposite_energies hnum (diagonalizable_majorana hA hH) (diagonalizable_majorana hB (by rw [hneg]; exact hH.neg)) (by rw [hA.type]; simp) (by rw [hB.type]; simp) ?_ hv hv'⟩
  rw [den_majorana hA, den_majorana hB, hneg]

/-- **C111** (odd under time reversal) -/
theorem C111_time_reversal (hnum : num.Exact) {A : Operator ℂ}
    (hA : A.On .pauli (PauliString (siteLabels n)) ∨ A.On .majorana (MajoranaString (siteLabels n))) (hreal : ∀ x ∈ A.terms, star x.1 = x.1)
    {B : Operator ℂ} (hB : (timeReversal : Transformation ℂ).apply A = .ok B) (hsym : ∀ s, B.coef s = -A.coef s) : SymmetricEnergies num A n := by
  obtain ⟨B', vals, vecs, vecs', h1, h2, h3, h4⟩ := C101_time_reversal hnum hnum hA hreal (numVecs := none) (by simp)
  obtain rfl : B = B' := by rw [hB] at h1; simpa using h1
  rcases hA with hA | hA
  · obtain ⟨B', b1, b2, -⟩ := reversed_pauli hA
    obtain rfl : B = B' := by rw [hB] at b1; simpa using b1
    exact opposite_pauli hnum hA b2 hreal hsym h2 h3 h4
  · have h := timeReversal_signRule (K := ℂ) .majorana (siteLabels n)
    rw [typed_majorana] at h
    obtain ⟨B', b1, b2, -⟩ := apply_ok h.maps hA
    obtain rfl : B = B' := by rw [hB] at b1; simpa using b1
    exact opposite_majorana hnum hA b2 hreal hsym h2 h3 h4

/-- **C111** (odd under the particle-hole transformation) -/
theorem C111_particle_hole (hnum : num.Exact) {A : Operator ℂ} (hA : A.On .majorana (MajoranaString (siteLabels n))) (hreal : ∀ x ∈ A.terms, star x.1 = x.1)
    {B : Operator ℂ} (hB : (particleHole : Transformation ℂ).apply A = .ok B) (hsym : ∀ s, B.coef s = -A.coef s) : SymmetricEnergies num A n := by
  obtain ⟨B', vals, vecs, vecs', h1, h2, h3, h4⟩ := C101_particle_hole hnum hnum hA hreal (numVecs := none) (by simp)
  obtain rfl : B = B' := by rw [hB] at h1; simpa using h1
  obtain ⟨B', b1, b2, -⟩ := C39_operators (siteMajoranas n) hA
  obtain rfl : B = B' := by rw [hB] at b1; simpa using b1
  exact opposite_majorana hnum hA b2 hreal hsym h2 h3 h4

/-- **C111** (odd under a permutation of the labels) -/
theorem C111_permutation (hnum : num.Exact) {p : List ℕ} (hp : IsPermArray p) {A : Operator ℂ}
    (hA : A.On .pauli (PauliString (siteLabels p.length)) ∨ A.On .majorana (MajoranaString (siteLabels p.length))) (hreal : ∀ x ∈ A.terms, star x.1 = x.1)
    {B : Operator ℂ} (hB : (labelPermutation (labelsOf p)).apply A = .ok B) (hsym : ∀ s, B.coef s = -A.coef s) : SymmetricEnergies num A p.length := by
  rcases hA with hA | hA
  · obtain ⟨B', vals, vecs, vecs', h1, h2, h3, h4⟩ := C101_permutation_pauli hnum hnum hp hA hreal (numVecs := none) (by simp)
    obtain rfl : B = B' := by rw [hB] at h1; simpa using h1
    obtain ⟨B', b1, b2, -⟩ := C36_pauli_operators hp (matRep ℂ p.length) hA
    obtain rfl : B = B' := by rw [hB] at b1; simpa using b1
    exact opposite_pauli hnum hA b2 hreal hsym h2 h3 h4
  · obtain ⟨B', vals, vecs, vecs', h1, h2, h3, h4⟩ := C101_permutation_majorana hnum hnum hp hA hreal (numVecs := none) (by simp)
    obtain rfl : B = B' := by rw [hB] at h1; simpa using h1
    obtain ⟨B', b1, b2, -⟩ := C36_majorana_operators hp (siteMajoranas p.length) hA
    obtain rfl : B = B' := by rw [hB] at b1; simpa using b1
    exact opposite_majorana hnum hA b2 hreal hsym h2 h3 h4

/-! ### examples -/

/-- operators all of whose strings have the same sign under time reversal -/
private theorem reversal_coef {A : Operator ℂ} (hA : A.On .pauli (PauliString (siteLabels n))) {ε : ℂ} (hε : ∀ s ∈ A.basis.strs, (-1) ^ s.ops.length = ε) :
    ∃ B, (timeReversal : Transformation ℂ).apply A = .ok B ∧ ∀ s, B.coef s = ε * A.coef s := by
  have h := timeReversal_signRule (K := ℂ) .pauli (siteLabels n)
  rw [typed_pauli] at h
  obtain ⟨B, b1, -, b3⟩ := apply_ok h.maps hA
  refine ⟨B, b1, fun s => ?_⟩
  rw [b3, Operator.coef, coefT, ← List.sum_map_mul_left]
  congr 1
  refine List.map_congr_left fun x hx => ?_
  have hx' := mem_terms hx
  rw [Sends.entry (h.sends _ (hA.mem _ hx')), show trSign ℂ x.2 = ε by rw [trSign, if_neg (by rw [(hA.mem _ hx').type]; simp), hε _ hx']]
  by_cases e : x.2 = s
  · simp [e, mul_comm]
  · simp [e]

/-- `X_0 X_1 + 2 Z_1 Z_2` on three sites -/
private noncomputable def chain3 : Operator ℂ := ⟨[1, 2], Basis.ofList [⟨[.X, .X], [0, 1], .pauli, .float1⟩, ⟨[.Z, .Z], [1, 2], .pauli, .float1⟩], .pauli⟩

private theorem chain3_on : chain3.On .pauli (PauliString (siteLabels 3)) := by
  refine ⟨Operator.WF.mk' (by simp) rfl (by simp), rfl, ?_⟩
  intro s hs
  simp only [chain3, Basis.ofList, List.mem_cons, List.not_mem_nil, or_false] at hs
  rcases hs with rfl | rfl
  · exact ⟨rfl, by simp, rfl, by simp, by simp [siteLabels], by simp⟩
  · exact ⟨rfl, by simp, rfl, by simp, by simp [siteLabels], by simp⟩

private theorem chain3_real : ∀ x ∈ chain3.terms, star x.1 = x.1 := by
  intro x hx
  simp only [chain3, Operator.terms, Basis.ofList, List.zip_cons_cons, List.zip_nil_right, List.mem_cons, List.not_mem_nil, or_false] at hx
  rcases hx with rfl | rfl <;> simp

/-- the eight energies of `X_0 X_1 + 2 Z_1 Z_2` come in pairs -/
example : ∃ (num : Eigensolvers) (vals : List ℂ) (vecs : List (List ℂ)), num.Exact ∧ diagonalize num chain3 3 "Hermitian" none = .ok (vals, vecs) ∧ vals.length = 8 ∧
    ∀ E, Even (vals.count E) := by
  obtain ⟨num, hnum⟩ := exists_exactEigensolvers
  obtain ⟨B, b1, b2⟩ := reversal_coef chain3_on (ε := 1) (by
    intro s hs
    simp only [chain3, Basis.ofList, List.mem_cons, List.not_mem_nil, or_false] at hs
    rcases hs with rfl | rfl <;> simp)
  obtain ⟨vals, vecs, h1, h2, h3⟩ := C111_kramers hnum chain3_on chain3_real (by decide) b1 (by simpa using b2)
  exact ⟨num, vals, vecs, hnum, h1, h2, h3⟩

/-- `3 Z_1 Z_2` on three sites, with which `X_0` and `Z_0` commute -/
private noncomputable def bond : Operator ℂ := ⟨[3], Basis.ofList [⟨[.Z, .Z], [1, 2], .pauli, .float1⟩], .pauli⟩

private theorem bond_on : bond.On .pauli (PauliString (siteLabels 3)) := by
  refine ⟨Operator.WF.mk' (by simp) rfl (by simp), rfl, ?_⟩
  intro s hs
  simp only [bond, Basis.ofList, List.mem_singleton] at hs
  subst hs
  exact ⟨rfl, by simp, rfl, by simp, by simp [siteLabels], by simp⟩

example : ∃ (num : Eigensolvers) (vals : List ℂ) (vecs : List (List ℂ)), num.Exact ∧ diagonalize num bond 3 "Hermitian" none = .ok (vals, vecs) ∧ vals.length = 8 ∧
    ∀ E, Even (vals.count E) := by
  obtain ⟨num, hnum⟩ := exists_exactEigensolvers
  have hx : PauliString (siteLabels 3) ⟨[.X], [0], .pauli, .float1⟩ := ⟨rfl, by simp, rfl, by simp, by simp [siteLabels], by simp⟩
  have hz : PauliString (siteLabels 3) ⟨[.Z], [0], .pauli, .float1⟩ := ⟨rfl, by simp, rfl, by simp, by simp [siteLabels], by simp⟩
  have hzz : PauliString (siteLabels 3) ⟨[.Z, .Z], [1, 2], .pauli, .float1⟩ := ⟨rfl, by simp, rfl, by simp, by simp [siteLabels], by simp⟩
  let R := matRep ℂ 3
  have m : ∀ i : ℤ, 0 ≤ i → i < 3 → i ∈ siteLabels 3 := fun i h1 h2 => by simp [siteLabels]; omega
  have e1 : (commutatorS ⟨[.X], [0], .pauli, .float1⟩ ⟨[.Z, .Z], [1, 2], .pauli, .float1⟩ : Py (ℂ × Option OpString)) = .ok (0, none) := by
    refine zero_bracket (C03_pauli_brackets R hx hzz).1 (sub_eq_zero.mpr ?_)
    have a1 := R.xz 0 (m 0 (by norm_num) (by norm_num)) 1 (m 1 (by norm_num) (by norm_num)) (by norm_num)
    have a2 := R.xz 0 (m 0 (by norm_num) (by norm_num)) 2 (m 2 (by norm_num) (by norm_num)) (by norm_num)
    simp only [PauliRep.den, wordProd, PauliRep.site, Pref.val, one_smul, mul_one]
    rw [← mul_assoc, a1, mul_assoc, a2, ← mul_assoc]
  have e2 : (commutatorS ⟨[.Z], [0], .pauli, .float1⟩ ⟨[.Z, .Z], [1, 2], .pauli, .float1⟩ : Py (ℂ × Option OpString)) = .ok (0, none) := by
    refine zero_bracket (C03_pauli_brackets R hz hzz).1 (sub_eq_zero.mpr ?_)
    have a1 := R.zz 0 (m 0 (by norm_num) (by norm_num)) 1 (m 1 (by norm_num) (by norm_num)) (by norm_num)
    have a2 := R.zz 0 (m 0 (by norm_num) (by norm_num)) 2 (m 2 (by norm_num) (by norm_num)) (by norm_num)
    simp only [PauliRep.den, wordProd, PauliRep.site, Pref.val, one_smul, mul_one]
    rw [← mul_assoc, a1, mul_assoc, a2, ← mul_assoc]
  have e3 : (anticommutatorS ⟨[.X], [0], .pauli, .float1⟩ ⟨[.Z], [0], .pauli, .float1⟩ : Py (ℂ × Option OpString)) = .ok (0, none) := by
    refine zero_bracket (C03_pauli_brackets R hx hz).2 ?_
    simp only [PauliRep.den, wordProd, PauliRep.site, Pref.val, one_smul, mul_one]
    rw [R.x_mul_z 0 (m 0 (by norm_num) (by norm_num)), R.z_mul_x 0 (m 0 (by norm_num) (by norm_num)), neg_add_cancel]
  obtain ⟨vals, vecs, h1, h2, h3⟩ := C111_anticommuting hnum (Or.inl ⟨bond_on, hx, hz⟩)
    (by intro x hx; simp only [bond, Operator.terms, Basis.ofList, List.zip_cons_cons, List.zip_nil_right, List.mem_singleton] at hx; subst hx; exact star_ofNat 3)
    (by intro u hu; simp only [bond, Basis.ofList, List.mem_singleton] at hu; subst hu; exact e1)
    (by intro u hu; simp only [bond, Basis.ofList, List.mem_singleton] at hu; subst hu; exact e2) e3
  exact ⟨num, vals, vecs, hnum, h1, h2, h3⟩

/-- `X_0 + 2 Z_1` on two sites -/
private noncomputable def field2 : Operator ℂ := ⟨[1, 2], Basis.ofList [⟨[.X], [0], .pauli, .float1⟩, ⟨[.Z], [1], .pauli, .float1⟩], .pauli⟩

private theorem field2_on : field2.On .pauli (PauliString (siteLabels 2)) := by
  refine ⟨Operator.WF.mk' (by simp) rfl (by simp), rfl, ?_⟩
  intro s hs
  simp only [field2, Basis.ofList, List.mem_cons, List.not_mem_nil, or_false] at hs
  rcases hs with rfl | rfl
  · exact ⟨rfl, by simp, rfl, by simp, by simp [siteLabels], by simp⟩
  · exact ⟨rfl, by simp, rfl, by simp, by simp [siteLabels], by simp⟩

private theorem field2_real : ∀ x ∈ field2.terms, star x.1 = x.1 := by
  intro x hx
  simp only [field2, Operator.terms, Basis.ofList, List.zip_cons_cons, List.zip_nil_right, List.mem_cons, List.not_mem_nil, or_false] at hx
  rcases hx with rfl | rfl <;> simp

/-- the energies of `X_0 + 2 Z_1` are symmetric -/
example : ∃ num : Eigensolvers, num.Exact ∧ SymmetricEnergies num field2 2 := by
  obtain ⟨num, hnum⟩ := exists_exactEigensolvers
  obtain ⟨B, b1, b2⟩ := reversal_coef field2_on (ε := -1) (by
    intro s hs
    simp only [field2, Basis.ofList, List.mem_cons, List.not_mem_nil, or_false] at hs
    rcases hs with rfl | rfl <;> simp)
  exact ⟨num, hnum, C111_time_reversal hnum (Or.inl field2_on) field2_real b1 (by simpa using b2)⟩

/-- `D_0` on one site -/
private noncomputable def level : Operator ℂ := ⟨[1], Basis.ofList [⟨[.D], [0], .majorana, .float1⟩], .majorana⟩

private theorem level_on : level.On .majorana (MajoranaString (siteLabels 1)) := by
  refine ⟨Operator.WF.mk' (by simp) rfl (by simp), rfl, ?_⟩
  intro s hs
  simp only [level, Basis.ofList, List.mem_singleton] at hs
  subst hs
  exact ⟨rfl, by simp, by decide, by simp, by simp [siteLabels], by simp⟩

/-- the energies of `D_0` are symmetric, because the particle-hole transformation changes its sign -/
example : ∃ num : Eigensolvers, num.Exact ∧ SymmetricEnergies num level 1 := by
  obtain ⟨num, hnum⟩ := exists_exactEigensolvers
  have h := particleHole_signRule (K := ℂ) (siteLabels 1)
  obtain ⟨B, b1, -, b3⟩ := apply_ok h.maps level_on
  refine ⟨num, hnum, C111_particle_hole hnum level_on (by simp [level, Operator.terms, Basis.ofList]) b1 fun s => ?_⟩
  have hs := level_on.mem ⟨[.D], [0], .majorana, .float1⟩ (by simp [level, Basis.ofList])
  rw [b3]
  simp only [level, Operator.terms, Operator.coef, coefT, Basis.ofList, List.zip_cons_cons, List.zip_nil_right, List.map_cons, List.map_nil, List.sum_cons, List.sum_nil]
  rw [Sends.entry (h.sends _ hs)]
  simp only [id, phSign, numD, numB]
  split <;> simp_all

/-- `X_0 - X_1` on two sites -/
private noncomputable def staggered : Operator ℂ := ⟨[1, -1], Basis.ofList [⟨[.X], [0], .pauli, .float1⟩, ⟨[.X], [1], .pauli, .float1⟩], .pauli⟩

private theorem staggered_on : staggered.On .pauli (PauliString (siteLabels 2)) := by
  refine ⟨Operator.WF.mk' (by simp) rfl (by simp), rfl, ?_⟩
  intro s hs
  simp only [staggered, Basis.ofList, List.mem_cons, List.not_mem_nil, or_false] at hs
  rcases hs with rfl | rfl
  · exact ⟨rfl, by simp, rfl, by simp, by simp [siteLabels], by simp⟩
  · exact ⟨rfl, by simp, rfl, by simp, by simp [siteLabels], by simp⟩

/-- the energies of `X_0 - X_1` are symmetric, because exchanging the sites changes its sign -/
example : ∃ num : Eigensolvers, num.Exact ∧ SymmetricEnergies num staggered 2 := by
  obtain ⟨num, hnum⟩ := exists_exactEigensolvers
  have hp : IsPermArray [1, 0] := by unfold IsPermArray; decide
  have h := labelPermutation_signRule (K := ℂ) hp .pauli
  have hV : TypedString .pauli (siteLabels [1, 0].length) = PauliString (siteLabels 2) := typed_pauli
  rw [hV] at h
  obtain ⟨B, b1, -, b3⟩ := apply_ok h.maps staggered_on
  refine ⟨num, hnum, C111_permutation (p := [1, 0]) hnum hp (Or.inl staggered_on) ?_ b1 fun s => ?_⟩
  · intro x hx
    simp only [staggered, Operator.terms, Basis.ofList, List.zip_cons_cons, List.zip_nil_right, List.mem_cons, List.not_mem_nil, or_false] at hx
    rcases hx with rfl | rfl <;> simp
  · rw [b3]
    simp only [staggered, Operator.terms, Operator.coef, coefT, Basis.ofList, List.zip_cons_cons, List.zip_nil_right, List.map_cons, List.map_nil, List.sum_cons, List.sum_nil]
    rw [Sends.entry (h.sends _ (staggered_on.mem _ (by simp [staggered, Basis.ofList]))), Sends.entry (h.sends _ (staggered_on.mem _ (by simp [staggered, Basis.ofList])))]
    rw [show relabelString (relabelMap (labelsOf [1, 0])) ⟨[.X], [0], .pauli, .float1⟩ = ⟨[.X], [1], .pauli, .float1⟩ by decide,
      show relabelString (relabelMap (labelsOf [1, 0])) ⟨[.X], [1], .pauli, .float1⟩ = ⟨[.X], [0], .pauli, .float1⟩ by decide,
      show relabelSign (relabelMap (labelsOf [1, 0])) ⟨[.X], [0], .pauli, .float1⟩ = 1 by decide, show relabelSign (relabelMap (labelsOf [1, 0])) ⟨[.X], [1], .pauli, .float1⟩ = 1 by decide]
    simp only [Int.cast_one, mul_one, add_zero]
    split <;> split <;> simp

end Qosy
