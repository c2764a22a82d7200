import Verif.Lemmas.Energies
import Verif.Spec.Energies
import Verif.Props.Spectrum
import Verif.Props.Transformation

/-! # C101: the energies returned by `diagonalize` belong to the operator, not to its description -/

namespace Qosy
open Matrix
variable {n m : ℕ} {num num' : Eigensolvers}

/-- **C101** (number of states, eigensolvers): with `num_vecs` the energies are the first of all energies; they do not depend on the eigensolver. -/
theorem C101_num_vecs (hnum : num.Exact) (hnum' : num'.Exact) {A : Operator ℂ} (hA : Diagonalizable n A) {numVecs : Option ℕ} (hk : ∀ k ∈ numVecs, 0 < k ∧ k + 1 < 2 ^ n) :
    ∃ vals vecs vecs', diagonalize num A n "Hermitian" none = .ok (vals, vecs) ∧ vals.length = 2 ^ n ∧
      diagonalize num' A n "Hermitian" numVecs = .ok (vals.take (numVecs.getD (2 ^ n)), vecs') := by
  obtain ⟨q, c, vecs, h1, -, h3, h4, h5, -, h7, h8⟩ := C81_energies hnum hA.wf hA.mem hA.convertible hA.hermitian (numVecs := none) (by simp)
  obtain ⟨r, d, vecs', g1, -, g3, g4, g5, -, g7, g8⟩ := C81_energies hnum' hA.wf hA.mem hA.convertible hA.hermitian hk
  refine ⟨_, vecs, vecs', h1, by rw [List.length_map]; exact h3, ?_⟩
  have hcd : c = d := by
    by_cases h : A.opType = .fermion
    · exact Complex.ofReal_injective ((h8 h).trans (g8 h).symm)
    · rw [h7 h, g7 h]
  have hl : r.length ≤ q.length := by
    rw [h3, g3]
    cases numVecs with
    | none => exact le_rfl
    | some k =>
      have := hk k rfl
      simp only [Option.getD_some, Option.getD_none]
      omega
  have := g4.take hA.hermitian h4 g5 h5 hl
  rw [g1, ← g3]
  congr 2
  rw [← List.map_take, hcd]
  have e : ∀ l : List (ℝ × (Cfg n → ℂ)), (l.map fun p => ((p.1 - d : ℝ) : ℂ)) = (l.map Prod.fst).map fun x => ((x - d : ℝ) : ℂ) := fun l => by simp [Function.comp_def]
  rw [e, e, List.map_take, this]

/-- the energies from the moments of the operator -/
private theorem energies_moments {ι : Type} [Fintype ι] [DecidableEq ι] (hnum : num.Exact) {A : Operator ℂ} (hA : Diagonalizable n A) {E : Matrix ι ι ℂ} (hι : Fintype.card ι = m * 2 ^ n)
    (h : ∀ k : ℕ, (Fintype.card ι : ℂ) * ((A.den (matRep ℂ n).anyDen) ^ k).trace = 2 ^ n * (E ^ k).trace) :
    ∃ (vals : List ℂ) (vecs : List (List ℂ)) (c : ℝ), diagonalize num A n "Hermitian" none = .ok (vals, vecs) ∧ vals.length = 2 ^ n ∧ (A.opType ≠ .fermion → c = 0) ∧
      (A.opType = .fermion → (c : ℂ) = (A.den (matRep ℂ n).anyDen).trace / 2 ^ n) ∧
      ∀ pairs : List (ℝ × (ι → ℂ)), LowestEigenpairs E pairs → pairs.length = Fintype.card ι → (pairs.Pairwise fun p q => p.1 ≤ q.1) →
        pairs.map (fun p => ((p.1 - c : ℝ) : ℂ)) = vals.flatMap (List.replicate m) := by
  obtain ⟨r, c, vecs, h1, -, h3, h4, h5, -, h7, h8⟩ := C81_energies hnum hA.wf hA.mem hA.convertible hA.hermitian (numVecs := none) (by simp)
  refine ⟨_, vecs, c, h1, by rw [List.length_map]; exact h3, h7, h8, fun q g4 g3 g5 => ?_⟩
  have hcard : Fintype.card (Cfg n) = 2 ^ n := by simp
  have key := energies_of_moments h4 g4 (by rw [hcard]; exact h3) g3 h5 g5 (m := m) (by rw [hcard]; positivity)
    (by rw [hcard, hι]) (fun k => by
      rw [hcard]
      push_cast
      exact h k)
  have e : ∀ {α : Type} (l : List (ℝ × α)), (l.map fun p => ((p.1 - c : ℝ) : ℂ)) = (l.map Prod.fst).map fun x => ((x - c : ℝ) : ℂ) := fun l => by simp [Function.comp_def]
  rw [e, e, key]
  generalize r.map Prod.fst = l
  induction l with
  | nil => rfl
  | cons x l ih => rw [List.flatMap_cons, List.map_append, ih, List.map_cons, List.flatMap_cons, List.map_replicate]

/-- operators with the same moments have the same energies -/
private theorem energies_moments' (hnum : num.Exact) (hnum' : num'.Exact) {A B : Operator ℂ} (hA : Diagonalizable n A) (hB : Diagonalizable (n + m) B)
    (ht : A.opType = .fermion ↔ B.opType = .fermion)
    (h : ∀ k : ℕ, (2 : ℂ) ^ (n + m) * ((A.den (matRep ℂ n).anyDen) ^ k).trace = 2 ^ n * ((B.den (matRep ℂ (n + m)).anyDen) ^ k).trace) :
    ∃ vals vecs vecs', diagonalize num A n "Hermitian" none = .ok (vals, vecs) ∧ vals.length = 2 ^ n ∧
      diagonalize num' B (n + m) "Hermitian" none = .ok (vals.flatMap (List.replicate (2 ^ m)), vecs') := by
  have hcard : Fintype.card (Cfg (n + m)) = 2 ^ (n + m) := by simp
  obtain ⟨vals, vecs, c, h1, h2, h7, h8, h9⟩ := energies_moments hnum hA (E := B.den (matRep ℂ (n + m)).anyDen) (m := 2 ^ m) (by rw [hcard, pow_add, mul_comm])
    (fun k => by rw [hcard]; push_cast; exact h k)
  obtain ⟨q, d, vecs', g1, -, g3, g4, g5, -, g7, g8⟩ := C81_energies hnum' hB.wf hB.mem hB.convertible hB.hermitian (numVecs := none) (by simp)
  refine ⟨vals, vecs, vecs', h1, h2, ?_⟩
  have hp : ∀ k : ℕ, (2 : ℂ) ^ k ≠ 0 := fun k => pow_ne_zero _ two_ne_zero
  have hcd : c = d := by
    by_cases hf : A.opType = .fermion
    · refine Complex.ofReal_injective ?_
      rw [h8 hf, g8 (ht.mp hf), div_eq_div_iff (hp _) (hp _)]
      have := h 1
      rw [pow_one, pow_one] at this
      linear_combination this
    · rw [h7 hf, g7 (fun h => hf (ht.mpr h))]
  rw [g1, ← h9 q g4 (by rw [hcard]; exact g3) g5, hcd]

/-- the same for operators on the same sites, also with `num_vecs` -/
private theorem same_energies (hnum : num.Exact) (hnum' : num'.Exact) {A B : Operator ℂ} (hA : Diagonalizable n A) (hB : Diagonalizable n B)
    (ht : A.opType = .fermion ↔ B.opType = .fermion)
    (h : ∀ k : ℕ, ((A.den (matRep ℂ n).anyDen) ^ k).trace = ((B.den (matRep ℂ n).anyDen) ^ k).trace) {numVecs : Option ℕ} (hk : ∀ k ∈ numVecs, 0 < k ∧ k + 1 < 2 ^ n) :
    ∃ vals vecs vecs', diagonalize num A n "Hermitian" numVecs = .ok (vals, vecs) ∧ vals.length = numVecs.getD (2 ^ n) ∧
      diagonalize num' B n "Hermitian" numVecs = .ok (vals, vecs') := by
  obtain ⟨vals, vecs, vecs', h1, h2, h3⟩ := energies_moments' (m := 0) hnum hnum' hA hB ht (fun k => by rw [Nat.add_zero, h])
  obtain ⟨v, w, w', a1, -, a2⟩ := C101_num_vecs hnum hnum hA hk
  obtain ⟨u, x, x', b1, -, b2⟩ := C101_num_vecs hnum' hnum' hB hk
  rw [h1] at a1
  simp only [Except.ok.injEq, Prod.mk.injEq] at a1
  obtain ⟨rfl, -⟩ := a1
  have h3' : diagonalize num' B n "Hermitian" none = .ok (vals.flatMap (List.replicate (2 ^ 0)), vecs') := h3
  rw [b1] at h3'
  simp only [Except.ok.injEq, Prod.mk.injEq] at h3'
  have e : ∀ l : List ℂ, l.flatMap (List.replicate (2 ^ 0)) = l := fun l => by
    induction l with
    | nil => rfl
    | cons y l ih => rw [List.flatMap_cons, ih]; rfl
  rw [e] at h3'
  obtain ⟨rfl, -⟩ := h3'
  refine ⟨_, w', x', a2, ?_, b2⟩
  rw [List.length_take, h2]
  cases numVecs with
  | none => simp
  | some k =>
    have := hk k rfl
    simp only [Option.getD_some]
    omega

/-- the Majorana operators on `n` sites -/
noncomputable def siteMajoranas (n : ℕ) : MajoranaRep ℂ (Matrix (Cfg n) (Cfg n) ℂ) (siteLabels n) :=
  (matRep ℂ n).jordanWigner.relabel id Function.injective_id (fun _ h => siteLabels_jw h)

theorem siteMajoranas_star (i : ℤ) (hi : i ∈ siteLabels n) : star ((siteMajoranas n).a i) = (siteMajoranas n).a i ∧ star ((siteMajoranas n).b i) = (siteMajoranas n).b i :=
  jordanWigner_star (matRep ℂ n) (matRep_star ℂ n) i (siteLabels_jw hi)

private theorem siteLabels_sub : siteLabels n ⊆ jwLabels (siteLabels n) := fun _ h => siteLabels_jw h

theorem den_pauli {A : Operator ℂ} (h : A.On .pauli (PauliString (siteLabels n))) : A.den (matRep ℂ n).anyDen = A.den (matRep ℂ n).den :=
  Operator.den_congr fun s hs => by rw [PauliRep.anyDen, (h.mem s hs).type]

theorem den_majorana {A : Operator ℂ} (h : A.On .majorana (MajoranaString (siteLabels n))) : A.den (matRep ℂ n).anyDen = A.den (siteMajoranas n).den :=
  Operator.den_congr fun s hs => by rw [PauliRep.anyDen, (h.mem s hs).type]; rfl

/-- real combinations of Hermitian strings are Hermitian -/
theorem hermitian_of_real {A : Operator ℂ} {d : OpString → Matrix (Cfg n) (Cfg n) ℂ} (hd : ∀ s ∈ A.basis.strs, star (d s) = d s) (hreal : ∀ x ∈ A.terms, star x.1 = x.1) :
    (A.den d).IsHermitian := by
  rw [Matrix.IsHermitian, ← Matrix.star_eq_conjTranspose, Operator.den]
  have key : ∀ ts : List (ℂ × OpString), (∀ t ∈ ts, star t.1 = t.1 ∧ star (d t.2) = d t.2) → star (denT d ts) = denT d ts := by
    intro ts hts
    induction ts with
    | nil => simp
    | cons t ts ih =>
      obtain ⟨h1, h2⟩ := hts t List.mem_cons_self
      rw [denT_cons, star_add, star_smul, h1, h2, ih fun x hx => hts x (List.mem_cons_of_mem _ hx)]
  exact key _ fun t ht => ⟨hreal t ht, hd _ (mem_terms ht)⟩

theorem diagonalizable_pauli {A : Operator ℂ} (h : A.On .pauli (PauliString (siteLabels n))) (hH : (A.den (matRep ℂ n).den).IsHermitian) : Diagonalizable n A :=
  ⟨h.wf, fun s hs => Or.inl ((h.mem s hs).mono siteLabels_sub), fun s hs ht => by rw [(h.mem s hs).type] at ht; simp at ht, by rw [den_pauli h]; exact hH⟩

theorem diagonalizable_majorana {A : Operator ℂ} (h : A.On .majorana (MajoranaString (siteLabels n))) (hH : (A.den (siteMajoranas n).den).IsHermitian) : Diagonalizable n A :=
  ⟨h.wf, fun s hs => Or.inr (Or.inl ((h.mem s hs).mono siteLabels_sub)), fun s hs ht => by rw [(h.mem s hs).type] at ht; simp at ht, by rw [den_majorana h]; exact hH⟩

private theorem pauli_moments {ι κ : Type} [Fintype ι] [DecidableEq ι] [Fintype κ] [DecidableEq κ] {S T : Set ℤ} (hST : S ⊆ T) (R : PauliRep ℂ (Matrix ι ι ℂ) S) (Q : PauliRep ℂ (Matrix κ κ ℂ) T) {ts : List (ℂ × OpString)}
    (hts : ∀ t ∈ ts, PauliString S t.2) (k : ℕ) : (Fintype.card κ : ℂ) * (denT R.den ts ^ k).trace = Fintype.card ι * (denT Q.den ts ^ k).trace := by
  have := StrAlg.moments R.strAlg Q.strAlg (fun s (h : PauliString S s) => h.mono hST) (identity_pauli S) R.den_identity Q.den_identity
    (StrAlg.trace R.strAlg (identity_pauli S) R.den_identity) (StrAlg.trace Q.strAlg (identity_pauli T) Q.den_identity) hts k
  simp only [Matrix.traceLinearMap_apply, Matrix.trace_one] at this
  exact this

theorem identity_majorana (S : Set ℤ) : MajoranaString S (identityString .majorana) ∧ (identityString .majorana).Canonical :=
  ⟨⟨rfl, by simp [identityString], rfl, by simp [identityString], by simp [identityString], by simp [identityString]⟩,
    by simp [identityString], Or.inr rfl⟩

theorem majorana_identity {𝔸 : Type} [Ring 𝔸] [Algebra ℂ 𝔸] {S : Set ℤ} (R : MajoranaRep ℂ 𝔸 S) : R.den (identityString .majorana) = 1 := by
  simp [MajoranaRep.den, identityString, wordProd, Pref.val]

private theorem majorana_moments {ι κ : Type} [Fintype ι] [DecidableEq ι] [Fintype κ] [DecidableEq κ] {S T : Set ℤ} (hST : S ⊆ T) (R : MajoranaRep ℂ (Matrix ι ι ℂ) S) (Q : MajoranaRep ℂ (Matrix κ κ ℂ) T) {ts : List (ℂ × OpString)}
    (hts : ∀ t ∈ ts, MajoranaString S t.2) (k : ℕ) : (Fintype.card κ : ℂ) * (denT R.den ts ^ k).trace = Fintype.card ι * (denT Q.den ts ^ k).trace := by
  have := StrAlg.moments R.strAlg Q.strAlg (fun s (h : MajoranaString S s) => h.mono hST) (identity_majorana S) (majorana_identity R) (majorana_identity Q)
    (StrAlg.trace R.strAlg (identity_majorana S) (majorana_identity R)) (StrAlg.trace Q.strAlg (identity_majorana T) (majorana_identity Q)) hts k
  simp only [Matrix.traceLinearMap_apply, Matrix.trace_one] at this
  exact this

private theorem relabel_star_pauli {p : List ℕ} (hp : IsPermArray p) {s : OpString} (hs : PauliString (siteLabels p.length) s) :
    star (((matRep ℂ p.length).relabelOn (relabelMap (labelsOf p)) (relabelMap_inj hp) (relabelMap_mapsTo hp)).den s) =
      ((matRep ℂ p.length).relabelOn (relabelMap (labelsOf p)) (relabelMap_inj hp) (relabelMap_mapsTo hp)).den s := by
  refine PauliRep.star_den _ (fun i hi => ?_) hs
  exact matRep_star ℂ p.length (relabelMap (labelsOf p) i) (relabelMap_mapsTo hp hi)

private theorem relabel_star_majorana {p : List ℕ} (hp : IsPermArray p) {s : OpString} (hs : MajoranaString (siteLabels p.length) s) :
    star (((siteMajoranas p.length).relabelOn (relabelMap (labelsOf p)) (relabelMap_inj hp) (relabelMap_mapsTo hp)).den s) =
      ((siteMajoranas p.length).relabelOn (relabelMap (labelsOf p)) (relabelMap_inj hp) (relabelMap_mapsTo hp)).den s := by
  refine MajoranaRep.star_den _ (fun i hi => ?_) hs
  exact siteMajoranas_star (n := p.length) (relabelMap (labelsOf p) i) (relabelMap_mapsTo hp hi)

private theorem particleHole_star {s : OpString} (hs : MajoranaString (siteLabels n) s) : star ((siteMajoranas n).particleHole.den s) = (siteMajoranas n).particleHole.den s := by
  refine MajoranaRep.star_den (siteMajoranas n).particleHole (fun i hi => ⟨(siteMajoranas_star i hi).1, ?_⟩) hs
  show star (-(siteMajoranas n).b i) = -(siteMajoranas n).b i
  rw [star_neg, (siteMajoranas_star i hi).2]

/-- **C101** (label permutations of Pauli operators): the energies do not depend on the order of the sites. -/
theorem C101_permutation_pauli (hnum : num.Exact) (hnum' : num'.Exact) {p : List ℕ} (hp : IsPermArray p) {A : Operator ℂ} (hA : A.On .pauli (PauliString (siteLabels p.length)))
    (hreal : ∀ x ∈ A.terms, star x.1 = x.1) {numVecs : Option ℕ} (hk : ∀ k ∈ numVecs, 0 < k ∧ k + 1 < 2 ^ p.length) :
    ∃ B vals vecs vecs', (labelPermutation (labelsOf p)).apply A = .ok B ∧ diagonalize num A p.length "Hermitian" numVecs = .ok (vals, vecs) ∧
      vals.length = numVecs.getD (2 ^ p.length) ∧ diagonalize num' B p.length "Hermitian" numVecs = .ok (vals, vecs') := by
  obtain ⟨B, b1, b2, b3⟩ := C36_pauli_operators hp (matRep ℂ p.length) hA
  have hAd := diagonalizable_pauli hA (hermitian_of_real (fun s hs => star_den_matRep (hA.mem s hs)) hreal)
  have hBd := diagonalizable_pauli b2 (by
    rw [b3]
    exact hermitian_of_real (fun s hs => relabel_star_pauli hp (hA.mem s hs)) hreal)
  obtain ⟨vals, vecs, vecs', h1, h2, h3⟩ := same_energies hnum hnum' hAd hBd (by rw [hA.type, b2.type]) (fun k => by
    rw [den_pauli hA, den_pauli b2, b3]
    have := pauli_moments subset_rfl (matRep ℂ p.length) ((matRep ℂ p.length).relabelOn (relabelMap (labelsOf p)) (relabelMap_inj hp) (relabelMap_mapsTo hp))
      (ts := A.terms) (fun t ht => hA.mem _ (mem_terms ht)) k
    exact mul_left_cancel₀ (by simp) this) hk
  exact ⟨B, vals, vecs, vecs', b1, h1, h2, h3⟩

/-- **C101** (label permutations of Majorana operators) -/
theorem C101_permutation_majorana (hnum : num.Exact) (hnum' : num'.Exact) {p : List ℕ} (hp : IsPermArray p) {A : Operator ℂ} (hA : A.On .majorana (MajoranaString (siteLabels p.length)))
    (hreal : ∀ x ∈ A.terms, star x.1 = x.1) {numVecs : Option ℕ} (hk : ∀ k ∈ numVecs, 0 < k ∧ k + 1 < 2 ^ p.length) :
    ∃ B vals vecs vecs', (labelPermutation (labelsOf p)).apply A = .ok B ∧ diagonalize num A p.length "Hermitian" numVecs = .ok (vals, vecs) ∧
      vals.length = numVecs.getD (2 ^ p.length) ∧ diagonalize num' B p.length "Hermitian" numVecs = .ok (vals, vecs') := by
  obtain ⟨B, b1, b2, b3⟩ := C36_majorana_operators hp (siteMajoranas p.length) hA
  have hAd := diagonalizable_majorana hA (hermitian_of_real (fun s hs => MajoranaRep.star_den _ siteMajoranas_star (hA.mem s hs)) hreal)
  have hBd := diagonalizable_majorana b2 (by
    rw [b3]
    exact hermitian_of_real (fun s hs => relabel_star_majorana hp (hA.mem s hs)) hreal)
  obtain ⟨vals, vecs, vecs', h1, h2, h3⟩ := same_energies hnum hnum' hAd hBd (by rw [hA.type, b2.type]) (fun k => by
    rw [den_majorana hA, den_majorana b2, b3]
    have := majorana_moments subset_rfl (siteMajoranas p.length) ((siteMajoranas p.length).relabelOn (relabelMap (labelsOf p)) (relabelMap_inj hp) (relabelMap_mapsTo hp))
      (ts := A.terms) (fun t ht => hA.mem _ (mem_terms ht)) k
    exact mul_left_cancel₀ (by simp) this) hk
  exact ⟨B, vals, vecs, vecs', b1, h1, h2, h3⟩

/-- **C101** (particle-hole transformation) -/
theorem C101_particle_hole (hnum : num.Exact) (hnum' : num'.Exact) {A : Operator ℂ} (hA : A.On .majorana (MajoranaString (siteLabels n)))
    (hreal : ∀ x ∈ A.terms, star x.1 = x.1) {numVecs : Option ℕ} (hk : ∀ k ∈ numVecs, 0 < k ∧ k + 1 < 2 ^ n) :
    ∃ B vals vecs vecs', (particleHole : Transformation ℂ).apply A = .ok B ∧ diagonalize num A n "Hermitian" numVecs = .ok (vals, vecs) ∧
      vals.length = numVecs.getD (2 ^ n) ∧ diagonalize num' B n "Hermitian" numVecs = .ok (vals, vecs') := by
  obtain ⟨B, b1, b2, b3⟩ := C39_operators (siteMajoranas n) hA
  have hAd := diagonalizable_majorana hA (hermitian_of_real (fun s hs => MajoranaRep.star_den _ siteMajoranas_star (hA.mem s hs)) hreal)
  have hBd := diagonalizable_majorana b2 (by
    rw [b3]
    exact hermitian_of_real (fun s hs => particleHole_star (hA.mem s hs)) hreal)
  obtain ⟨vals, vecs, vecs', h1, h2, h3⟩ := same_energies hnum hnum' hAd hBd (by rw [hA.type, b2.type]) (fun k => by
    rw [den_majorana hA, den_majorana b2, b3]
    have := majorana_moments subset_rfl (siteMajoranas n) (siteMajoranas n).particleHole (ts := A.terms) (fun t ht => hA.mem _ (mem_terms ht)) k
    exact mul_left_cancel₀ (by simp) this) hk
  exact ⟨B, vals, vecs, vecs', b1, h1, h2, h3⟩

/-- the trace on the algebra with conjugated scalars -/
private noncomputable def twistTrace (n : ℕ) : Twist (Matrix (Cfg n) (Cfg n) ℂ) →ₗ[ℂ] ℂ where
  toFun x := star (Matrix.trace (Twist.of.symm x : Matrix (Cfg n) (Cfg n) ℂ))
  map_add' x y := by rw [map_add, Matrix.trace_add, star_add]
  map_smul' c x := by
    have : Twist.of.symm (c • x) = star c • (Twist.of.symm x : Matrix (Cfg n) (Cfg n) ℂ) := rfl
    rw [this, Matrix.trace_smul, star_smul, star_star, RingHom.id_apply]

/-- moments of an operator and its time reversal -/
private theorem reversed_moments {e : OpString} (R : StrAlg ℂ (Matrix (Cfg n) (Cfg n) ℂ)) (Q : StrAlg ℂ (Twist (Matrix (Cfg n) (Cfg n) ℂ))) (hRQ : R.Str = Q.Str)
    (hden : ∀ s, R.Str s → Q.den s = Twist.of (trSign ℂ s • R.den s)) (he : R.Str e ∧ e.Canonical) (h1 : R.den e = 1) (h2 : Q.den e = 1)
    {ts : List (ℂ × OpString)} (hts : ∀ t ∈ ts, R.Str t.2) (hreal : ∀ t ∈ ts, star t.1 = t.1) (hR : (denT R.den ts).IsHermitian) (k : ℕ) :
    (denT R.den ts ^ k).trace = (denT (fun s => trSign ℂ s • R.den s) ts ^ k).trace := by
  have hR0 := R.trace he h1
  have hQ0 : Q.IsTrace e (twistTrace n) := by
    intro s hs hc hne
    rw [← hRQ] at hs
    rw [hden s hs]
    show star (Matrix.trace (trSign ℂ s • R.den s)) = 0
    have := hR0 s hs hc hne
    rw [Matrix.traceLinearMap_apply] at this
    rw [Matrix.trace_smul, this, smul_zero, star_zero]
  have key := R.moments Q (fun s h => hRQ ▸ h) he h1 h2 hR0 hQ0 hts k
  have hts' : denT Q.den ts = Twist.of (denT (fun s => trSign ℂ s • R.den s) ts) := by
    clear key hR
    induction ts with
    | nil => rw [denT_nil, denT_nil, map_zero]
    | cons t ts ih =>
      rw [denT_cons, denT_cons, ih (fun x hx => hts x (List.mem_cons_of_mem _ hx)) (fun x hx => hreal x (List.mem_cons_of_mem _ hx)), hden _ (hts t List.mem_cons_self),
        Twist.smul_of, hreal t List.mem_cons_self, ← map_add]
  have e1 : twistTrace n (denT Q.den ts ^ k) = star ((denT (fun s => trSign ℂ s • R.den s) ts ^ k).trace) := by
    rw [hts', ← map_pow]
    rfl
  have e2 : twistTrace n 1 = 2 ^ n := by
    show star (Matrix.trace (1 : Matrix (Cfg n) (Cfg n) ℂ)) = 2 ^ n
    rw [trace_one_cfg, star_pow, star_ofNat]
  rw [e1, e2, Matrix.traceLinearMap_apply, Matrix.traceLinearMap_apply, trace_one_cfg] at key
  have h3 := mul_left_cancel₀ (pow_ne_zero _ two_ne_zero) key
  have h4 : star ((denT R.den ts ^ k).trace) = (denT R.den ts ^ k).trace := by
    rw [← Matrix.trace_conjTranspose, Matrix.conjTranspose_pow, hR.eq]
  rw [← h4, h3, star_star]

/-- **C101** (time reversal) -/
theorem C101_time_reversal (hnum : num.Exact) (hnum' : num'.Exact) {A : Operator ℂ}
    (hA : A.On .pauli (PauliString (siteLabels n)) ∨ A.On .majorana (MajoranaString (siteLabels n)))
    (hreal : ∀ x ∈ A.terms, star x.1 = x.1) {numVecs : Option ℕ} (hk : ∀ k ∈ numVecs, 0 < k ∧ k + 1 < 2 ^ n) :
    ∃ B vals vecs vecs', (timeReversal : Transformation ℂ).apply A = .ok B ∧ diagonalize num A n "Hermitian" numVecs = .ok (vals, vecs) ∧
      vals.length = numVecs.getD (2 ^ n) ∧ diagonalize num' B n "Hermitian" numVecs = .ok (vals, vecs') := by
  have hstar : ∀ {M : Matrix (Cfg n) (Cfg n) ℂ} {s : OpString}, star M = M → star (trSign ℂ s • M) = trSign ℂ s • M := fun h => by
    rw [star_smul, h, sign_star (trSign_cases _)]
  rcases hA with hA | hA
  · have hV : TypedString .pauli (siteLabels n) = PauliString (siteLabels n) := by funext s; simp [TypedString]
    have h := timeReversal_signRule (K := ℂ) .pauli (siteLabels n)
    rw [hV] at h
    obtain ⟨B, b1, b2, b3⟩ := apply_den h.maps hA (matRep ℂ n).den (fun s => trSign ℂ s • (matRep ℂ n).den s) (fun s hs => by
      rw [Sends.image (h.sends s hs)]
      simp [denT])
    have hH := hermitian_of_real (fun s hs => star_den_matRep (hA.mem s hs)) hreal
    have hBd := diagonalizable_pauli b2 (by
      rw [b3]
      exact hermitian_of_real (fun s hs => hstar (star_den_matRep (hA.mem s hs))) hreal)
    obtain ⟨vals, vecs, vecs', h1, h2, h3⟩ := same_energies hnum hnum' (diagonalizable_pauli hA hH) hBd (by rw [hA.type, b2.type]) (fun k => by
      rw [den_pauli hA, den_pauli b2, b3]
      exact reversed_moments (matRep ℂ n).strAlg (matRep ℂ n).reversed.strAlg rfl (fun s hs => (matRep ℂ n).reversed_den hs) (identity_pauli _) (PauliRep.den_identity _)
        (PauliRep.den_identity _) (fun t ht => hA.mem _ (mem_terms ht)) hreal hH k) hk
    exact ⟨B, vals, vecs, vecs', b1, h1, h2, h3⟩
  · have hV : TypedString .majorana (siteLabels n) = MajoranaString (siteLabels n) := by funext s; simp [TypedString]
    have h := timeReversal_signRule (K := ℂ) .majorana (siteLabels n)
    rw [hV] at h
    obtain ⟨B, b1, b2, b3⟩ := apply_den h.maps hA (siteMajoranas n).den (fun s => trSign ℂ s • (siteMajoranas n).den s) (fun s hs => by
      rw [Sends.image (h.sends s hs)]
      simp [denT])
    have hH := hermitian_of_real (fun s hs => MajoranaRep.star_den _ siteMajoranas_star (hA.mem s hs)) hreal
    have hBd := diagonalizable_majorana b2 (by
      rw [b3]
      exact hermitian_of_real (fun s hs => hstar (MajoranaRep.star_den _ siteMajoranas_star (hA.mem s hs))) hreal)
    obtain ⟨vals, vecs, vecs', h1, h2, h3⟩ := same_energies hnum hnum' (diagonalizable_majorana hA hH) hBd (by rw [hA.type, b2.type]) (fun k => by
      rw [den_majorana hA, den_majorana b2, b3]
      exact reversed_moments (siteMajoranas n).strAlg (siteMajoranas n).reversed.strAlg rfl (fun s hs => (siteMajoranas n).reversed_den hs) (identity_majorana _) (majorana_identity _)
        (majorana_identity _) (fun t ht => hA.mem _ (mem_terms ht)) hreal hH k) hk
    exact ⟨B, vals, vecs, vecs', b1, h1, h2, h3⟩

/-- the Pauli strings in an operator of any type -/
private theorem pauli_terms {A : Operator ℂ} (hA : A.WF) (hs : ∀ s ∈ A.basis.strs, ValidString (jwLabels (siteLabels n)) s)
    (hf : ∀ s ∈ A.basis.strs, s.opType = .fermion → FermionConvertible s false) :
    ∃ ts : List (ℂ × OpString), (∀ t ∈ ts, PauliString (siteLabels n) t.2) ∧
      ∀ {𝔸 : Type} [Ring 𝔸] [Algebra ℂ 𝔸] [StarRing 𝔸] [StarModule ℂ 𝔸] (R : PauliRep ℂ 𝔸 (siteLabels n)), R.Hermitian → A.den R.anyDen = denT R.den ts := by
  obtain ⟨C, k, -, h2, h3, h4, -, h6⟩ := C32_operator (K := ℂ) hA hs (tgt := .pauli) (Or.inl rfl) false (fun s h ht _ => hf s h ht)
  have hP : ∀ M ∈ C.basis.strs, PauliString (siteLabels n) M := fun M hM => by
    rcases h4 M hM with h | h | h
    · exact h
    · exact absurd (h.type.symm.trans ((h3.type M hM).trans h2)) (by simp)
    · exact absurd (h.type.symm.trans ((h3.type M hM).trans h2)) (by simp)
  refine ⟨(k, identityString .pauli) :: C.terms, ?_, ?_⟩
  · intro t ht
    rcases List.mem_cons.mp ht with rfl | ht
    · exact (identity_pauli _).1
    · exact hP _ (mem_terms ht)
  · intro 𝔸 _ _ _ _ R hR
    rw [h6 R hR, denT_cons, R.den_identity, add_comm, ← Operator.den]
    congr 1
    exact Operator.den_congr fun s hs => by rw [PauliRep.anyDen, (hP s hs).type]

open scoped ComplexOrder in
/-- whether a sum of strings is Hermitian does not depend on the representation -/
private theorem hermitian_transport {ι κ : Type} [Fintype ι] [DecidableEq ι] [Fintype κ] [DecidableEq κ] [Nonempty ι] {S : Set ℤ} (R : PauliRep ℂ (Matrix ι ι ℂ) S) (Q : PauliRep ℂ (Matrix κ κ ℂ) S)
    (hR : R.Hermitian) (hQ : Q.Hermitian) {ts : List (ℂ × OpString)} (hts : ∀ t ∈ ts, PauliString S t.2) (h : (denT R.den ts).IsHermitian) : (denT Q.den ts).IsHermitian := by
  let us := ts.map (fun t => (star t.1 - t.1, t.2))
  have hus : ∀ t ∈ us, PauliString S t.2 := by
    intro t ht
    obtain ⟨x, hx, rfl⟩ := List.mem_map.mp ht
    exact hts x hx
  have e : ∀ {μ : Type} [Fintype μ] [DecidableEq μ] (P : PauliRep ℂ (Matrix μ μ ℂ) S), P.Hermitian → denT P.den us = star (denT P.den ts) - denT P.den ts := by
    intro μ _ _ P hP
    clear h hus
    induction ts with
    | nil => simp [us]
    | cons t ts ih =>
      have := ih fun x hx => hts x (List.mem_cons_of_mem _ hx)
      simp only [us, List.map_cons, denT_cons, star_add, star_smul, P.star_den hP (hts t List.mem_cons_self)] at this ⊢
      rw [this, sub_smul]
      abel
  have hm := pauli_moments subset_rfl R Q hus 2
  have h0 : denT R.den us = 0 := by rw [e R hR, Matrix.star_eq_conjTranspose, h.eq, sub_self]
  rw [h0, zero_pow two_ne_zero, Matrix.trace_zero, mul_zero] at hm
  have hc : (Fintype.card ι : ℂ) ≠ 0 := by exact_mod_cast Fintype.card_ne_zero
  have h1 := (mul_eq_zero.mp hm.symm).resolve_left hc
  have h2 : (denT Q.den us)ᴴ = -denT Q.den us := by
    rw [e Q hQ, ← Matrix.star_eq_conjTranspose, star_sub, star_star, neg_sub]
  have h3 : ((denT Q.den us)ᴴ * denT Q.den us).trace = 0 := by
    rw [h2, neg_mul, Matrix.trace_neg, ← pow_two, h1, neg_zero]
  have h4 : denT Q.den us = 0 := Matrix.trace_conjTranspose_mul_self_eq_zero_iff.mp h3
  rw [e Q hQ] at h4
  exact sub_eq_zero.mp h4

private theorem restrict_any {S T : Set ℤ} {ι : Type} [Fintype ι] [DecidableEq ι] (R : PauliRep ℂ (Matrix ι ι ℂ) T) (h : S ⊆ T) : (R.restrict h).anyDen = R.anyDen := by
  funext s
  unfold PauliRep.anyDen
  cases s.opType <;> rfl

/-- **C101** (representations): the energies are the eigenvalues of the operator in every system of `n` spins, each as many times as the system has further
states (`m` is one if the system has `2 ^ n` states). -/
theorem C101_representation {ι : Type} [Fintype ι] [DecidableEq ι] (hnum : num.Exact) {A : Operator ℂ} (hA : Diagonalizable n A) (R : PauliRep ℂ (Matrix ι ι ℂ) (siteLabels n)) (hR : R.Hermitian)
    (hι : Fintype.card ι = m * 2 ^ n) :
    ∃ (vals : List ℂ) (vecs : List (List ℂ)) (c : ℝ), diagonalize num A n "Hermitian" none = .ok (vals, vecs) ∧ vals.length = 2 ^ n ∧ (A.opType ≠ .fermion → c = 0) ∧
      (A.opType = .fermion → (c : ℂ) * Fintype.card ι = (A.den R.anyDen).trace) ∧ (A.den R.anyDen).IsHermitian ∧
      ∀ pairs : List (ℝ × (ι → ℂ)), LowestEigenpairs (A.den R.anyDen) pairs → pairs.length = Fintype.card ι → (pairs.Pairwise fun p q => p.1 ≤ q.1) →
        pairs.map (fun p => ((p.1 - c : ℝ) : ℂ)) = vals.flatMap (List.replicate m) := by
  obtain ⟨ts, t1, t2⟩ := pauli_terms hA.wf hA.mem hA.convertible
  have e1 := t2 (matRep ℂ n) (matRep_star ℂ n)
  have e2 := t2 R hR
  have hmom : ∀ k : ℕ, (Fintype.card ι : ℂ) * ((A.den (matRep ℂ n).anyDen) ^ k).trace = 2 ^ n * (A.den R.anyDen ^ k).trace := fun k => by
    rw [e1, e2]
    have := pauli_moments subset_rfl (matRep ℂ n) R t1 k
    rw [this]
    simp
  obtain ⟨vals, vecs, c, h1, h2, h3, h4, h5⟩ := energies_moments hnum hA hι hmom
  refine ⟨vals, vecs, c, h1, h2, h3, fun hf => ?_, ?_, h5⟩
  · have := hmom 1
    rw [pow_one, pow_one] at this
    have h2 : (2 : ℂ) ^ n ≠ 0 := pow_ne_zero _ two_ne_zero
    rw [h4 hf, div_mul_eq_mul_div, div_eq_iff h2]
    linear_combination this
  · rw [e2]
    exact hermitian_transport (matRep ℂ n) R (matRep_star ℂ n) hR t1 (by rw [← e1]; exact hA.hermitian)

/-- **C101** (more sites): with `m` more sites than the operator needs every energy is found `2 ^ m` times. -/
theorem C101_more_sites (hnum : num.Exact) (hnum' : num'.Exact) {A : Operator ℂ} (hA : Diagonalizable n A) (m : ℕ) :
    ∃ vals vecs vecs', diagonalize num A n "Hermitian" none = .ok (vals, vecs) ∧ vals.length = 2 ^ n ∧
      diagonalize num' A (n + m) "Hermitian" none = .ok (vals.flatMap (List.replicate (2 ^ m)), vecs') := by
  have hsub : siteLabels n ⊆ siteLabels (n + m) := fun i hi => ⟨hi.1, by have := hi.2; push_cast; omega⟩
  have hjw : jwLabels (siteLabels n) ⊆ jwLabels (siteLabels (n + m)) := fun i hi => ⟨hi.1, fun k h1 h2 => hsub (hi.2 k h1 h2)⟩
  obtain ⟨ts, t1, t2⟩ := pauli_terms hA.wf hA.mem hA.convertible
  have e1 := t2 (matRep ℂ n) (matRep_star ℂ n)
  have hH : ((matRep ℂ (n + m)).restrict hsub).Hermitian := fun i hi => matRep_star ℂ (n + m) i (hsub hi)
  have e2 := t2 ((matRep ℂ (n + m)).restrict hsub) hH
  rw [restrict_any] at e2
  refine energies_moments' hnum hnum' hA ⟨hA.wf, fun s hs => ?_, hA.convertible, ?_⟩ Iff.rfl fun k => ?_
  · rcases hA.mem s hs with h | h | h
    · exact Or.inl (h.mono hjw)
    · exact Or.inr (Or.inl (h.mono hjw))
    · exact Or.inr (Or.inr (h.mono hjw))
  · rw [e2]
    exact hermitian_transport (matRep ℂ n) _ (matRep_star ℂ n) hH t1 (by rw [← e1]; exact hA.hermitian)
  · rw [e1, e2]
    have := pauli_moments subset_rfl (matRep ℂ n) ((matRep ℂ (n + m)).restrict hsub) t1 k
    simpa using this

private theorem ValidString.widen {S T : Set ℤ} (h : S ⊆ T) {s : OpString} (hs : ValidString S s) : ValidString T s := by
  rcases hs with hs | hs | hs
  · exact Or.inl (hs.mono h)
  · exact Or.inr (Or.inl (hs.mono h))
  · exact Or.inr (Or.inr (hs.mono h))

/-- **C101** (`convert` with `include_identity=True`): the energies are those of the original operator; only the mean energy, which is subtracted for
Fermion operators, appears or disappears. -/
theorem C101_convert (hnum : num.Exact) (hnum' : num'.Exact) {A : Operator ℂ} (hA : Diagonalizable n A) {tgt : OpType} (htgt : tgt = .pauli ∨ tgt = .majorana ∨ tgt = .fermion)
    {C : Operator ℂ} (hC : convertOperator A tgt true = .ok C) (hf : ∀ s ∈ C.basis.strs, s.opType = .fermion → FermionConvertible s false) :
    ∃ (vals : List ℂ) (vecs vecs' : List (List ℂ)), diagonalize num A n "Hermitian" none = .ok (vals, vecs) ∧ vals.length = 2 ^ n ∧
      diagonalize num' C n "Hermitian" none = .ok (vals.map (fun x => x + ((if A.opType = .fermion then (A.den (matRep ℂ n).anyDen).trace / 2 ^ n else 0) -
        (if tgt = .fermion then (A.den (matRep ℂ n).anyDen).trace / 2 ^ n else 0))), vecs') := by
  obtain ⟨C', k, h1, h2, h3, h4, h5, h6⟩ := C32_operator (K := ℂ) hA.wf hA.mem htgt true (fun s hs ht _ => by
    obtain ⟨a, b, c⟩ := hA.convertible s hs ht
    exact ⟨a, Or.inr rfl, c⟩)
  obtain rfl : C' = C := by rw [hC] at h1; exact (Except.ok.inj h1).symm
  have hden : A.den (matRep ℂ n).anyDen = C'.den (matRep ℂ n).anyDen := by
    rw [h6 (matRep ℂ n) (matRep_star ℂ n), h5 rfl, zero_smul, add_zero]
  obtain ⟨r, c, vecs, a1, -, a3, a4, a5, -, a7, a8⟩ := C81_energies hnum hA.wf hA.mem hA.convertible hA.hermitian (numVecs := none) (by simp)
  obtain ⟨q, d, vecs', b1, -, b3, b4, b5, -, b7, b8⟩ := C81_energies hnum' h3 (fun s hs => (h4 s hs).widen siteLabels_sub) hf (by rw [← hden]; exact hA.hermitian)
    (numVecs := none) (by simp)
  rw [← hden] at b4 b8
  have hrq : r.map Prod.fst = q.map Prod.fst := by
    have := a4.take hA.hermitian b4 a5 b5 (by rw [a3, b3])
    rwa [List.take_of_length_le (by rw [List.length_map, a3, b3])] at this
  refine ⟨_, vecs, vecs', a1, by rw [List.length_map]; exact a3, ?_⟩
  have e1 : (c : ℂ) = if A.opType = .fermion then (A.den (matRep ℂ n).anyDen).trace / 2 ^ n else 0 := by
    split
    · rename_i h; exact a8 h
    · rename_i h; rw [a7 h, Complex.ofReal_zero]
  have e2 : (d : ℂ) = if tgt = .fermion then (A.den (matRep ℂ n).anyDen).trace / 2 ^ n else 0 := by
    rw [← h2]
    split
    · rename_i h; exact b8 h
    · rename_i h; rw [b7 h, Complex.ofReal_zero]
  rw [b1, ← e1, ← e2]
  congr 2
  have e : ∀ {α : Type} (l : List (ℝ × α)) (c : ℝ), (l.map fun p => ((p.1 - c : ℝ) : ℂ)) = (l.map Prod.fst).map fun x => ((x - c : ℝ) : ℂ) := fun l c => by simp [Function.comp_def]
  rw [e, e, hrq]
  generalize q.map Prod.fst = l
  rw [List.map_map]
  refine List.map_congr_left fun x _ => ?_
  simp only [Function.comp]
  push_cast
  ring

/-- **C101** (`convert` to Pauli operators without the identity): exactly the same energies. -/
theorem C101_convert_pauli (hnum : num.Exact) (hnum' : num'.Exact) {A : Operator ℂ} (hA : Diagonalizable n A) {numVecs : Option ℕ} (hk : ∀ k ∈ numVecs, 0 < k ∧ k + 1 < 2 ^ n) :
    ∃ C vals vecs vecs', convertOperator A .pauli false = .ok C ∧ diagonalize num A n "Hermitian" numVecs = .ok (vals, vecs) ∧ vals.length = numVecs.getD (2 ^ n) ∧
      diagonalize num' C n "Hermitian" numVecs = .ok (vals, vecs') := by
  obtain ⟨C, k, h1, h2, h3, h4, h5⟩ := convertOperator_pauli hA.wf hA.mem hA.convertible
  obtain ⟨C', -, g1, g2, g3, -⟩ := C32_operator (K := ℂ) hA.wf hA.mem (tgt := .pauli) (Or.inl rfl) false (fun s hs ht _ => hA.convertible s hs ht)
  obtain rfl : C' = C := by rw [h1] at g1; exact (Except.ok.inj g1).symm
  have hOn : C'.On .pauli (PauliString (siteLabels n)) := ⟨g3, g2, h2⟩
  obtain ⟨r, c, vecs, a1, -, a3, a4, a5, -, a7, a8⟩ := C81_energies hnum hA.wf hA.mem hA.convertible hA.hermitian hk
  have hkc : k = (c : ℂ) := by
    by_cases hf : A.opType = .fermion
    · rw [h5 hf, a8 hf]
    · rw [h4 hf, a7 hf, Complex.ofReal_zero]
  have hH : (C'.den (matRep ℂ n).den).IsHermitian := by
    have e : C'.den (matRep ℂ n).den = A.den (matRep ℂ n).anyDen - (c : ℂ) • 1 := by rw [h3, hkc, add_sub_cancel_right]
    rw [e, Matrix.IsHermitian, Matrix.conjTranspose_sub, hA.hermitian.eq, Matrix.conjTranspose_smul, Matrix.conjTranspose_one]
    congr 2
    exact Complex.conj_ofReal _
  have hC := diagonalizable_pauli hOn hH
  obtain ⟨q, d, vecs', b1, -, b3, b4, b5, -, b7, -⟩ := C81_energies hnum' hC.wf hC.mem hC.convertible hC.hermitian hk
  rw [den_pauli hOn] at b4
  have b6 := b4.shift c
  rw [← hkc, ← h3] at b6
  have hrq : r.map Prod.fst = (q.map fun p => (p.1 + c, p.2)).map Prod.fst := by
    have := a4.take hA.hermitian b6 a5 (by
      rw [List.pairwise_map]
      exact b5.imp fun {x y} h => by simpa using h) (by rw [List.length_map, a3, b3])
    rwa [List.take_of_length_le (by rw [List.length_map, List.length_map, a3, b3])] at this
  refine ⟨C', _, vecs, vecs', h1, a1, by rw [List.length_map]; exact a3, ?_⟩
  rw [b1, b7 (by rw [g2]; simp)]
  congr 2
  have e : ∀ {α : Type} (l : List (ℝ × α)) (c : ℝ), (l.map fun p => ((p.1 - c : ℝ) : ℂ)) = (l.map Prod.fst).map fun x => ((x - c : ℝ) : ℂ) := fun l c => by simp [Function.comp_def]
  rw [e r, hrq]
  simp [Function.comp_def]

/-! ### examples -/

/-- `X_0 Z_1 + 2 Z_0` on two sites -/
private noncomputable def spins : Operator ℂ := ⟨[1, 2], Basis.ofList [⟨[.X, .Z], [0, 1], .pauli, .float1⟩, ⟨[.Z], [0], .pauli, .float1⟩], .pauli⟩

private theorem spins_on : spins.On .pauli (PauliString (siteLabels 2)) := by
  refine ⟨Operator.WF.mk' (by simp) rfl (by simp), rfl, ?_⟩
  intro s hs
  simp only [spins, Basis.ofList, List.mem_cons, List.not_mem_nil, or_false] at hs
  rcases hs with rfl | rfl
  · exact ⟨rfl, by simp, rfl, by simp, by simp [siteLabels], by simp⟩
  · exact ⟨rfl, by simp, rfl, by simp, by simp [siteLabels], by simp⟩

private theorem spins_real : ∀ x ∈ spins.terms, star x.1 = x.1 := by
  intro x hx
  simp only [spins, Operator.terms, Basis.ofList, List.zip_cons_cons, List.zip_nil_right, List.mem_cons, List.not_mem_nil, or_false] at hx
  rcases hx with rfl | rfl <;> simp

/-- exchanging the two sites does not change the energies of `X_0 Z_1 + 2 Z_0` -/
example : ∃ (num : Eigensolvers) (B : Operator ℂ) (vals : List ℂ) (vecs vecs' : List (List ℂ)), num.Exact ∧ (labelPermutation [1, 0]).apply spins = .ok B ∧
    diagonalize num spins 2 "Hermitian" none = .ok (vals, vecs) ∧ vals.length = 4 ∧ diagonalize num B 2 "Hermitian" none = .ok (vals, vecs') := by
  obtain ⟨num, hnum⟩ := exists_exactEigensolvers
  obtain ⟨B, vals, vecs, vecs', h1, h2, h3, h4⟩ := C101_permutation_pauli (p := [1, 0]) hnum hnum (by unfold IsPermArray; decide) spins_on spins_real (numVecs := none) (by simp)
  exact ⟨num, B, vals, vecs, vecs', hnum, h1, h2, h3, h4⟩

example : Diagonalizable 2 spins := diagonalizable_pauli spins_on (hermitian_of_real (fun s hs => star_den_matRep (spins_on.mem s hs)) spins_real)

example : Diagonalizable 1 numberOperator := ⟨numberOperator_wf,
  by intro s hs; simp only [numberOperator, Basis.ofList, List.mem_singleton] at hs; subst hs; exact Or.inr (Or.inr numberOperator_string),
  by intro s hs _; simp only [numberOperator, Basis.ofList, List.mem_singleton] at hs; subst hs; exact numberOperator_convertible, numberOperator_den.1⟩

end Qosy
