import Verif.Lemmas.StateSymmetry
import Verif.Props.Entropy
import Verif.Props.Cluster

/-! # C105: state vectors, density matrices, entropies and permutations of the sites fit together -/

namespace Qosy
open Coef
variable {K : Type} [Field K] [StarRing K] [Coef K] {n : ℕ}

/-- **C105** (covariance): the reduced transition matrix of two vectors on the sites `labels` is that of the permuted vectors on the permuted
sites. -/
theorem C105_covariant {m : ℕ} (g : Equiv.Perm (Fin n)) (f : Fin m ↪ Fin n) {v w : List K} (hv : v.length = 2 ^ n) (hw : w.length = 2 ^ n) :
    ∃ v' w' ρ ρ', applyTransformation (some (labelsOf (permArray g))) v n = .ok v' ∧ applyTransformation (some (labelsOf (permArray g))) w n = .ok w' ∧
      reducedTransitionMatrix v w (siteList f) n = .ok ρ ∧
      reducedTransitionMatrix v' w' ((List.finRange m).map (fun j => ((g (f j) : ℕ) : ℤ))) n = .ok ρ' ∧
      ρ'.nrows = ρ.nrows ∧ ρ'.ncols = ρ.ncols ∧ ∀ a b, a < 2 ^ m → b < 2 ^ m → ρ'.get a b = ρ.get a b := by
  obtain ⟨ψ, hψ⟩ := C45_states hv
  obtain ⟨φ, hφ⟩ := C45_states hw
  obtain ⟨v', a1, a2⟩ := C45_vector g hψ
  obtain ⟨w', b1, b2⟩ := C45_vector g hφ
  obtain ⟨ρ, r1, r2⟩ := C46_transition f hψ hφ
  obtain ⟨ρ', s1, s2⟩ := C46_transition (f.trans g.toEmbedding) a2 b2
  rw [partialTrace_trans] at s2
  refine ⟨v', w', ρ, ρ', a1, b1, r1, ?_, by rw [r2.nrows, s2.nrows], by rw [r2.ncols, s2.ncols], fun a b ha hb => ?_⟩
  · rw [← s1, siteList, List.ofFn_eq_map]; rfl
  · rw [r2.entries a b ha hb, s2.entries a b ha hb]

/-- **C105** (entropies of permuted states): the Rényi entropies of a set of sites are those of the permuted set in the permuted state. -/
theorem C105_entropy {m : ℕ} (g : Equiv.Perm (Fin n)) (f : Fin m ↪ Fin n) {v : List ℂ} (hv : v.length = 2 ^ n) :
    ∃ v' ρ ρ', applyTransformation (some (labelsOf (permArray g))) v n = .ok v' ∧ reducedDensityMatrix v (siteList f) n = .ok ρ ∧
      reducedDensityMatrix v' ((List.finRange m).map (fun j => ((g (f j) : ℕ) : ℤ))) n = .ok ρ' ∧
      ∀ α : ℕ, renyiEntropy ρ' α = renyiEntropy ρ α := by
  obtain ⟨ψ, hψ⟩ := C45_states hv
  obtain ⟨v', a1, a2⟩ := C45_vector g hψ
  obtain ⟨ρ, r1, r2⟩ := C46_partial_trace f hψ
  obtain ⟨ρ', s1, s2⟩ := C46_partial_trace (f.trans g.toEmbedding) a2
  rw [partialTrace_trans] at s2
  refine ⟨v', ρ, ρ', a1, r1, ?_, fun α => ?_⟩
  · rw [← s1, siteList, List.ofFn_eq_map]; rfl
  · by_cases hα : α = 1
    · subst hα
      have h1 := (C80_errors ρ).1 (by rw [r2.nrows, r2.ncols])
      have h2 := (C80_errors ρ').1 (by rw [s2.nrows, s2.ncols])
      rw [Nat.cast_one, h1, h2]
    · rw [renyiEntropy_dense r2 hα, renyiEntropy_dense s2 hα]

/-- **C105** (order of the labels): if the labels are listed in another order, `labels[h[0]], labels[h[1]], …`, then the entries of the reduced
transition matrix are the same up to the corresponding permutation of the configurations. -/
theorem C105_order {m : ℕ} (h : Equiv.Perm (Fin m)) (f : Fin m ↪ Fin n) {v w : List K} (hv : v.length = 2 ^ n) (hw : w.length = 2 ^ n) :
    ∃ ρ ρ', reducedTransitionMatrix v w (siteList f) n = .ok ρ ∧
      reducedTransitionMatrix v w ((List.finRange m).map (fun j => ((f (h j) : ℕ) : ℤ))) n = .ok ρ' ∧
      ρ'.nrows = ρ.nrows ∧ ρ'.ncols = ρ.ncols ∧
      ∀ a b a' b', a < 2 ^ m → b < 2 ^ m → a' < 2 ^ m → b' < 2 ^ m → (∀ j : Fin m, a'.testBit (m - 1 - j) = a.testBit (m - 1 - h j)) →
        (∀ j : Fin m, b'.testBit (m - 1 - j) = b.testBit (m - 1 - h j)) → ρ'.get a' b' = ρ.get a b := by
  obtain ⟨ψ, hψ⟩ := C45_states hv
  obtain ⟨φ, hφ⟩ := C45_states hw
  obtain ⟨ρ, r1, r2⟩ := C46_transition f hψ hφ
  obtain ⟨ρ', s1, s2⟩ := C46_transition (h.toEmbedding.trans f) hψ hφ
  rw [partialTrace_order] at s2
  refine ⟨ρ, ρ', r1, ?_, by rw [r2.nrows, s2.nrows], by rw [r2.ncols, s2.ncols], fun a b a' b' ha hb ha' hb' e1 e2 => ?_⟩
  · rw [← s1, siteList, List.ofFn_eq_map]; rfl
  · rw [s2.entries a' b' ha' hb', r2.entries a b ha hb, Matrix.submatrix_apply]
    have key : ∀ x x' : ℕ, (∀ j : Fin m, x'.testBit (m - 1 - j) = x.testBit (m - 1 - h j)) →
        h.arrowCongr (Equiv.refl Bool) (cfgOf m x') = cfgOf m x := by
      intro x x' hx
      funext j
      have := hx (h.symm j)
      simp only [Equiv.apply_symm_apply] at this
      simpa [Equiv.arrowCongr, cfgOf] using this
    rw [key a a' e1, key b b' e2]

/-- **C105** (entropies do not depend on the order of the labels). -/
theorem C105_entropy_order {m : ℕ} (h : Equiv.Perm (Fin m)) (f : Fin m ↪ Fin n) {v : List ℂ} (hv : v.length = 2 ^ n) :
    ∃ ρ ρ', reducedDensityMatrix v (siteList f) n = .ok ρ ∧
      reducedDensityMatrix v ((List.finRange m).map (fun j => ((f (h j) : ℕ) : ℤ))) n = .ok ρ' ∧ ∀ α : ℕ, renyiEntropy ρ' α = renyiEntropy ρ α := by
  obtain ⟨ψ, hψ⟩ := C45_states hv
  obtain ⟨ρ, r1, r2⟩ := C46_partial_trace f hψ
  obtain ⟨ρ', s1, s2⟩ := C46_partial_trace (h.toEmbedding.trans f) hψ
  rw [partialTrace_order] at s2
  refine ⟨ρ, ρ', r1, ?_, fun α => ?_⟩
  · rw [← s1, siteList, List.ofFn_eq_map]; rfl
  · by_cases hα : α = 1
    · subst hα
      have h1 := (C80_errors ρ).1 (by rw [r2.nrows, r2.ncols])
      have h2 := (C80_errors ρ').1 (by rw [s2.nrows, s2.ncols])
      rw [Nat.cast_one, h1, h2]
    · rw [renyiEntropy_dense r2 hα, renyiEntropy_dense s2 hα, submatrix_equiv_pow, trace_submatrix_equiv]

/-- **C105** (tomography): the reduced transition matrix is the matrix of the Operator whose coefficients are the expectation values
`⟨w| S' |v⟩ / 2 ** m` of the strings `S` of the complete cluster basis, moved to the sites `labels`. -/
theorem C105_tomography {m : ℕ} (f : Fin m ↪ Fin n) {v w : List K} (hv : v.length = 2 ^ n) (hw : w.length = 2 ^ n) :
    ∃ (b : Basis) (x : OpString → K) (ρ : Dense K) (M : Mat K),
      clusterBasis (.int m) ((List.range m).map (fun j : ℕ => (j : ℤ))) .pauli true = .ok b ∧ reducedTransitionMatrix v w (siteList f) n = .ok ρ ∧
      (∀ s ∈ b.strs, ∃ s' M', (labelPermutation (siteList f) : Transformation K).Sends s 1 s' ∧ toMatrixString s' n = .ok M' ∧
        x s = (∑ i ∈ Finset.range (2 ^ n), ∑ j ∈ Finset.range (2 ^ n), star (w.getD i 0) * M'.get i j * v.getD j 0) / 2 ^ m) ∧
      toMatrixOperator ⟨b.strs.map x, b, .pauli⟩ m = .ok M ∧ M.nrows = ρ.nrows ∧ M.ncols = ρ.ncols ∧
      ∀ i j, i < 2 ^ m → j < 2 ^ m → M.get i j = ρ.get i j := by
  obtain ⟨ψ, hψ⟩ := C45_states hv
  obtain ⟨φ, hφ⟩ := C45_states hw
  obtain ⟨b, b1, b2, -, b3⟩ := C18_pauli (k := .int m) (by simp [KArg.Ok]) (labels := (List.range m).map (fun j : ℕ => (j : ℤ)))
    (List.nodup_range.map (fun _ _ h => by simpa using h)) true
  have hlab : ∀ l : ℤ, l ∈ (List.range m).map (fun j : ℕ => (j : ℤ)) ↔ l ∈ siteLabels m := by
    intro l
    simp only [List.mem_map, List.mem_range, siteLabels, Set.mem_ofPred_eq]
    constructor
    · rintro ⟨j, hj, rfl⟩; omega
    · rintro ⟨h1, h2⟩; exact ⟨l.toNat, by omega, by omega⟩
  have hlab' : {l : ℤ | l ∈ (List.range m).map (fun j : ℕ => (j : ℤ))} = siteLabels m := Set.ext hlab
  have hs : ∀ s, s ∈ b.strs ↔ PauliString (siteLabels m) s ∧ s.Canonical := by
    intro s
    rw [b3, hlab']
    constructor
    · rintro (⟨-, rfl⟩ | ⟨-, -, h⟩)
      · exact ⟨⟨rfl, by simp [identityString], rfl, by simp [identityString], by simp [identityString], by simp [identityString]⟩,
          by simp [identityString], Or.inr rfl⟩
      · exact h
    · rintro ⟨h1, h2⟩
      by_cases h0 : s.labels = []
      · left
        have hp : s.pref = .float1 := h2.2.resolve_left h1.pref
        have ho : s.ops = [] := List.length_eq_zero_iff.mp (by rw [h1.len, h0]; rfl)
        refine ⟨rfl, ?_⟩
        have ht := h1.type
        cases s; simp_all [identityString]
      · right
        refine ⟨h0, ?_, h1, h2⟩
        have : s.labels.length ≤ m := by
          have := (h1.nodup.subperm (l₂ := (List.range m).map (fun j : ℕ => (j : ℤ))) (fun l hl => (hlab l).mpr (h1.mem l hl))).length_le
          simpa using this
        simpa [KArg.allows] using this
  obtain ⟨ρ, r1, r2⟩ := C46_transition f hψ hφ
  generalize hD : partialTrace f ψ φ = D at r2
  obtain ⟨M, m1, m2⟩ := C43_operator (n := m) (A := (⟨b.strs.map (fun s => (star ((matRep K m).den s) * D).trace / 2 ^ m), b, .pauli⟩ : Operator K))
    (fun s h => ((hs s).mp h).1)
  have hden : (⟨b.strs.map (fun s => (star ((matRep K m).den s) * D).trace / 2 ^ m), b, .pauli⟩ : Operator K).den (matRep K m).den = D := by
    conv_rhs => rw [pauli_expansion b2.nodup (fun s h => (hs s).mp h) (fun s h1 h2 => (hs s).mpr ⟨h1, h2⟩) D]
    simp only [Operator.den, denT, Operator.terms]
    congr 1
    induction b.strs with
    | nil => rfl
    | cons x xs ih => simp only [List.map_cons, List.zip_cons_cons, ih]
  rw [hden] at m2
  refine ⟨b, _, ρ, M, b1, r1, ?_, m1, by rw [m2.nrows, r2.nrows], by rw [m2.ncols, r2.ncols], fun i j hi hj => by
    rw [m2.entries i j hi hj, r2.entries i j hi hj]⟩
  intro s h
  obtain ⟨hps, -⟩ := (hs s).mp h
  obtain ⟨s', MS, M', ρ', e1, e2, e3, e4, e5⟩ := C46_expectation (K := K) f hv hw hps
  obtain rfl : ρ' = ρ := by rw [r1] at e4; exact (Except.ok.inj e4).symm
  obtain ⟨MS', k1, k2⟩ := C43_string (K := K) hps
  obtain rfl : MS' = MS := by rw [e2] at k1; exact (Except.ok.inj k1).symm
  refine ⟨s', M', e1, e3, ?_⟩
  rw [← e5, star_den_matRep hps]
  congr 1
  simp only [Matrix.trace, Matrix.diag_apply, Matrix.mul_apply]
  rw [← sum_range_cfg']
  apply Finset.sum_congr rfl
  intro a ha
  rw [← sum_range_cfg']
  apply Finset.sum_congr rfl
  intro c hc
  rw [Finset.mem_range] at ha hc
  rw [k2.entries a c ha hc, r2.entries c a hc ha]

theorem labelPermutation_on (g : Equiv.Perm (Fin n)) {A : Operator K} (hA : A.On .pauli (PauliString (siteLabels n))) :
    ∃ B, (labelPermutation (labelsOf (permArray g))).apply A = .ok B ∧ B.On .pauli (PauliString (siteLabels n)) := by
  have hV : TypedString .pauli (siteLabels n) = PauliString (siteLabels n) := by funext s; simp [TypedString]
  have h := labelPermutation_signRule (K := K) (permArray_isPermArray g) .pauli
  rw [show (permArray g).length = n by simp [permArray], hV] at h
  obtain ⟨B, b1, b2, -⟩ := apply_den h.maps hA (fun _ => (0 : K)) (fun _ => 0) (fun s _ => by simp [denT])
  exact ⟨B, b1, b2⟩

/-- **C105** (eigenstates): if `v` is an eigenvector of `to_matrix(A)` then the permuted vector is an eigenvector of the matrix of the permuted
Operator, with the same eigenvalue; if the permutation is a symmetry of `A` it is an eigenvector of `to_matrix(A)` itself. -/
theorem C105_eigenstates (g : Equiv.Perm (Fin n)) {A : Operator K} (hA : A.On .pauli (PauliString (siteLabels n))) {v : List K}
    (hv : v.length = 2 ^ n) {E : K} {M : Mat K} (hM : toMatrixOperator A n = .ok M) (he : matVec M v = v.map (E * ·)) :
    ∃ B M' w, (labelPermutation (labelsOf (permArray g))).apply A = .ok B ∧ toMatrixOperator B n = .ok M' ∧
      applyTransformation (some (labelsOf (permArray g))) v n = .ok w ∧ matVec M' w = w.map (E * ·) ∧
      ((∀ s, B.coef s = A.coef s) → matVec M w = w.map (E * ·)) := by
  obtain ⟨B, M₀, M', w, h1, h2, h3, h4, h5⟩ := C45_intertwines g hA hv
  obtain rfl : M₀ = M := by rw [hM] at h2; exact (Except.ok.inj h2).symm
  obtain ⟨ψ, hψ⟩ := C45_states hv
  obtain ⟨w', k1, k2⟩ := C45_vector g hψ
  obtain rfl : w' = w := by rw [h4] at k1; exact (Except.ok.inj k1).symm
  obtain ⟨u, l1, l2⟩ := C45_vector g (hψ.smul E)
  rw [he, l1] at h5
  have hu : u = w'.map (E * ·) := l2.ext (k2.smul E) rfl
  have h6 : matVec M' w' = w'.map (E * ·) := by rw [← hu]; exact (Except.ok.inj h5).symm
  refine ⟨B, M', w', h1, h3, h4, h6, fun hc => ?_⟩
  rw [← h6]
  obtain ⟨B', b1, b2⟩ := labelPermutation_on g hA
  obtain rfl : B' = B := by rw [h1] at b1; exact (Except.ok.inj b1).symm
  obtain ⟨M₁, m1, m2⟩ := C43_operator (n := n) hA.mem
  obtain rfl : M₁ = M₀ := by rw [hM] at m1; exact (Except.ok.inj m1).symm
  obtain ⟨M₂, n1, n2⟩ := C43_operator (n := n) b2.mem
  obtain rfl : M₂ = M' := by rw [h3] at n1; exact (Except.ok.inj n1).symm
  refine (matVec_state m2 k2).ext (matVec_state n2 k2) ?_
  rw [show A.den (matRep K n).den = B'.den (matRep K n).den from denT_congr _ (fun s => (hc s).symm)]

/-- **C105** (matrix elements): `⟨T u| T(A) |T v⟩ = ⟨u| A |v⟩` for a permutation `T` of the sites. -/
theorem C105_matrix_elements (g : Equiv.Perm (Fin n)) {A : Operator K} (hA : A.On .pauli (PauliString (siteLabels n))) {u v : List K}
    (hu : u.length = 2 ^ n) (hv : v.length = 2 ^ n) :
    ∃ B M M' u' v', (labelPermutation (labelsOf (permArray g))).apply A = .ok B ∧ toMatrixOperator A n = .ok M ∧ toMatrixOperator B n = .ok M' ∧
      applyTransformation (some (labelsOf (permArray g))) u n = .ok u' ∧ applyTransformation (some (labelsOf (permArray g))) v n = .ok v' ∧
      ∑ k ∈ Finset.range (2 ^ n), star (u'.getD k 0) * (matVec M' v').getD k 0 =
        ∑ k ∈ Finset.range (2 ^ n), star (u.getD k 0) * (matVec M v).getD k 0 := by
  obtain ⟨B, M, M', v', h1, h2, h3, h4, h5⟩ := C45_intertwines g hA hv
  obtain ⟨M₁, m1, m2⟩ := C43_operator (n := n) hA.mem
  obtain rfl : M₁ = M := by rw [h2] at m1; exact (Except.ok.inj m1).symm
  obtain ⟨u', w', k1, k2, -, -, k3⟩ := C45_unitary g hu (w := matVec M₁ v) (by simp [matVec, m2.nrows])
  obtain rfl : w' = matVec M' v' := by rw [h5] at k2; exact (Except.ok.inj k2).symm
  exact ⟨B, M₁, M', u', v', h1, h2, h3, k1, h4, k3⟩

/-! the hypotheses are met: `Z 0 Z 1 + X 0 + X 1` on two sites, the exchange of the sites (a symmetry) and the eigenvector `|01⟩ - |10⟩` -/

/-- `Z 0 Z 1 + X 0 + X 1` -/
def isingTwo : Operator QI := ⟨[1, 1, 1], Basis.ofList [⟨[.Z, .Z], [0, 1], .pauli, .float1⟩, ⟨[.X], [0], .pauli, .float1⟩, ⟨[.X], [1], .pauli, .float1⟩], .pauli⟩

example : isingTwo.On .pauli (PauliString (siteLabels 2)) := by
  refine ⟨⟨Basis.Inv.ofList (by decide), rfl, by decide⟩, rfl, ?_⟩
  intro s hs
  simp only [isingTwo, Basis.ofList, List.mem_cons, List.not_mem_nil, or_false] at hs
  rcases hs with rfl | rfl | rfl <;>
    exact ⟨rfl, by decide, rfl, by decide, by intro l hl; fin_cases hl <;> (unfold siteLabels; decide), by decide⟩

example : ∃ M B, toMatrixOperator isingTwo 2 = .ok M ∧ matVec M [0, 1, -1, 0] = [0, 1, -1, 0].map ((-1) * ·) ∧
    (labelPermutation (labelsOf (permArray (Equiv.swap (0 : Fin 2) 1)))).apply isingTwo = .ok B ∧ (∀ s ∈ isingTwo.basis.strs, B.coef s = isingTwo.coef s) ∧
    applyTransformation (some (labelsOf (permArray (Equiv.swap (0 : Fin 2) 1)))) ([0, 1, -1, 0] : List QI) 2 = .ok [0, -1, 1, 0] := by
  refine ⟨_, _, rfl, ?_, rfl, ?_, ?_⟩ <;> decide +kernel

end Qosy
