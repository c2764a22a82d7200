import Verif.Lemmas.Rounding
import Verif.Props.EnergyArithmetic
import Verif.Lemmas.Description

/-!
# Property C117: the results are robust against rounding errors of the eigensolver

The other theorems about `commuting_operators` and `diagonalize` assume an exact eigensolver.  Here the eigensolver is arbitrary, and the
results are controlled by the error `δ` (`NearlyEigh`) of its answer.
-/

namespace Qosy
open Matrix Coef

section
variable {𝔸 : Type} [Ring 𝔸] [Algebra ℂ 𝔸] [Nontrivial 𝔸] {S : Set ℤ}

/-- **C117** (Pauli): if the eigenvalues and eigenvectors that `commuting_operators` returns for its superoperator have errors of size `δ`, then the
returned vectors are nearly orthonormal, nearly commute with the Operator, and span nearly everything that commutes (`NearlyCommuting`).  Their number is
exactly the number of independent commuting operators if all non-zero eigenvalues of the superoperator exceed `((1 + δ) tol + δ) / (1 - δ)`, and `δ` is
small compared to `tol`. -/
theorem C117_pauli (R : PauliRep ℂ 𝔸 S) (mode : Mode) {x : BasisArg ℂ} {O : Operator ℂ} (hx : x.All (PauliString S))
    (hne : x ≠ .operators []) (hO : ∀ s ∈ O.basis.strs, PauliString S s) (eigh : Eigh) {tol : ℝ} (ht : 0 < tol) :
    ∃ vecs M evals evecs, commutingOperators eigh x O mode tol = .ok ⟨(x.den R.den).length, vecs, M, evals, evecs⟩ ∧
      (∃ C ext, commutantMatrix x O mode = .ok (C, ext) ∧ M = C.square _) ∧ ∀ δ, 0 ≤ δ → δ < 1 → NearlyEigh δ M ⟨evals, evecs⟩ →
        NearlyCommuting R.den mode (x.den R.den) (O.den R.den) tol δ vecs ∧
        ∀ g : ℝ, SpectralGap M 0 g → ((1 + δ) * tol + δ) / (1 - δ) < g → δ + (1 + δ) * δ / tol < 1 →
          vecs.length = Module.finrank ℂ (commutingSpace mode (x.den R.den) (O.den R.den)) :=
  R.strAlg.commutingOperators_nearly mode hx hne hO eigh ht

/-- **C117** (Majorana) -/
theorem C117_majorana (R : MajoranaRep ℂ 𝔸 S) (mode : Mode) {x : BasisArg ℂ} {O : Operator ℂ} (hx : x.All (MajoranaString S))
    (hne : x ≠ .operators []) (hO : ∀ s ∈ O.basis.strs, MajoranaString S s) (eigh : Eigh) {tol : ℝ} (ht : 0 < tol) :
    ∃ vecs M evals evecs, commutingOperators eigh x O mode tol = .ok ⟨(x.den R.den).length, vecs, M, evals, evecs⟩ ∧
      (∃ C ext, commutantMatrix x O mode = .ok (C, ext) ∧ M = C.square _) ∧ ∀ δ, 0 ≤ δ → δ < 1 → NearlyEigh δ M ⟨evals, evecs⟩ →
        NearlyCommuting R.den mode (x.den R.den) (O.den R.den) tol δ vecs ∧
        ∀ g : ℝ, SpectralGap M 0 g → ((1 + δ) * tol + δ) / (1 - δ) < g → δ + (1 + δ) * δ / tol < 1 →
          vecs.length = Module.finrank ℂ (commutingSpace mode (x.den R.den) (O.den R.den)) :=
  R.strAlg.commutingOperators_nearly mode hx hne hO eigh ht

private theorem count_of {mode : Mode} {x : BasisArg ℂ} {O : Operator ℂ} {d : List 𝔸} {o : 𝔸}
    (h : ∀ (eigh : Eigh) (tol : ℝ), 0 < tol → ∃ vecs M evals evecs, commutingOperators eigh x O mode tol = .ok ⟨d.length, vecs, M, evals, evecs⟩ ∧
      (∃ C ext, commutantMatrix x O mode = .ok (C, ext) ∧ M = C.square _) ∧ ∀ δ, 0 ≤ δ → δ < 1 → NearlyEigh δ M ⟨evals, evecs⟩ →
        ∀ g : ℝ, SpectralGap M 0 g → ((1 + δ) * tol + δ) / (1 - δ) < g → δ + (1 + δ) * δ / tol < 1 → vecs.length = Module.finrank ℂ (commutingSpace mode d o))
    {M : Matrix (Fin d.length) (Fin d.length) ℂ} (hM : ∃ C ext, commutantMatrix x O mode = .ok (C, ext) ∧ M = C.square _) (hH : M.IsHermitian) :
    ∃ g > 0, ∀ (eigh : Eigh) (tol : ℝ), 0 < tol → tol ≤ g → ∃ vecs evals evecs, commutingOperators eigh x O mode tol = .ok ⟨d.length, vecs, M, evals, evecs⟩ ∧
      ∀ δ, 0 ≤ δ → δ ≤ 1 / 4 → δ ≤ tol / 4 → NearlyEigh δ M ⟨evals, evecs⟩ → vecs.length = Module.finrank ℂ (commutingSpace mode d o) := by
  obtain ⟨eigh₀, he⟩ := exists_exactEigh
  obtain ⟨g, hg, hgap⟩ := (he _ M hH).exists_gap 0
  refine ⟨g / 3, by linarith, fun eigh tol ht htg => ?_⟩
  obtain ⟨vecs, M', evals, evecs, h1, ⟨C', ext', h2, rfl⟩, h3⟩ := h eigh tol ht
  obtain ⟨C, ext, h4, rfl⟩ := hM
  rw [h4] at h2
  cases h2
  refine ⟨vecs, evals, evecs, h1, fun δ h0 h5 h6 hE => h3 δ h0 (by linarith) hE g (hgap g le_rfl) ?_ ?_⟩
  · rw [div_lt_iff₀ (by linarith)]
    nlinarith
  · have : (1 + δ) * δ / tol ≤ 5 / 16 := by
      rw [div_le_iff₀ ht]
      nlinarith
    linarith

/-- **C117** (the number of operators, Pauli): for every input there is a positive bound such that for every smaller tolerance, and every eigensolver with
errors at most a quarter of the tolerance, the number of returned vectors is exactly the number of independent commuting operators. -/
theorem C117_count_pauli (R : PauliRep ℂ 𝔸 S) (mode : Mode) {x : BasisArg ℂ} {O : Operator ℂ} (hx : x.All (PauliString S))
    (hne : x ≠ .operators []) (hO : ∀ s ∈ O.basis.strs, PauliString S s) :
    ∃ M, ∃ g > 0, ∀ (eigh : Eigh) (tol : ℝ), 0 < tol → tol ≤ g → ∃ vecs evals evecs, commutingOperators eigh x O mode tol = .ok ⟨(x.den R.den).length, vecs, M, evals, evecs⟩ ∧
      ∀ δ, 0 ≤ δ → δ ≤ 1 / 4 → δ ≤ tol / 4 → NearlyEigh δ M ⟨evals, evecs⟩ →
        vecs.length = Module.finrank ℂ (commutingSpace mode (x.den R.den) (O.den R.den)) := by
  obtain ⟨C, ext, h1, h2⟩ := R.strAlg.isCommutant mode hx hne hO
  refine ⟨C.square _, count_of (fun eigh tol ht => ?_) ⟨C, ext, h1, rfl⟩ h2.psd.1⟩
  obtain ⟨vecs, M, evals, evecs, k1, k2, k3⟩ := C117_pauli R mode hx hne hO eigh ht
  exact ⟨vecs, M, evals, evecs, k1, k2, fun δ h0 h1 hE => (k3 δ h0 h1 hE).2⟩

/-- **C117** (the number of operators, Majorana) -/
theorem C117_count_majorana (R : MajoranaRep ℂ 𝔸 S) (mode : Mode) {x : BasisArg ℂ} {O : Operator ℂ} (hx : x.All (MajoranaString S))
    (hne : x ≠ .operators []) (hO : ∀ s ∈ O.basis.strs, MajoranaString S s) :
    ∃ M, ∃ g > 0, ∀ (eigh : Eigh) (tol : ℝ), 0 < tol → tol ≤ g → ∃ vecs evals evecs, commutingOperators eigh x O mode tol = .ok ⟨(x.den R.den).length, vecs, M, evals, evecs⟩ ∧
      ∀ δ, 0 ≤ δ → δ ≤ 1 / 4 → δ ≤ tol / 4 → NearlyEigh δ M ⟨evals, evecs⟩ →
        vecs.length = Module.finrank ℂ (commutingSpace mode (x.den R.den) (O.den R.den)) := by
  obtain ⟨C, ext, h1, h2⟩ := R.strAlg.isCommutant mode hx hne hO
  refine ⟨C.square _, count_of (fun eigh tol ht => ?_) ⟨C, ext, h1, rfl⟩ h2.psd.1⟩
  obtain ⟨vecs, M, evals, evecs, k1, k2, k3⟩ := C117_majorana R mode hx hne hO eigh ht
  exact ⟨vecs, M, evals, evecs, k1, k2, fun δ h0 h1 hE => (k3 δ h0 h1 hE).2⟩

end

/-- **C117** (invariant operators): let `T` send every string in `V` to plus or minus a string in `V`, injectively.  If the eigenvalues and eigenvectors that
`invariant_operators` returns for its superoperator have errors of size `δ`, then the returned vectors are nearly orthonormal, nearly invariant, and span nearly
everything that is invariant (`NearlyInvariant`). -/
theorem C117_invariant {t : OpType} {V : OpString → Prop} {T : Transformation ℂ} {ε : OpString → ℂ} {f : OpString → OpString} (h : SignRule T t V ε f)
    (hinj : Set.InjOn f {s | V s}) {pinv : Mat ℂ → Py (Mat ℂ)} (hp : IsPinv pinv) {x : BasisArg ℂ}
    (hx : x.Orthonormal t V) (hne : x ≠ .operators []) (eigh : Eigh) {mode : String} {sign : ℤ} (hs : symmetrySign mode = .ok sign) {tol : ℝ} (ht : 0 < tol) :
    ∃ vecs M evals evecs, invariantOperators eigh pinv x T mode tol = .ok ⟨x.len, vecs, M, evals, evecs⟩ ∧
      (∃ S, symmetryMatrixOf pinv x T = .ok S ∧ M = 1 - (sign : ℂ) • hermitianPart (fun i j => S.get i j)) ∧
      ∀ δ, 0 ≤ δ → δ < 1 → NearlyEigh δ M ⟨evals, evecs⟩ → NearlyInvariant T t V sign x.coef tol δ vecs := by
  obtain ⟨vecs, M, evals, evecs, h1, h2, h3⟩ := invariantOperators_nearly h hinj hp hx hne eigh hs ht
  exact ⟨vecs, M, evals, evecs, h1, h2, fun δ h0 h1 hE => (h3 δ h0 h1 hE).1⟩

/-- **C117** (the number of invariant operators): if moreover `T` is an involution, then for every Basis, every tolerance up to 1/4 and every eigensolver with
errors up to a quarter of the tolerance, the number of returned vectors is exactly the dimension of the space of the operators with `T(A) = sign * A`.  This
includes qosy's tolerance `10⁻¹⁰` with errors of `2.5 · 10⁻¹¹`. -/
theorem C117_involution {t : OpType} {V : OpString → Prop} {T : Transformation ℂ} {ε : OpString → ℂ} {f : OpString → OpString} (h : SignRule T t V ε f)
    (hf : ∀ s, V s → f (f s) = s) (hε : ∀ s, V s → ε (f s) = ε s) {pinv : Mat ℂ → Py (Mat ℂ)} (hp : IsPinv pinv) {b : Basis} (hb : b.Inv)
    (hV : ∀ s ∈ b.strs, V s) {mode : String} {sign : ℤ} (hs : symmetrySign mode = .ok sign) :
    ∃ W : Submodule ℂ (Fin b.strs.length → ℂ),
      (∀ v, ∃ B, T.apply ⟨List.ofFn v, b, t⟩ = .ok B ∧ (v ∈ W ↔ ∀ s, B.coef s = sign * (⟨List.ofFn v, b, t⟩ : Operator ℂ).coef s)) ∧
      ∀ (eigh : Eigh) (tol : ℝ), 0 < tol → tol ≤ 1 / 4 → ∃ vecs M evals evecs,
        invariantOperators eigh pinv (.strings b) T mode tol = .ok ⟨b.strs.length, vecs, M, evals, evecs⟩ ∧
        ∀ δ, 0 ≤ δ → δ ≤ tol / 4 → NearlyEigh δ M ⟨evals, evecs⟩ → vecs.length = Module.finrank ℂ W := by
  have hinj : Set.InjOn f {s | V s} := by
    intro s hs s' hs' he
    rw [← hf s hs, he, hf s' hs']
  obtain ⟨eigh₀, he⟩ := exists_exactEigh
  obtain ⟨vecs₀, -, -, -, -, -, hW⟩ := C50_involution h hf hε hp hb hV he hs one_pos le_rfl
  have hx : (BasisArg.strings b : BasisArg ℂ).Orthonormal t V := ⟨hb, hV⟩
  refine ⟨colSpan vecs₀, hW, fun eigh tol ht ht1 => ?_⟩
  obtain ⟨vecs, M, evals, evecs, h1, ⟨S, h2, h2'⟩, h3⟩ := invariantOperators_nearly h hinj hp hx (by simp) eigh hs ht
  refine ⟨vecs, M, evals, evecs, h1, fun δ h0 hδ hE => ?_⟩
  refine (h3 δ h0 (by linarith) hE).2 (colSpan vecs₀) 1 (fun v => ?_) ?_ ?_ ?_
  · have hwf : (⟨List.ofFn v, b, t⟩ : Operator ℂ).WF := ⟨hb, List.length_ofFn, fun s hs' => h.type s (hV s hs')⟩
    obtain ⟨B, hB, hw⟩ := hW v
    exact ⟨_, B, ⟨hwf, rfl, hV⟩, coef_ofFn hwf, hB, hw⟩
  · have hσ : sign ^ 2 = 1 := by
      unfold symmetrySign at hs
      split at hs
      · simp only [Except.ok.injEq] at hs; subst hs; norm_num
      · split at hs
        · simp only [Except.ok.injEq] at hs; subst hs; norm_num
        · simp at hs
    have hg := involution_gap h hf hε hb.2 hV hσ le_rfl
    have hS : (fun i j => S.get i j : Matrix (Fin b.strs.length) (Fin b.strs.length) ℂ) = entryMatrix T b.strs := by
      obtain ⟨S', k1, -, -, -, k5⟩ := symmetryMatrix_ok (T := T) (tol := tolTransformation) hb.2 (h.images hV)
      rw [← hb.1] at k1
      have k3 : symmetryMatrix b T = .ok S := h2
      rw [k1] at k3
      obtain rfl : S' = S := by simpa using k3
      funext i j
      rw [k5 i j i.2 j.2, h.entry_cut (by rw [tolTransformation]; norm_num) (hV _ (List.getElem_mem _))]; rfl
    rw [h2']
    exact hS ▸ hg
  · rw [div_lt_one (by linarith)]
    nlinarith
  · have : (1 + δ) * δ / tol ≤ 5 / 16 := by
      rw [div_le_iff₀ ht]
      nlinarith
    linarith

/-- **C117** (time reversal): the number of operators that `invariant_operators` finds to be even or odd under time reversal is exact, for qosy's tolerance and
all eigensolvers with errors up to `2.5 · 10⁻¹¹`. -/
theorem C117_time_reversal {t : OpType} {S : Set ℤ} {pinv : Mat ℂ → Py (Mat ℂ)} (hp : IsPinv pinv) {b : Basis} (hb : b.Inv)
    (hV : ∀ s ∈ b.strs, TypedString t S s) {mode : String} {sign : ℤ} (hs : symmetrySign mode = .ok sign) :
    ∃ W : Submodule ℂ (Fin b.strs.length → ℂ),
      (∀ v, ∃ B, (timeReversal : Transformation ℂ).apply ⟨List.ofFn v, b, t⟩ = .ok B ∧
        (v ∈ W ↔ ∀ s, B.coef s = sign * (⟨List.ofFn v, b, t⟩ : Operator ℂ).coef s)) ∧
      ∀ eigh : Eigh, ∃ vecs M evals evecs, invariantOperators eigh pinv (.strings b) timeReversal mode = .ok ⟨b.strs.length, vecs, M, evals, evecs⟩ ∧
        ∀ δ, 0 ≤ δ → δ ≤ 1 / (4 * 10 ^ 10) → NearlyEigh δ M ⟨evals, evecs⟩ → vecs.length = Module.finrank ℂ W := by
  obtain ⟨W, h1, h2⟩ := C117_involution (timeReversal_signRule t S) (fun _ _ => rfl) (fun _ _ => rfl) hp hb hV hs
  refine ⟨W, h1, fun eigh => ?_⟩
  obtain ⟨vecs, M, evals, evecs, h3, h4⟩ := h2 eigh (1 / 10 ^ 10) (by norm_num) (by norm_num)
  exact ⟨vecs, M, evals, evecs, h3, fun δ h0 hδ => h4 δ h0 (hδ.trans (by norm_num))⟩

/-! ### energies -/

section
variable {n : ℕ} {num : Eigensolvers}

/-- **C117** (energies): let `M` be the matrix that `diagonalize` hands to `eigh` for a Hermitian Operator, and let the answer have errors of size `δ`.  The
returned energies `λ_k - c` are in increasing order.  Each `λ_k` is within `δ / (1 - δ)` of an eigenvalue of the Operator, each eigenvalue of the Operator is
within `(1 + δ) δ / (1 - δ)` of some `λ_k`, and each returned vector is nearly normalised and nearly an eigenvector.  The constant `c` vanishes except for
Fermion Operators (see C81). -/
theorem C117_energies (hsort : ∀ l : List ℝ, (num.argsort l).Perm (List.range l.length) ∧ (num.argsort l).Pairwise fun i j => l.getD i 0 ≤ l.getD j 0)
    {A : Operator ℂ} (hA : Diagonalizable n A) :
    ∃ (C : Operator ℂ) (M : Mat ℂ) (c : ℝ) (pairs : List (ℝ × (Cfg n → ℂ))) (vecs : List (List ℂ)),
      convertOperator A .pauli false = .ok C ∧ toMatrixOperator C n = .ok M ∧
      diagonalize num A n = .ok (pairs.map (fun p => ((p.1 - c : ℝ) : ℂ)), vecs) ∧ List.Forall₂ (IsState n) vecs (pairs.map Prod.snd) ∧ pairs.length = 2 ^ n ∧
      (pairs.Pairwise fun p q => p.1 ≤ q.1) ∧
      (A.opType ≠ .fermion → c = 0) ∧ (A.opType = .fermion → (c : ℂ) = (A.den (matRep ℂ n).anyDen).trace / 2 ^ n) ∧
      ∀ δ, 0 ≤ δ → δ < 1 → NearlyEigh δ M.toarray (num.eigh _ M.toarray) →
        (∀ p ∈ pairs, ∃ (E : ℝ) (ψ : Cfg n → ℂ), ψ ≠ 0 ∧ A.den (matRep ℂ n).anyDen *ᵥ ψ = (E : ℂ) • ψ ∧ |p.1 - E| ≤ δ / (1 - δ)) ∧
        (∀ (E : ℝ) (ψ : Cfg n → ℂ), ψ ≠ 0 → A.den (matRep ℂ n).anyDen *ᵥ ψ = (E : ℂ) • ψ → ∃ p ∈ pairs, |p.1 - E| ≤ (1 + δ) * δ / (1 - δ)) ∧
        ∀ p ∈ pairs, |∑ σ, ‖p.2 σ‖ ^ 2 - 1| ≤ δ ∧ ∑ σ, ‖(A.den (matRep ℂ n).anyDen *ᵥ p.2) σ - p.1 * p.2 σ‖ ^ 2 ≤ δ ^ 2 := by
  obtain ⟨C, k, c1, c2, c3, c4, c5⟩ := convertOperator_pauli hA.wf hA.mem hA.convertible
  obtain ⟨M, m1, m2⟩ := C43_operator c2
  obtain ⟨e, e1, e2⟩ := toarray_submatrix m2
  have hH := hA.hermitian
  obtain ⟨c, rfl⟩ : ∃ c : ℝ, (c : ℂ) = k := by
    have : star k = k := by
      by_cases h : A.opType = .fermion
      · rw [c5 h]; exact shift_real hH
      · rw [c4 h, star_zero]
    exact ⟨k.re, Complex.conj_eq_iff_re.mp this⟩
  generalize A.den (matRep ℂ n).anyDen = H at *
  generalize C.den (matRep ℂ n).den = D at *
  have hDh : D.IsHermitian := by
    have : D = H - (c : ℂ) • 1 := by rw [c3, add_sub_cancel_right]
    rw [this]
    refine hH.sub ?_
    rw [Matrix.IsHermitian, Matrix.conjTranspose_smul, Matrix.conjTranspose_one]
    exact congrArg (· • (1 : Matrix (Cfg n) (Cfg n) ℂ)) (Complex.conj_ofReal c)
  have hTh : M.toarray.IsHermitian := by rw [e1]; exact hDh.submatrix _
  have hmul : ∀ ψ : Cfg n → ℂ, M.toarray *ᵥ (ψ ∘ e) = (H *ᵥ ψ - (c : ℂ) • ψ) ∘ e := by
    intro ψ
    rw [c3, e1, Matrix.add_mulVec, Matrix.smul_mulVec, Matrix.one_mulVec, add_sub_cancel_right, Matrix.submatrix_mulVec_equiv, Function.comp_assoc, Equiv.self_comp_symm, Function.comp_id]
  set r : List (ℝ × (Fin M.ncols → ℂ)) := List.ofFn fun k => ((num.eigh M.ncols M.toarray).evals k, fun i => (num.eigh M.ncols M.toarray).evecs i k) with hr
  obtain ⟨s, s1, s2, s3⟩ := sortEigenpairs_ok hsort r
  have hmem : ∀ p, p ∈ (s.map fun p => (p.1 + c, p.2 ∘ e.symm)) ↔
      ∃ k, p = ((num.eigh M.ncols M.toarray).evals k + c, (fun i => (num.eigh M.ncols M.toarray).evecs i k) ∘ e.symm) := by
    intro p
    rw [List.mem_map]
    constructor
    · rintro ⟨q, hq, rfl⟩
      rw [← s2.mem_iff, hr, List.mem_ofFn] at hq
      obtain ⟨k, rfl⟩ := hq
      exact ⟨k, rfl⟩
    · rintro ⟨k, rfl⟩
      refine ⟨((num.eigh M.ncols M.toarray).evals k, fun i => (num.eigh M.ncols M.toarray).evecs i k), ?_, rfl⟩
      rw [← s2.mem_iff, hr, List.mem_ofFn]
      exact ⟨k, rfl⟩
  refine ⟨C, M, c, s.map fun p => (p.1 + c, p.2 ∘ e.symm), s.map fun p => List.ofFn p.2, c1, m1, ?_, ?_, ?_, ?_, ?_, c5, ?_⟩
  · rw [diagonalize, c1]
    simp only [bind, Except.bind, m1, if_true, Eigensolvers.hermitian, ← hr, s1, List.map_map]
    refine congrArg Except.ok (Prod.ext ?_ rfl)
    refine List.map_congr_left fun p _ => ?_
    simp
  · rw [List.map_map, List.forall₂_map_left_iff, List.forall₂_map_right_iff]
    exact List.forall₂_same.mpr fun p _ => e2 p.2
  · rw [List.length_map, ← s2.length_eq, hr, List.length_ofFn, m2.ncols]
  · rw [List.pairwise_map]
    exact s3.imp fun h => by simpa using h
  · intro h
    exact_mod_cast c4 h
  · intro δ h0 h1 hE
    refine ⟨?_, ?_, ?_⟩
    · intro p hp
      obtain ⟨k, rfl⟩ := (hmem p).mp hp
      obtain ⟨E, z, z1, z2, z3⟩ := hE.evals_near hTh h0 h1 k
      refine ⟨E + c, z ∘ e.symm, fun h => z1 ?_, ?_, ?_⟩
      · funext i
        simpa using congrFun h (e i)
      · have h2 := hmul (z ∘ e.symm)
        rw [Function.comp_assoc, Equiv.symm_comp_self, Function.comp_id, z2] at h2
        funext σ
        have h3 := congrFun h2 (e.symm σ)
        simp only [Pi.smul_apply, Function.comp_apply, Pi.sub_apply, Equiv.apply_symm_apply, smul_eq_mul] at h3 ⊢
        push_cast
        rw [add_mul]
        exact (eq_add_of_sub_eq h3.symm)
      · simpa using z3
    · intro E ψ hψ hE'
      have hz : ψ ∘ e ≠ 0 := fun h => hψ (by funext σ; simpa using congrFun h (e.symm σ))
      have hz' : M.toarray *ᵥ (ψ ∘ e) = ((E - c : ℝ) : ℂ) • (ψ ∘ e) := by
        rw [hmul, hE', ← sub_smul]
        push_cast
        rfl
      obtain ⟨k, hk⟩ := hE.evals_complete hTh h0 h1 hz hz'
      refine ⟨_, (hmem _).mpr ⟨k, rfl⟩, ?_⟩
      rw [show (num.eigh M.ncols M.toarray).evals k + c - E = (num.eigh M.ncols M.toarray).evals k - (E - c) by ring]
      exact hk
    · intro p hp
      obtain ⟨k, rfl⟩ := (hmem p).mp hp
      constructor
      · have h2 := hE.column_norm k
        rw [← Equiv.sum_comp e.symm] at h2
        exact h2
      · have h2 := hE.column_residual k
        have h3 := pow_le_pow_left₀ (vnorm_nonneg _) h2 2
        rw [vnorm, Real.sq_sqrt (Finset.sum_nonneg fun i _ => by positivity), ← Equiv.sum_comp e.symm] at h3
        refine le_trans (le_of_eq ?_) h3
        refine Finset.sum_congr rfl fun σ _ => ?_
        have h4 := congrFun (hmul ((fun i => (num.eigh M.ncols M.toarray).evecs i k) ∘ e.symm)) (e.symm σ)
        rw [Function.comp_assoc, Equiv.symm_comp_self, Function.comp_id] at h4
        rw [Pi.sub_apply, h4]
        simp only [Function.comp_apply, Pi.sub_apply, Equiv.apply_symm_apply, Pi.smul_apply, smul_eq_mul]
        congr 2
        push_cast
        ring

end

/-! ### examples -/

/-- an eigensolver whose eigenvalues are wrong by `ε` -/
private theorem shifted_nearly {n : ℕ} {D : Matrix (Fin n) (Fin n) ℂ} {r : EighResult (Fin n) n} (h : IsEigh D r) (ε : ℝ) :
    NearlyEigh |ε| D ⟨fun k => r.evals k + ε, r.evecs⟩ := by
  have h0 : NormAtMost (0 : Matrix (Fin n) (Fin n) ℂ) |ε| := by
    intro y
    rw [Matrix.zero_mulVec, vnorm_eq_zero.mpr rfl]
    have := vnorm_nonneg y
    positivity
  refine ⟨by rw [h.orthonormal, sub_self]; exact h0, by rw [h.complete, sub_self]; exact h0, ?_⟩
  have e : D * r.evecs - r.evecs * diagonal (fun j => ((r.evals j + ε : ℝ) : ℂ)) = -(ε : ℂ) • r.evecs := by
    rw [h.eigen, ← Matrix.mul_sub, Matrix.diagonal_sub]
    ext i j
    simp only [Matrix.mul_diagonal, Matrix.smul_apply, smul_eq_mul]
    push_cast
    ring
  intro y
  show vnorm ((D * r.evecs - r.evecs * diagonal (fun j => ((r.evals j + ε : ℝ) : ℂ))) *ᵥ y) ≤ _
  rw [e, Matrix.smul_mulVec]
  refine (vnorm_le_mul (abs_nonneg ε) (y := r.evecs *ᵥ y) fun i => ?_).trans (le_of_eq ?_)
  · rw [Pi.smul_apply, norm_smul, norm_neg, Complex.norm_real, Real.norm_eq_abs]
  · congr 1
    have h2 := h.nearly.norm_mulVec y
    rw [zero_mul, abs_nonpos_iff, sub_eq_zero] at h2
    exact (sq_eq_sq₀ (vnorm_nonneg _) (vnorm_nonneg _)).mp h2

/-- the strings `X_0` and `X_1`, and the operator `Z_0`, with an eigensolver whose errors are `10⁻¹⁴` and qosy's tolerance `10⁻¹⁰` -/
example : ∃ (eigh : Eigh) (vecs : _) (M : _) (evals : _) (evecs : _),
    commutingOperators eigh (.strings (Basis.ofList [⟨[.X], [0], .pauli, .float1⟩, ⟨[.X], [1], .pauli, .float1⟩]))
      ⟨[1], Basis.ofList [⟨[.Z], [0], .pauli, .float1⟩], .pauli⟩ .commutator (1 / 10 ^ 10) = .ok ⟨_, vecs, M, evals, evecs⟩ ∧ ¬ IsEigh M ⟨evals, evecs⟩ ∧
    NearlyCommuting (waveRep ℂ).den .commutator ((BasisArg.strings (Basis.ofList [⟨[.X], [0], .pauli, .float1⟩, ⟨[.X], [1], .pauli, .float1⟩]) : BasisArg ℂ).den (waveRep ℂ).den)
      ((⟨[1], Basis.ofList [⟨[.Z], [0], .pauli, .float1⟩], .pauli⟩ : Operator ℂ).den (waveRep ℂ).den) (1 / 10 ^ 10) (1 / 10 ^ 14) vecs := by
  obtain ⟨eigh, he⟩ := exists_exactEigh
  have hx : (BasisArg.strings (Basis.ofList [⟨[.X], [0], .pauli, .float1⟩, ⟨[.X], [1], .pauli, .float1⟩]) : BasisArg ℂ).All (PauliString Set.univ) := by
    intro s hs
    simp only [Basis.ofList, List.mem_cons, List.not_mem_nil, or_false] at hs
    rcases hs with rfl | rfl <;> exact ⟨rfl, by decide, rfl, by decide, fun _ _ => Set.mem_univ _, by decide⟩
  have hO : ∀ s ∈ (⟨[1], Basis.ofList [⟨[.Z], [0], .pauli, .float1⟩], .pauli⟩ : Operator ℂ).basis.strs, PauliString Set.univ s := by
    intro s hs
    simp only [Basis.ofList, List.mem_cons, List.not_mem_nil, or_false] at hs
    subst hs
    exact ⟨rfl, by decide, rfl, by decide, fun _ _ => Set.mem_univ _, by decide⟩
  let eigh' : Eigh := fun n D => ⟨fun k => (eigh n D).evals k + 1 / 10 ^ 14, (eigh n D).evecs⟩
  obtain ⟨C, ext, k1, k2⟩ := (waveRep ℂ).strAlg.isCommutant .commutator hx (by simp) hO
  rw [show (waveRep ℂ).strAlg.den = (waveRep ℂ).den from rfl] at k2
  obtain ⟨vecs, M, evals, evecs, h1, ⟨C', ext', h2, rfl⟩, h3⟩ := C117_pauli (waveRep ℂ) .commutator hx (by simp) hO eigh' (tol := 1 / 10 ^ 10) (by norm_num)
  rw [k1] at h2
  cases h2
  have hE := he _ _ k2.psd.1
  have k3 := commutingOperators_of k1 k2.ncols eigh' (1 / 10 ^ 10)
  rw [h1] at k3
  have k4 := Except.ok.inj k3
  simp only [Generated.mk.injEq, heq_eq_eq, true_and] at k4
  obtain ⟨-, rfl, rfl⟩ := k4
  refine ⟨eigh', vecs, _, _, _, h1, fun h => ?_, ?_⟩
  · have h5 := h.eigen
    have h6 : C.square _ * (eigh _ (C.square _)).evecs = _ := hE.eigen
    have h7 := h6.symm.trans h5
    have h8 := congrArg ((eigh _ (C.square _)).evecsᴴ * ·) h7
    simp only [← Matrix.mul_assoc] at h8
    rw [show (eigh' _ (C.square _)).evecs = (eigh _ (C.square _)).evecs from rfl, hE.orthonormal, Matrix.one_mul, Matrix.one_mul] at h8
    have h9 := congrFun (Matrix.diagonal_injective h8) ⟨0, by simp [BasisArg.den, Basis.ofList]⟩
    simp [eigh'] at h9
  · refine (h3 (1 / 10 ^ 14) (by norm_num) (by norm_num) ?_).1
    have := shifted_nearly hE (1 / 10 ^ 14)
    rw [abs_of_pos (by norm_num)] at this
    exact this

/-- the energies of two spins, from an eigensolver whose eigenvalues are wrong by `10⁻¹⁰` -/
example : ∃ (num : Eigensolvers) (C : Operator ℂ) (M : Mat ℂ), convertOperator twoSpins .pauli false = .ok C ∧ toMatrixOperator C 2 = .ok M ∧
    NearlyEigh (1 / 10 ^ 10) M.toarray (num.eigh _ M.toarray) ∧ Diagonalizable 2 twoSpins ∧
    ∀ l : List ℝ, (num.argsort l).Perm (List.range l.length) ∧ (num.argsort l).Pairwise fun i j => l.getD i 0 ≤ l.getD j 0 := by
  obtain ⟨num, hnum⟩ := exists_exactEigensolvers
  have hA : Diagonalizable 2 twoSpins := (realOperator_on twoSpins_real).choose_spec.2.2.2.2.2.1
  obtain ⟨C, k, c1, c2, c3, c4, -⟩ := convertOperator_pauli hA.wf hA.mem hA.convertible
  obtain ⟨M, m1, m2⟩ := C43_operator c2
  obtain ⟨e, e1, -⟩ := toarray_submatrix m2
  have hTh : M.toarray.IsHermitian := by
    rw [e1]
    refine Matrix.IsHermitian.submatrix ?_ _
    have h := hA.hermitian
    rw [c3, c4 (by simp [twoSpins]), zero_smul, add_zero] at h
    exact h
  refine ⟨{ num with eigh := fun n D => ⟨fun k => (num.eigh n D).evals k + 1 / 10 ^ 10, (num.eigh n D).evecs⟩ }, C, M, c1, m1, ?_, hA, hnum.argsort⟩
  have := shifted_nearly (hnum.eigh _ _ hTh) (1 / 10 ^ 10)
  rw [abs_of_pos (by norm_num)] at this
  exact this

/-- `X_0` and `Y_0` under time reversal -/
example : ∃ pinv, ∃ W : Submodule ℂ (Fin 2 → ℂ), ∀ eigh : Eigh, ∃ vecs M evals evecs,
    invariantOperators eigh pinv (.strings (Basis.ofList [⟨[.X], [0], .pauli, .float1⟩, ⟨[.Y], [0], .pauli, .float1⟩])) timeReversal "commute" = .ok ⟨2, vecs, M, evals, evecs⟩ ∧
    ∀ δ, 0 ≤ δ → δ ≤ 1 / (4 * 10 ^ 10) → NearlyEigh δ M ⟨evals, evecs⟩ → vecs.length = Module.finrank ℂ W := by
  obtain ⟨pinv, hp⟩ := exists_isPinv
  obtain ⟨W, -, h⟩ := C117_time_reversal (t := .pauli) (S := Set.univ) hp (b := Basis.ofList [⟨[.X], [0], .pauli, .float1⟩, ⟨[.Y], [0], .pauli, .float1⟩])
    (Basis.Inv.ofList (by decide)) (fun s hs => by
      simp only [Basis.ofList, List.mem_cons, List.not_mem_nil, or_false] at hs
      rcases hs with rfl | rfl <;> exact Or.inl ⟨rfl, rfl, by decide, rfl, by decide, fun _ _ => Set.mem_univ _, by decide⟩) ((C50_sign "commute").1.2 (by simp))
  exact ⟨pinv, W, h⟩

end Qosy
