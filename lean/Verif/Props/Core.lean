import Verif.Lemmas.CommutingOperators
import Verif.Lemmas.InvariantOperators
import Verif.Lemmas.Symmetrization
import Verif.Lemmas.StrAlgInst
import Verif.Props.Matrix
import Verif.Props.LinAlg

/-!
# Properties C49, C50: `commuting_operators` and `invariant_operators`

Exact complex arithmetic, exact eigensolver (`ExactEigh`), and a pseudo-inverse satisfying two Penrose equations (`IsPinv`).
-/

namespace Qosy
open Matrix Coef
variable {𝔸 : Type} [Ring 𝔸] [Algebra ℂ 𝔸] [Nontrivial 𝔸] {S : Set ℤ}

/-! ### C49 -/

/-- **C49** (Pauli): for every Basis or non-empty list of Operators, `commuting_operators` returns an orthonormal basis of the operators
whose (anti)commutator with the given Operator vanishes (see `CommutingBasis` for the role of the tolerance), in every non-trivial
representation; the superoperator is the commutant matrix, with its eigenvalues and eigenvectors. -/
theorem C49_pauli (R : PauliRep ℂ 𝔸 S) (mode : Mode) {x : BasisArg ℂ} {O : Operator ℂ} (hx : x.All (PauliString S))
    (hne : x ≠ .operators []) (hO : ∀ s ∈ O.basis.strs, PauliString S s) {eigh : Eigh} (he : ExactEigh eigh) {tol : ℝ} (ht : 0 < tol) :
    ∃ vecs M evals evecs, commutingOperators eigh x O mode tol = .ok ⟨(x.den R.den).length, vecs, M, evals, evecs⟩ ∧
      CommutingBasis R.den mode (x.den R.den) (O.den R.den) tol vecs M ∧
      (∃ C ext, commutantMatrix x O mode = .ok (C, ext) ∧ M = C.square _) ∧ IsEigh M ⟨evals, evecs⟩ :=
  R.strAlg.commutingOperators_ok mode hx hne hO he ht

/-- **C49** (Majorana) -/
theorem C49_majorana (R : MajoranaRep ℂ 𝔸 S) (mode : Mode) {x : BasisArg ℂ} {O : Operator ℂ} (hx : x.All (MajoranaString S))
    (hne : x ≠ .operators []) (hO : ∀ s ∈ O.basis.strs, MajoranaString S s) {eigh : Eigh} (he : ExactEigh eigh) {tol : ℝ} (ht : 0 < tol) :
    ∃ vecs M evals evecs, commutingOperators eigh x O mode tol = .ok ⟨(x.den R.den).length, vecs, M, evals, evecs⟩ ∧
      CommutingBasis R.den mode (x.den R.den) (O.den R.den) tol vecs M ∧
      (∃ C ext, commutantMatrix x O mode = .ok (C, ext) ∧ M = C.square _) ∧ IsEigh M ⟨evals, evecs⟩ :=
  R.strAlg.commutingOperators_ok mode hx hne hO he ht

/-- **C49** (Pauli, small tolerances): for every input there is a positive bound such that with any smaller tolerance the returned vectors
span exactly the operators whose bracket with `O` vanishes. -/
theorem C49_exact_pauli (R : PauliRep ℂ 𝔸 S) (mode : Mode) {x : BasisArg ℂ} {O : Operator ℂ} (hx : x.All (PauliString S))
    (hne : x ≠ .operators []) (hO : ∀ s ∈ O.basis.strs, PauliString S s) {eigh : Eigh} (he : ExactEigh eigh) :
    ∃ δ > 0, ∀ tol, 0 < tol → tol ≤ δ → ∃ vecs M evals evecs, commutingOperators eigh x O mode tol = .ok ⟨(x.den R.den).length, vecs, M, evals, evecs⟩ ∧
      OrthonormalColumns vecs ∧ ∀ v, v ∈ colSpan vecs ↔ bracketOf mode (∑ j, v j • (x.den R.den)[j]) (O.den R.den) = 0 := by
  obtain ⟨-, M, evals, evecs, -, -, ⟨C, ext, hC, rfl⟩, h4⟩ := C49_pauli R mode hx hne hO he one_pos
  obtain ⟨δ, hδ, hgap⟩ := h4.exists_gap 0
  refine ⟨δ, hδ, fun tol ht htδ => ?_⟩
  obtain ⟨vecs, M, evals', evecs', h1, h2, ⟨C', ext', hC', rfl⟩, -⟩ := C49_pauli R mode hx hne hO he ht
  rw [hC] at hC'
  cases hC'
  exact ⟨vecs, _, evals', evecs', h1, h2.orthonormal, h2.exact (hgap tol htδ)⟩

/-- **C49** (Majorana, small tolerances) -/
theorem C49_exact_majorana (R : MajoranaRep ℂ 𝔸 S) (mode : Mode) {x : BasisArg ℂ} {O : Operator ℂ} (hx : x.All (MajoranaString S))
    (hne : x ≠ .operators []) (hO : ∀ s ∈ O.basis.strs, MajoranaString S s) {eigh : Eigh} (he : ExactEigh eigh) :
    ∃ δ > 0, ∀ tol, 0 < tol → tol ≤ δ → ∃ vecs M evals evecs, commutingOperators eigh x O mode tol = .ok ⟨(x.den R.den).length, vecs, M, evals, evecs⟩ ∧
      OrthonormalColumns vecs ∧ ∀ v, v ∈ colSpan vecs ↔ bracketOf mode (∑ j, v j • (x.den R.den)[j]) (O.den R.den) = 0 := by
  obtain ⟨-, M, evals, evecs, -, -, ⟨C, ext, hC, rfl⟩, h4⟩ := C49_majorana R mode hx hne hO he one_pos
  obtain ⟨δ, hδ, hgap⟩ := h4.exists_gap 0
  refine ⟨δ, hδ, fun tol ht htδ => ?_⟩
  obtain ⟨vecs, M, evals', evecs', h1, h2, ⟨C', ext', hC', rfl⟩, -⟩ := C49_majorana R mode hx hne hO he ht
  rw [hC] at hC'
  cases hC'
  exact ⟨vecs, _, evals', evecs', h1, h2.orthonormal, h2.exact (hgap tol htδ)⟩

omit [Nontrivial 𝔸] in
/-- **C49** (empty list): an empty list of Operators raises IndexError. -/
theorem C49_empty (eigh : Eigh) (O : Operator ℂ) (mode : Mode) (tol : ℝ) :
    commutingOperators eigh (.operators []) O mode tol = .error .indexError := rfl

/-! ### C50 -/

section
variable {t : OpType} {V : OpString → Prop} {T : Transformation ℂ} {ε : OpString → ℂ} {f : OpString → OpString}

/-- **C50**: let `T` send every string in `V` to plus or minus a string in `V`, injectively.  For every Basis, or non-empty orthonormal list
of Operators, on strings in `V`, which need not be closed under `T`, `invariant_operators` returns an orthonormal basis of the operators
with `T(A) = ± A` (see `InvariantBasis` for the role of the tolerance); the superoperator is `1 ∓ (S + S†)/2` for the symmetry matrix
`S`, with its eigenvalues and eigenvectors. -/
theorem C50_signed (h : SignRule T t V ε f) (hinj : Set.InjOn f {s | V s}) {pinv : Mat ℂ → Py (Mat ℂ)} (hp : IsPinv pinv) {x : BasisArg ℂ}
    (hx : x.Orthonormal t V) (hne : x ≠ .operators []) {eigh : Eigh} (he : ExactEigh eigh) {mode : String} {sign : ℤ}
    (hs : symmetrySign mode = .ok sign) {tol : ℝ} (ht : 0 < tol) :
    ∃ vecs M evals evecs, invariantOperators eigh pinv x T mode tol = .ok ⟨x.len, vecs, M, evals, evecs⟩ ∧
      InvariantBasis T t V sign x.coef tol vecs M ∧
      (∃ S, symmetryMatrixOf pinv x T = .ok S ∧ M = 1 - (sign : ℂ) • hermitianPart (fun i j => S.get i j)) ∧ IsEigh M ⟨evals, evecs⟩ :=
  invariantOperators_ok h hinj hp hx hne he hs ht

/-- **C50** (small tolerances): for every input there is a positive bound such that with any smaller tolerance the returned vectors span
exactly the operators with `T(A) = ± A`. -/
theorem C50_exact (h : SignRule T t V ε f) (hinj : Set.InjOn f {s | V s}) {pinv : Mat ℂ → Py (Mat ℂ)} (hp : IsPinv pinv) {x : BasisArg ℂ}
    (hx : x.Orthonormal t V) (hne : x ≠ .operators []) {eigh : Eigh} (he : ExactEigh eigh) {mode : String} {sign : ℤ}
    (hs : symmetrySign mode = .ok sign) :
    ∃ δ > 0, ∀ tol, 0 < tol → tol ≤ δ → ∃ (vecs : _) (M : _) (evals : _) (evecs : _),
      invariantOperators eigh pinv x T mode tol = .ok ⟨x.len, vecs, M, evals, evecs⟩ ∧ OrthonormalColumns vecs ∧
      ∀ (v : Fin x.len → ℂ) (A B : Operator ℂ), A.On t V → (∀ s, A.coef s = ∑ j, v j * x.coef j s) → T.apply A = .ok B →
        (v ∈ colSpan vecs ↔ ∀ s, B.coef s = sign * A.coef s) := by
  obtain ⟨-, M, evals, evecs, -, -, ⟨C, hC, rfl⟩, h4⟩ := C50_signed h hinj hp hx hne he hs one_pos
  obtain ⟨δ, hδ, hgap⟩ := h4.exists_gap 0
  refine ⟨δ, hδ, fun tol ht htδ => ?_⟩
  obtain ⟨vecs, M, evals', evecs', h1, h2, ⟨C', hC', rfl⟩, -⟩ := C50_signed h hinj hp hx hne he hs ht
  rw [hC] at hC'
  cases hC'
  exact ⟨vecs, _, evals', evecs', h1, h2.orthonormal, h2.exact (hgap tol htδ)⟩

omit [Nontrivial 𝔸] in
theorem coef_ofFn {b : Basis} {v : Fin b.strs.length → ℂ} (h : (⟨List.ofFn v, b, t⟩ : Operator ℂ).WF) (s : OpString) :
    (⟨List.ofFn v, b, t⟩ : Operator ℂ).coef s = ∑ j, v j * (BasisArg.strings b).coef j s := by
  have hn : b.strs.Nodup := h.1.2
  have he : (⟨List.ofFn v, b, t⟩ : Operator ℂ).coef s = coefT ((List.ofFn v).zip b.strs) s := rfl
  show _ = ∑ j : Fin b.strs.length, v j * (if b.strs[(j : ℕ)] = s then 1 else 0)
  by_cases hs : s ∈ b.strs
  · obtain ⟨i, hi, rfl⟩ := List.getElem_of_mem hs
    rw [he, coefT_zip_mem (by simp) hn i hi, Finset.sum_eq_single (⟨i, hi⟩ : Fin b.strs.length)]
    · simp
    · intro j _ hj
      rw [if_neg, mul_zero]
      intro e
      exact hj (Fin.ext ((hn.getElem_inj_iff).mp e))
    · simp
  · rw [coef_zero_of_not_mem (A := ⟨List.ofFn v, b, t⟩) hs]
    symm
    apply Finset.sum_eq_zero
    intro j _
    rw [if_neg, mul_zero]
    rintro rfl; exact hs (List.getElem_mem _)

/-- for an involution the eigenvalues of the superoperator are 0, 1 and 2 -/
theorem involution_gap (h : SignRule T t V ε f) (hf : ∀ s, V s → f (f s) = s) (hε : ∀ s, V s → ε (f s) = ε s) {l : List OpString} (hn : l.Nodup)
    (hl : ∀ s ∈ l, V s) {sign : ℤ} (hσ : sign ^ 2 = 1) {tol : ℝ} (ht : tol ≤ 1) :
    SpectralGap (1 - (sign : ℂ) • hermitianPart (entryMatrix T l)) 0 tol := by
  have hinj : Set.InjOn f {s | V s} := by
    intro s hs s' hs' he
    rw [← hf s hs, he, hf s' hs']
  have hsym : (entryMatrix T l)ᴴ = entryMatrix T l := by
    ext i j
    rw [conjTranspose_apply]
    simp only [entryMatrix]
    simp only [Fin.getElem_fin]
    rw [Sends.entry (h.sends _ (hl _ (List.getElem_mem j.2))), Sends.entry (h.sends _ (hl _ (List.getElem_mem i.2)))]
    have hVi := hl _ (List.getElem_mem i.2)
    have hVj := hl _ (List.getElem_mem j.2)
    by_cases e : f l[(j : ℕ)] = l[(i : ℕ)]
    · have e' : f l[(i : ℕ)] = l[(j : ℕ)] := by rw [← e, hf _ hVj]
      rw [if_pos e, if_pos e', sign_star (h.sign _ hVi), ← e, hε _ hVj]
    · have e' : ¬ f l[(i : ℕ)] = l[(j : ℕ)] := fun e' => e (by rw [← e', hf _ hVi])
      rw [if_neg e, if_neg e', star_zero]
  have hherm : hermitianPart (entryMatrix T l) = entryMatrix T l := by
    rw [hermitianPart, hsym, ← two_smul ℂ, smul_smul]; norm_num
  have hg := entryMatrix_gram h hinj hn hl
  rw [hsym] at hg
  intro μ z hz hz' hμ
  rw [superoperator_mulVec hσ, hherm] at hz'
  set ν : ℝ := sign * (1 - μ) with hν
  have h2 : (entryMatrix T l * entryMatrix T l) *ᵥ z = ((ν : ℂ) * ν) • z := by
    rw [← Matrix.mulVec_mulVec, hz', mulVec_smul, hz', smul_smul]
  rw [hg] at h2
  have hsr : (sign : ℝ) * sign = 1 := by exact_mod_cast (by rw [← sq]; exact hσ : sign * sign = 1)
  have hνμ : ν * ν = (1 - μ) * (1 - μ) := by rw [hν]; linear_combination ((1 - μ) * (1 - μ)) * hsr
  obtain ⟨j, hj⟩ := Function.ne_iff.mp hz
  have h3 := congrFun h2 j
  rw [Matrix.mulVec_diagonal, Pi.smul_apply, smul_eq_mul] at h3
  have h4 := mul_right_cancel₀ hj h3
  rw [sub_zero, abs_lt] at hμ
  split at h4
  · have h5 : ν * ν = 1 := by exact_mod_cast h4.symm
    rw [hνμ] at h5
    have : μ * (μ - 2) = 0 := by linarith
    rcases mul_eq_zero.mp this with h | h
    · exact h
    · linarith
  · have h5 : ν * ν = 0 := by exact_mod_cast h4.symm
    rw [hνμ] at h5
    have := mul_self_eq_zero.mp h5
    linarith

/-- **C50** (involutions): if moreover `T` is an involution, then for every Basis and `0 < tol ≤ 1` the returned vectors span exactly
the operators with `T(A) = ± A`. -/
theorem C50_involution (h : SignRule T t V ε f) (hf : ∀ s, V s → f (f s) = s) (hε : ∀ s, V s → ε (f s) = ε s) {pinv : Mat ℂ → Py (Mat ℂ)}
    (hp : IsPinv pinv) {b : Basis} (hb : b.Inv) (hV : ∀ s ∈ b.strs, V s) {eigh : Eigh} (he : ExactEigh eigh) {mode : String} {sign : ℤ}
    (hs : symmetrySign mode = .ok sign) {tol : ℝ} (ht : 0 < tol) (ht1 : tol ≤ 1) :
    ∃ (vecs : List (Fin b.strs.length → ℂ)) (M : _) (evals : _) (evecs : _),
      invariantOperators eigh pinv (.strings b) T mode tol = .ok ⟨b.strs.length, vecs, M, evals, evecs⟩ ∧ OrthonormalColumns vecs ∧
      ∀ v : Fin b.strs.length → ℂ, ∃ B, T.apply ⟨List.ofFn v, b, t⟩ = .ok B ∧
        (v ∈ colSpan vecs ↔ ∀ s, B.coef s = sign * (⟨List.ofFn v, b, t⟩ : Operator ℂ).coef s) := by
  have hinj : Set.InjOn f {s | V s} := by
    intro s hs s' hs' he
    rw [← hf s hs, he, hf s' hs']
  have hx : (BasisArg.strings b).Orthonormal t V := ⟨hb, hV⟩
  obtain ⟨vecs, M, evals, evecs, h1, h2, ⟨S, h3, h4⟩, -⟩ := C50_signed h hinj hp hx (by simp) he hs ht
  refine ⟨vecs, M, evals, evecs, h1, h2.orthonormal, fun v => ?_⟩
  have hwf : (⟨List.ofFn v, b, t⟩ : Operator ℂ).WF := by
    refine ⟨hb, by simp, fun s hs' => h.type s (hV s hs')⟩
  have hA : (⟨List.ofFn v, b, t⟩ : Operator ℂ).On t V := ⟨hwf, rfl, hV⟩
  obtain ⟨B, hB⟩ := h2.total _ hA
  refine ⟨B, hB, h2.exact ?_ v _ B hA ?_ hB⟩
  · have hσ : sign ^ 2 = 1 := by
      unfold symmetrySign at hs
      split at hs
      · simp only [Except.ok.injEq] at hs; subst hs; norm_num
      · split at hs
        · simp only [Except.ok.injEq] at hs; subst hs; norm_num
        · simp at hs
    have hg := involution_gap h hf hε hb.2 hV hσ ht1
    have hS : (fun i j => S.get i j : Matrix (Fin b.strs.length) (Fin b.strs.length) ℂ) = entryMatrix T b.strs := by
      obtain ⟨S', k1, -, -, -, k5⟩ := symmetryMatrix_ok (T := T) (tol := tolTransformation) hb.2 (h.images hV)
      rw [← hb.1] at k1
      have k3 : symmetryMatrix b T = .ok S := h3
      rw [k1] at k3
      obtain rfl : S' = S := by simpa using k3
      funext i j
      rw [k5 i j i.2 j.2, h.entry_cut (by rw [tolTransformation]; norm_num) (hV _ (List.getElem_mem _))]; rfl
    rw [h4]
    exact hS ▸ hg
  · intro s
    exact coef_ofFn hwf s

end

/-- **C50** (label permutations): for a permutation `σ` of the orbitals and Pauli or Majorana strings with ascending labels, on any
Basis or orthonormal list of Operators. -/
theorem C50_permutation {t : OpType} {n : ℕ} (σ : Equiv.Perm (Fin n)) {pinv : Mat ℂ → Py (Mat ℂ)} (hp : IsPinv pinv) {x : BasisArg ℂ}
    (hx : x.Orthonormal t (CanonicalOn t n)) (hne : x ≠ .operators []) {eigh : Eigh} (he : ExactEigh eigh) {mode : String} {sign : ℤ}
    (hs : symmetrySign mode = .ok sign) {tol : ℝ} (ht : 0 < tol) :
    ∃ vecs M evals evecs, invariantOperators eigh pinv x (labelPermutation (labelsOf (permArray σ))) mode tol = .ok ⟨x.len, vecs, M, evals, evecs⟩ ∧
      InvariantBasis (labelPermutation (labelsOf (permArray σ))) t (CanonicalOn t n) sign x.coef tol vecs M := by
  have hinj : Set.InjOn (relabelString (permMap σ)) {s | CanonicalOn t n s} := by
    intro s hs s' hs' h
    rw [← (act_inv hs σ).1, h, (act_inv hs' σ).1]
  obtain ⟨vecs, M, evals, evecs, h1, h2, -⟩ := C50_signed (act_signRule (K := ℂ) (t := t) σ) hinj hp hx hne he hs ht
  exact ⟨vecs, M, evals, evecs, h1, h2⟩

/-- **C50** (reflections): for a permutation with `σ² = 1` and any Basis the returned vectors span exactly the operators with `σ(A) = ± A`. -/
theorem C50_reflection {t : OpType} {n : ℕ} (σ : Equiv.Perm (Fin n)) (hσ : σ * σ = 1) {pinv : Mat ℂ → Py (Mat ℂ)} (hp : IsPinv pinv) {b : Basis}
    (hb : b.Inv) (hV : ∀ s ∈ b.strs, CanonicalOn t n s) {eigh : Eigh} (he : ExactEigh eigh) {mode : String} {sign : ℤ}
    (hs : symmetrySign mode = .ok sign) {tol : ℝ} (ht : 0 < tol) (ht1 : tol ≤ 1) :
    ∃ (vecs : List (Fin b.strs.length → ℂ)) (M : _) (evals : _) (evecs : _),
      invariantOperators eigh pinv (.strings b) (labelPermutation (labelsOf (permArray σ))) mode tol = .ok ⟨b.strs.length, vecs, M, evals, evecs⟩ ∧
      OrthonormalColumns vecs ∧
      ∀ v : Fin b.strs.length → ℂ, ∃ B, (labelPermutation (labelsOf (permArray σ)) : Transformation ℂ).apply ⟨List.ofFn v, b, t⟩ = .ok B ∧
        (v ∈ colSpan vecs ↔ ∀ s, B.coef s = sign * (⟨List.ofFn v, b, t⟩ : Operator ℂ).coef s) := by
  refine C50_involution (act_signRule (K := ℂ) (t := t) σ) ?_ ?_ hp hb hV he hs ht ht1
  · intro s hs
    rw [← (act_mul hs σ σ).1, hσ, (act_one hs).1]
  · intro s hs
    have h1 := (act_mul hs σ σ).2
    rw [hσ, (act_one hs).2] at h1
    have h2 : relabelSign (permMap σ) (relabelString (permMap σ) s) = relabelSign (permMap σ) s := by
      calc _ = (relabelSign (permMap σ) s * relabelSign (permMap σ) s) * relabelSign (permMap σ) (relabelString (permMap σ) s) := by
              rw [relabelSign_sq, one_mul]
        _ = _ := by rw [mul_assoc, ← h1, mul_one]
    rw [h2]

/-- **C50** (time reversal): for any Basis of Pauli or Majorana strings the returned vectors span exactly the operators that are even
(odd) under the spinless time-reversal Transformation. -/
theorem C50_time_reversal {t : OpType} {pinv : Mat ℂ → Py (Mat ℂ)} (hp : IsPinv pinv) {b : Basis}
    (hb : b.Inv) (hV : ∀ s ∈ b.strs, TypedString t S s) {eigh : Eigh} (he : ExactEigh eigh) {mode : String} {sign : ℤ}
    (hs : symmetrySign mode = .ok sign) {tol : ℝ} (ht : 0 < tol) (ht1 : tol ≤ 1) :
    ∃ (vecs : List (Fin b.strs.length → ℂ)) (M : _) (evals : _) (evecs : _),
      invariantOperators eigh pinv (.strings b) timeReversal mode tol = .ok ⟨b.strs.length, vecs, M, evals, evecs⟩ ∧ OrthonormalColumns vecs ∧
      ∀ v : Fin b.strs.length → ℂ, ∃ B, (timeReversal : Transformation ℂ).apply ⟨List.ofFn v, b, t⟩ = .ok B ∧
        (v ∈ colSpan vecs ↔ ∀ s, B.coef s = sign * (⟨List.ofFn v, b, t⟩ : Operator ℂ).coef s) :=
  C50_involution (timeReversal_signRule t S) (fun _ _ => rfl) (fun _ _ => rfl) hp hb hV he hs ht ht1

/-- **C50** (charge conjugation): the same for the particle-hole Transformation of Majorana strings. -/
theorem C50_particle_hole {pinv : Mat ℂ → Py (Mat ℂ)} (hp : IsPinv pinv) {b : Basis}
    (hb : b.Inv) (hV : ∀ s ∈ b.strs, MajoranaString S s) {eigh : Eigh} (he : ExactEigh eigh) {mode : String} {sign : ℤ}
    (hs : symmetrySign mode = .ok sign) {tol : ℝ} (ht : 0 < tol) (ht1 : tol ≤ 1) :
    ∃ (vecs : List (Fin b.strs.length → ℂ)) (M : _) (evals : _) (evecs : _),
      invariantOperators eigh pinv (.strings b) particleHole mode tol = .ok ⟨b.strs.length, vecs, M, evals, evecs⟩ ∧ OrthonormalColumns vecs ∧
      ∀ v : Fin b.strs.length → ℂ, ∃ B, (particleHole : Transformation ℂ).apply ⟨List.ofFn v, b, .majorana⟩ = .ok B ∧
        (v ∈ colSpan vecs ↔ ∀ s, B.coef s = sign * (⟨List.ofFn v, b, .majorana⟩ : Operator ℂ).coef s) :=
  C50_involution (particleHole_signRule S) (fun _ _ => rfl) (fun _ _ => rfl) hp hb hV he hs ht ht1

/-- **C50** (errors): an unknown `operation_mode` raises ValueError (after the symmetry matrix has been computed). -/
theorem C50_error {x : BasisArg ℂ} {T : Transformation ℂ} {pinv : Mat ℂ → Py (Mat ℂ)} {M : Mat ℂ} (h : symmetryMatrixOf pinv x T = .ok M)
    (eigh : Eigh) {mode : String} (hm : mode ∉ ["commute", "Commute", "symmetry", "commutator", "anticommute", "Anticommute", "antisymmetry",
      "anticommutator"]) (tol : ℝ) : invariantOperators eigh pinv x T mode tol = .error .valueError := by
  simp only [List.mem_cons, List.not_mem_nil, or_false, not_or] at hm
  obtain ⟨m1, m2, m3, m4, m5, m6, m7, m8⟩ := hm
  have : symmetrySign mode = .error .valueError := by
    rw [symmetrySign, if_neg (by simp [m1, m2, m3, m4]), if_neg (by simp [m5, m6, m7, m8])]
  unfold invariantOperators
  simp only [h, this, bind, Except.bind]

/-- **C50** (signs): the accepted names of the two modes -/
theorem C50_sign (mode : String) : (symmetrySign mode = .ok 1 ↔ mode ∈ ["commute", "Commute", "symmetry", "commutator"]) ∧
    (symmetrySign mode = .ok (-1) ↔ mode ∈ ["anticommute", "Anticommute", "antisymmetry", "anticommutator"]) := by
  simp only [List.mem_cons, List.not_mem_nil, or_false]
  unfold symmetrySign
  constructor
  · split
    · simp [*]
    · split <;> simp [*]
  · split
    · rename_i h
      rcases h with rfl | rfl | rfl | rfl <;> simp
    · split <;> simp [*]

/-! ### The hypotheses can be met -/

theorem exists_exactEigh : ∃ eigh : Eigh, ExactEigh eigh := by
  have : ∀ (n : ℕ) (D : Matrix (Fin n) (Fin n) ℂ), ∃ r : EighResult (Fin n) n, D.IsHermitian → IsEigh D r := by
    intro n D
    by_cases hD : D.IsHermitian
    · let U : Matrix (Fin n) (Fin n) ℂ := hD.eigenvectorUnitary
      have hU1 : Uᴴ * U = 1 := Unitary.coe_star_mul_self hD.eigenvectorUnitary
      have hU2 : U * Uᴴ = 1 := Unitary.coe_mul_star_self hD.eigenvectorUnitary
      refine ⟨⟨hD.eigenvalues, U⟩, fun _ => ⟨hU1, hU2, ?_⟩⟩
      ext i j
      have := congrFun (hD.mulVec_eigenvectorBasis j) i
      rw [Matrix.mul_diagonal]
      simp only [U, Matrix.IsHermitian.eigenvectorUnitary_apply, Matrix.mul_apply]
      simp only [Matrix.mulVec, dotProduct, Pi.smul_apply, Complex.real_smul] at this
      rw [mul_comm, ← this]
    · exact ⟨⟨fun _ => 0, 0⟩, fun h => absurd h hD⟩
  exact ⟨fun n D => (this n D).choose, fun n D => (this n D).choose_spec⟩

open scoped ComplexOrder in
theorem exists_isPinv : ∃ pinv : Mat ℂ → Py (Mat ℂ), IsPinv pinv := by
  have key : ∀ {m n : ℕ} (C : Matrix (Fin m) (Fin n) ℂ), ∃ P : Matrix (Fin n) (Fin m) ℂ, C * P * C = C ∧ (C * P)ᴴ = C * P := by
    intro m n C
    obtain ⟨G, hG⟩ := exists_generalizedInverse (Cᴴ * C)
    -- `C (G C† C - 1) = 0`
    have h1 : C * (G * (Cᴴ * C) - 1) = 0 := by
      rw [← Matrix.conjTranspose_mul_self_eq_zero, conjTranspose_mul, Matrix.mul_assoc, ← Matrix.mul_assoc Cᴴ, Matrix.mul_sub,
        ← Matrix.mul_assoc (Cᴴ * C), Matrix.mul_one, hG, sub_self, Matrix.mul_zero]
    have h2 : C * (G * Cᴴ) * C = C := by
      rw [Matrix.mul_sub, Matrix.mul_one, sub_eq_zero] at h1
      rw [Matrix.mul_assoc, Matrix.mul_assoc]; exact h1
    refine ⟨G * Cᴴ, h2, ?_⟩
    set X := C * (G * Cᴴ) with hX
    have h3 : Xᴴ = C * Gᴴ * Cᴴ := by rw [hX, conjTranspose_mul, conjTranspose_mul, conjTranspose_conjTranspose]
    have h4 : X * Xᴴ = Xᴴ := by rw [h3, ← Matrix.mul_assoc, ← Matrix.mul_assoc, h2]
    calc Xᴴ = X * Xᴴ := h4.symm
      _ = (X * Xᴴ)ᴴ := by rw [conjTranspose_mul X, conjTranspose_conjTranspose]
      _ = X := by rw [h4, conjTranspose_conjTranspose]
  refine ⟨fun C => .ok (Mat.ofMatrix (key C.toMatrix).choose), fun C _ => ⟨_, rfl, Mat.ofMatrix_wf _, rfl, rfl, ?_⟩⟩
  have e : (Mat.ofMatrix (key C.toMatrix).choose).rect C.ncols C.nrows = (key C.toMatrix).choose := by
    ext i j; exact Mat.ofMatrix_get _ i j
  rw [e]
  exact (key C.toMatrix).choose_spec

section examples

private def exB : Basis := Basis.ofList [⟨[.X, .X], [0, 1], .pauli, .float1⟩, ⟨[.X, .Y], [0, 1], .pauli, .float1⟩, ⟨[.Y, .X], [0, 1], .pauli, .float1⟩,
  ⟨[.Z], [0], .pauli, .float1⟩]

private theorem exB_valid : ∀ s ∈ exB.strs, CanonicalOn .pauli 2 s := by
  intro s hs
  simp only [exB, Basis.ofList, List.mem_cons, List.not_mem_nil, or_false] at hs
  rcases hs with rfl | rfl | rfl | rfl <;>
    exact ⟨Or.inl ⟨rfl, ⟨rfl, by decide, rfl, by decide, by unfold siteLabels; decide, by decide⟩⟩, by decide, by decide⟩

/-- the reflection of two sites is an involution -/
example : ∃ (vecs : List (Fin exB.strs.length → ℂ)) (eigh : Eigh) (pinv : _) (M : _) (evals : _) (evecs : _),
    invariantOperators eigh pinv (.strings exB) (labelPermutation (labelsOf (permArray (Equiv.swap (0 : Fin 2) 1)))) "commute" (1e-10) =
      .ok ⟨exB.strs.length, vecs, M, evals, evecs⟩ ∧ OrthonormalColumns vecs := by
  obtain ⟨eigh, he⟩ := exists_exactEigh
  obtain ⟨pinv, hp⟩ := exists_isPinv
  obtain ⟨vecs, M, evals, evecs, h1, h2, -⟩ := C50_reflection (Equiv.swap (0 : Fin 2) 1) (by decide) hp (b := exB) (Basis.Inv.ofList (by decide))
    exB_valid he ((C50_sign "commute").1.2 (by simp)) (tol := 1e-10) (by norm_num) (by norm_num)
  exact ⟨vecs, eigh, pinv, M, evals, evecs, h1, h2⟩

/-- commuting operators of a Heisenberg-like bond in the space of states of qosy's own matrices -/
example : ∃ eigh, ∃ δ > 0, ∀ tol, 0 < tol → tol ≤ δ → ∃ vecs M evals evecs,
    commutingOperators eigh (.strings exB) ⟨[2, -1], Basis.ofList [⟨[.X, .X], [0, 1], .pauli, .float1⟩, ⟨[.Z], [1], .pauli, .float1⟩], .pauli⟩
      .commutator tol = .ok ⟨((BasisArg.strings exB : BasisArg ℂ).den (waveRep ℂ).den).length, vecs, M, evals, evecs⟩ ∧ OrthonormalColumns vecs := by
  obtain ⟨eigh, he⟩ := exists_exactEigh
  obtain ⟨δ, hδ, h⟩ := C49_exact_pauli (waveRep ℂ) .commutator (x := .strings exB)
    (O := ⟨[2, -1], Basis.ofList [⟨[.X, .X], [0, 1], .pauli, .float1⟩, ⟨[.Z], [1], .pauli, .float1⟩], .pauli⟩)
    (fun s hs => by
      obtain ⟨h1 | h1, -⟩ := exB_valid s hs
      · exact ⟨h1.2.1, h1.2.2, h1.2.3, h1.2.4, fun _ _ => Set.mem_univ _, h1.2.6⟩
      · exact absurd h1.1 (by decide)) (by simp)
    (fun s hs => by
      simp only [Basis.ofList, List.mem_cons, List.not_mem_nil, or_false] at hs
      rcases hs with rfl | rfl <;> exact ⟨rfl, by decide, rfl, by decide, fun _ _ => Set.mem_univ _, by decide⟩) he
  refine ⟨eigh, δ, hδ, fun tol h1 h2 => ?_⟩
  obtain ⟨vecs, M, evals, evecs, h3, h4, -⟩ := h tol h1 h2
  exact ⟨vecs, M, evals, evecs, h3, h4⟩

end examples

end Qosy
