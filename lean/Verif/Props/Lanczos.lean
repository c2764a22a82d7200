import Verif.Lemmas.Lanczos
import Verif.Lemmas.GeneratorOne
import Verif.Props.Core
import Mathlib.Data.Fin.Tuple.Sort

/-!
# Properties C90, C91: the option `num_vecs` of `commuting_operators` and `invariant_operators`

Exact complex arithmetic; what `eigsh` promises is in `ExactEigsh`.
-/

namespace Qosy
open Matrix Coef
variable {𝔸 : Type} [Ring 𝔸] [Algebra ℂ 𝔸] [Nontrivial 𝔸] {S : Set ℤ}

/-! ### C90 -/

/-- **C90** (Pauli): for every Basis or list of Operators with more than `k + 1` elements, `commuting_operators` with `num_vecs=k`
returns at most `k` orthonormal operators whose (anti)commutator with the given Operator vanishes, and all of them unless it warns (see
`CommutingVecs`); the superoperator is the commutant matrix, with its lowest eigenvalues and their eigenvectors. -/
theorem C90_pauli (R : PauliRep ℂ 𝔸 S) (mode : Mode) {x : BasisArg ℂ} {O : Operator ℂ} (hx : x.All (PauliString S))
    (hO : ∀ s ∈ O.basis.strs, PauliString S s) {eigsh : Eigsh} (he : ExactEigsh eigsh) {tol : ℝ} (ht : 0 < tol) {k : ℕ} (hk : 0 < k)
    (hkn : k + 1 < (x.den R.den).length) :
    ∃ vecs M evals evecs warned, commutingOperatorsVecs eigsh x O k mode tol = .ok ⟨(x.den R.den).length, vecs, M, evals, evecs, warned⟩ ∧
      CommutingVecs R.den mode (x.den R.den) (O.den R.den) tol k vecs M warned ∧
      (∃ C ext, commutantMatrix x O mode = .ok (C, ext) ∧ M = C.square _) ∧ IsEigsh M (-(1 / 10 ^ 6)) (⟨evals, evecs⟩ : EighResult _ k) :=
  R.strAlg.commutingOperatorsVecs_ok mode hx (by rintro rfl; simp [BasisArg.den] at hkn) hO he ht hk hkn

/-- **C90** (Majorana) -/
theorem C90_majorana (R : MajoranaRep ℂ 𝔸 S) (mode : Mode) {x : BasisArg ℂ} {O : Operator ℂ} (hx : x.All (MajoranaString S))
    (hO : ∀ s ∈ O.basis.strs, MajoranaString S s) {eigsh : Eigsh} (he : ExactEigsh eigsh) {tol : ℝ} (ht : 0 < tol) {k : ℕ} (hk : 0 < k)
    (hkn : k + 1 < (x.den R.den).length) :
    ∃ vecs M evals evecs warned, commutingOperatorsVecs eigsh x O k mode tol = .ok ⟨(x.den R.den).length, vecs, M, evals, evecs, warned⟩ ∧
      CommutingVecs R.den mode (x.den R.den) (O.den R.den) tol k vecs M warned ∧
      (∃ C ext, commutantMatrix x O mode = .ok (C, ext) ∧ M = C.square _) ∧ IsEigsh M (-(1 / 10 ^ 6)) (⟨evals, evecs⟩ : EighResult _ k) :=
  R.strAlg.commutingOperatorsVecs_ok mode hx (by rintro rfl; simp [BasisArg.den] at hkn) hO he ht hk hkn

/-- the superoperator does not depend on the tolerance, so that it has a gap for all small ones -/
theorem StrAlg.commutingOperatorsVecs_exact (R : StrAlg ℂ 𝔸) (mode : Mode) {x : BasisArg ℂ} {O : Operator ℂ} (hx : x.All R.Str)
    (hO : ∀ s ∈ O.basis.strs, R.Str s) {eigsh : Eigsh} (he : ExactEigsh eigsh) {k : ℕ} (hk : 0 < k) (hkn : k + 1 < (x.den R.den).length) :
    ∃ δ > 0, ∀ tol, 0 < tol → tol ≤ δ → ∃ vecs M evals evecs warned,
      commutingOperatorsVecs eigsh x O k mode tol = .ok ⟨(x.den R.den).length, vecs, M, evals, evecs, warned⟩ ∧
      OrthonormalColumns vecs ∧ vecs.length ≤ k ∧ (warned = true ↔ vecs.length = k) ∧
      (∀ v ∈ colSpan vecs, bracketOf mode (∑ j, v j • (x.den R.den)[j]) (O.den R.den) = 0) ∧
      (warned = false → ∀ v, v ∈ colSpan vecs ↔ bracketOf mode (∑ j, v j • (x.den R.den)[j]) (O.den R.den) = 0) := by
  have hne : x ≠ .operators [] := by rintro rfl; simp [BasisArg.den] at hkn
  obtain ⟨eigh, hE⟩ := exists_exactEigh
  obtain ⟨-, M, evals, evecs, -, -, ⟨C, ext, hC, rfl⟩, h4⟩ := R.commutingOperators_ok mode hx hne hO hE one_pos
  obtain ⟨δ, hδ, hgap⟩ := h4.exists_gap 0
  refine ⟨δ, hδ, fun tol ht htδ => ?_⟩
  obtain ⟨vecs, M, evals', evecs', warned, h1, h2, ⟨C', ext', hC', rfl⟩, -⟩ := R.commutingOperatorsVecs_ok mode hx hne hO he ht hk hkn
  rw [hC] at hC'
  cases hC'
  exact ⟨vecs, _, evals', evecs', warned, h1, h2.orthonormal, h2.length, h2.warning, h2.exact (hgap tol htδ),
    fun hw v => ⟨h2.exact (hgap tol htδ) v, h2.complete hw v⟩⟩

/-- **C90** (Pauli, small tolerances): for every input there is a positive bound such that with any smaller tolerance all returned operators
(anti)commute with `O`, and span all such operators unless there is a warning. -/
theorem C90_exact_pauli (R : PauliRep ℂ 𝔸 S) (mode : Mode) {x : BasisArg ℂ} {O : Operator ℂ} (hx : x.All (PauliString S))
    (hO : ∀ s ∈ O.basis.strs, PauliString S s) {eigsh : Eigsh} (he : ExactEigsh eigsh) {k : ℕ} (hk : 0 < k) (hkn : k + 1 < (x.den R.den).length) :
    ∃ δ > 0, ∀ tol, 0 < tol → tol ≤ δ → ∃ vecs M evals evecs warned,
      commutingOperatorsVecs eigsh x O k mode tol = .ok ⟨(x.den R.den).length, vecs, M, evals, evecs, warned⟩ ∧
      OrthonormalColumns vecs ∧ vecs.length ≤ k ∧ (warned = true ↔ vecs.length = k) ∧
      (∀ v ∈ colSpan vecs, bracketOf mode (∑ j, v j • (x.den R.den)[j]) (O.den R.den) = 0) ∧
      (warned = false → ∀ v, v ∈ colSpan vecs ↔ bracketOf mode (∑ j, v j • (x.den R.den)[j]) (O.den R.den) = 0) :=
  R.strAlg.commutingOperatorsVecs_exact mode hx hO he hk hkn

/-- **C90** (Majorana, small tolerances) -/
theorem C90_exact_majorana (R : MajoranaRep ℂ 𝔸 S) (mode : Mode) {x : BasisArg ℂ} {O : Operator ℂ} (hx : x.All (MajoranaString S))
    (hO : ∀ s ∈ O.basis.strs, MajoranaString S s) {eigsh : Eigsh} (he : ExactEigsh eigsh) {k : ℕ} (hk : 0 < k) (hkn : k + 1 < (x.den R.den).length) :
    ∃ δ > 0, ∀ tol, 0 < tol → tol ≤ δ → ∃ vecs M evals evecs warned,
      commutingOperatorsVecs eigsh x O k mode tol = .ok ⟨(x.den R.den).length, vecs, M, evals, evecs, warned⟩ ∧
      OrthonormalColumns vecs ∧ vecs.length ≤ k ∧ (warned = true ↔ vecs.length = k) ∧
      (∀ v ∈ colSpan vecs, bracketOf mode (∑ j, v j • (x.den R.den)[j]) (O.den R.den) = 0) ∧
      (warned = false → ∀ v, v ∈ colSpan vecs ↔ bracketOf mode (∑ j, v j • (x.den R.den)[j]) (O.den R.den) = 0) :=
  R.strAlg.commutingOperatorsVecs_exact mode hx hO he hk hkn

/-! ### C91 -/

section
variable {t : OpType} {V : OpString → Prop} {T : Transformation ℂ} {ε : OpString → ℂ} {f : OpString → OpString}

omit [Nontrivial 𝔸] in
/-- **C91** (violated): if the basis contains an operator with the symmetry at all, that is, a non-zero combination `A` with
`T(A) = ± A`, then `invariant_operators` with `num_vecs` raises an exception, for every number of vectors: it inverts
`matrix - sigma` with `sigma = ±1` an eigenvalue. -/
theorem C91_singular (h : SignRule T t V ε f) (hinj : Set.InjOn f {s | V s}) {pinv : Mat ℂ → Py (Mat ℂ)} (hp : IsPinv pinv) {x : BasisArg ℂ}
    (hx : x.Orthonormal t V) (hne : x ≠ .operators []) {eigsh : Eigsh} (he : ExactEigsh eigsh) {mode : String} {sign : ℤ}
    (hs : symmetrySign mode = .ok sign) {tol : ℝ} {k : ℕ} {v : Fin x.len → ℂ} (hv0 : v ≠ 0) {A B : Operator ℂ} (hA : A.On t V)
    (hv : ∀ s, A.coef s = ∑ j, v j * x.coef j s) (hB : T.apply A = .ok B) (hinv : ∀ s, B.coef s = sign * A.coef s) :
    ∃ e, invariantOperatorsVecs eigsh pinv x T k mode tol = .error e :=
  invariantOperatorsVecs_singular h hinj hp hx hne he hs hv0 hA hv hB hinv

/-- **C91** (the rest): if no operator in the basis has the symmetry, `invariant_operators` with `num_vecs=k` returns at most `k`
orthonormal operators, and warns if there are `k`; they have the symmetry up to the tolerance. -/
theorem C91_partial (h : SignRule T t V ε f) (hinj : Set.InjOn f {s | V s}) {pinv : Mat ℂ → Py (Mat ℂ)} (hp : IsPinv pinv) {x : BasisArg ℂ}
    (hx : x.Orthonormal t V) {eigsh : Eigsh} (he : ExactEigsh eigsh) {mode : String} {sign : ℤ}
    (hs : symmetrySign mode = .ok sign) {tol : ℝ} {k : ℕ} (hk : 0 < k) (hkn : k + 1 < x.len)
    (hno : ∀ (v : Fin x.len → ℂ) (A B : Operator ℂ), A.On t V → (∀ s, A.coef s = ∑ j, v j * x.coef j s) → T.apply A = .ok B →
      (∀ s, B.coef s = sign * A.coef s) → v = 0) :
    ∃ vecs M evals evecs warned, invariantOperatorsVecs eigsh pinv x T k mode tol = .ok ⟨x.len, vecs, M, evals, evecs, warned⟩ ∧
      OrthonormalColumns vecs ∧ vecs.length ≤ k ∧ (warned = true ↔ vecs.length = k) ∧
      ∀ v ∈ colSpan vecs, ∀ A B : Operator ℂ, A.On t V → (∀ s, A.coef s = ∑ j, v j * x.coef j s) → T.apply A = .ok B →
        ∀ F : Finset OpString, ∑ s ∈ F, ‖B.coef s - sign * A.coef s‖ ^ 2 ≤ 2 * tol * ∑ j, ‖v j‖ ^ 2 :=
  invariantOperatorsVecs_ok h hinj hp hx (by rintro rfl; simp [BasisArg.len] at hkn) he hs hk hkn hno
    (fun v => hx.on.exists h.type v)

end

/-! ### The hypotheses can be met -/

theorem exists_exactEigsh : ∃ eigsh : Eigsh, ExactEigsh eigsh := by
  obtain ⟨eigh, hE⟩ := exists_exactEigh
  have key : ∀ (n : ℕ) (D : Matrix (Fin n) (Fin n) ℂ) (k : ℕ) (σ : ℝ), ∃ r : Py (EighResult (Fin n) k), (n ≤ k → ∃ e, r = .error e) ∧ (D.IsHermitian →
      (∀ r', r = .ok r' → IsEigsh D σ r') ∧ (k + 1 < n → ¬ IsEigenvalue D σ → ∃ r', r = .ok r') ∧ (IsEigenvalue D σ → ∃ e, r = .error e)) := by
    intro n D k σ
    by_cases hs : IsEigenvalue D σ
    · exact ⟨.error .valueError, fun _ => ⟨_, rfl⟩, fun _ => ⟨by simp, fun _ h => absurd hs h, fun _ => ⟨_, rfl⟩⟩⟩
    · by_cases hk' : k < n
      · have hk := hk'.le
        let p := Tuple.sort (fun j => |(eigh n D).evals j - σ|)
        let c : Fin k → Fin n := fun j => p (Fin.castLE hk j)
        have hc : Function.Injective c := fun a b h => Fin.castLE_injective hk (p.injective h)
        refine ⟨.ok ⟨fun j => (eigh n D).evals (c j), fun i j => (eigh n D).evecs i (c j)⟩, fun h => absurd h (by omega), fun hD => ⟨?_, fun _ _ => ⟨_, rfl⟩, fun h => absurd h hs⟩⟩
        intro r' hr'
        cases hr'
        have h := hE n D hD
        refine ⟨?_, ?_, ?_⟩
        · ext i j
          rw [Matrix.mul_apply]
          refine (h.inner (c i) (c j)).trans ?_
          rw [Matrix.one_apply]
          simp [hc.eq_iff]
        · ext i j
          have := congrFun (congrFun h.eigen i) (c j)
          rw [Matrix.mul_diagonal] at this
          rw [Matrix.mul_diagonal]
          exact this
        · intro μ z hz hz' ho j
          have h1 : z = (eigh n D).evecs *ᵥ ((eigh n D).evecsᴴ *ᵥ z) := by rw [Matrix.mulVec_mulVec, h.complete, Matrix.one_mulVec]
          have h2 : ∃ l, ((eigh n D).evecsᴴ *ᵥ z) l ≠ 0 := by
            by_contra hn
            push Not at hn
            apply hz
            rw [h1, show (eigh n D).evecsᴴ *ᵥ z = 0 from funext hn, mulVec_zero]
          obtain ⟨l, hl⟩ := h2
          have h3 := h.coords z l
          rw [hz', mulVec_smul, Pi.smul_apply, smul_eq_mul] at h3
          have h4 : (eigh n D).evals l = μ := by exact_mod_cast (mul_right_cancel₀ hl h3).symm
          obtain ⟨m, rfl⟩ := p.surjective l
          have hm : k ≤ (m : ℕ) := by
            by_contra hlt
            push Not at hlt
            exact hl (congrFun ho ⟨m, hlt⟩)
          rw [← h4]
          exact Tuple.monotone_sort (fun j => |(eigh n D).evals j - σ|) (show Fin.castLE hk j ≤ m from by
            rw [Fin.le_def]; exact le_trans j.2.le hm)
      · exact ⟨.error .valueError, fun _ => ⟨_, rfl⟩, fun _ => ⟨by simp, fun h => absurd h (by omega), fun _ => ⟨_, rfl⟩⟩⟩
  choose eigsh h using key
  exact ⟨eigsh, ⟨fun n D k σ r hD hr => ((h n D k σ).2 hD).1 r hr, fun n D k σ hD _ hk hs => ((h n D k σ).2 hD).2.1 hk hs,
    fun n D k σ hD hs => ((h n D k σ).2 hD).2.2 hs, fun n D k σ hk => (h n D k σ).1 hk⟩⟩

/-! ### An example: the Pauli strings `Z_0, …, Z_3`, which are odd under time reversal -/

/-- the strings `Z_0, …, Z_3` -/
def zzzz : Basis := Basis.ofList ((List.range 4).map fun l => ⟨[.Z], [(l : ℤ)], .pauli, .float1⟩)

/-- Pauli strings on one site -/
def OneSite (s : OpString) : Prop := TypedString .pauli Set.univ s ∧ s.ops.length = 1

theorem oneSite_rule : SignRule (timeReversal : Transformation ℂ) .pauli OneSite (trSign ℂ) id := by
  have h := timeReversal_signRule (K := ℂ) .pauli Set.univ
  exact ⟨fun s hs => h.type s hs.1, fun s hs => h.sends s hs.1, fun s hs => h.sign s hs.1, fun s hs => hs⟩

theorem oneSite_odd {A B : Operator ℂ} (hA : A.On .pauli OneSite) (hB : timeReversal.apply A = .ok B) (s : OpString) : B.coef s = -A.coef s := by
  obtain ⟨C, h1, -, h3⟩ := apply_ok oneSite_rule.maps hA
  rw [hB] at h1
  cases h1
  rw [h3]
  have e : -A.coef s = ((A.terms.map (fun t => if t.2 = s then t.1 else 0)).map (fun c : ℂ => -c)).sum := by
    have : ∀ l : List ℂ, (l.map (fun c => -c)).sum = -l.sum := fun l => by
      induction l with
      | nil => simp
      | cons c l ih => rw [List.map_cons, List.sum_cons, List.sum_cons, ih]; ring
    rw [this]; rfl
  rw [e, List.map_map]
  congr 1
  refine List.map_congr_left (fun x hx => ?_)
  have hv := hA.mem _ (mem_terms hx)
  have ht : trSign ℂ x.2 = -1 := by
    rw [trSign, if_neg (by rw [oneSite_rule.type _ hv]; decide), hv.2]; norm_num
  rw [Sends.entry (oneSite_rule.sends _ hv) s, ht]
  simp only [Function.comp_apply, id]
  split <;> simp

theorem zzzz_orthonormal : (BasisArg.strings zzzz).Orthonormal .pauli OneSite := by
  refine ⟨Basis.Inv.ofList (by decide), fun s hs => ?_⟩
  simp only [zzzz, Basis.ofList, List.mem_map] at hs
  obtain ⟨l, -, rfl⟩ := hs
  exact ⟨Or.inl ⟨rfl, ⟨rfl, by simp, rfl, by simp, by simp, by simp⟩⟩, rfl⟩

/-- **C91** is violated: all four strings are odd under time reversal, but `invariant_operators(basis, time_reversal(),
operation_mode='anticommutator', num_vecs=k)` raises an exception for every `k`. -/
theorem C91_refuted {eigsh : Eigsh} (he : ExactEigsh eigsh) {pinv : Mat ℂ → Py (Mat ℂ)} (hp : IsPinv pinv) (k : ℕ) (tol : ℝ) :
    (∀ A B : Operator ℂ, A.On .pauli OneSite → timeReversal.apply A = .ok B → ∀ s, B.coef s = -A.coef s) ∧
      ∃ e, invariantOperatorsVecs eigsh pinv (.strings zzzz) timeReversal k "anticommutator" tol = .error e := by
  refine ⟨fun A B hA hB => oneSite_odd hA hB, ?_⟩
  obtain ⟨A, hA, hc⟩ := zzzz_orthonormal.on.exists oneSite_rule.type (fun _ => 1)
  obtain ⟨B, hB, -⟩ := apply_ok oneSite_rule.maps hA
  refine C91_singular oneSite_rule (fun _ _ _ _ h => h) hp zzzz_orthonormal (by simp) he (sign := -1) ((C50_sign _).2.2 (by simp)) (v := fun _ => 1)
    (fun h => one_ne_zero (congrFun h ⟨0, by decide⟩)) hA hc hB ?_
  intro s
  rw [oneSite_odd hA hB]; push_cast; ring

/-- the contracts of `eigsh` and `pinv` can be met -/
example : ∃ eigsh pinv e, ExactEigsh eigsh ∧ IsPinv pinv ∧
    invariantOperatorsVecs eigsh pinv (.strings zzzz) timeReversal 2 "anticommutator" = .error e := by
  obtain ⟨eigsh, he⟩ := exists_exactEigsh
  obtain ⟨pinv, hp⟩ := exists_isPinv
  obtain ⟨-, e, h⟩ := C91_refuted he hp 2 (1 / 10 ^ 10)
  exact ⟨eigsh, pinv, e, he, hp, h⟩

/-- none of the operators is even under time reversal, so that there is a result -/
example : ∃ eigsh pinv r, invariantOperatorsVecs eigsh pinv (.strings zzzz) timeReversal 2 = .ok r := by
  obtain ⟨eigsh, he⟩ := exists_exactEigsh
  obtain ⟨pinv, hp⟩ := exists_isPinv
  obtain ⟨vecs, M, evals, evecs, w, h, -⟩ := C91_partial oneSite_rule (fun _ _ _ _ h => h) hp zzzz_orthonormal he (sign := 1) ((C50_sign "commutator").1.2 (by simp))
    (tol := 1 / 10 ^ 10) (k := 2) (by decide) (by decide) (by
      intro v A B hA hv hB hinv
      funext j
      have h0 : ∀ s, A.coef s = 0 := by
        intro s
        have h1 := hinv s
        rw [oneSite_odd hA hB] at h1
        push_cast at h1
        linear_combination (-1 / 2 : ℂ) * h1
      have h1 := hv (zzzz.strs[(j : ℕ)]'j.2)
      rw [h0, Finset.sum_eq_single j] at h1
      · simpa [BasisArg.coef] using h1.symm
      · intro i _ hij
        have hn : zzzz.strs.Nodup := zzzz_orthonormal.1.2
        show v i * (if _ then 1 else 0) = 0
        rw [if_neg, mul_zero]
        intro e
        exact hij (Fin.ext ((hn.getElem_inj_iff).mp e))
      · simp)
  exact ⟨eigsh, pinv, _, h⟩

/-- operators that commute with `X_0 + X_1`, with `num_vecs=2`, in the space of states of qosy's own matrices -/
example : ∃ eigsh, ∃ δ > 0, ∀ tol, 0 < tol → tol ≤ δ → ∃ vecs M evals evecs warned,
    commutingOperatorsVecs eigsh (.strings zzzz) ⟨[1, 1], Basis.ofList [⟨[.X], [0], .pauli, .float1⟩, ⟨[.X], [1], .pauli, .float1⟩], .pauli⟩
      2 .commutator tol = .ok ⟨((BasisArg.strings zzzz : BasisArg ℂ).den (waveRep ℂ).den).length, vecs, M, evals, evecs, warned⟩ ∧ OrthonormalColumns vecs := by
  obtain ⟨eigsh, he⟩ := exists_exactEigsh
  obtain ⟨δ, hδ, h⟩ := C90_exact_pauli (waveRep ℂ) .commutator (x := .strings zzzz)
    (O := ⟨[1, 1], Basis.ofList [⟨[.X], [0], .pauli, .float1⟩, ⟨[.X], [1], .pauli, .float1⟩], .pauli⟩)
    (fun s hs => by
      obtain ⟨⟨-, h1⟩ | ⟨h1, -⟩, -⟩ := zzzz_orthonormal.2 s hs
      · exact h1
      · exact absurd h1 (by decide))
    (fun s hs => by
      simp only [Basis.ofList, List.mem_cons, List.not_mem_nil, or_false] at hs
      rcases hs with rfl | rfl <;> exact ⟨rfl, by decide, rfl, by decide, fun _ _ => Set.mem_univ _, by decide⟩) he (k := 2) (by decide)
    (by rw [BasisArg.len_den]; decide)
  refine ⟨eigsh, δ, hδ, fun tol h1 h2 => ?_⟩
  obtain ⟨vecs, M, evals, evecs, w, h3, h4, -⟩ := h tol h1 h2
  exact ⟨vecs, M, evals, evecs, w, h3, h4⟩

end Qosy
