import Verif.Spec.Defaults
import Verif.Props.Generator
import Verif.Props.Spectrum
import Verif.Props.Entropy
import Verif.Props.Cluster

/-!
# Property C109: what the calls without optional arguments mean

The statements name no operation mode, no tolerance and no option: the functions are called with the arguments a user has to give.
-/

namespace Qosy
open Matrix Coef
variable {𝔸 : Type} [Ring 𝔸] [Algebra ℂ 𝔸] [Nontrivial 𝔸] {S : Set ℤ} {t : OpType} {V : OpString → Prop} {T : Transformation ℂ} {ε : OpString → ℂ}
  {f : OpString → OpString} {eigh : Eigh} {pinv : Mat ℂ → Py (Mat ℂ)} {lu : PermutedLu} {argsort : List ℕ → List ℕ}

omit [Nontrivial 𝔸] in
private theorem findsCommuting {den : OpString → 𝔸} {x : List 𝔸} {O : 𝔸} {vecs : List (Fin x.length → ℂ)} {M : Matrix (Fin x.length) (Fin x.length) ℂ}
    (h : CommutingBasis den .commutator x O (1 / 10 ^ 10) vecs M) : FindsCommuting den x O vecs :=
  ⟨h.orthonormal, fun v hv => h.complete v (sub_eq_zero.mpr hv), h.approx⟩

/-- **C109** (`commuting_operators`, Pauli) -/
theorem C109_commuting_pauli (R : PauliRep ℂ 𝔸 S) {x : BasisArg ℂ} {O : Operator ℂ} (hx : x.All (PauliString S)) (hne : x ≠ .operators [])
    (hO : ∀ s ∈ O.basis.strs, PauliString S s) (he : ExactEigh eigh) : ∃ vecs M evals evecs,
      commutingOperators eigh x O = .ok ⟨(x.den R.den).length, vecs, M, evals, evecs⟩ ∧ FindsCommuting R.den (x.den R.den) (O.den R.den) vecs := by
  obtain ⟨vecs, M, evals, evecs, h1, h2, -⟩ := C49_pauli R .commutator hx hne hO he (tol := 1 / 10 ^ 10) (by positivity)
  exact ⟨vecs, M, evals, evecs, h1, findsCommuting h2⟩

/-- **C109** (`commuting_operators`, Majorana) -/
theorem C109_commuting_majorana (R : MajoranaRep ℂ 𝔸 S) {x : BasisArg ℂ} {O : Operator ℂ} (hx : x.All (MajoranaString S)) (hne : x ≠ .operators [])
    (hO : ∀ s ∈ O.basis.strs, MajoranaString S s) (he : ExactEigh eigh) : ∃ vecs M evals evecs,
      commutingOperators eigh x O = .ok ⟨(x.den R.den).length, vecs, M, evals, evecs⟩ ∧ FindsCommuting R.den (x.den R.den) (O.den R.den) vecs := by
  obtain ⟨vecs, M, evals, evecs, h1, h2, -⟩ := C49_majorana R .commutator hx hne hO he (tol := 1 / 10 ^ 10) (by positivity)
  exact ⟨vecs, M, evals, evecs, h1, findsCommuting h2⟩

omit [Nontrivial 𝔸] in
/-- **C109** (`liouvillian_matrix`, `commutant_matrix`): the matrices represent `A ↦ A O - O A` -/
theorem C109_matrices [Nontrivial 𝔸] (R : PauliRep ℂ 𝔸 S) {x : BasisArg ℂ} {O : Operator ℂ} (hx : x.All (PauliString S)) (hne : x ≠ .operators [])
    (hO : ∀ s ∈ O.basis.strs, PauliString S s) : ∃ L C ext ext', liouvillianMatrix x O = .ok (L, ext) ∧ commutantMatrix x O = .ok (C, ext') ∧
      (∀ v : ℕ → ℂ, (∑ j : Fin (x.den R.den).length, v j • (x.den R.den)[j]) * O.den R.den - O.den R.den * (∑ j : Fin (x.den R.den).length, v j • (x.den R.den)[j]) =
        linComb R.den ext.strs (L.mulVec v)) ∧
      IsCommutant R.den .commutator (x.den R.den) (O.den R.den) C ext' := by
  obtain ⟨L, ext, h1, h2⟩ := C15_pauli R .commutator hx hne hO
  obtain ⟨C, ext', h3, h4⟩ := C16_pauli R .commutator hx hne hO
  exact ⟨L, C, ext, ext', h1, h3, h2.represents, h4⟩

/-- **C109** (`invariant_operators`): operators with `T(A) = A` -/
theorem C109_invariant (h : SignRule T t V ε f) (hinj : Set.InjOn f {s | V s}) (hp : IsPinv pinv) {x : BasisArg ℂ} (hx : x.Orthonormal t V)
    (hne : x ≠ .operators []) (he : ExactEigh eigh) : ∃ vecs M evals evecs, invariantOperators eigh pinv x T = .ok ⟨x.len, vecs, M, evals, evecs⟩ ∧
      OrthonormalColumns vecs ∧ ∀ (v : Fin x.len → ℂ) (A B : Operator ℂ), A.On t V → (∀ s, A.coef s = ∑ j, v j * x.coef j s) → T.apply A = .ok B →
        ((∀ s, B.coef s = A.coef s) → v ∈ colSpan vecs) ∧
        (v ∈ colSpan vecs → ∀ F : Finset OpString, ∑ s ∈ F, ‖B.coef s - A.coef s‖ ^ 2 ≤ 2 / 10 ^ 10 * ∑ j, ‖v j‖ ^ 2) := by
  obtain ⟨vecs, M, evals, evecs, h1, h2, -⟩ := C50_signed h hinj hp hx hne he (mode := "commutator") (sign := 1) (by decide) (tol := 1 / 10 ^ 10) (by positivity)
  refine ⟨vecs, M, evals, evecs, h1, h2.orthonormal, fun v A B hA hv hB => ⟨fun e => h2.complete v A B hA hv hB (fun s => by simpa using e s), fun hm F => ?_⟩⟩
  have := h2.approx v hm A B hA hv hB F
  simp only [Int.cast_one, one_mul] at this
  calc _ ≤ _ := this
    _ = _ := by ring

/-- **C109** (`add_symmetry`): a symmetry added without `operation_mode` asks for operators that commute with it or are invariant under it. -/
theorem C109_add_symmetry (x : BasisArg ℂ) (O : Operator ℂ) (T : Transformation ℂ) :
    generateOne eigh pinv x { symmetry := .operator O } (1 / 10 ^ 10) = commutingOperators eigh x O ∧
    generateOne eigh pinv x { symmetry := .transformation T } (1 / 10 ^ 10) = invariantOperators eigh pinv x T := ⟨rfl, rfl⟩

/-- **C109** (`generate`): all symmetries are imposed together. -/
theorem C109_generate (R : PauliRep ℂ 𝔸 S) (hV : ∀ s, V s → PauliString S s) (he : ExactEigh eigh) (hp : IsPinv pinv) (hlu : ExactLu lu)
    (hsort : IsSort argsort) {x : BasisArg ℂ} (hx : x.On .pauli V) (hind : x.Independent) (hne : x.len ≠ 0) {Os : List (Operator ℂ)}
    (hi : ∀ O ∈ Os, (SymmetryInput.mk (.operator O) .commutator).Valid .pauli V) :
    ∃ δ > 0, ∃ p, (∀ tol, 0 < tol → tol ≤ δ →
        generate eigh pinv lu argsort x (Os.map fun O => { symmetry := .operator O }) (tol := tol) = .ok (.cumulative p)) ∧
      CumulativeCorrect R.den .pauli V x (Os.map fun O => ⟨.operator O, .commutator⟩) p := by
  have hno : ∀ l : List SymmetryInput, (∀ inp ∈ l, ∃ O ∈ Os, inp = ⟨.operator O, .commutator⟩) → ¬ ∃ inp ∈ l, ∃ T, inp.symmetry = .transformation T := by
    rintro l hl ⟨inp, h1, T, h2⟩
    obtain ⟨O, -, rfl⟩ := hl inp h1
    cases h2
  have hm : ∀ inp ∈ Os.map fun O => (⟨.operator O, .commutator⟩ : SymmetryInput), ∃ O ∈ Os, inp = ⟨.operator O, .commutator⟩ := by
    intro inp h
    obtain ⟨O, h1, rfl⟩ := List.mem_map.mp h
    exact ⟨O, h1, rfl⟩
  obtain ⟨δ, hδ, p, h1, h2, -⟩ := C68_pauli R hV he hp hlu hsort hx hind hne (inputs := Os.map fun O => ⟨.operator O, .commutator⟩)
    (fun inp h => by obtain ⟨O, h1, rfl⟩ := hm inp h; exact hi O h1) (fun h => absurd h (hno _ hm)) true false
    (fun h => absurd h (hno _ fun inp h => hm inp (List.mem_of_mem_tail h)))
  exact ⟨δ, hδ, p, h1, h2⟩

/-- **C109** (`diagonalize`): all eigenstates of a Hermitian operator, sorted by energy -/
theorem C109_diagonalize {n : ℕ} {num : Eigensolvers} (hnum : num.Exact) {A : Operator ℂ} (hA : A.WF) (ht : A.opType ≠ .fermion)
    (hs : ∀ s ∈ A.basis.strs, ValidString (jwLabels (siteLabels n)) s) (hf : ∀ s ∈ A.basis.strs, s.opType = .fermion → FermionConvertible s false)
    (hH : (A.den (matRep ℂ n).anyDen).IsHermitian) : ∃ (pairs : List (ℝ × (Cfg n → ℂ))) (vecs : List (List ℂ)),
      diagonalize num A n = .ok (pairs.map (fun p => (p.1 : ℂ)), vecs) ∧ List.Forall₂ (IsState n) vecs (pairs.map Prod.snd) ∧
      pairs.length = 2 ^ n ∧ LowestEigenpairs (A.den (matRep ℂ n).anyDen) pairs ∧ (pairs.Pairwise fun p q => p.1 ≤ q.1) := by
  obtain ⟨pairs, c, vecs, h1, h2, h3, h4, h5, -, h6, -⟩ := C81_energies hnum hA hs hf hH (numVecs := none) (by simp)
  refine ⟨pairs, vecs, ?_, h2, h3, h4, h5⟩
  rw [h6 ht] at h1
  simpa using h1

/-- **C109** (`renyi_entropy`): the second Rényi entropy, `- log tr ρ²` -/
theorem C109_renyi {n m : ℕ} (g : Fin m ↪ Fin n) {v : List ℂ} {ψ : Cfg n → ℂ} (hv : IsState n v ψ) (hψ : ψ ≠ 0) :
    ∃ ρ, reducedDensityMatrix v (siteList g) n = .ok ρ ∧ ∃ hH : (partialTrace g ψ ψ).IsHermitian,
      renyiEntropy ρ = .ok ((- Real.log (∑ i, hH.eigenvalues i ^ 2) : ℝ) : EReal) := by
  obtain ⟨ρ, h1, hH, -, -, h2⟩ := C80_value g hv hψ
  refine ⟨ρ, h1, hH, ?_⟩
  have := h2 2 (by norm_num)
  rw [show renyiEntropy ρ = renyiEntropy ρ ((2 : ℕ) : ℤ) from rfl, this, renyi]
  norm_num

/-- **C109** (`cluster_basis`): the identity is not in the basis -/
theorem C109_cluster {k : KArg} (hk : k.Ok) {labels : List ℤ} (hl : labels.Nodup) :
    (∃ b, clusterBasis k labels .pauli = .ok b ∧ ∀ s, s ∈ b.strs ↔ s.labels ≠ [] ∧ k.allows s.labels.length ∧ PauliString {x | x ∈ labels} s ∧ s.Canonical) ∧
    (∃ b, clusterBasis k labels .majorana = .ok b ∧
      ∀ s, s ∈ b.strs ↔ s.labels ≠ [] ∧ k.allows s.labels.length ∧ MajoranaString {x | x ∈ labels} s ∧ s.Canonical) ∧
    ∃ b, clusterBasis k labels .fermion = .ok b ∧ ∀ s, s ∈ b.strs ↔ IsClusterFermion k labels s := by
  obtain ⟨b, h1, -, -, h2⟩ := C18_pauli hk hl false
  obtain ⟨c, g1, -, -, g2⟩ := C18_majorana hk hl false
  obtain ⟨d, f1, -, f2⟩ := C18_fermion hk hl false
  exact ⟨⟨b, h1, fun s => by simpa using h2 s⟩, ⟨c, g1, fun s => by simpa using g2 s⟩, d, f1, fun s => by simpa using f2 s⟩

/-! ### the hypotheses are met -/

example : ∃ (eigh : Eigh) (pinv : _) (lu : _) (argsort : _) (O : Operator ℂ), ExactEigh eigh ∧ IsPinv pinv ∧ ExactLu lu ∧ IsSort argsort ∧
    (SymmetryInput.mk (.operator O) .commutator).Valid .pauli (PauliString Set.univ) ∧ (BasisArg.strings zBasis : BasisArg ℂ).On .pauli (PauliString Set.univ) ∧
    (BasisArg.strings zBasis : BasisArg ℂ).Orthonormal .pauli (PauliString Set.univ) := by
  obtain ⟨eigh, he⟩ := exists_exactEigh
  obtain ⟨pinv, hp⟩ := exists_isPinv
  obtain ⟨lu, hlu⟩ := exists_exactLu
  obtain ⟨argsort, hsort⟩ := exists_isSort
  exact ⟨eigh, pinv, lu, argsort, _, he, hp, hlu, hsort, commutesX_valid, zBasis_on, zBasis_on⟩

end Qosy
