import Verif.Props.Generator
import Verif.Lemmas.GeneratorOrthogonal

/-!
# Property C67 with `orthogonalization=True`

`C67_refuted` shows that the earlier results need not contain all operators with the symmetries.  What is left of the claim is proved here.
-/

namespace Qosy
open Matrix Coef
variable {𝔸 : Type} [Ring 𝔸] [Algebra ℂ 𝔸] [Nontrivial 𝔸] {S : Set ℤ} {V : OpString → Prop}
variable {eigh : Eigh} {pinv : Mat ℂ → Py (Mat ℂ)} {lu : PermutedLu} {argsort : List ℕ → List ℕ}

/-- **C67** (Pauli) with `orthogonalization=True`: the generator returns, every result consists of orthonormal operators with the first
symmetries and spans the next result, and the last result contains all operators with all symmetries.  Missing: that the earlier results
contain all operators with their symmetries, see `C67_refuted`. -/
theorem C67_orthogonal_pauli_partial (R : PauliRep ℂ 𝔸 S) (hV : ∀ s, V s → PauliString S s) (he : ExactEigh eigh) (hp : IsPinv pinv) (hlu : ExactLu lu)
    (hsort : IsSort argsort) {x : BasisArg ℂ} (hx : x.On .pauli V) (hne : x ≠ .operators []) {inputs : List SymmetryInput}
    (hi : ∀ inp ∈ inputs, inp.Valid .pauli V) (ho : (∃ inp ∈ inputs, ∃ T, inp.symmetry = .transformation T) → x.Orthonormal .pauli V)
    (hgap : ∀ i inp, 0 < i → inputs[i]? = some inp →
      AngleGap (x.coefficients .pauli V (inp.Holds R.den)) (x.coefficients .pauli V (HasSymmetries R.den inputs i)) (1 / 10 ^ 10)) (s : Bool) :
    ∃ δ > 0, ∀ tol, 0 < tol → tol ≤ δ → ∃ st, generate eigh pinv lu argsort x inputs "noncumulative" s true tol = .ok (.noncumulative st) ∧
      st.Nested R.den .pauli V x inputs :=
  noncumulative_mode (R.strAlg.noncumulative_orthogonal hV he hp hlu hsort hx hne hi ho hgap s)

/-- **C67** (Majorana) with `orthogonalization=True` -/
theorem C67_orthogonal_majorana_partial (R : MajoranaRep ℂ 𝔸 S) (hV : ∀ s, V s → MajoranaString S s) (he : ExactEigh eigh) (hp : IsPinv pinv)
    (hlu : ExactLu lu) (hsort : IsSort argsort) {x : BasisArg ℂ} (hx : x.On .majorana V) (hne : x ≠ .operators []) {inputs : List SymmetryInput}
    (hi : ∀ inp ∈ inputs, inp.Valid .majorana V) (ho : (∃ inp ∈ inputs, ∃ T, inp.symmetry = .transformation T) → x.Orthonormal .majorana V)
    (hgap : ∀ i inp, 0 < i → inputs[i]? = some inp →
      AngleGap (x.coefficients .majorana V (inp.Holds R.den)) (x.coefficients .majorana V (HasSymmetries R.den inputs i)) (1 / 10 ^ 10)) (s : Bool) :
    ∃ δ > 0, ∀ tol, 0 < tol → tol ≤ δ → ∃ st, generate eigh pinv lu argsort x inputs "noncumulative" s true tol = .ok (.noncumulative st) ∧
      st.Nested R.den .majorana V x inputs :=
  noncumulative_mode (R.strAlg.noncumulative_orthogonal hV he hp hlu hsort hx hne hi ho hgap s)

/-- non-vacuity: two symmetries, given as Operators; all operators of the basis have the first -/
example : ∃ (eigh : Eigh) (pinv : _) (lu : _) (argsort : _) (δ : ℝ), 0 < δ ∧ ∀ tol, 0 < tol → tol ≤ δ →
    ∃ st, generate eigh pinv lu argsort (.strings zBasis) [commutesZ, commutesX] "noncumulative" true true tol = .ok (.noncumulative st) ∧
      st.Nested (waveRep ℂ).den .pauli (PauliString Set.univ) (.strings zBasis) [commutesZ, commutesX] := by
  obtain ⟨eigh, he⟩ := exists_exactEigh
  obtain ⟨pinv, hp⟩ := exists_isPinv
  obtain ⟨lu, hlu⟩ := exists_exactLu
  obtain ⟨argsort, hsort⟩ := exists_isSort
  obtain ⟨δ, hδ, h⟩ := C67_orthogonal_pauli_partial (waveRep ℂ) (fun _ h => h) he hp hlu hsort zBasis_on (by simp) (inputs := [commutesZ, commutesX])
    (by intro inp hi
        simp only [List.mem_cons, List.not_mem_nil, or_false] at hi
        rcases hi with rfl | rfl
        · exact commutesZ_valid
        · exact commutesX_valid)
    (fun _ => zBasis_on)
    (by intro i inp hi0 hi
        obtain ⟨hil, -⟩ := List.getElem?_eq_some_iff.mp hi
        obtain rfl : i = 1 := by simp at hil; omega
        have e : (BasisArg.strings zBasis).coefficients .pauli (PauliString Set.univ) (HasSymmetries (waveRep ℂ).den [commutesZ, commutesX] 1) = Set.univ := by
          apply Set.eq_univ_of_forall
          intro v
          obtain ⟨A, a, b⟩ := zBasis_on.exists (fun s hs => hs.type) v
          exact ⟨A, a, b, by simpa [HasSymmetries] using commutesZ_holds (waveRep ℂ) b⟩
        rw [e]
        exact AngleGap.of_univ _ (by norm_num)) true
  exact ⟨eigh, pinv, lu, argsort, δ, hδ, h⟩

end Qosy
