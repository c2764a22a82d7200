import Verif.Lemmas.Liouvillian
import Verif.Lemmas.StrAlgInst
import Verif.Props.Operator

/-!
# Properties C14-C16: structure constants, Liouvillian and commutant matrices

The specifications `IsStructureConstants`, `IsLiouvillian` and `IsCommutant` are in `Spec/Matrix.lean`.
-/

namespace Qosy
open Coef

section
variable {K : Type} [Field K] [StarRing K] [Coef K]
variable {𝔸 : Type} [Ring 𝔸] [Algebra K 𝔸] {S : Set ℤ}

/-! ### C14 -/

/-- **C14** (Pauli): in each of the three modes and for every tolerance up to one, `structure_constants` returns matrices
expanding all brackets over the extended basis. -/
theorem C14_pauli (R : PauliRep K 𝔸 S) (mode : Mode) {tol : ℚ} (h0 : 0 < tol) (h1 : tol ≤ 1) {A B : Basis}
    (hA : ∀ s ∈ A.strs, PauliString S s) (hB : ∀ s ∈ B.strs, PauliString S s) :
    ∃ (N : Dict (Mat K)) (ext : Basis), structureConstants A B mode tol = .ok (N, ext) ∧
      IsStructureConstants R.den mode A B N ext ∧ ∀ s ∈ ext.strs, PauliString S s ∧ s.Canonical :=
  R.strAlg.isStructureConstants mode h0 h1 hA hB

/-- **C14** (Majorana) -/
theorem C14_majorana (R : MajoranaRep K 𝔸 S) (mode : Mode) {tol : ℚ} (h0 : 0 < tol) (h1 : tol ≤ 1) {A B : Basis}
    (hA : ∀ s ∈ A.strs, MajoranaString S s) (hB : ∀ s ∈ B.strs, MajoranaString S s) :
    ∃ (N : Dict (Mat K)) (ext : Basis), structureConstants A B mode tol = .ok (N, ext) ∧
      IsStructureConstants R.den mode A B N ext ∧ ∀ s ∈ ext.strs, MajoranaString S s ∧ s.Canonical :=
  R.strAlg.isStructureConstants mode h0 h1 hA hB

/-- **C14** (uniqueness, Pauli): an expansion over distinct canonical strings is unique, in every non-trivial representation;
so the matrix entries are the structure constants. -/
theorem C14_unique_pauli [Nontrivial 𝔸] (R : PauliRep K 𝔸 S) {strs : List OpString} (hn : strs.Nodup)
    (hs : ∀ s ∈ strs, PauliString S s ∧ s.Canonical) {v w : ℕ → K} (h : linComb R.den strs v = linComb R.den strs w)
    (i : ℕ) (hi : i < strs.length) : v i = w i := by
  have : linComb R.strAlg.den strs (fun i => v i - w i) = 0 := by
    simp only [linComb, sub_smul, Finset.sum_sub_distrib]
    exact sub_eq_zero.mpr h
  exact sub_eq_zero.mp (R.strAlg.independent hn hs this i hi)

/-- **C14** (uniqueness, Majorana) -/
theorem C14_unique_majorana [Nontrivial 𝔸] (R : MajoranaRep K 𝔸 S) {strs : List OpString} (hn : strs.Nodup)
    (hs : ∀ s ∈ strs, MajoranaString S s ∧ s.Canonical) {v w : ℕ → K} (h : linComb R.den strs v = linComb R.den strs w)
    (i : ℕ) (hi : i < strs.length) : v i = w i := by
  have : linComb R.strAlg.den strs (fun i => v i - w i) = 0 := by
    simp only [linComb, sub_smul, Finset.sum_sub_distrib]
    exact sub_eq_zero.mpr h
  exact sub_eq_zero.mp (R.strAlg.independent hn hs this i hi)

/-! ### C15 -/

/-- **C15** (Pauli): for a Basis or a non-empty list of Operators, `L v` are the coefficients of the bracket with `O`. -/
theorem C15_pauli (R : PauliRep K 𝔸 S) (mode : Mode) {x : BasisArg K} {O : Operator K} (hx : x.All (PauliString S))
    (hne : x ≠ .operators []) (hO : ∀ s ∈ O.basis.strs, PauliString S s) :
    ∃ L ext, liouvillianMatrix x O mode = .ok (L, ext) ∧ IsLiouvillian R.den mode (x.den R.den) (O.den R.den) L ext := by
  obtain ⟨L, ext, h1, h2⟩ := R.strAlg.liouvillian_ok mode hx hne hO
  exact ⟨L, ext, h1, h2.isLiouvillian⟩

/-- **C15** (Majorana) -/
theorem C15_majorana (R : MajoranaRep K 𝔸 S) (mode : Mode) {x : BasisArg K} {O : Operator K} (hx : x.All (MajoranaString S))
    (hne : x ≠ .operators []) (hO : ∀ s ∈ O.basis.strs, MajoranaString S s) :
    ∃ L ext, liouvillianMatrix x O mode = .ok (L, ext) ∧ IsLiouvillian R.den mode (x.den R.den) (O.den R.den) L ext := by
  obtain ⟨L, ext, h1, h2⟩ := R.strAlg.liouvillian_ok mode hx hne hO
  exact ⟨L, ext, h1, h2.isLiouvillian⟩

/-- **C15** (empty list): an empty list of Operators raises IndexError. -/
theorem C15_empty (mode : Mode) (O : Operator K) : liouvillianMatrix (.operators []) O mode = .error .indexError := rfl

/-! ### C16 -/

/-- **C16** (Pauli): the commutant matrix is Hermitian and positive semidefinite, its form is the squared norm of the bracket and
its kernel consists of the commuting operators, in every non-trivial representation. -/
theorem C16_pauli [Nontrivial 𝔸] (R : PauliRep K 𝔸 S) (mode : Mode) {x : BasisArg K} {O : Operator K} (hx : x.All (PauliString S))
    (hne : x ≠ .operators []) (hO : ∀ s ∈ O.basis.strs, PauliString S s) :
    ∃ C ext, commutantMatrix x O mode = .ok (C, ext) ∧ IsCommutant R.den mode (x.den R.den) (O.den R.den) C ext :=
  R.strAlg.isCommutant mode hx hne hO

/-- **C16** (Majorana) -/
theorem C16_majorana [Nontrivial 𝔸] (R : MajoranaRep K 𝔸 S) (mode : Mode) {x : BasisArg K} {O : Operator K}
    (hx : x.All (MajoranaString S)) (hne : x ≠ .operators []) (hO : ∀ s ∈ O.basis.strs, MajoranaString S s) :
    ∃ C ext, commutantMatrix x O mode = .ok (C, ext) ∧ IsCommutant R.den mode (x.den R.den) (O.den R.den) C ext :=
  R.strAlg.isCommutant mode hx hne hO

end

/-! ### Non-vacuity -/

section examples

theorem exO1_strs : ∀ s ∈ exO1.basis.strs, PauliString Set.univ s := by
  intro s hs; simp [exO1] at hs; rcases hs with rfl | rfl; exacts [exP1_valid, exP2_valid]

theorem exO2_strs : ∀ s ∈ exO2.basis.strs, PauliString Set.univ s := by
  intro s hs; simp [exO2] at hs; subst hs; exact exP2_valid

theorem exO3_strs : ∀ s ∈ exO3.basis.strs, MajoranaString Set.univ s := by
  intro s hs; simp [exO3] at hs; rcases hs with rfl | rfl; exacts [exM1_valid, exM2_valid]

example : ∃ (N : Dict (Mat QI)) (ext : Basis), structureConstants exO1.basis exO1.basis .product = .ok (N, ext) ∧
    IsStructureConstants (waveRep QI).den .product exO1.basis exO1.basis N ext := by
  obtain ⟨N, ext, h1, h2, _⟩ := C14_pauli (waveRep QI) .product (tol := 1 / 10 ^ 16) (by norm_num) (by norm_num) exO1_strs exO1_strs
  exact ⟨N, ext, h1, h2⟩

/-- the model really computes a non-trivial extended basis here -/
example : (structureConstants (K := QI) exO3.basis exO3.basis .product).toOption.map (fun r => r.2.len) = some 2 := by decide +kernel

example : ∃ L ext, liouvillianMatrix (.operators [exO1, exO2]) exO1 = .ok (L, ext) ∧
    IsLiouvillian (waveRep QI).den .commutator [exO1.den (waveRep QI).den, exO2.den (waveRep QI).den] (exO1.den (waveRep QI).den) L ext :=
  C15_pauli (waveRep QI) .commutator (x := .operators [exO1, exO2])
    (by intro o ho; simp at ho; rcases ho with rfl | rfl; exacts [exO1_strs, exO2_strs]) (by simp) exO1_strs

example : ∃ C ext, commutantMatrix (.strings exO3.basis) exO3 = .ok (C, ext) ∧
    IsCommutant (waveMajorana QI).den .commutator (BasisArg.den (K := QI) (waveMajorana QI).den (.strings exO3.basis))
      (exO3.den (waveMajorana QI).den) C ext :=
  C16_majorana (waveMajorana QI) .commutator (x := .strings exO3.basis) exO3_strs (by simp) exO3_strs

end examples

end Qosy
