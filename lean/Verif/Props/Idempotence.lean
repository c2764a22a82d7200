import Verif.Lemmas.Idempotence
import Verif.Lemmas.Vector
import Verif.Lemmas.Conversion
import Verif.Props.LieAlgebra
import Verif.Props.LieOperators
import Verif.Props.Tools
import Verif.Spec.Transformation

/-! # C115: operations that clean up or complete their argument change nothing when they are repeated -/

namespace Qosy
open Coef
variable {K : Type} [Field K] [StarRing K] [Coef K]

/-- **C115** (sorting): `sort_sign` of a sorted result is that result, with sign 1, for both methods. -/
theorem C115_sort_sign {m : String} {v r : List Int} {sign : Int} (h : sortSignMethod m v = .ok (r, sign)) :
    sortSignMethod "insertionsort" r = .ok (r, 1) ∧ sortSignMethod "mergesort" r = .ok (r, 1) := by
  obtain ⟨r₀, h1, h2, h3, h4, h5⟩ := C22_sort_sign v
  have e : r = r₀ := by
    by_cases e1 : m = "insertionsort"
    · rw [e1, h3] at h; cases h; rfl
    · by_cases e2 : m = "mergesort"
      · rw [e2, h4] at h; cases h; rfl
      · rw [h5 m e1 e2] at h; cases h
  subst e
  obtain ⟨r₁, k1, k2, k3, k4, -⟩ := C22_sort_sign r
  have e : r₁ = r := k2.eq_of_pairwise' k1 h1
  rw [inversions_sorted h1, pow_zero] at k3 k4
  rw [k3, k4, e]
  exact ⟨rfl, rfl⟩

/-- **C115** (duplicates): `remove_duplicates` finds nothing to remove in its own result, whatever the equivalence. -/
theorem C115_remove_duplicates {α : Type} (equiv : α → α → Bool) (l : List α) : removeDuplicates equiv (removeDuplicates equiv l) = removeDuplicates equiv l :=
  removeDuplicates_distinct equiv _ (C25_remove_duplicates equiv l).2.1

/-- **C115** (small coefficients): removing the coefficients up to `tol` and then those up to `tol'` leaves the terms that removing those up to the larger tolerance
leaves; with the same tolerance the second removal changes nothing. -/
theorem C115_remove_zeros {A : Operator K} (hA : A.WF) (tol tol' : ℚ) :
    ∃ B C D, A.removeZeros tol = .ok B ∧ B.removeZeros tol' = .ok C ∧ A.removeZeros (max tol tol') = .ok D ∧ C.terms = D.terms ∧ C.opType = D.opType ∧
      (tol' ≤ tol → C.terms = B.terms) := by
  obtain ⟨B, b1, b2, b3, b4⟩ := Operator.removeZeros_ok hA tol
  obtain ⟨C, c1, c2, c3, c4⟩ := Operator.removeZeros_ok b2 tol'
  obtain ⟨D, d1, d2, d3, d4⟩ := Operator.removeZeros_ok hA (max tol tol')
  have e : C.terms = D.terms := by
    rw [c4, b4, d4, List.filter_filter]
    refine List.filter_congr fun x _ => ?_
    rw [Bool.eq_iff_iff, Bool.and_eq_true, absGt_iff, absGt_iff, absGt_iff, Rat.cast_max, max_lt_iff, and_comm]
  refine ⟨B, C, D, b1, c1, d1, e, by rw [c3, b3, d3], fun h => ?_⟩
  rw [e, d4, b4, max_eq_left h]

/-- **C115** (orthonormal columns): `gram_schmidt` returns orthonormal columns as they are, so that it does not change its own result. -/
theorem C115_gram_schmidt {n : ℕ} (hn : n ≠ 0) {cols q : List (Fin n → ℂ)} {tol tol' : ℝ} (h0 : 0 ≤ tol) (h1 : tol' < 1) (h : gramSchmidt cols tol = some q) :
    gramSchmidt q tol' = some q :=
  gramSchmidt_ortho h1 (gramSchmidt_isOrtho h0 hn h)

/-- **C115** (conversion): converting an Operator to the type it has changes none of its coefficients. -/
theorem C115_convert_same_type {A : Operator K} (hA : A.WF) (incl : Bool) :
    ∃ C, convertOperator A A.opType incl = .ok C ∧ C.opType = A.opType ∧ ∀ s, C.coef s = A.coef s := by
  obtain ⟨C, h1, h2, h3, h4, h5⟩ := convertOperator_ok (tgt := A.opType) (incl := incl) hA (fun s => ⟨[1], Basis.ofList [s], A.opType⟩) (fun s hs => by
    refine ⟨?_, Operator.WF.mk' (by simp) rfl (by simpa using hA.type s hs), rfl⟩
    unfold convertString
    rw [if_pos (hA.type s hs)]
    exact mkOperator_none_ok (by simp) (by simp) (t := A.opType) (by simpa using hA.type s hs))
  refine ⟨C, h1, h3, fun s => ?_⟩
  rw [h5, Operator.coef]
  induction A.terms with
  | nil => simp [coefT]
  | cons x l ih =>
    rw [List.map_cons, List.sum_cons, ih, coefT_cons]
    congr 1
    simp [Operator.coef, coefT, Operator.terms, Basis.ofList]

section
variable {t : OpType}

private theorem wave_alg (K : Type) [Field K] [StarRing K] [Coef K] (ht : t = .pauli ∨ t = .majorana) :
    ∃ R : StrAlg K (Module.End K (Conf → K)), (∀ s, R.Str s ↔ TypedString t Set.univ s) ∧
      ∀ F : Finset ℤ, {s : OpString | R.Str s ∧ s.Canonical ∧ ∀ l ∈ s.labels, l ∈ F}.Finite := by
  rcases ht with rfl | rfl
  · exact ⟨(waveRep K).strAlg, fun s => by simp [TypedString, PauliRep.strAlg], fun F => pauli_finite Set.univ F⟩
  · exact ⟨(waveMajorana K).strAlg, fun s => by simp [TypedString, MajoranaRep.strAlg], fun F => majorana_finite Set.univ F⟩

/-- **C115** (Lie algebras): `generate_lie_algebra` lists its generators first, and applied to its own result it returns that result, in the same order. -/
theorem C115_lie_algebra (ht : t = .pauli ∨ t = .majorana) {tol : ℚ} (h0 : 0 < tol) (h2 : tol ≤ 2) {B : Basis} (hB : B.Inv)
    (hs : ∀ s ∈ B.strs, TypedString t Set.univ s ∧ s.Canonical) :
    ∃ (m : ℕ) (r : Basis), ∀ k, m ≤ k → generateLieAlgebra K B k tol = .ok (some r) ∧ generateLieAlgebra K r k tol = .ok (some r) ∧ B.strs <+: r.strs := by
  obtain ⟨R, R1, R2⟩ := wave_alg K ht
  exact R.lie_idempotent h0 h2 hB (fun s h => ⟨(R1 s).mpr (hs s h).1, (hs s h).2⟩) R2

/-- **C115** (Lie algebras, more generators): generators chosen from a generated Lie algebra generate nothing outside of it. -/
theorem C115_lie_algebra_mono (ht : t = .pauli ∨ t = .majorana) {tol : ℚ} (h0 : 0 < tol) (h2 : tol ≤ 2) {B B' : Basis} (hB : B.Inv) (hB' : B'.Inv)
    (hs : ∀ s ∈ B'.strs, TypedString t Set.univ s ∧ s.Canonical) :
    ∃ (m : ℕ) (r' : Basis), (∀ k, m ≤ k → generateLieAlgebra K B' k tol = .ok (some r')) ∧ ((∀ s ∈ B.strs, s ∈ r'.strs) →
      ∃ (m' : ℕ) (r : Basis), (∀ k, m' ≤ k → generateLieAlgebra K B k tol = .ok (some r)) ∧ ∀ s ∈ r.strs, s ∈ r'.strs) := by
  obtain ⟨R, R1, R2⟩ := wave_alg K ht
  have hs' : ∀ s ∈ B'.strs, R.Str s ∧ s.Canonical := fun s h => ⟨(R1 s).mpr (hs s h).1, (hs s h).2⟩
  obtain ⟨m, r', a1, -, -⟩ := R.generateLieAlgebra_ok h0 h2 hB' (fun s h => (hs' s h).1) R2
  refine ⟨m, r', a1, fun hsub => ?_⟩
  obtain ⟨m', r, k1, -, k3⟩ := R.lie_mono h0 h2 hB hB' hs' R2 a1 hsub
  exact ⟨m', r, k1, k3⟩

/-- **C115** (Lie algebras, order of the generators): generators in another order generate the same strings, in some order. -/
theorem C115_lie_algebra_order (ht : t = .pauli ∨ t = .majorana) {tol : ℚ} (h0 : 0 < tol) (h2 : tol ≤ 2) {B B' : Basis} (hB : B.Inv) (hB' : B'.Inv)
    (hs : ∀ s ∈ B.strs, TypedString t Set.univ s ∧ s.Canonical) (hp : B.strs.Perm B'.strs) :
    ∃ (m : ℕ) (r r' : Basis), (∀ k, m ≤ k → generateLieAlgebra K B k tol = .ok (some r) ∧ generateLieAlgebra K B' k tol = .ok (some r')) ∧ r.strs.Perm r'.strs := by
  obtain ⟨R, R1, R2⟩ := wave_alg K ht
  have hc : ∀ s ∈ B.strs, R.Str s ∧ s.Canonical := fun s h => ⟨(R1 s).mpr (hs s h).1, (hs s h).2⟩
  have hc' : ∀ s ∈ B'.strs, R.Str s ∧ s.Canonical := fun s h => hc s (hp.mem_iff.mpr h)
  obtain ⟨m, r, a1, a2, a3⟩ := R.generateLieAlgebra_ok h0 h2 hB (fun s h => (hc s h).1) R2
  obtain ⟨m', r', b1, b2, b3⟩ := R.generateLieAlgebra_ok h0 h2 hB' (fun s h => (hc' s h).1) R2
  refine ⟨max m m', r, r', fun k hk => ⟨a1 k ((le_max_left ..).trans hk), b1 k ((le_max_right ..).trans hk)⟩, ?_⟩
  rw [List.perm_ext_iff_of_nodup a2.2 b2.2]
  exact fun s => ⟨a3.subset b3 hc' (fun s h => b3.contains s (hp.mem_iff.mp h)) s, b3.subset a3 hc (fun s h => a3.contains s (hp.mem_iff.mpr h)) s⟩
end

/-! ### Non-vacuity -/

example : sortSignMethod "mergesort" [3, 1, 2, 2] = .ok ([1, 2, 2, 3], -1) ∧ sortSignMethod "insertionsort" [1, 2, 2, 3] = .ok ([1, 2, 2, 3], 1) := by
  have h : sortSignMethod "mergesort" [3, 1, 2, 2] = .ok ([1, 2, 2, 3], -1) := by decide +kernel
  exact ⟨h, (C115_sort_sign h).1⟩

example : removeDuplicates (fun a b : ℕ => a % 3 == b % 3) [1, 4, 2, 5, 7] = [1, 2] := by decide

/-- `3 X 1 + 2 Y 1`: the tolerances 1 and 2 leave the first term -/
example : ∃ B C : Operator QI, (⟨[3, 2], Basis.ofList [⟨[.X], [1], .pauli, .float1⟩, ⟨[.Y], [1], .pauli, .float1⟩], .pauli⟩ : Operator QI).removeZeros 1 = .ok B ∧
    B.removeZeros 2 = .ok C ∧ B.terms.length = 2 ∧ C.terms.length = 1 := by
  obtain ⟨B, C, D, h1, h2, h3, h4, -, -⟩ := C115_remove_zeros (K := QI) (A := ⟨[3, 2], Basis.ofList [⟨[.X], [1], .pauli, .float1⟩, ⟨[.Y], [1], .pauli, .float1⟩], .pauli⟩)
    (Operator.WF.mk' (by decide) rfl (by simp)) 1 2
  refine ⟨B, C, h1, h2, ?_, ?_⟩
  · have e : ((⟨[3, 2], Basis.ofList [⟨[.X], [1], .pauli, .float1⟩, ⟨[.Y], [1], .pauli, .float1⟩], .pauli⟩ : Operator QI).removeZeros 1).toOption.map (·.terms.length) = some 2 := by
      decide +kernel
    rw [h1] at e
    exact Option.some.inj e
  · have e : ((⟨[3, 2], Basis.ofList [⟨[.X], [1], .pauli, .float1⟩, ⟨[.Y], [1], .pauli, .float1⟩], .pauli⟩ : Operator QI).removeZeros (max 1 2)).toOption.map (·.terms.length) = some 1 := by
      decide +kernel
    rw [h3] at e
    rw [h4]
    exact Option.some.inj e

example : gramSchmidt (n := 2) [![1, 0], ![0, 1]] (1 / 2) = some [![1, 0], ![0, 1]] :=
  gramSchmidt_ortho (by norm_num) ⟨by simp [vdot], by simp [vdot]⟩

private theorem exLie_can : ∀ s ∈ exLie, TypedString .pauli Set.univ s ∧ s.Canonical := fun s hs =>
  ⟨Or.inl ⟨rfl, exLie_valid s hs⟩, by
    simp only [exLie, List.mem_cons, List.not_mem_nil, or_false] at hs
    rcases hs with rfl | rfl <;> simp [OpString.Canonical]⟩

/-- the Lie algebra of `X 1` and `Y 1 Z 2`, once more -/
example : ∃ (m : ℕ) (r : Basis), generateLieAlgebra QI (Basis.ofList exLie) m (1 / 10 ^ 12) = .ok (some r) ∧ generateLieAlgebra QI r m (1 / 10 ^ 12) = .ok (some r) ∧
    exLie <+: r.strs := by
  obtain ⟨m, r, h⟩ := C115_lie_algebra (K := QI) (tol := 1 / 10 ^ 12) (Or.inl rfl) (by norm_num) (by norm_num) (Basis.Inv.ofList (by decide)) exLie_can
  exact ⟨m, r, h m le_rfl⟩

example : ∃ (m : ℕ) (r r' : Basis), (∀ k, m ≤ k → generateLieAlgebra QI (Basis.ofList exLie) k (1 / 10 ^ 12) = .ok (some r) ∧
    generateLieAlgebra QI (Basis.ofList exLie.reverse) k (1 / 10 ^ 12) = .ok (some r')) ∧ r.strs.Perm r'.strs :=
  C115_lie_algebra_order (K := QI) (tol := 1 / 10 ^ 12) (Or.inl rfl) (by norm_num) (by norm_num) (Basis.Inv.ofList (by decide)) (Basis.Inv.ofList (by decide)) exLie_can
    (List.reverse_perm exLie).symm

end Qosy
