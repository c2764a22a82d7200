import Verif.Lemmas.LadderVectors
import Verif.Props.Ladder

/-!
# C87: `_inverse_ladder_operators`

The numerical routines are parameters with the contract `IsLadderNumerics`.  The value `found inverse nulls` is the pair of operators the function returns; the value
`missing vectors` is the pair `(None, vectors)`.
-/

namespace Qosy
open Coef RealOps
variable {K : Type} [Field K] [StarRing K] [Coef K] [RealCoef K]
variable {𝔸 : Type} [Ring 𝔸] [Algebra K 𝔸] {S : Set ℤ}

/-- **C87** (Pauli strings, an operator is returned): there is a vector `x` over the basis such that the operator returned has the coefficients of `x` above the tolerance, normalised.
If the ladder operator `O` has an inverse ladder operator over the basis at all, `x` is one with value 1, and if nothing but zeros was removed, the operator returned is one, with
the positive value `1/|x|`.  The null operators are normalised, their commutators with `O` are smaller than the tolerance, they are orthogonal without sparsification, and if
at least as many strings are reached by commutators as the basis has, every operator over the basis that commutes with `O` is a combination of them.  Missing: ladder operators without inverse
(`C87_refuted`) and smaller numbers of strings (`C87_refuted_null`). -/
theorem C87_pauli_partial [Nontrivial 𝔸] (R : PauliRep K 𝔸 S) {num : LadderNumerics K} (hnum : IsLadderNumerics num) {basis : Basis} (hb : basis.Inv)
    (hs : ∀ s ∈ basis.strs, PauliString S s) {O : Operator K} (hO : O.WF) (hOs : ∀ s ∈ O.basis.strs, PauliString S s) (hne : O.basis.strs ≠ [])
    {sparsification : Bool} {tol : ℚ} (htol : 0 < tol) {inverse : Operator K} {nulls : List (Operator K)}
    (h : inverseLadderOperators num basis O sparsification tol = .ok (.found inverse nulls)) :
    (∃ (x : List K) (N : K), IsCleaned tol basis.strs x inverse N ∧
      ((∃ (w : ℕ → K) (δ : K), δ ≠ 0 ∧ IsLadder (linComb R.den basis.strs w) (O.den R.den) δ) → IsLadder (linComb R.den basis.strs (fun j => x.getD j 0)) (O.den R.den) (1 : K) ∧
        ((∀ a ∈ x, a = 0 ∨ (tol : ℝ) < ‖toC a‖) → O.den R.den ≠ 0 → 0 < toR N ∧ IsLadder (inverse.den R.den) (O.den R.den) N⁻¹))) ∧
    (∀ B ∈ nulls, UnitOver basis.strs B ∧ IsSmall K (fun s => PauliString S s ∧ s.Canonical) R.den tol (bracketOf .commutator (B.den R.den) (O.den R.den))) ∧
    (sparsification = false → nulls.Pairwise (OrthogonalOver basis.strs)) ∧
    ∀ T : List OpString, T.Nodup → (∀ t ∈ T, Reached (PauliString S) R.den basis.strs O none t) → basis.len ≤ T.length →
      ∀ w : ℕ → K, bracketOf .commutator (linComb R.den basis.strs w) (O.den R.den) = 0 → linComb R.den basis.strs w ∈ Submodule.span K {b | ∃ B ∈ nulls, b = B.den R.den} :=
  inverse_found R.strAlg hnum hb hs hO hOs hne htol h

/-- **C87** (Majorana strings, an operator is returned) -/
theorem C87_majorana_partial [Nontrivial 𝔸] (R : MajoranaRep K 𝔸 S) {num : LadderNumerics K} (hnum : IsLadderNumerics num) {basis : Basis} (hb : basis.Inv)
    (hs : ∀ s ∈ basis.strs, MajoranaString S s) {O : Operator K} (hO : O.WF) (hOs : ∀ s ∈ O.basis.strs, MajoranaString S s) (hne : O.basis.strs ≠ [])
    {sparsification : Bool} {tol : ℚ} (htol : 0 < tol) {inverse : Operator K} {nulls : List (Operator K)}
    (h : inverseLadderOperators num basis O sparsification tol = .ok (.found inverse nulls)) :
    (∃ (x : List K) (N : K), IsCleaned tol basis.strs x inverse N ∧
      ((∃ (w : ℕ → K) (δ : K), δ ≠ 0 ∧ IsLadder (linComb R.den basis.strs w) (O.den R.den) δ) → IsLadder (linComb R.den basis.strs (fun j => x.getD j 0)) (O.den R.den) (1 : K) ∧
        ((∀ a ∈ x, a = 0 ∨ (tol : ℝ) < ‖toC a‖) → O.den R.den ≠ 0 → 0 < toR N ∧ IsLadder (inverse.den R.den) (O.den R.den) N⁻¹))) ∧
    (∀ B ∈ nulls, UnitOver basis.strs B ∧ IsSmall K (fun s => MajoranaString S s ∧ s.Canonical) R.den tol (bracketOf .commutator (B.den R.den) (O.den R.den))) ∧
    (sparsification = false → nulls.Pairwise (OrthogonalOver basis.strs)) ∧
    ∀ T : List OpString, T.Nodup → (∀ t ∈ T, Reached (MajoranaString S) R.den basis.strs O none t) → basis.len ≤ T.length →
      ∀ w : ℕ → K, bracketOf .commutator (linComb R.den basis.strs w) (O.den R.den) = 0 → linComb R.den basis.strs w ∈ Submodule.span K {b | ∃ B ∈ nulls, b = B.den R.den} :=
  inverse_found R.strAlg hnum hb hs hO hOs hne htol h

/-- **C87** (Pauli strings, no operator is returned): then no operator over the basis has `O` as a ladder operator.  The null vectors, which are returned as vectors and not as
operators, are normalised and their commutators with `O` are smaller than the tolerance. -/
theorem C87_missing_pauli [Nontrivial 𝔸] (R : PauliRep K 𝔸 S) {num : LadderNumerics K} (hnum : IsLadderNumerics num) {basis : Basis}
    (hs : ∀ s ∈ basis.strs, PauliString S s) {O : Operator K} (hO : O.WF) (hOs : ∀ s ∈ O.basis.strs, PauliString S s ∧ s.Canonical)
    {sparsification : Bool} {tol : ℚ} (htol : 0 < tol) {nulls : List (List K)} (h : inverseLadderOperators num basis O sparsification tol = .ok (.missing nulls)) :
    ((∀ a ∈ O.coeffs, a ≠ 0) → ¬ ∃ (w : ℕ → K) (δ : K), δ ≠ 0 ∧ IsLadder (linComb R.den basis.strs w) (O.den R.den) δ) ∧
    ∀ v ∈ nulls, v.length = basis.len ∧ ∑ j : Fin basis.len, star (v.getD j 0) * v.getD j 0 = 1 ∧
      IsSmall K (fun s => PauliString S s ∧ s.Canonical) R.den tol (bracketOf .commutator (linComb R.den basis.strs (fun j => v.getD j 0)) (O.den R.den)) :=
  inverse_missing R.strAlg hnum hs hO hOs htol h

/-- **C87** (Majorana strings, no operator is returned) -/
theorem C87_missing_majorana [Nontrivial 𝔸] (R : MajoranaRep K 𝔸 S) {num : LadderNumerics K} (hnum : IsLadderNumerics num) {basis : Basis}
    (hs : ∀ s ∈ basis.strs, MajoranaString S s) {O : Operator K} (hO : O.WF) (hOs : ∀ s ∈ O.basis.strs, MajoranaString S s ∧ s.Canonical)
    {sparsification : Bool} {tol : ℚ} (htol : 0 < tol) {nulls : List (List K)} (h : inverseLadderOperators num basis O sparsification tol = .ok (.missing nulls)) :
    ((∀ a ∈ O.coeffs, a ≠ 0) → ¬ ∃ (w : ℕ → K) (δ : K), δ ≠ 0 ∧ IsLadder (linComb R.den basis.strs w) (O.den R.den) δ) ∧
    ∀ v ∈ nulls, v.length = basis.len ∧ ∑ j : Fin basis.len, star (v.getD j 0) * v.getD j 0 = 1 ∧
      IsSmall K (fun s => MajoranaString S s ∧ s.Canonical) R.den tol (bracketOf .commutator (linComb R.den basis.strs (fun j => v.getD j 0)) (O.den R.den)) :=
  inverse_missing R.strAlg hnum hs hO hOs htol h

/-- **C87** (Pauli strings, `return_operators=False`): the vector returned has norm 1, and if some operator over the basis has `O` as a ladder operator, then the operator with these
coefficients has it as a raising operator; no tolerance is involved.  If None is returned, there is no such operator.  The null vectors are as above. -/
theorem C87_vectors_pauli_partial [Nontrivial 𝔸] (R : PauliRep K 𝔸 S) {num : LadderNumerics K} (hnum : IsLadderNumerics num) {basis : Basis}
    (hs : ∀ s ∈ basis.strs, PauliString S s) {O : Operator K} (hO : O.WF) (hOs : ∀ s ∈ O.basis.strs, PauliString S s ∧ s.Canonical) (hne : O.basis.strs ≠ [])
    {sparsification : Bool} {tol : ℚ} (htol : 0 < tol) {x : Option (List K)} {nulls : List (List K)} (h : inverseLadderVectors num basis O sparsification tol = .ok (x, nulls)) :
    (∀ u ∈ x, u.length = basis.len ∧ (basis.strs ≠ [] → ∑ j : Fin basis.len, star (u.getD j 0) * u.getD j 0 = 1) ∧
      ((∃ (w : ℕ → K) (δ : K), δ ≠ 0 ∧ IsLadder (linComb R.den basis.strs w) (O.den R.den) δ) → O.den R.den ≠ 0 →
        ∃ δ : K, IsReal δ ∧ 0 < toR δ ∧ IsLadder (linComb R.den basis.strs (fun j => u.getD j 0)) (O.den R.den) δ)) ∧
    (x = none → (∀ a ∈ O.coeffs, a ≠ 0) → ¬ ∃ (w : ℕ → K) (δ : K), δ ≠ 0 ∧ IsLadder (linComb R.den basis.strs w) (O.den R.den) δ) ∧
    (∀ v ∈ nulls, v.length = basis.len ∧ ∑ j : Fin basis.len, star (v.getD j 0) * v.getD j 0 = 1 ∧
      IsSmall K (fun s => PauliString S s ∧ s.Canonical) R.den tol (bracketOf .commutator (linComb R.den basis.strs (fun j => v.getD j 0)) (O.den R.den))) ∧
    (sparsification = false → nulls.Pairwise (fun v w => ∑ j : Fin basis.len, star (v.getD j 0) * w.getD j 0 = 0)) ∧
    ∀ T : List OpString, T.Nodup → (∀ t ∈ T, Reached (PauliString S) R.den basis.strs O none t) → basis.len ≤ T.length →
      ∀ w : ℕ → K, bracketOf .commutator (linComb R.den basis.strs w) (O.den R.den) = 0 →
        linComb R.den basis.strs w ∈ Submodule.span K {b | ∃ v ∈ nulls, b = linComb R.den basis.strs (fun j => v.getD j 0)} :=
  inverseVectors_result R.strAlg hnum hs hO hOs hne htol h

/-- **C87** (Majorana strings, `return_operators=False`) -/
theorem C87_vectors_majorana_partial [Nontrivial 𝔸] (R : MajoranaRep K 𝔸 S) {num : LadderNumerics K} (hnum : IsLadderNumerics num) {basis : Basis}
    (hs : ∀ s ∈ basis.strs, MajoranaString S s) {O : Operator K} (hO : O.WF) (hOs : ∀ s ∈ O.basis.strs, MajoranaString S s ∧ s.Canonical) (hne : O.basis.strs ≠ [])
    {sparsification : Bool} {tol : ℚ} (htol : 0 < tol) {x : Option (List K)} {nulls : List (List K)} (h : inverseLadderVectors num basis O sparsification tol = .ok (x, nulls)) :
    (∀ u ∈ x, u.length = basis.len ∧ (basis.strs ≠ [] → ∑ j : Fin basis.len, star (u.getD j 0) * u.getD j 0 = 1) ∧
      ((∃ (w : ℕ → K) (δ : K), δ ≠ 0 ∧ IsLadder (linComb R.den basis.strs w) (O.den R.den) δ) → O.den R.den ≠ 0 →
        ∃ δ : K, IsReal δ ∧ 0 < toR δ ∧ IsLadder (linComb R.den basis.strs (fun j => u.getD j 0)) (O.den R.den) δ)) ∧
    (x = none → (∀ a ∈ O.coeffs, a ≠ 0) → ¬ ∃ (w : ℕ → K) (δ : K), δ ≠ 0 ∧ IsLadder (linComb R.den basis.strs w) (O.den R.den) δ) ∧
    (∀ v ∈ nulls, v.length = basis.len ∧ ∑ j : Fin basis.len, star (v.getD j 0) * v.getD j 0 = 1 ∧
      IsSmall K (fun s => MajoranaString S s ∧ s.Canonical) R.den tol (bracketOf .commutator (linComb R.den basis.strs (fun j => v.getD j 0)) (O.den R.den))) ∧
    (sparsification = false → nulls.Pairwise (fun v w => ∑ j : Fin basis.len, star (v.getD j 0) * w.getD j 0 = 0)) ∧
    ∀ T : List OpString, T.Nodup → (∀ t ∈ T, Reached (MajoranaString S) R.den basis.strs O none t) → basis.len ≤ T.length →
      ∀ w : ℕ → K, bracketOf .commutator (linComb R.den basis.strs w) (O.den R.den) = 0 →
        linComb R.den basis.strs w ∈ Submodule.span K {b | ∃ v ∈ nulls, b = linComb R.den basis.strs (fun j => v.getD j 0)} :=
  inverseVectors_result R.strAlg hnum hs hO hOs hne htol h

/-- **C87** (exceptions, Pauli strings): an exception is one of a numerical routine. -/
theorem C87_exceptions_pauli [Nontrivial 𝔸] (R : PauliRep K 𝔸 S) {num : LadderNumerics K} (hnum : IsLadderNumerics num) {basis : Basis} (hb : basis.Inv) (hne : basis.strs ≠ [])
    (hs : ∀ s ∈ basis.strs, PauliString S s) {O : Operator K} (hO : O.WF) (hOs : ∀ s ∈ O.basis.strs, PauliString S s) {sparsification : Bool} {tol : ℚ} (htol : 0 ≤ tol) {e : PyErr}
    (h : inverseLadderOperators num basis O sparsification tol = .error e) :
    (∃ M, num.svd M = .error e) ∨ (∃ M, num.pinv M = .error e) ∨ (∃ x, num.sqrt x = .error e) ∨ ∃ l, num.sparsify l = .error e :=
  inverse_err R.strAlg hnum hb hne hs hO hOs htol h

/-- **C87** (exceptions, Majorana strings) -/
theorem C87_exceptions_majorana [Nontrivial 𝔸] (R : MajoranaRep K 𝔸 S) {num : LadderNumerics K} (hnum : IsLadderNumerics num) {basis : Basis} (hb : basis.Inv) (hne : basis.strs ≠ [])
    (hs : ∀ s ∈ basis.strs, MajoranaString S s) {O : Operator K} (hO : O.WF) (hOs : ∀ s ∈ O.basis.strs, MajoranaString S s) {sparsification : Bool} {tol : ℚ} (htol : 0 ≤ tol) {e : PyErr}
    (h : inverseLadderOperators num basis O sparsification tol = .error e) :
    (∃ M, num.svd M = .error e) ∨ (∃ M, num.pinv M = .error e) ∨ (∃ x, num.sqrt x = .error e) ∨ ∃ l, num.sparsify l = .error e :=
  inverse_err R.strAlg hnum hb hne hs hO hOs htol h

/-! ### examples -/

/-- `a X_1 + b Y_1` -/
def ladderXY (a b : QI) : Operator QI := ⟨[a, b], Basis.ofList [siteX, siteY], .pauli⟩

/-- `[Z_1, a X_1 + b Y_1]` as a matrix over `Y_1, X_1` -/
def column2 (a b : QI) : Mat QI := ⟨2, 1, [(0, 0, a), (1, 0, b)]⟩

/-- its pseudo-inverse, for `norm = |a|² + |b|²` -/
def row2 (norm a b : QI) : Mat QI := ⟨1, 2, [(0, 0, star a / norm), (0, 1, star b / norm)]⟩

def site (o : Op) (l : ℤ) : OpString := ⟨[o], [l], .pauli, .float1⟩

/-- `[Z_1, (1 + i)(X_1 + i Y_1)]`, with the columns of three strings that commute -/
def wideMat : Mat QI := ⟨2, 4, [(0, 0, ⟨-2, 2⟩), (1, 0, ⟨2, 2⟩)]⟩

def inverseTable : LadderNumerics QI := (tableNumerics
  [(column2 ⟨-2, 2⟩ ⟨2, 2⟩, ([4], [[1]])), (column2 ⟨0, 6⟩ 8, ([10], [[1]])), (column2 ⟨0, 6⟩ ⟨0, -8⟩, ([10], [[1]])),
    (wideMat, ([4, 0], [[1, 0, 0, 0], [0, 1, 0, 0], [0, 0, 1, 0], [0, 0, 0, 1]])), (⟨0, 1, []⟩, ([], [[1]]))] []
  [(column2 ⟨-2, 2⟩ ⟨2, 2⟩, row2 16 ⟨-2, 2⟩ ⟨2, 2⟩), (column2 ⟨0, 6⟩ 8, row2 100 ⟨0, 6⟩ 8), (column2 ⟨0, 6⟩ ⟨0, -8⟩, row2 100 ⟨0, 6⟩ ⟨0, -8⟩),
    (wideMat, ⟨4, 2, [(0, 0, ⟨-1 / 8, -1 / 8⟩), (0, 1, ⟨1 / 8, -1 / 8⟩)]⟩)]).plain

theorem inverseTable_ok : IsLadderNumerics inverseTable :=
  plain_ok (tableNumerics_ok (by decide +kernel) (by simp) (fun e he => checkPinv_ok (List.all_eq_true.mp (by decide +kernel) e he)))

instance : DecidableEq (InverseLadder QI)
  | .missing a, .missing b => decidable_of_iff (a = b) (by simp)
  | .missing _, .found _ _ => isFalse (by simp)
  | .found _ _, .missing _ => isFalse (by simp)
  | .found a1 a2, .found b1 b2 => decidable_of_iff (a1 = b1 ∧ a2 = b2) (by simp)

theorem inverse_example : inverseLadderOperators inverseTable (Basis.ofList [siteZ]) (ladderXY ⟨1, 1⟩ ⟨-1, 1⟩) = .ok (.found opZ []) := by decide +kernel

/-- a commutator of two strings, computed -/
theorem StrAlg.commutator_computed [Nontrivial 𝔸] (R : StrAlg K 𝔸) {s h t : OpString} (hs : R.Str s) (hh : R.Str h) {c : K} (hc : operationOpString .commutator s h = .ok (c, some t)) :
    bracketOf .commutator (R.den s) (R.den h) = c • R.den t := by
  rcases R.op_string .commutator hs hh with ⟨h1, h2⟩ | ⟨c', C, h1, h2, h3, h4, h5, h6, h7⟩
  · rw [h1] at hc; cases hc
  · rw [h1] at hc
    cases hc
    exact h3

theorem ladderXY_den [Algebra QI 𝔸] (R : PauliRep QI 𝔸 Set.univ) (a b : QI) : (ladderXY a b).den R.den = a • R.den siteX + b • R.den siteY := by
  rw [show (ladderXY a b).den R.den = vecOp R.den (Basis.ofList [siteX, siteY]) [a, b] from den_vecOp rfl rfl rfl _, vecOp]
  show ∑ k : Fin 2, _ = (_ : 𝔸)
  rw [Fin.sum_univ_two]; rfl

theorem opZ_den [Algebra QI 𝔸] (R : PauliRep QI 𝔸 Set.univ) : opZ.den R.den = R.den siteZ := by
  rw [show opZ.den R.den = vecOp R.den (Basis.ofList [siteZ]) [(1 : QI)] from den_vecOp rfl rfl rfl _, vecOp]
  show ∑ k : Fin 1, _ = (_ : 𝔸)
  rw [Fin.sum_univ_one]
  exact one_smul _ _

theorem ladderXY_commutator [Algebra QI 𝔸] [Nontrivial 𝔸] (R : PauliRep QI 𝔸 Set.univ) (a b : QI) :
    bracketOf .commutator (R.den siteZ) ((ladderXY a b).den R.den) = (-2 * I * b) • R.den siteX + (2 * I * a) • R.den siteY := by
  have h1 : bracketOf .commutator (R.den siteZ) (R.den siteX) = (2 * I : QI) • R.den siteY :=
    R.strAlg.commutator_computed site_valid.2.2 site_valid.1 (by decide +kernel)
  have h2 : bracketOf .commutator (R.den siteZ) (R.den siteY) = (-2 * I : QI) • R.den siteX :=
    R.strAlg.commutator_computed site_valid.2.2 site_valid.2.1 (by decide +kernel)
  rw [ladderXY_den]
  simp only [bracketOf] at h1 h2 ⊢
  rw [mul_comm _ b, mul_comm _ a, mul_smul b, mul_smul a, ← h1, ← h2]
  simp only [mul_add, add_mul, smul_sub, mul_smul_comm, smul_mul_assoc]
  abel

theorem ladderXY_wf (a b : QI) : (ladderXY a b).WF ∧ (∀ s ∈ (ladderXY a b).basis.strs, PauliString Set.univ s ∧ s.Canonical) ∧ (ladderXY a b).basis.strs ≠ [] :=
  ⟨⟨Basis.Inv.ofList (by decide), rfl, show ∀ s ∈ [siteX, siteY], s.opType = .pauli by decide⟩, fun s hs => ⟨ladder_strings.1 s (by simp [ladderXY] at hs ⊢; tauto), ladder_strings.2 s (by simp [ladderXY] at hs ⊢; tauto)⟩,
    show [siteX, siteY] ≠ [] by simp⟩

/-- `(1 + i)(X_1 + i Y_1)` is a ladder operator of `Z_1` -/
theorem ladderXY_ladder [Algebra QI 𝔸] [Nontrivial 𝔸] (R : PauliRep QI 𝔸 Set.univ) : IsLadder (opZ.den R.den) ((ladderXY ⟨1, 1⟩ ⟨-1, 1⟩).den R.den) (2 : QI) := by
  show bracketOf _ _ _ = _
  rw [opZ_den, ladderXY_commutator, ladderXY_den, smul_add, smul_smul, smul_smul]
  rw [show (-2 * I * ⟨-1, 1⟩ : QI) = 2 * ⟨1, 1⟩ by decide +kernel, show (2 * I * ⟨1, 1⟩ : QI) = 2 * ⟨-1, 1⟩ by decide +kernel]

theorem xy_independent [Algebra QI 𝔸] [Nontrivial 𝔸] (R : PauliRep QI 𝔸 Set.univ) {a b : QI} (h : a • R.den siteX + b • R.den siteY = 0) : a = 0 ∧ b = 0 := by
  have := R.strAlg.independent (strs := [siteX, siteY]) (by decide) (fun s hs => ⟨ladder_strings.1 s (by simp at hs ⊢; tauto), ladder_strings.2 s (by simp at hs ⊢; tauto)⟩)
    (w := fun j => [a, b].getD j 0) (by
      show ∑ k : Fin 2, _ = (_ : 𝔸)
      rw [Fin.sum_univ_two]
      exact h)
  exact ⟨this 0 (by decide), this 1 (by decide)⟩

/-- non-vacuity: the inverse of `(1 + i)(X_1 + i Y_1)` over `Z_1` -/
example : ∃ N : QI, 0 < toR N ∧ IsLadder (opZ.den (waveRep QI).den) ((ladderXY ⟨1, 1⟩ ⟨-1, 1⟩).den (waveRep QI).den) N⁻¹ := by
  have h := C87_pauli_partial (waveRep QI) inverseTable_ok (basis := Basis.ofList [siteZ]) (Basis.Inv.ofList (by decide)) (by intro s hs; simp at hs; subst hs; exact site_valid.2.2)
    (ladderXY_wf _ _).1 (fun s hs => ((ladderXY_wf _ _).2.1 s hs).1) (ladderXY_wf _ _).2.2 (by norm_num) inverse_example
  obtain ⟨⟨x, N, h1, h2⟩, -⟩ := h
  have hl : x.length = 1 := h1.len
  match x, hl with
  | [x], _ =>
    have h3 := h2 ⟨fun _ => 1, 2, by decide +kernel, by
      have := ladderXY_ladder (waveRep QI)
      rw [opZ_den] at this
      have e : linComb (waveRep QI).den (Basis.ofList [siteZ]).strs (fun _ => (1 : QI)) = (waveRep QI).den siteZ := by
        show ∑ k : Fin 1, _ = _
        rw [Fin.sum_univ_one]
        exact one_smul _ _
      rw [e]; exact this⟩
    refine ⟨N, h3.2 ?_ ?_⟩
    · have := h1.terms
      intro a ha
      simp only [List.mem_singleton] at ha
      subst ha
      by_contra hc
      push Not at hc
      have h4 : opZ.terms = [] := by
        rw [this]
        show List.map _ (List.filter _ [(a, siteZ)]) = []
        rw [List.filter_cons, if_neg (by simpa using hc.2)]
        rfl
      exact absurd h4 (by decide +kernel)
    · rw [ladderXY_den]
      intro h0
      exact absurd (xy_independent (waveRep QI) h0).1 (by decide +kernel)

/-- non-vacuity of `C87_vectors_pauli_partial`: the vector of the inverse of `(1 + i)(X_1 + i Y_1)` over `Z_1` -/
example : ∃ δ : QI, inverseLadderVectors inverseTable (Basis.ofList [siteZ]) (ladderXY ⟨1, 1⟩ ⟨-1, 1⟩) = .ok (some [1], []) ∧ 0 < toR δ ∧
    IsLadder (opZ.den (waveRep QI).den) ((ladderXY ⟨1, 1⟩ ⟨-1, 1⟩).den (waveRep QI).den) δ := by
  have h : inverseLadderVectors inverseTable (Basis.ofList [siteZ]) (ladderXY ⟨1, 1⟩ ⟨-1, 1⟩) = .ok (some [1], []) := by decide +kernel
  have e : linComb (waveRep QI).den (Basis.ofList [siteZ]).strs (fun _ => (1 : QI)) = opZ.den (waveRep QI).den := by
    rw [opZ_den]
    show ∑ k : Fin 1, _ = _
    rw [Fin.sum_univ_one]
    exact one_smul _ _
  have e' : linComb (waveRep QI).den (Basis.ofList [siteZ]).strs (fun j => [(1 : QI)].getD j 0) = opZ.den (waveRep QI).den := by
    rw [← e]
    exact linComb_congr' _ fun i hi => by
      have : i = 0 := by simpa using hi
      subst this; rfl
  obtain ⟨δ, -, h1, h2⟩ := ((C87_vectors_pauli_partial (waveRep QI) inverseTable_ok (by intro s hs; simp at hs; subst hs; exact site_valid.2.2)
    (ladderXY_wf _ _).1 (ladderXY_wf _ _).2.1 (ladderXY_wf _ _).2.2 (by norm_num) h).1 _ rfl).2.2
    ⟨fun _ => 1, 2, by decide +kernel, by rw [e]; exact ladderXY_ladder _⟩ (by
      rw [ladderXY_den]
      intro h0
      exact absurd (xy_independent (waveRep QI) h0).1 (by decide +kernel))
  rw [e'] at h2
  exact ⟨δ, h, h1, h2⟩

/-- non-vacuity: no operator over `X_2` has `(1 + i)(X_1 + i Y_1)` as a ladder operator -/
example : ∃ nulls, inverseLadderOperators inverseTable (Basis.ofList [siteX2]) (ladderXY ⟨1, 1⟩ ⟨-1, 1⟩) = .ok (.missing nulls) ∧
    ¬ ∃ (w : ℕ → QI) (δ : QI), δ ≠ 0 ∧ IsLadder (linComb (waveRep QI).den [siteX2] w) ((ladderXY ⟨1, 1⟩ ⟨-1, 1⟩).den (waveRep QI).den) δ := by
  have h : inverseLadderOperators inverseTable (Basis.ofList [siteX2]) (ladderXY ⟨1, 1⟩ ⟨-1, 1⟩) = .ok (.missing []) := by decide +kernel
  refine ⟨_, h, (C87_missing_pauli (waveRep QI) inverseTable_ok (fun s hs => ladder_strings.1 s (by simp at hs ⊢; tauto)) (ladderXY_wf _ _).1 (ladderXY_wf _ _).2.1 (by norm_num) h).1
    (show ∀ a ∈ [_, _], _ by decide +kernel)⟩

/-- non-vacuity: these routines raise an exception for a matrix they do not know -/
example : inverseLadderOperators inverseTable (Basis.ofList [siteZ]) (ladderXY 1 1) = .error .valueError := by decide +kernel

/-- **C87 refuted** (ladder operators without inverse): the particular solution is not checked.  For `3 X_1 + 4i Y_1` over `Z_1` the function returns `Z_1`, although
`[Z_1, 3 X_1 + 4i Y_1] = 8 X_1 + 6i Y_1`; for `3 X_1 + 4 Y_1` it returns an operator without terms. -/
theorem C87_refuted [Algebra QI 𝔸] [Nontrivial 𝔸] (R : PauliRep QI 𝔸 Set.univ) : IsLadderNumerics inverseTable ∧
    (inverseLadderOperators inverseTable (Basis.ofList [siteZ]) (ladderXY 3 ⟨0, 4⟩) = .ok (.found opZ []) ∧
      ∀ δ : QI, ¬ IsLadder (opZ.den R.den) ((ladderXY 3 ⟨0, 4⟩).den R.den) δ) ∧
    inverseLadderOperators inverseTable (Basis.ofList [siteZ]) (ladderXY 3 4) = .ok (.found ⟨[], Basis.ofList [], .pauli⟩ []) := by
  refine ⟨inverseTable_ok, ⟨by decide +kernel, fun δ h => ?_⟩, by decide +kernel⟩
  have h' : bracketOf _ _ _ = _ := h
  rw [opZ_den, ladderXY_commutator, ladderXY_den, smul_add, smul_smul, smul_smul] at h'
  obtain ⟨k1, k2⟩ := xy_independent R (a := -2 * I * ⟨0, 4⟩ - δ * 3) (b := 2 * I * 3 - δ * ⟨0, 4⟩) (by
    rw [sub_smul, sub_smul, sub_add_sub_comm, h', sub_self])
  have e : δ = ⟨8 / 3, 0⟩ := by
    have : δ * 3 = -2 * I * ⟨0, 4⟩ := (sub_eq_zero.mp k1).symm
    rw [← mul_div_cancel_right₀ δ (show (3 : QI) ≠ 0 by decide +kernel), this]
    decide +kernel
  subst e
  exact absurd k2 (by decide +kernel)

/-- `Z_1, Z_2, Z_3, Z_4` -/
def fourZ : List OpString := [siteZ, site .Z 2, site .Z 3, site .Z 4]

theorem fourZ_strings : ∀ s ∈ fourZ, PauliString Set.univ s ∧ s.Canonical := by
  intro s hs
  simp only [fourZ, List.mem_cons, List.not_mem_nil, or_false] at hs
  rcases hs with rfl | rfl | rfl | rfl <;> exact ⟨⟨rfl, by decide, rfl, by decide, by simp, by decide⟩, by decide, by decide⟩

/-- **C87 refuted** (null operators): `Z_2`, `Z_3` and `Z_4` commute with `(1 + i)(X_1 + i Y_1)`, but over the basis `Z_1, Z_2, Z_3, Z_4` the function never returns more than two null
operators, whatever the numerical routines do, so one of the three is no combination of them: `nla.svd` has as many singular values as the smaller dimension, and the
right vectors beyond them are not looked at. -/
theorem C87_refuted_null [Algebra QI 𝔸] [Nontrivial 𝔸] (R : PauliRep QI 𝔸 Set.univ) :
    (∀ s ∈ [site .Z 2, site .Z 3, site .Z 4], bracketOf .commutator (R.den s) ((ladderXY ⟨1, 1⟩ ⟨-1, 1⟩).den R.den) = 0) ∧
    (∀ (num : LadderNumerics QI) (sparsification : Bool) (tol : ℚ) (inverse : Operator QI) (nulls : List (Operator QI)), IsLadderNumerics num →
      inverseLadderOperators num (Basis.ofList fourZ) (ladderXY ⟨1, 1⟩ ⟨-1, 1⟩) sparsification tol = .ok (.found inverse nulls) →
      ∃ s ∈ [site .Z 2, site .Z 3, site .Z 4], R.den s ∉ Submodule.span QI {b | ∃ B ∈ nulls, b = B.den R.den}) ∧
    IsLadderNumerics inverseTable ∧ inverseLadderOperators inverseTable (Basis.ofList fourZ) (ladderXY ⟨1, 1⟩ ⟨-1, 1⟩) =
      .ok (.found opZ [⟨[0, 1, 0, 0], Basis.ofList fourZ, .pauli⟩]) := by
  refine ⟨?_, ?_, inverseTable_ok, by decide +kernel⟩
  · intro s hs
    have key : ∀ t ∈ [siteX, siteY], bracketOf .commutator (R.den s) (R.den t) = 0 := by
      intro t ht
      rcases R.strAlg.op_string .commutator (fourZ_strings s (List.mem_cons_of_mem _ hs)).1 (ladder_strings.1 t (by simp at ht ⊢; tauto)) with ⟨-, h2⟩ | ⟨c, C, h1, -⟩
      · exact h2
      · exfalso
        have : ∀ s ∈ [site .Z 2, site .Z 3, site .Z 4], ∀ t ∈ [siteX, siteY], (operationOpString .commutator s t : Py (QI × _)) = .ok (0, none) := by decide +kernel
        rw [this s hs t ht] at h1
        cases h1
    have k1 := key siteX (by simp)
    have k2 := key siteY (by simp)
    rw [ladderXY_den]
    simp only [bracketOf] at k1 k2 ⊢
    rw [mul_add, add_mul, mul_smul_comm, mul_smul_comm, smul_mul_assoc, smul_mul_assoc, add_sub_add_comm, ← smul_sub, ← smul_sub, k1, k2, smul_zero, smul_zero, add_zero]
  · intro num sp tol inverse nulls hnum h
    have hlen : nulls.length ≤ 2 := by
      unfold inverseLadderOperators at h
      have e1 : liouvillianStrings (Basis.ofList fourZ) (ladderXY ⟨1, 1⟩ ⟨-1, 1⟩) .commutator = .ok (wideMat, Basis.ofList [siteY, siteX]) := by decide +kernel
      rw [e1] at h
      obtain ⟨null, k1, h⟩ := py_bind_ok (show inverseNull num wideMat sp tol >>= _ = _ from h)
      split at h
      · obtain ⟨op, -, h⟩ := py_bind_ok h
        obtain ⟨ops, k2, h⟩ := py_bind_ok h
        cases h
        have l1 : nulls.length = null.length := (mapM_ok_inv k2).length_eq.symm
        have l2 : null.length ≤ 2 := by
          unfold inverseNull at k1
          obtain ⟨r, hr, k3⟩ := py_bind_ok k1
          have hs := hnum.svd _ _ hr
          have l3 : (nullVectors tol r).length ≤ 2 := by
            have h4 : r.1.length = 2 := hs.lenS
            rw [← h4]
            unfold nullVectors
            rw [List.length_map]
            refine (List.length_filter_le _ _).trans ?_
            rw [List.length_zip]; exact min_le_left _ _
          cases sp with
          | false =>
            simp only [Bool.false_eq_true, if_false, Except.ok.injEq] at k3
            subst k3
            exact l3
          | true =>
            simp only [if_true] at k3
            rw [(hnum.sparsify _ _ _ (nullVectors_ortho hs.ortho) k3).1]
            exact l3
        omega
      · cases h
    classical
    by_contra hc
    push Not at hc
    have hind : LinearIndependent QI (fun k : Fin 3 => R.den ([site .Z 2, site .Z 3, site .Z 4][k])) := by
      rw [Fintype.linearIndependent_iff]
      intro g hg i
      have := R.strAlg.independent (strs := [site .Z 2, site .Z 3, site .Z 4]) (by decide) (fun s hs => fourZ_strings s (List.mem_cons_of_mem _ hs))
        (w := fun j => if h : j < 3 then g ⟨j, h⟩ else 0) (by
          rw [← hg, linComb]
          exact Finset.sum_congr rfl fun k _ => by rw [dif_pos (show (k : ℕ) < 3 from k.2)]; rfl) i i.2
      simpa using this
    have hset : {b | ∃ B ∈ nulls, b = B.den R.den} = ((nulls.map (fun B => B.den R.den)).toFinset : Set 𝔸) := by
      ext b
      simp [eq_comm]
    rw [hset] at hc
    have := linearIndependent_le_span' _ hind _ (by
      rintro _ ⟨k, rfl⟩
      exact hc _ (List.getElem_mem _))
    have h3 : 3 ≤ (nulls.map (fun B => B.den R.den)).toFinset.card := by simpa using this
    have h4 := (List.toFinset_card_le (nulls.map (fun B => B.den R.den)))
    rw [List.length_map] at h4
    omega

end Qosy
