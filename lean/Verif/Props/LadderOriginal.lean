import Verif.Lemmas.LadderOriginal
import Verif.Lemmas.OriginalTable
import Verif.Props.Ladder

/-!
# Property C104: `_ladder_operators_original`

`IsOriginalNumerics` is the contract of the numerical routines, `OrthogonalEig` the assumption that `nla.eig` returns orthogonal eigenvectors of Hermitian matrices, which it
does not guarantee for degenerate eigenvalues.
-/

namespace Qosy
open Coef RealOps
variable {K : Type} [Field K] [StarRing K] [Coef K] [RealCoef K]
variable {𝔸 : Type} [Ring 𝔸] [Algebra K 𝔸] {S : Set ℤ}

/-- **C104** (Pauli strings, closed bases): if no commutator of a string of the basis with a term of `O` leads out of the basis and `nla.eig` returns orthogonal eigenvectors, the
operators `_ladder_operators_original` returns are normalised ladder operators of `O` over the basis, each with its value, which is larger than the tolerance; with
sparsification they are sorted by these values, without it they are orthogonal; and every ladder operator over the basis with a value above the tolerance is a combination of
those with this value.  Missing: bases that are not closed (`C104_refuted`) and eigenvectors that are not orthogonal (`C104_refuted_values`). -/
theorem C104_pauli_partial [Nontrivial 𝔸] (R : PauliRep K 𝔸 S) {num : OriginalNumerics K} (hnum : IsOriginalNumerics num) (horth : OrthogonalEig num) {basis : Basis} (hb : basis.Inv)
    (hs : ∀ s ∈ basis.strs, PauliString S s ∧ s.Canonical) {O : Operator K} (hO : O.WF) (hOs : ∀ s ∈ O.basis.strs, PauliString S s) (hr : ∀ x ∈ O.coeffs, IsReal x)
    (hcl : ClosedUnder (PauliString S) R.den basis.strs O) {sparsification : Bool} (hsp : sparsification = true → WellSeparated (K := K) R.den basis.strs (O.den R.den)) {tol : ℚ} (htol : 0 < tol)
    {ops : List (Operator K)} {evals : List K} (h : ladderOperatorsOriginal num basis O sparsification tol = .ok (ops, evals)) :
    List.Forall₂ (fun A δ => UnitOver basis.strs A ∧ IsReal δ ∧ (tol : ℝ) < toR δ ∧ IsLadder (O.den R.den) (A.den R.den) δ) ops evals ∧
      (sparsification = true → evals.Pairwise (fun x y => ‖toC x‖ ≤ ‖toC y‖)) ∧ (sparsification = false → ops.Pairwise (OrthogonalOver basis.strs)) ∧
      ∀ (w : ℕ → K) (δ : K), IsReal δ → (tol : ℝ) < toR δ → IsLadder (O.den R.den) (linComb R.den basis.strs w) δ → linComb R.den basis.strs w ∈ ladderSpan R.den ops evals δ :=
  ladderOriginal_closed R.strAlg hnum horth hb hs hO hOs hr hcl hsp htol h

/-- **C104** (Majorana strings, closed bases) -/
theorem C104_majorana_partial [Nontrivial 𝔸] (R : MajoranaRep K 𝔸 S) {num : OriginalNumerics K} (hnum : IsOriginalNumerics num) (horth : OrthogonalEig num) {basis : Basis} (hb : basis.Inv)
    (hs : ∀ s ∈ basis.strs, MajoranaString S s ∧ s.Canonical) {O : Operator K} (hO : O.WF) (hOs : ∀ s ∈ O.basis.strs, MajoranaString S s) (hr : ∀ x ∈ O.coeffs, IsReal x)
    (hcl : ClosedUnder (MajoranaString S) R.den basis.strs O) {sparsification : Bool} (hsp : sparsification = true → WellSeparated (K := K) R.den basis.strs (O.den R.den)) {tol : ℚ} (htol : 0 < tol)
    {ops : List (Operator K)} {evals : List K} (h : ladderOperatorsOriginal num basis O sparsification tol = .ok (ops, evals)) :
    List.Forall₂ (fun A δ => UnitOver basis.strs A ∧ IsReal δ ∧ (tol : ℝ) < toR δ ∧ IsLadder (O.den R.den) (A.den R.den) δ) ops evals ∧
      (sparsification = true → evals.Pairwise (fun x y => ‖toC x‖ ≤ ‖toC y‖)) ∧ (sparsification = false → ops.Pairwise (OrthogonalOver basis.strs)) ∧
      ∀ (w : ℕ → K) (δ : K), IsReal δ → (tol : ℝ) < toR δ → IsLadder (O.den R.den) (linComb R.den basis.strs w) δ → linComb R.den basis.strs w ∈ ladderSpan R.den ops evals δ :=
  ladderOriginal_closed R.strAlg hnum horth hb hs hO hOs hr hcl hsp htol h

/-- **C104** (exceptions, Pauli strings): an exception is one of a numerical routine; in particular the assertion that the projected matrix is Hermitian holds. -/
theorem C104_exceptions_pauli [Nontrivial 𝔸] (R : PauliRep K 𝔸 S) {num : OriginalNumerics K} (hnum : IsOriginalNumerics num) (horth : OrthogonalEig num) {basis : Basis} (hb : basis.Inv)
    (hs : ∀ s ∈ basis.strs, PauliString S s ∧ s.Canonical) {O : Operator K} (hO : O.WF) (hOs : ∀ s ∈ O.basis.strs, PauliString S s) (hr : ∀ x ∈ O.coeffs, IsReal x)
    (hcl : ClosedUnder (PauliString S) R.den basis.strs O) {sparsification : Bool} {tol : ℚ} (htol : 0 < tol) {e : PyErr}
    (h : ladderOperatorsOriginal num basis O sparsification tol = .error e) :
    (∃ M, num.eig M = .error e) ∨ (∃ M, num.eigh M = .error e) ∨ (∃ x, num.sqrt x = .error e) ∨ ∃ l, num.sparsify l = .error e :=
  ladderOriginal_err R.strAlg hnum horth hb hs hO hOs hr hcl htol h

/-- **C104** (exceptions, Majorana strings) -/
theorem C104_exceptions_majorana [Nontrivial 𝔸] (R : MajoranaRep K 𝔸 S) {num : OriginalNumerics K} (hnum : IsOriginalNumerics num) (horth : OrthogonalEig num) {basis : Basis} (hb : basis.Inv)
    (hs : ∀ s ∈ basis.strs, MajoranaString S s ∧ s.Canonical) {O : Operator K} (hO : O.WF) (hOs : ∀ s ∈ O.basis.strs, MajoranaString S s) (hr : ∀ x ∈ O.coeffs, IsReal x)
    (hcl : ClosedUnder (MajoranaString S) R.den basis.strs O) {sparsification : Bool} {tol : ℚ} (htol : 0 < tol) {e : PyErr}
    (h : ladderOperatorsOriginal num basis O sparsification tol = .error e) :
    (∃ M, num.eig M = .error e) ∨ (∃ M, num.eigh M = .error e) ∨ (∃ x, num.sqrt x = .error e) ∨ ∃ l, num.sparsify l = .error e :=
  ladderOriginal_err R.strAlg hnum horth hb hs hO hOs hr hcl htol h

/-! ### examples -/

def siteY2 : OpString := ⟨[.Y], [2], .pauli, .float1⟩
def strZZ12 : OpString := ⟨[.Z, .Z], [1, 2], .pauli, .float1⟩
def strYZ12 : OpString := ⟨[.Y, .Z], [1, 2], .pauli, .float1⟩
def strXZ12 : OpString := ⟨[.X, .Z], [1, 2], .pauli, .float1⟩

theorem original_strings : ∀ s ∈ [siteX, siteY, siteZ, siteX2, siteY2, ladderZ2, strZZ12, strYZ12, strXZ12], PauliString Set.univ s ∧ s.Canonical := by
  intro s hs
  simp only [List.mem_cons, List.not_mem_nil, or_false] at hs
  rcases hs with rfl | rfl | rfl | rfl | rfl | rfl | rfl | rfl | rfl <;> exact ⟨⟨rfl, by decide, rfl, by decide, by simp, by decide⟩, by decide, by decide⟩

/-- the routines for `Z_1` over `X_1, Y_1` -/
def singleTable : OriginalNumerics QI := originalTable [(⟨1, 1, [(0, 0, 0)]⟩, ([0], [[1]]))]
  [(⟨2, 2, [(1, 0, ⟨0, 2⟩), (0, 1, ⟨0, -2⟩)]⟩, ([2, -2], [[⟨1 / 2, 1 / 2⟩, ⟨-1 / 2, 1 / 2⟩], [⟨1 / 2, 1 / 2⟩, ⟨1 / 2, -1 / 2⟩]])), (⟨1, 1, [(0, 0, 2)]⟩, ([2], [[1]]))]

theorem singleTable_ok : IsOriginalNumerics singleTable ∧ OrthogonalEig singleTable := by
  refine ⟨originalTable_ok (by decide +kernel) ?_, originalTable_orthogonal (by decide +kernel)⟩
  intro e he
  simp only [List.mem_cons, List.not_mem_nil, or_false] at he
  rcases he with rfl | rfl
  · exact ⟨[[⟨1 / 2, -1 / 2⟩, ⟨-1 / 2, -1 / 2⟩], [⟨1 / 2, -1 / 2⟩, ⟨1 / 2, 1 / 2⟩]], by decide +kernel⟩
  · exact ⟨[[1]], by decide +kernel⟩

theorem original_closed_example : ladderOperatorsOriginal singleTable (Basis.ofList [siteX, siteY]) opZ = .ok ([raisingXY], [2]) := by decide +kernel

/-- non-vacuity: the ladder operator of `Z_1` over `X_1, Y_1`, and all ladder operators are multiples of it -/
example : IsLadder (opZ.den (waveRep QI).den) (raisingXY.den (waveRep QI).den) (2 : QI) ∧ UnitOver [siteX, siteY] raisingXY ∧
    ∀ (w : ℕ → QI), IsLadder (opZ.den (waveRep QI).den) (linComb (waveRep QI).den [siteX, siteY] w) (2 : QI) →
      linComb (waveRep QI).den [siteX, siteY] w ∈ ladderSpan (waveRep QI).den [raisingXY] [2] (2 : QI) := by
  have h := C104_pauli_partial (waveRep QI) singleTable_ok.1 singleTable_ok.2 (basis := Basis.ofList [siteX, siteY]) (Basis.Inv.ofList (by decide))
    (fun s hs => original_strings s (by simp at hs ⊢; tauto)) (O := opZ) opZ_wf.1 opZ_wf.2.1 opZ_wf.2.2
    (closed_of_check (waveRep QI).strAlg (fun s hs => (original_strings s (by simp at hs ⊢; tauto)).1) (by intro s hs; simp [opZ, Operator.termStrs, Operator.terms] at hs; subst hs; exact site_valid.2.2)
      (by decide +kernel)) (sparsification := false) (by simp) (by norm_num) original_closed_example
  obtain ⟨h1, -, -, h2⟩ := h
  cases h1 with
  | cons h1 _ => exact ⟨h1.2.2.2, h1.1, fun w hw => h2 w 2 (by decide +kernel) h1.2.2.1 hw⟩

/-- non-vacuity: the routines of this example raise an exception for a matrix they do not know -/
example : ∃ e, ladderOperatorsOriginal singleTable (Basis.ofList [siteY, siteX]) opZ = .error e := ⟨.valueError, by decide +kernel⟩

/-! ### refutations -/

/-- `2 Z_1 + Z_1 Z_2` -/
def opZZZ : Operator QI := ⟨[2, 1], Basis.ofList [siteZ, strZZ12], .pauli⟩

/-- `[2 Z_1 + Z_1 Z_2, ·]` on `X_1, Y_1, Y_1 Z_2, X_1 Z_2` -/
def mixedMat : Mat QI := ⟨4, 4, [(1, 0, ⟨0, 4⟩), (0, 1, ⟨0, -4⟩), (3, 2, ⟨0, -4⟩), (2, 3, ⟨0, 4⟩), (2, 0, ⟨0, 2⟩), (3, 1, ⟨0, -2⟩), (0, 2, ⟨0, -2⟩), (1, 3, ⟨0, 2⟩)]⟩

def mixedTable : OriginalNumerics QI := originalTable
  [(⟨2, 2, [(0, 0, 1 / 2), (0, 1, ⟨0, -1 / 2⟩), (1, 0, ⟨0, 1 / 2⟩), (1, 1, 1 / 2)]⟩, ([0, 1], [[⟨-1 / 2, 1 / 2⟩, ⟨1 / 2, 1 / 2⟩], [⟨1 / 2, -1 / 2⟩, ⟨1 / 2, 1 / 2⟩]]))]
  [(mixedMat, ([6, 2, -6, -2], [[1 / 2, ⟨0, 1 / 2⟩, ⟨0, 1 / 2⟩, 1 / 2], [⟨0, 1 / 2⟩, -1 / 2, 1 / 2, ⟨0, -1 / 2⟩], [1 / 2, ⟨0, -1 / 2⟩, ⟨0, -1 / 2⟩, 1 / 2],
    [1 / 2, ⟨0, -1 / 2⟩, ⟨0, 1 / 2⟩, -1 / 2]])), (⟨1, 1, [(0, 0, 4)]⟩, ([4], [[1]]))]

theorem mixedTable_ok : IsOriginalNumerics mixedTable ∧ OrthogonalEig mixedTable := by
  refine ⟨originalTable_ok (by decide +kernel) ?_, originalTable_orthogonal (by decide +kernel)⟩
  intro e he
  simp only [List.mem_cons, List.not_mem_nil, or_false] at he
  rcases he with rfl | rfl
  · exact ⟨[[1 / 2, ⟨0, -1 / 2⟩, ⟨0, -1 / 2⟩, 1 / 2], [⟨0, -1 / 2⟩, -1 / 2, 1 / 2, ⟨0, 1 / 2⟩], [1 / 2, ⟨0, 1 / 2⟩, ⟨0, 1 / 2⟩, 1 / 2], [1 / 2, ⟨0, 1 / 2⟩, ⟨0, -1 / 2⟩, -1 / 2]], by decide +kernel⟩
  · exact ⟨[[1]], by decide +kernel⟩

/-- `(-1 + i)/2 (X_1 + i Y_1)` -/
def raisingMixed : Operator QI := ⟨[⟨-1 / 2, 1 / 2⟩, ⟨-1 / 2, -1 / 2⟩, 0, 0], Basis.ofList [siteX, siteY, strYZ12, strXZ12], .pauli⟩

theorem original_open_example : ladderOperatorsOriginal mixedTable (Basis.ofList [siteX, siteY]) opZZZ = .ok ([raisingMixed], [4]) := by decide +kernel

/-- **C104 refuted** (bases that are not closed): `_ladder_operators_original` returns `R = (-1 + i)/2 (X_1 + i Y_1)` with value 4 for `O = 2 Z_1 + Z_1 Z_2` over the basis
`X_1, Y_1`, but `[O, R]` is no multiple of `R`: the function combines ladder operators with the values 6 and 2 such that the strings outside the basis cancel.  The
numerical routines are exact and return orthogonal eigenvectors. -/
theorem C104_refuted [Algebra QI 𝔸] [Nontrivial 𝔸] (R : PauliRep QI 𝔸 Set.univ) : IsOriginalNumerics mixedTable ∧ OrthogonalEig mixedTable ∧ ∃ A,
    ladderOperatorsOriginal mixedTable (Basis.ofList [siteX, siteY]) opZZZ = .ok ([A], [4]) ∧ ∀ δ : QI, ¬ IsLadder (opZZZ.den R.den) (A.den R.den) δ := by
  refine ⟨mixedTable_ok.1, mixedTable_ok.2, raisingMixed, original_open_example, fun δ h => ?_⟩
  rw [show raisingMixed.den R.den = vecOp R.den (Basis.ofList [siteX, siteY, strYZ12, strXZ12]) raisingMixed.coeffs from den_vecOp rfl rfl rfl _] at h
  have h1 := ladder_eigen R.strAlg (A := Basis.ofList [siteX, siteY, strYZ12, strXZ12]) (Basis.Inv.ofList (by decide))
    (fun s hs => original_strings s (by simp at hs ⊢; tauto)) (O := opZZZ) ⟨Basis.Inv.ofList (by decide), rfl, by decide⟩
    (fun s hs => (original_strings s (by simp [opZZZ] at hs ⊢; tauto)).1) (by decide +kernel)
    (closed_of_check R.strAlg (fun s hs => (original_strings s (by simp at hs ⊢; tauto)).1)
      (by intro s hs; exact (original_strings s (by simp [opZZZ, Operator.termStrs, Operator.terms] at hs ⊢; tauto)).1) (by decide +kernel))
    (L := mixedMat) (by decide +kernel) h (i := 2) (by decide)
  have h2 : (∑ j : Fin 4, mixedMat.get 2 j * raisingMixed.coeffs.getD j 0) = ⟨-1, -1⟩ := by decide +kernel
  replace h1 := h2.symm.trans h1
  simp only [raisingMixed, List.getD_eq_getElem?_getD, List.getElem?_cons_succ, List.getElem?_cons_zero, Option.getD_some, mul_zero] at h1
  exact absurd h1 (by decide +kernel)

/-- `[Z_1 + Z_2, ·]` on `X_1, Y_1, X_2, Y_2` -/
def twoSiteMat : Mat QI := ⟨4, 4, [(1, 0, ⟨0, 2⟩), (0, 1, ⟨0, -2⟩), (3, 2, ⟨0, 2⟩), (2, 3, ⟨0, -2⟩)]⟩

def obliqueTable : OriginalNumerics QI := originalTable
  [(⟨2, 2, [(0, 0, 0), (0, 1, 0), (1, 0, 0), (1, 1, 0)]⟩, ([0, 0], [[1, 0], [0, 1]]))]
  [(twoSiteMat, ([2, 2, -2, -2], [[⟨1 / 2, 1 / 2⟩, ⟨-1 / 2, 1 / 2⟩, 0, 0], [⟨3 / 10, 3 / 10⟩, ⟨-3 / 10, 3 / 10⟩, ⟨2 / 5, 2 / 5⟩, ⟨-2 / 5, 2 / 5⟩], [⟨1 / 2, 1 / 2⟩, ⟨1 / 2, -1 / 2⟩, 0, 0], [0, 0, ⟨1 / 2, 1 / 2⟩, ⟨1 / 2, -1 / 2⟩]])),
    (⟨2, 2, [(0, 0, 2), (0, 1, 6 / 5), (1, 0, 6 / 5), (1, 1, 2)]⟩, ([16 / 5, 4 / 5], [[⟨1 / 2, 1 / 2⟩, ⟨1 / 2, 1 / 2⟩], [⟨1 / 2, 1 / 2⟩, ⟨-1 / 2, -1 / 2⟩]]))]

theorem obliqueTable_ok : IsOriginalNumerics obliqueTable := by
  refine originalTable_ok (by decide +kernel) ?_
  intro e he
  simp only [List.mem_cons, List.not_mem_nil, or_false] at he
  rcases he with rfl | rfl
  · exact ⟨[[⟨1 / 2, -1 / 2⟩, ⟨-1 / 2, -1 / 2⟩, ⟨-3 / 8, 3 / 8⟩, ⟨3 / 8, 3 / 8⟩], [0, 0, ⟨5 / 8, -5 / 8⟩, ⟨-5 / 8, -5 / 8⟩], [⟨1 / 2, -1 / 2⟩, ⟨1 / 2, 1 / 2⟩, 0, 0], [0, 0, ⟨1 / 2, -1 / 2⟩, ⟨1 / 2, 1 / 2⟩]], by decide +kernel⟩
  · exact ⟨[[⟨1 / 2, -1 / 2⟩, ⟨1 / 2, -1 / 2⟩], [⟨1 / 2, -1 / 2⟩, ⟨-1 / 2, 1 / 2⟩]], by decide +kernel⟩

/-- `4i/5 (X_1 + i Y_1) + 2i/5 (X_2 + i Y_2)` -/
def raisingOblique : Operator QI := ⟨[⟨0, 4 / 5⟩, -4 / 5, ⟨0, 2 / 5⟩, -2 / 5], Basis.ofList [siteX, siteY, siteX2, siteY2], .pauli⟩
def raisingOblique2 : Operator QI := ⟨[⟨0, 1 / 5⟩, -1 / 5, ⟨0, -2 / 5⟩, 2 / 5], Basis.ofList [siteX, siteY, siteX2, siteY2], .pauli⟩

theorem original_oblique_example :
    ladderOperatorsOriginal obliqueTable (Basis.ofList [siteX, siteY, siteX2, siteY2]) opZ1Z2 = .ok ([raisingOblique, raisingOblique2], [16 / 5, 4 / 5]) := by decide +kernel

/-- **C104 refuted** (values): for `O = Z_1 + Z_2` over the closed basis `X_1, Y_1, X_2, Y_2` the eigenvalue 2 is degenerate.  If `nla.eig` returns eigenvectors for it that are
normalised and independent but not orthogonal, the function returns operators with the values 16/5 and 4/5, and neither value is right. -/
theorem C104_refuted_values [Algebra QI 𝔸] [Nontrivial 𝔸] (R : PauliRep QI 𝔸 Set.univ) : IsOriginalNumerics obliqueTable ∧ ∃ A B,
    ladderOperatorsOriginal obliqueTable (Basis.ofList [siteX, siteY, siteX2, siteY2]) opZ1Z2 = .ok ([A, B], [16 / 5, 4 / 5]) ∧
      ¬ IsLadder (opZ1Z2.den R.den) (A.den R.den) (16 / 5 : QI) ∧ ¬ IsLadder (opZ1Z2.den R.den) (B.den R.den) (4 / 5 : QI) := by
  have key : ∀ (v : List QI) (δ : QI), IsLadder (opZ1Z2.den R.den) (vecOp R.den (Basis.ofList [siteX, siteY, siteX2, siteY2]) v) δ →
      ∑ j : Fin 4, twoSiteMat.get 0 j * v.getD j 0 = δ * v.getD 0 0 := fun v δ h =>
    ladder_eigen R.strAlg (A := Basis.ofList [siteX, siteY, siteX2, siteY2]) (Basis.Inv.ofList (by decide))
      (fun s hs => original_strings s (by simp at hs ⊢; tauto)) (O := opZ1Z2) ⟨Basis.Inv.ofList (by decide), rfl, by decide⟩
      (fun s hs => (original_strings s (by simp [opZ1Z2] at hs ⊢; tauto)).1) (by decide +kernel)
      (closed_of_check R.strAlg (fun s hs => (original_strings s (by simp at hs ⊢; tauto)).1)
        (by intro s hs; exact (original_strings s (by simp [opZ1Z2, Operator.termStrs, Operator.terms] at hs ⊢; tauto)).1) (by decide +kernel))
      (L := twoSiteMat) (by decide +kernel) h (i := 0) (by decide)
  refine ⟨obliqueTable_ok, raisingOblique, raisingOblique2, original_oblique_example, fun h => ?_, fun h => ?_⟩
  · rw [show raisingOblique.den R.den = vecOp R.den (Basis.ofList [siteX, siteY, siteX2, siteY2]) raisingOblique.coeffs from den_vecOp rfl rfl rfl _] at h
    exact absurd (key _ _ h) (by decide +kernel)
  · rw [show raisingOblique2.den R.den = vecOp R.den (Basis.ofList [siteX, siteY, siteX2, siteY2]) raisingOblique2.coeffs from den_vecOp rfl rfl rfl _] at h
    exact absurd (key _ _ h) (by decide +kernel)

end Qosy
