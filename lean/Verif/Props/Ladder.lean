import Verif.Lemmas.LadderOps
import Verif.Lemmas.LadderTable
import Verif.Props.ManyOps

/-!
# Property C86: `_ladder_operators`

`IsLadderNumerics` is the contract of the numerical routines: whatever they return is right (they may raise exceptions).
-/

namespace Qosy
open Coef RealOps
variable {K : Type} [Field K] [StarRing K] [Coef K] [RealCoef K]
variable {𝔸 : Type} [Ring 𝔸] [Algebra K 𝔸] {S : Set ℤ}

theorem ladderOperators_closed [Nontrivial 𝔸] (R : StrAlg K 𝔸) {num : LadderNumerics K} (hnum : IsLadderNumerics num) {A : Basis} (hA : A.Inv) (hs : ∀ s ∈ A.strs, R.Str s ∧ s.Canonical)
    {O : Operator K} (hO : O.WF) (hOs : ∀ s ∈ O.basis.strs, R.Str s) (hr : ∀ x ∈ O.coeffs, IsReal x) (hcl : ClosedUnder R.Str R.den A.strs O) {sp : Bool}
    (hsp : sp = true → WellSeparated (K := K) R.den A.strs (O.den R.den)) {tol : ℚ} (htol : 0 < tol) {ops : List (Operator K)} {evals : List K}
    (h : ladderOperators num A O sp tol = .ok (ops, evals)) :
    List.Forall₂ (fun B δ => UnitOver A.strs B ∧ IsReal δ ∧ (tol : ℝ) < toR δ ∧ IsLadder (O.den R.den) (B.den R.den) δ) ops evals ∧
      evals.Pairwise (fun x y => ‖toC x‖ ≤ ‖toC y‖) ∧ (sp = false → ops.Pairwise (OrthogonalOver A.strs)) ∧
      ∀ (w : ℕ → K) (δ : K), IsReal δ → (tol : ℝ) < toR δ → IsLadder (O.den R.den) (linComb R.den A.strs w) δ → linComb R.den A.strs w ∈ ladderSpan R.den ops evals δ := by
  obtain ⟨l, h1, rfl, h2⟩ := ladderOperators_inv h
  obtain ⟨g1, g2, g3, g4⟩ := ladderVectors_closed R hnum hA hs hO hOs hr hcl hsp htol h1
  refine ⟨forall₂_evals h2 fun e he o e1 e2 => ?_, g2, fun hf => ?_, fun w δ a b c => pairSpan_le_ladderSpan (fun e he => (g1 e he).dim) h2 δ (g4 w δ a b c)⟩
  · have g := g1 e he
    refine ⟨⟨e2, by rw [e1]; exact g.dim, by rw [e1]; exact g.unit⟩, g.real, g.pos, ?_⟩
    rw [den_vecOp e1 e2 g.dim]; exact g.ladder
  · have := (g3 hf).orthogonal
    rw [← forall₂_coeffs h2, List.pairwise_map] at this
    exact this

theorem ladderOperators_open [Nontrivial 𝔸] (R : StrAlg K 𝔸) {num : LadderNumerics K} (hnum : IsLadderNumerics num) {A : Basis} (hA : A.Inv) (hs : ∀ s ∈ A.strs, R.Str s ∧ s.Canonical)
    {O : Operator K} (hO : O.WF) (hOs : ∀ s ∈ O.basis.strs, R.Str s) (hr : ∀ x ∈ O.coeffs, IsReal x) {tol : ℚ} (htol : 0 < tol) {ops : List (Operator K)} {evals : List K}
    (h : ladderOperators num A O false tol = .ok (ops, evals)) :
    List.Forall₂ (fun B δ => UnitOver A.strs B ∧ IsReal δ ∧ (tol : ℝ) < toR δ ∧
      IsProjectedLadder (fun s => R.Str s ∧ s.Canonical) R.den A.strs (O.den R.den) tol (fun j => B.coeffs.getD j 0) δ) ops evals ∧
      evals.Pairwise (fun x y => ‖toC x‖ ≤ ‖toC y‖) ∧ ops.Pairwise (OrthogonalOver A.strs) := by
  obtain ⟨l, h1, rfl, h2⟩ := ladderOperators_inv h
  obtain ⟨g1, g2, g3⟩ := ladderVectors_open R hnum hA hs hO hOs hr htol h1
  refine ⟨forall₂_evals h2 fun e he o e1 e2 => ?_, g2, ?_⟩
  · obtain ⟨a, b, c⟩ := g1 e he
    have hm := List.mem_map_of_mem (f := (·.2)) he
    refine ⟨⟨e2, by rw [e1]; exact g3.dim _ hm, by rw [e1]; exact g3.unit _ hm⟩, a, b, ?_⟩
    rw [e1]; exact c
  · have := g3.orthogonal
    rw [← forall₂_coeffs h2, List.pairwise_map] at this
    exact this

/-! ### C86 -/

/-- **C86** (Pauli strings, closed bases): if no commutator of a string of the basis with a term of `O` leads out of the basis, the operators `_ladder_operators` returns are
normalised ladder operators of `O` over the basis, each with its value, which is larger than the tolerance; they are sorted by these values; without
sparsification they are orthogonal; and every ladder operator over the basis with a value above the tolerance is a combination of those with this value.
With sparsification different values must be well separated.  Missing: bases that are not closed (`C86_open_pauli_partial`, `C86_refuted`, `C86_refuted_missing`). -/
theorem C86_pauli_partial [Nontrivial 𝔸] (R : PauliRep K 𝔸 S) {num : LadderNumerics K} (hnum : IsLadderNumerics num) {basis : Basis} (hb : basis.Inv)
    (hs : ∀ s ∈ basis.strs, PauliString S s ∧ s.Canonical) {O : Operator K} (hO : O.WF) (hOs : ∀ s ∈ O.basis.strs, PauliString S s) (hr : ∀ x ∈ O.coeffs, IsReal x)
    (hcl : ClosedUnder (PauliString S) R.den basis.strs O) {sparsification : Bool} (hsp : sparsification = true → WellSeparated (K := K) R.den basis.strs (O.den R.den)) {tol : ℚ} (htol : 0 < tol)
    {ops : List (Operator K)} {evals : List K} (h : ladderOperators num basis O sparsification tol = .ok (ops, evals)) :
    List.Forall₂ (fun A δ => UnitOver basis.strs A ∧ IsReal δ ∧ (tol : ℝ) < toR δ ∧ IsLadder (O.den R.den) (A.den R.den) δ) ops evals ∧
      evals.Pairwise (fun x y => ‖toC x‖ ≤ ‖toC y‖) ∧ (sparsification = false → ops.Pairwise (OrthogonalOver basis.strs)) ∧
      ∀ (w : ℕ → K) (δ : K), IsReal δ → (tol : ℝ) < toR δ → IsLadder (O.den R.den) (linComb R.den basis.strs w) δ → linComb R.den basis.strs w ∈ ladderSpan R.den ops evals δ :=
  ladderOperators_closed R.strAlg hnum hb hs hO hOs hr hcl hsp htol h

/-- **C86** (Majorana strings, closed bases) -/
theorem C86_majorana_partial [Nontrivial 𝔸] (R : MajoranaRep K 𝔸 S) {num : LadderNumerics K} (hnum : IsLadderNumerics num) {basis : Basis} (hb : basis.Inv)
    (hs : ∀ s ∈ basis.strs, MajoranaString S s ∧ s.Canonical) {O : Operator K} (hO : O.WF) (hOs : ∀ s ∈ O.basis.strs, MajoranaString S s) (hr : ∀ x ∈ O.coeffs, IsReal x)
    (hcl : ClosedUnder (MajoranaString S) R.den basis.strs O) {sparsification : Bool} (hsp : sparsification = true → WellSeparated (K := K) R.den basis.strs (O.den R.den)) {tol : ℚ} (htol : 0 < tol)
    {ops : List (Operator K)} {evals : List K} (h : ladderOperators num basis O sparsification tol = .ok (ops, evals)) :
    List.Forall₂ (fun A δ => UnitOver basis.strs A ∧ IsReal δ ∧ (tol : ℝ) < toR δ ∧ IsLadder (O.den R.den) (A.den R.den) δ) ops evals ∧
      evals.Pairwise (fun x y => ‖toC x‖ ≤ ‖toC y‖) ∧ (sparsification = false → ops.Pairwise (OrthogonalOver basis.strs)) ∧
      ∀ (w : ℕ → K) (δ : K), IsReal δ → (tol : ℝ) < toR δ → IsLadder (O.den R.den) (linComb R.den basis.strs w) δ → linComb R.den basis.strs w ∈ ladderSpan R.den ops evals δ :=
  ladderOperators_closed R.strAlg hnum hb hs hO hOs hr hcl hsp htol h

/-- **C86** (Pauli strings, any basis, no sparsification): the operators are normalised and orthogonal, sorted by their values, which are larger than the tolerance; the part of
the commutator `[O, R]` outside the span of the basis is smaller than the tolerance, and the value is the overlap of `R` with the part inside.  The part inside need not be a
multiple of `R`: `C86_refuted`. -/
theorem C86_open_pauli_partial [Nontrivial 𝔸] (R : PauliRep K 𝔸 S) {num : LadderNumerics K} (hnum : IsLadderNumerics num) {basis : Basis} (hb : basis.Inv)
    (hs : ∀ s ∈ basis.strs, PauliString S s ∧ s.Canonical) {O : Operator K} (hO : O.WF) (hOs : ∀ s ∈ O.basis.strs, PauliString S s) (hr : ∀ x ∈ O.coeffs, IsReal x) {tol : ℚ} (htol : 0 < tol)
    {ops : List (Operator K)} {evals : List K} (h : ladderOperators num basis O false tol = .ok (ops, evals)) :
    List.Forall₂ (fun A δ => UnitOver basis.strs A ∧ IsReal δ ∧ (tol : ℝ) < toR δ ∧
      IsProjectedLadder (fun s => PauliString S s ∧ s.Canonical) R.den basis.strs (O.den R.den) tol (fun j => A.coeffs.getD j 0) δ) ops evals ∧
      evals.Pairwise (fun x y => ‖toC x‖ ≤ ‖toC y‖) ∧ ops.Pairwise (OrthogonalOver basis.strs) :=
  ladderOperators_open R.strAlg hnum hb hs hO hOs hr htol h

/-- **C86** (Majorana strings, any basis, no sparsification) -/
theorem C86_open_majorana_partial [Nontrivial 𝔸] (R : MajoranaRep K 𝔸 S) {num : LadderNumerics K} (hnum : IsLadderNumerics num) {basis : Basis} (hb : basis.Inv)
    (hs : ∀ s ∈ basis.strs, MajoranaString S s ∧ s.Canonical) {O : Operator K} (hO : O.WF) (hOs : ∀ s ∈ O.basis.strs, MajoranaString S s) (hr : ∀ x ∈ O.coeffs, IsReal x) {tol : ℚ} (htol : 0 < tol)
    {ops : List (Operator K)} {evals : List K} (h : ladderOperators num basis O false tol = .ok (ops, evals)) :
    List.Forall₂ (fun A δ => UnitOver basis.strs A ∧ IsReal δ ∧ (tol : ℝ) < toR δ ∧
      IsProjectedLadder (fun s => MajoranaString S s ∧ s.Canonical) R.den basis.strs (O.den R.den) tol (fun j => A.coeffs.getD j 0) δ) ops evals ∧
      evals.Pairwise (fun x y => ‖toC x‖ ≤ ‖toC y‖) ∧ ops.Pairwise (OrthogonalOver basis.strs) :=
  ladderOperators_open R.strAlg hnum hb hs hO hOs hr htol h

/-- **C86** (exceptions, Pauli strings): an exception is one of a numerical routine. -/
theorem C86_exceptions_pauli [Nontrivial 𝔸] (R : PauliRep K 𝔸 S) {num : LadderNumerics K} (hnum : IsLadderNumerics num) {basis : Basis} (hb : basis.Inv)
    (hs : ∀ s ∈ basis.strs, PauliString S s ∧ s.Canonical) {O : Operator K} (hO : O.WF) (hOs : ∀ s ∈ O.basis.strs, PauliString S s) (hr : ∀ x ∈ O.coeffs, IsReal x) {sparsification : Bool} {tol : ℚ}
    {e : PyErr} (h : ladderOperators num basis O sparsification tol = .error e) : (∃ M, num.svd M = .error e) ∨ (∃ M, num.eigh M = .error e) ∨ ∃ l, num.sparsify l = .error e :=
  ladderOperators_err R.strAlg hnum hb hs hO hOs hr h

/-- **C86** (exceptions, Majorana strings) -/
theorem C86_exceptions_majorana [Nontrivial 𝔸] (R : MajoranaRep K 𝔸 S) {num : LadderNumerics K} (hnum : IsLadderNumerics num) {basis : Basis} (hb : basis.Inv)
    (hs : ∀ s ∈ basis.strs, MajoranaString S s ∧ s.Canonical) {O : Operator K} (hO : O.WF) (hOs : ∀ s ∈ O.basis.strs, MajoranaString S s) (hr : ∀ x ∈ O.coeffs, IsReal x) {sparsification : Bool}
    {tol : ℚ} {e : PyErr} (h : ladderOperators num basis O sparsification tol = .error e) : (∃ M, num.svd M = .error e) ∨ (∃ M, num.eigh M = .error e) ∨ ∃ l, num.sparsify l = .error e :=
  ladderOperators_err R.strAlg hnum hb hs hO hOs hr h

/-! ### examples -/

/-- `Y_1` and `X_1` under `[Z_1, ·]` -/
def ladderMat : Mat QI := ⟨2, 2, [(0, 0, 0), (0, 1, ⟨0, 2⟩), (1, 0, ⟨0, -2⟩), (1, 1, 0)]⟩
def ladderEig : List QI × List (List QI) := ([⟨-2, 0⟩, ⟨2, 0⟩], [[⟨-1 / 2, -1 / 2⟩, ⟨1 / 2, -1 / 2⟩], [⟨-1 / 2, 1 / 2⟩, ⟨1 / 2, 1 / 2⟩]])

def strZX : OpString := ⟨[.Z, .X], [1, 2], .pauli, .float1⟩
def strXX : OpString := ⟨[.X, .X], [1, 2], .pauli, .float1⟩
def ladderZ2 : OpString := ⟨[.Z], [2], .pauli, .float1⟩
def siteX2 : OpString := ⟨[.X], [2], .pauli, .float1⟩
def strZZ23 : OpString := ⟨[.Z, .Z], [2, 3], .pauli, .float1⟩
def strZX23 : OpString := ⟨[.Z, .X], [2, 3], .pauli, .float1⟩

/-- the strings outside the basis that `[O, Z_1 X_2]` leads to, for `opLeaving` -/
def leavingMat : Mat QI := ⟨3, 3, [(0, 0, 0), (0, 1, 0), (0, 2, ⟨0, 2⟩), (1, 0, 0), (1, 1, 0), (1, 2, ⟨0, 4⟩), (2, 0, 0), (2, 1, 0), (2, 2, ⟨0, 4⟩)]⟩
def leavingSvd : List QI × List (List QI) := ([6, 0, 0], [[0, 0, 1], [1, 0, 0], [0, 1, 0]])

def ladderTable : LadderNumerics QI := tableNumerics [(leavingMat, leavingSvd)] [(ladderMat, ladderEig)] []

theorem ladderTable_ok : IsLadderNumerics ladderTable := tableNumerics_ok (by decide +kernel) (by decide +kernel) (by simp)

/-- `Z_1 + X_1 X_2 + Z_2 + 2 Z_2 Z_3 + 2 Z_2 X_3` -/
def opLeaving : Operator QI := ⟨[1, 1, 1, 2, 2], Basis.ofList [siteZ, strXX, ladderZ2, strZZ23, strZX23], .pauli⟩

/-- `(1 + i)/2 (X_1 + i Y_1)` over `X_1, Y_1` -/
def raisingXY : Operator QI := ⟨[⟨1 / 2, 1 / 2⟩, ⟨-1 / 2, 1 / 2⟩], Basis.ofList [siteX, siteY], .pauli⟩

theorem ladder_closed_example : ladderOperators ladderTable (Basis.ofList [siteX, siteY]) opZ = .ok ([raisingXY], [2]) := by decide +kernel

def raisingOpen : Operator QI := ⟨[⟨1 / 2, 1 / 2⟩, ⟨-1 / 2, 1 / 2⟩, 0], Basis.ofList [siteX, siteY, strZX], .pauli⟩

theorem ladder_open_example : ladderOperators ladderTable (Basis.ofList [siteX, siteY, strZX]) opLeaving = .ok ([raisingOpen], [2]) := by decide +kernel

theorem ladder_strings : (∀ s ∈ [siteX, siteY, siteZ, strZX, strXX, ladderZ2, siteX2, strZZ23, strZX23], PauliString Set.univ s) ∧
    ∀ s ∈ [siteX, siteY, siteZ, strZX, strXX, ladderZ2, siteX2, strZZ23, strZX23], s.Canonical := by
  constructor
  · intro s hs
    simp only [List.mem_cons, List.not_mem_nil, or_false] at hs
    rcases hs with rfl | rfl | rfl | rfl | rfl | rfl | rfl | rfl | rfl <;> exact ⟨rfl, by decide, rfl, by decide, by simp, by decide⟩
  · intro s hs
    simp only [List.mem_cons, List.not_mem_nil, or_false] at hs
    rcases hs with rfl | rfl | rfl | rfl | rfl | rfl | rfl | rfl | rfl <;> exact ⟨by decide, by decide⟩

theorem opLeaving_wf : opLeaving.WF ∧ (∀ s ∈ opLeaving.basis.strs, PauliString Set.univ s) ∧ ∀ x ∈ opLeaving.coeffs, IsReal x := by
  refine ⟨⟨Basis.Inv.ofList (by decide), rfl, by decide⟩, fun s hs => ladder_strings.1 s ?_, by decide +kernel⟩
  have : ∀ s ∈ opLeaving.basis.strs, s ∈ [siteX, siteY, siteZ, strZX, strXX, ladderZ2, siteX2, strZZ23, strZX23] := by decide +kernel
  exact this s hs

theorem opZ_wf : opZ.WF ∧ (∀ s ∈ opZ.basis.strs, PauliString Set.univ s) ∧ ∀ x ∈ opZ.coeffs, IsReal x :=
  ⟨⟨Basis.Inv.ofList (by decide), rfl, by decide⟩, by intro s hs; simp [opZ] at hs; subst hs; exact site_valid.2.2, by decide +kernel⟩

/-- non-vacuity: the ladder operator of `Z_1` over `X_1, Y_1`, and all ladder operators are multiples of it -/
example : IsLadder (opZ.den (waveRep QI).den) (raisingXY.den (waveRep QI).den) (2 : QI) ∧ UnitOver [siteX, siteY] raisingXY ∧
    ∀ (w : ℕ → QI), IsLadder (opZ.den (waveRep QI).den) (linComb (waveRep QI).den [siteX, siteY] w) (2 : QI) →
      linComb (waveRep QI).den [siteX, siteY] w ∈ ladderSpan (waveRep QI).den [raisingXY] [2] (2 : QI) := by
  have h := C86_pauli_partial (waveRep QI) ladderTable_ok (basis := Basis.ofList [siteX, siteY]) (Basis.Inv.ofList (by decide))
    (fun s hs => ⟨ladder_strings.1 s (by simp at hs ⊢; tauto), ladder_strings.2 s (by simp at hs ⊢; tauto)⟩) (O := opZ) opZ_wf.1 opZ_wf.2.1 opZ_wf.2.2
    (closed_of_check (waveRep QI).strAlg (fun s hs => ladder_strings.1 s (by simp at hs ⊢; tauto)) (by intro s hs; simp [opZ, Operator.termStrs, Operator.terms] at hs; subst hs; exact site_valid.2.2)
      (by decide +kernel)) (sparsification := false) (by simp) (by norm_num) ladder_closed_example
  obtain ⟨h1, -, -, h2⟩ := h
  cases h1 with
  | cons h1 _ =>
    exact ⟨h1.2.2.2, h1.1, fun w hw => h2 w 2 (by decide +kernel) h1.2.2.1 hw⟩

/-- non-vacuity: a basis that is not closed -/
example : ∃ ops evals, ladderOperators ladderTable (Basis.ofList [siteX, siteY, strZX]) opLeaving = .ok (ops, evals) ∧ ops.length = 1 ∧
    List.Forall₂ (fun A δ => IsProjectedLadder (fun s => PauliString Set.univ s ∧ s.Canonical) (waveRep QI).den [siteX, siteY, strZX] (opLeaving.den (waveRep QI).den) (1 / 10 ^ 12)
      (fun j => A.coeffs.getD j 0) δ) ops evals := by
  refine ⟨_, _, ladder_open_example, rfl, ?_⟩
  have h := C86_open_pauli_partial (waveRep QI) ladderTable_ok (basis := Basis.ofList [siteX, siteY, strZX]) (Basis.Inv.ofList (by decide))
    (fun s hs => ⟨ladder_strings.1 s (by simp at hs ⊢; tauto), ladder_strings.2 s (by simp at hs ⊢; tauto)⟩) (O := opLeaving) opLeaving_wf.1 opLeaving_wf.2.1 opLeaving_wf.2.2
    (by norm_num) ladder_open_example
  exact h.1.imp fun A δ h => h.2.2.2

/-- non-vacuity: the routines of this example raise an exception for a basis they do not know -/
example : ∃ e, ladderOperators ladderTable (Basis.ofList [siteY, siteX]) opZ = .error e := ⟨.valueError, by decide +kernel⟩

/-- **C86 refuted** (bases that are not closed): `_ladder_operators` returns `R = (1 + i)/2 (X_1 + i Y_1)` with value 2 for `O = Z_1 + X_1 X_2 + Z_2 + 2 Z_2 Z_3 + 2 Z_2 X_3` over
the basis `X_1, Y_1, Z_1 X_2`, but `[O, R]` is no multiple of `R`: it contains `Z_1 X_2`. -/
theorem C86_refuted [Algebra QI 𝔸] [Nontrivial 𝔸] (R : PauliRep QI 𝔸 Set.univ) : IsLadderNumerics ladderTable ∧ ∃ A,
    ladderOperators ladderTable (Basis.ofList [siteX, siteY, strZX]) opLeaving = .ok ([A], [2]) ∧ ∀ δ : QI, ¬ IsLadder (opLeaving.den R.den) (A.den R.den) δ := by
  refine ⟨ladderTable_ok, raisingOpen, ladder_open_example, fun δ h => ?_⟩
  obtain ⟨m, L, B, inA, g1, g2, g3, g4⟩ := ladderSetup_ok R.strAlg (A := Basis.ofList [siteX, siteY, strZX]) (Basis.Inv.ofList (by decide))
    (fun s hs => ⟨ladder_strings.1 s (by simp at hs ⊢; tauto), ladder_strings.2 s (by simp at hs ⊢; tauto)⟩) opLeaving_wf.1 opLeaving_wf.2.1 opLeaving_wf.2.2
  have e1 : opLeaving.neg = .ok ⟨[-1, -1, -1, -2, -2], Basis.ofList [siteZ, strXX, ladderZ2, strZZ23, strZX23], .pauli⟩ := by decide +kernel
  rw [e1] at g1
  cases g1
  have e2 : liouvillianStrings (Basis.ofList [siteX, siteY, strZX]) (⟨[-1, -1, -1, -2, -2], Basis.ofList [siteZ, strXX, ladderZ2, strZZ23, strZX23], .pauli⟩ : Operator QI) .commutator =
      .ok (⟨6, 3, [(0, 0, ⟨0, 2⟩), (1, 1, ⟨0, -2⟩), (2, 1, ⟨0, 2⟩), (0, 2, ⟨0, -2⟩), (3, 2, ⟨0, 2⟩), (4, 2, ⟨0, 4⟩), (5, 2, ⟨0, 4⟩)]⟩,
        Basis.ofList [siteY, siteX, strZX, ⟨[.Z, .Y], [1, 2], .pauli, .float1⟩, ⟨[.Z, .Y, .Z], [1, 2, 3], .pauli, .float1⟩, ⟨[.Z, .Y, .X], [1, 2, 3], .pauli, .float1⟩]) := by
    decide +kernel
  rw [e2] at g2
  cases g2
  have h1 := g4.act raisingOpen.coeffs
  have h2 : raisingOpen.den R.den = vecOp R.den (Basis.ofList [siteX, siteY, strZX]) raisingOpen.coeffs := den_vecOp rfl rfl rfl _
  have h3 : bracketOf .commutator (opLeaving.den R.den) (vecOp R.den (Basis.ofList [siteX, siteY, strZX]) raisingOpen.coeffs) =
      δ • vecOp R.den (Basis.ofList [siteX, siteY, strZX]) raisingOpen.coeffs := by rw [← h2]; exact h
  replace h3 := h1.symm.trans h3
  have h4 : vecOp R.den (Basis.ofList [siteX, siteY, strZX]) raisingOpen.coeffs =
      linComb R.den [siteY, siteX, strZX, ⟨[.Z, .Y], [1, 2], .pauli, .float1⟩, ⟨[.Z, .Y, .Z], [1, 2, 3], .pauli, .float1⟩, ⟨[.Z, .Y, .X], [1, 2, 3], .pauli, .float1⟩]
        (fun c => [(⟨-1 / 2, 1 / 2⟩ : QI), ⟨1 / 2, 1 / 2⟩].getD c 0) := by
    have l3 : vecOp R.den (Basis.ofList [siteX, siteY, strZX]) raisingOpen.coeffs = (⟨1 / 2, 1 / 2⟩ : QI) • R.den siteX + (⟨-1 / 2, 1 / 2⟩ : QI) • R.den siteY + (0 : QI) • R.den strZX := by
      rw [vecOp]
      show ∑ k : Fin 3, _ = (_ : 𝔸)
      rw [Fin.sum_univ_three]; rfl
    rw [l3]
    show _ = ∑ k : Fin 6, _
    rw [Fin.sum_univ_six]
    show _ = (⟨-1 / 2, 1 / 2⟩ : QI) • R.den siteY + (⟨1 / 2, 1 / 2⟩ : QI) • R.den siteX + (0 : QI) • _ + (0 : QI) • _ + (0 : QI) • _ + (0 : QI) • _
    simp only [zero_smul, add_zero]
    exact add_comm _ _
  rw [h4] at h3
  have h5 := R.strAlg.independent g4.extInv.2 g4.extStr (w := fun c => (∑ j : Fin 3, (⟨6, 3, [(0, 0, ⟨0, 2⟩), (1, 1, ⟨0, -2⟩), (2, 1, ⟨0, 2⟩), (0, 2, ⟨0, -2⟩), (3, 2, ⟨0, 2⟩),
    (4, 2, ⟨0, 4⟩), (5, 2, ⟨0, 4⟩)]⟩ : Mat QI).get c j * raisingOpen.coeffs.getD j 0) - δ * [(⟨-1 / 2, 1 / 2⟩ : QI), ⟨1 / 2, 1 / 2⟩].getD c 0) (by
      rw [linComb]
      simp only [sub_smul, Finset.sum_sub_distrib, mul_smul]
      rw [← Finset.smul_sum]
      exact sub_eq_zero.mpr h3) 2 (by decide)
  have h6 : (∑ j : Fin 3, (⟨6, 3, [(0, 0, ⟨0, 2⟩), (1, 1, ⟨0, -2⟩), (2, 1, ⟨0, 2⟩), (0, 2, ⟨0, -2⟩), (3, 2, ⟨0, 2⟩),
    (4, 2, ⟨0, 4⟩), (5, 2, ⟨0, 4⟩)]⟩ : Mat QI).get 2 j * raisingOpen.coeffs.getD j 0) = ⟨-1, -1⟩ := by decide +kernel
  rw [h6] at h5
  simp only [List.getD_eq_getElem?_getD, List.getElem?_cons_succ, List.getElem?_nil, Option.getD_none, mul_zero, sub_zero] at h5
  exact absurd h5 (by decide +kernel)

/-- `Z_1 + Z_2` -/
def opZ1Z2 : Operator QI := ⟨[1, 1], Basis.ofList [siteZ, ladderZ2], .pauli⟩

/-- the routines for the next example -/
def missingTable : LadderNumerics QI := tableNumerics [(⟨1, 2, [(0, 0, 0), (0, 1, 0)]⟩, ([0], [[1, 0], [0, 1]]))] [(⟨1, 1, [(0, 0, 0)]⟩, ([0], [[1]]))] []

theorem missingTable_ok : IsLadderNumerics missingTable := tableNumerics_ok (by decide +kernel) (by decide +kernel) (by simp)

/-- **C86 refuted** (missed ladder operators): for `O = Z_1 + Z_2` over `X_1, Y_1, X_2` the function never returns a ladder operator, whatever the numerical routines
do, although `X_1 + i Y_1` is one: the commutators leave the basis in fewer directions than it has strings, and `nla.svd` has as many singular values as the smaller number. -/
theorem C86_refuted_missing [Algebra QI 𝔸] [Nontrivial 𝔸] (R : PauliRep QI 𝔸 Set.univ) :
    (∀ (num : LadderNumerics QI) (tol : ℚ) (ops : List (Operator QI)) (evals : List QI), IsLadderNumerics num →
      ladderOperators num (Basis.ofList [siteX, siteY, siteX2]) opZ1Z2 false tol = .ok (ops, evals) → ops = []) ∧
    (IsLadderNumerics missingTable ∧ ladderOperators missingTable (Basis.ofList [siteX, siteY, siteX2]) opZ1Z2 = .ok ([], [])) ∧
    IsLadder (opZ1Z2.den R.den) (R.den siteX + (I : QI) • R.den siteY) (2 : QI) ∧ R.den siteX + (I : QI) • R.den siteY ≠ 0 := by
  refine ⟨?_, ⟨missingTable_ok, by decide +kernel⟩, ?_, ?_⟩
  · intro num tol ops evals hnum h
    obtain ⟨l, h1, -, h2⟩ := ladderOperators_inv h
    suffices l = [] by subst this; cases h2; rfl
    unfold ladderVectors at h1
    have e1 : opZ1Z2.neg = .ok ⟨[-1, -1], Basis.ofList [siteZ, ladderZ2], .pauli⟩ := by decide +kernel
    have e2 : liouvillianStrings (Basis.ofList [siteX, siteY, siteX2]) (⟨[-1, -1], Basis.ofList [siteZ, ladderZ2], .pauli⟩ : Operator QI) .commutator =
        .ok (⟨3, 3, [(0, 0, ⟨0, 2⟩), (1, 1, ⟨0, -2⟩), (2, 2, ⟨0, 2⟩)]⟩, Basis.ofList [siteY, siteX, ⟨[.Y], [2], .pauli, .float1⟩]) := by decide +kernel
    have e3 : ((Basis.ofList [siteY, siteX, ⟨[.Y], [2], .pauli, .float1⟩]).strs.filter (Basis.ofList [siteX, siteY, siteX2]).contains).mapM (Basis.ofList [siteX, siteY, siteX2]).index = .ok [1, 0] := by
      decide +kernel
    have e4 : (List.range (Basis.ofList [siteY, siteX, ⟨[.Y], [2], .pauli, .float1⟩]).len).filter
        (fun i => !((Basis.ofList [siteY, siteX, ⟨[.Y], [2], .pauli, .float1⟩]).strs[i]?).any (Basis.ofList [siteX, siteY, siteX2]).contains) = [2] := by decide +kernel
    simp only [e1, e2, e3, e4, bind, Except.bind] at h1
    rw [if_neg (by simp)] at h1
    split at h1
    · cases h1
    rename_i p hp
    split at h1
    · cases h1
    rename_i r hr
    unfold ladderProject at hp
    rw [if_neg (by simp)] at hp
    obtain ⟨sv, k1, k2⟩ := py_bind_ok hp
    obtain ⟨P, k3, k4⟩ := py_bind_ok k2
    have hsv := hnum.svd _ _ k1
    have hl : (nullVectors tol sv).length ≤ 1 := by
      have := hsv.lenS
      have h5 : (nullVectors tol sv).length ≤ sv.1.length := by
        unfold nullVectors
        rw [List.length_map]
        refine (List.length_filter_le _ _).trans ?_
        rw [List.length_zip]; exact min_le_left _ _
      refine h5.trans ?_
      rw [this]; exact min_le_left _ _
    have hP : P.nrows = (nullVectors tol sv).length := by
      unfold Mat.project at k3
      obtain ⟨ws, _, k5⟩ := py_bind_ok k3
      cases k5; rfl
    cases k4
    have hH := hermitianPart_hermitian P
    obtain ⟨a1, a2⟩ := hnum.eigh _ _ (by rw [hH.1]; exact hH) hr
    have hlen : r.1.length ≤ 1 := by rw [a2, hH.1, hP]; exact hl
    rw [partnered_single a1.real hlen] at h1
    simp only [embedPairs, List.map_nil] at h1
    split at h1
    · cases h1
    rename_i sorted hso
    have := (ladderSort_ok hnum.argsort hso).1
    simp only [Bool.false_eq_true, if_false] at h1
    cases h1
    exact List.perm_nil.mp this
  · obtain ⟨m, L, B, inA, g1, g2, g3, g4⟩ := ladderSetup_ok R.strAlg (A := Basis.ofList [siteX, siteY]) (Basis.Inv.ofList (by decide))
      (fun s hs => ⟨ladder_strings.1 s (by simp at hs ⊢; tauto), ladder_strings.2 s (by simp at hs ⊢; tauto)⟩) (O := opZ1Z2)
      ⟨Basis.Inv.ofList (by decide), rfl, by decide⟩ (fun s hs => ladder_strings.1 s (by simp [opZ1Z2] at hs ⊢; tauto)) (by decide +kernel)
    have e1 : opZ1Z2.neg = .ok ⟨[-1, -1], Basis.ofList [siteZ, ladderZ2], .pauli⟩ := by decide +kernel
    rw [e1] at g1
    cases g1
    have e2 : liouvillianStrings (Basis.ofList [siteX, siteY]) (⟨[-1, -1], Basis.ofList [siteZ, ladderZ2], .pauli⟩ : Operator QI) .commutator =
        .ok (⟨2, 2, [(0, 0, ⟨0, 2⟩), (1, 1, ⟨0, -2⟩)]⟩, Basis.ofList [siteY, siteX]) := by decide +kernel
    rw [e2] at g2
    cases g2
    have h1 := g4.act [1, (I : QI)]
    have e3 : vecOp R.den (Basis.ofList [siteX, siteY]) [1, (I : QI)] = R.den siteX + (I : QI) • R.den siteY := by
      rw [vecOp]
      show ∑ k : Fin 2, _ = (_ : 𝔸)
      rw [Fin.sum_univ_two]
      show (1 : QI) • R.den siteX + (I : QI) • R.den siteY = _
      rw [one_smul]
    have e4 : linComb R.den (Basis.ofList [siteY, siteX]).strs (fun c => ∑ j : Fin 2, (⟨2, 2, [(0, 0, ⟨0, 2⟩), (1, 1, ⟨0, -2⟩)]⟩ : Mat QI).get c j * [1, (I : QI)].getD j 0) =
        (⟨0, 2⟩ : QI) • R.den siteY + (2 : QI) • R.den siteX := by
      have f1 : ∑ j : Fin 2, (⟨2, 2, [(0, 0, ⟨0, 2⟩), (1, 1, ⟨0, -2⟩)]⟩ : Mat QI).get 0 j * [1, (I : QI)].getD j 0 = ⟨0, 2⟩ := by decide +kernel
      have f2 : ∑ j : Fin 2, (⟨2, 2, [(0, 0, ⟨0, 2⟩), (1, 1, ⟨0, -2⟩)]⟩ : Mat QI).get 1 j * [1, (I : QI)].getD j 0 = 2 := by decide +kernel
      show ∑ k : Fin 2, _ = (_ : 𝔸)
      rw [Fin.sum_univ_two]
      show (∑ j : Fin 2, (⟨2, 2, [(0, 0, ⟨0, 2⟩), (1, 1, ⟨0, -2⟩)]⟩ : Mat QI).get 0 j * [1, (I : QI)].getD j 0) • R.den siteY +
        (∑ j : Fin 2, (⟨2, 2, [(0, 0, ⟨0, 2⟩), (1, 1, ⟨0, -2⟩)]⟩ : Mat QI).get 1 j * [1, (I : QI)].getD j 0) • R.den siteX = _
      rw [f1, f2]
    have h2 : bracketOf .commutator (opZ1Z2.den R.den) (vecOp R.den (Basis.ofList [siteX, siteY]) [1, (I : QI)]) = _ := h1.trans e4
    rw [e3] at h2
    show bracketOf _ _ _ = _
    rw [h2, smul_add, smul_smul, add_comm, show (2 : QI) * I = ⟨0, 2⟩ by decide +kernel]
  · intro h0
    have := R.strAlg.independent (strs := [siteX, siteY]) (by decide) (fun s hs => ⟨ladder_strings.1 s (by simp at hs ⊢; tauto), ladder_strings.2 s (by simp at hs ⊢; tauto)⟩)
      (w := fun j => [1, (I : QI)].getD j 0) (by
        show ∑ k : Fin 2, _ = (_ : 𝔸)
        rw [Fin.sum_univ_two]
        show (1 : QI) • R.den siteX + (I : QI) • R.den siteY = 0
        rw [one_smul]; exact h0) 0 (by decide)
    simp at this

end Qosy
