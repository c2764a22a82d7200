import Verif.Lemmas.Explore
import Verif.Lemmas.Truncate
import Verif.Lemmas.StrAlgInst
import Verif.Lemmas.FermionToMajorana
import Verif.Props.Operator

/-!
# Properties C51, C52: exploration and truncation of bases

`exploreAll Explored.empty calls` are the results of a sequence of explorations that share one cache, starting with an empty one.
`IsLiouvillian` says that the matrix represents the commutators of all operators in the basis with the given operator.
-/

namespace Qosy
open Coef
variable {K : Type} [Field K] [StarRing K] [Coef K]
variable {𝔸 : Type} [Ring 𝔸] [Algebra K 𝔸] {S : Set ℤ}

/-! ### C51 -/

/-- **C51** (Pauli strings): in every history of explorations where no operator contains a string that an earlier one lacks, all results are
correct: each matrix represents the commutators of its basis with (the allowed part of) its operator. -/
theorem C51_pauli_partial (R : PauliRep K 𝔸 S) (calls : List (ExploreCall K))
    (h : ∀ c ∈ calls, c.1.strs.Nodup ∧ (∀ s ∈ c.1.strs, PauliString S s) ∧ c.2.1.basis.strs.Nodup ∧ ∀ s ∈ c.2.1.basis.strs, PauliString S s)
    (hp : calls.Pairwise (fun c c' => ∀ s ∈ c'.2.1.termStrs, s ∈ c.2.1.termStrs)) :
    ∃ rs, exploreAll Explored.empty calls = .ok rs ∧ List.Forall₂ (fun c r =>
      IsLiouvillian R.den .commutator (c.1.strs.map R.den) (c.2.1.partDen c.2.2 R.den) r.1 r.2) calls rs :=
  exploreAll_ok R.strAlg calls (fun _ => True) Explored.empty (Explored.empty_coherent _ _)
    (fun c hc => let ⟨h1, h2, h3, h4⟩ := h c hc; ⟨h1, h2, h3, h4, fun _ _ => trivial⟩) hp

/-- **C51** (Majorana strings) -/
theorem C51_majorana_partial (R : MajoranaRep K 𝔸 S) (calls : List (ExploreCall K))
    (h : ∀ c ∈ calls, c.1.strs.Nodup ∧ (∀ s ∈ c.1.strs, MajoranaString S s) ∧ c.2.1.basis.strs.Nodup ∧ ∀ s ∈ c.2.1.basis.strs, MajoranaString S s)
    (hp : calls.Pairwise (fun c c' => ∀ s ∈ c'.2.1.termStrs, s ∈ c.2.1.termStrs)) :
    ∃ rs, exploreAll Explored.empty calls = .ok rs ∧ List.Forall₂ (fun c r =>
      IsLiouvillian R.den .commutator (c.1.strs.map R.den) (c.2.1.partDen c.2.2 R.den) r.1 r.2) calls rs :=
  exploreAll_ok R.strAlg calls (fun _ => True) Explored.empty (Explored.empty_coherent _ _)
    (fun c hc => let ⟨h1, h2, h3, h4⟩ := h c hc; ⟨h1, h2, h3, h4, fun _ _ => trivial⟩) hp

/-- **C51** (one operator): if all explorations use one operator, all results are correct, whatever the bases. -/
theorem C51_one_operator (R : PauliRep K 𝔸 S) (H : Operator K) (hH : ∀ s ∈ H.basis.strs, PauliString S s) (hn : H.basis.strs.Nodup)
    (bases : List Basis) (hb : ∀ b ∈ bases, b.strs.Nodup ∧ ∀ s ∈ b.strs, PauliString S s) :
    ∃ rs, exploreAll Explored.empty (bases.map fun b => (b, H, none)) = .ok rs ∧ List.Forall₂ (fun b r =>
      IsLiouvillian R.den .commutator (b.strs.map R.den) (H.den R.den) r.1 r.2) bases rs := by
  obtain ⟨rs, h1, h2⟩ := C51_pauli_partial R (bases.map fun b => (b, H, none)) (fun c hc => by
    obtain ⟨b, hbm, rfl⟩ := List.mem_map.mp hc
    exact ⟨(hb b hbm).1, (hb b hbm).2, hn, hH⟩) (by
    rw [List.pairwise_map]
    exact List.pairwise_of_forall (fun _ _ _ h => h))
  exact ⟨rs, h1, by rwa [List.forall₂_map_left_iff] at h2⟩

/-- the strings X 1, Y 1 and Z 1 -/
def siteX : OpString := ⟨[.X], [1], .pauli, .float1⟩
def siteY : OpString := ⟨[.Y], [1], .pauli, .float1⟩
def siteZ : OpString := ⟨[.Z], [1], .pauli, .float1⟩

theorem site_valid : PauliString Set.univ siteX ∧ PauliString Set.univ siteY ∧ PauliString Set.univ siteZ :=
  ⟨⟨rfl, by decide, rfl, by decide, by simp, by decide⟩, ⟨rfl, by decide, rfl, by decide, by simp, by decide⟩,
    ⟨rfl, by decide, rfl, by decide, by simp, by decide⟩⟩

/-- the operators `X_1` and `Y_1` -/
def opX : Operator QI := ⟨[1], Basis.ofList [siteX], .pauli⟩
def opY : Operator QI := ⟨[1], Basis.ofList [siteY], .pauli⟩

/-- **C51 refuted**: exploring `{Z_1}` with `X_1` and then with `Y_1` (what `selected_ci_greedy` does with two operators `com_ops`) gives
an empty matrix for the second one, as if `Z_1` and `Y_1` commuted. -/
theorem C51_refuted [Algebra QI 𝔸] [Nontrivial 𝔸] (R : PauliRep QI 𝔸 Set.univ) : ∃ r1 r2,
    exploreAll Explored.empty [(Basis.ofList [siteZ], opX, none), (Basis.ofList [siteZ], opY, none)] = .ok [r1, r2] ∧
    (∀ v, linComb R.den r2.2.strs (r2.1.mulVec v) = 0) ∧
    ¬ IsLiouvillian R.den .commutator [R.den siteZ] (opY.den R.den) r2.1 r2.2 := by
  refine ⟨(⟨1, 1, [(0, 0, ⟨0, 2⟩)]⟩, Basis.ofList [siteY]), (⟨0, 1, []⟩, emptyBasis), by decide +kernel, ?_, ?_⟩
  · intro v; rfl
  · intro h
    have h1 := h.represents (fun _ => 1)
    have h2 : linComb R.den emptyBasis.strs ((⟨0, 1, []⟩ : Mat QI).mulVec fun _ => 1) = 0 := rfl
    rw [h2] at h1
    rcases R.strAlg.op_string .commutator (A := siteZ) (B := siteY) site_valid.2.2 site_valid.2.1 with ⟨h3, _⟩ | ⟨c, C, _, h4, h5, h6, _⟩
    · exact absurd h3 (by decide +kernel)
    · have e1 : opY.den R.den = R.den siteY := by simp [opY, Operator.den, denT, Operator.terms]
      have e2 : bracketOf .commutator (R.den siteZ) (R.den siteY) = c • R.strAlg.den C := h5
      simp only [List.length_singleton, Fin.sum_univ_one, one_smul] at h1
      rw [e1] at h1
      have h7 : c • R.strAlg.den C = 0 := e2.symm.trans h1
      have h8 : c • (1 : 𝔸) = 0 := by
        have := congrArg (fun x => x * R.strAlg.den C) h7
        simpa [R.strAlg.sq C h4] using this
      have h9 : c = 0 := by
        by_contra hc
        have := congrArg (fun x => c⁻¹ • x) h8
        simp [smul_smul, inv_mul_cancel₀ hc] at this
      rw [h9] at h6
      simp [bracketFactor] at h6

/-- non-vacuity: two explorations of one operator, the second with a basis that is partly explored. -/
example : ∃ rs, exploreAll Explored.empty [(Basis.ofList [siteZ], opY, none), (Basis.ofList [siteX, siteZ], opY, some [1])] = .ok rs ∧
    rs.length = 2 := by
  obtain ⟨rs, h1, h2⟩ := C51_pauli_partial (waveRep QI) [(Basis.ofList [siteZ], opY, none), (Basis.ofList [siteX, siteZ], opY, some [1])]
    (by
      intro c hc
      have hY : ∀ s ∈ opY.basis.strs, PauliString Set.univ s := by
        intro s hs; simp [opY] at hs; subst hs; exact site_valid.2.1
      simp only [List.mem_cons, List.not_mem_nil, or_false] at hc
      rcases hc with rfl | rfl
      · exact ⟨by decide, by intro s hs; simp at hs; subst hs; exact site_valid.2.2, by decide, hY⟩
      · exact ⟨by decide, by intro s hs; simp at hs; rcases hs with rfl | rfl; exacts [site_valid.1, site_valid.2.2], by decide, hY⟩)
    (by simp)
  exact ⟨rs, h1, h2.length_eq.symm⟩

/-! ### C52 -/

/-- **C52**: `_truncate_basis` returns the largest components above the threshold, at most `max_basis_size` of them, in decreasing order. -/
theorem C52_truncate {argsort : List K → List ℕ} (ha : IsArgsort argsort) {basis : Basis} (hn : basis.strs.Nodup) (vector : List K)
    (filterFun : Option (List K → Basis → List K)) (hl : (filteredVector filterFun vector basis).length = basis.len) (threshold : ℚ) (n : ℕ) :
    ∃ b, truncateBasis argsort basis vector threshold n filterFun = .ok b ∧
      IsTruncation basis (filteredVector filterFun vector basis) threshold n b := by
  obtain ⟨strs, h1, _, h2⟩ := truncateBasis_ok ha hn (rfl : filteredVector filterFun vector basis = _) hl threshold n
  exact ⟨_, h1, h2⟩

/-- **C52** (operators): `_truncate_operator` keeps the largest terms with their coefficients; if nothing is left, it raises ValueError. -/
theorem C52_operator {argsort : List K → List ℕ} (ha : IsArgsort argsort) {A : Operator K} (hA : A.WF)
    (threshold : ℚ) (n : ℕ) : ∃ b, truncateBasis argsort A.basis A.coeffs threshold n none = .ok b ∧ IsTruncation A.basis A.coeffs threshold n b ∧
      (b.strs = [] → truncateOperator argsort A threshold n none = .error .valueError) ∧
      (b.strs ≠ [] → ∃ B, truncateOperator argsort A threshold n none = .ok B ∧ B.WF ∧ B.basis = b ∧ B.opType = A.opType ∧
        ∀ s, B.coef s = if s ∈ b.strs then A.coef s else 0) := by
  have hn : A.basis.strs.Nodup := hA.basis.2
  have hb : A.basis = Basis.ofList A.basis.strs := congrArg Operator.basis hA.eq
  obtain ⟨strs, h1, h2, h3⟩ := truncateBasis_ok (filterFun := none) (vector := A.coeffs) (vec := A.coeffs) ha hn rfl hA.len threshold n
  have hmem : ∀ s ∈ strs, s ∈ A.basis.strs := fun s hs => (h3.above s hs).1
  have h4 : strs.mapM (fun s => do
      let i ← A.basis.index s
      pyGet A.coeffs i) = .ok (strs.map (coefAt A.basis A.coeffs)) := by
    refine mapM_ok fun s hs => ?_
    have hi : A.basis.strs.idxOf s < A.coeffs.length := by rw [hA.len]; exact List.idxOf_lt_length_iff.mpr (hmem s hs)
    have e : A.basis.index s = .ok (A.basis.strs.idxOf s) := by
      rw [hb, Basis.index_ofList, if_pos (hmem s hs)]; rfl
    simp only [e, bind, Except.bind, coefAt]
    rw [pyGet, List.getElem?_eq_getElem hi, List.getD_eq_getElem _ _ hi]
  refine ⟨_, h1, h3, fun he => ?_, fun he => ?_⟩
  · have : strs = [] := he
    subst this
    rw [truncateOperator, h1]
    rfl
  · have ht : ∀ s ∈ strs, s.opType = A.opType := fun s hs => hA.type s (hmem s hs)
    refine ⟨⟨strs.map (coefAt A.basis A.coeffs), Basis.ofList strs, A.opType⟩, ?_, Operator.WF.mk' h2 (by simp) ht, rfl, rfl, fun s => ?_⟩
    · rw [truncateOperator, h1]
      simp only [bind, Except.bind] at h4 ⊢
      rw [show (Basis.ofList strs).strs = strs from rfl, h4]
      exact mkOperator_none_ok he h2 ht
    · have e1 : (Operator.mk (strs.map (coefAt A.basis A.coeffs)) (Basis.ofList strs) A.opType).coef s =
          coefT ((strs.map (coefAt A.basis A.coeffs)).zip strs) s := rfl
      have e2 : A.coef s = coefT (A.coeffs.zip A.basis.strs) s := rfl
      rw [e1, e2, coefT_zip (by simp) h2, coefT_zip hA.len hn]
      by_cases hs : s ∈ strs
      · have hi : strs.idxOf s < strs.length := List.idxOf_lt_length_iff.mpr hs
        rw [if_pos hs, if_pos (show s ∈ (Basis.ofList strs).strs from hs), if_pos (hmem s hs), List.getD_eq_getElem _ _ (by simpa using hi)]
        simp [coefAt]
      · rw [if_neg hs, if_neg (show s ∉ (Basis.ofList strs).strs from hs)]

/-- non-vacuity: the two largest of four terms, in decreasing order -/
example : truncateBasis (K := QI) (fun _ => [1, 0, 3, 2]) (Basis.ofList [siteX, siteY, siteZ, exP1]) [⟨1, 0⟩, ⟨0, 0⟩, ⟨0, 3⟩, ⟨2, 0⟩] (1 / 2) 2 none =
    .ok (Basis.ofList [siteZ, exP1]) := by decide +kernel

example : ∃ argsort : List QI → List ℕ, IsArgsort argsort := exists_isArgsort

end Qosy
