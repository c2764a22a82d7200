import Verif.Lemmas.BasisChange
import Verif.Lemmas.Sparsify
import Verif.Lemmas.GeneratorOne
import Verif.Props.Core
import Verif.Props.SymmetryMatrix

/-! # C106: changing the basis -/

namespace Qosy
open Coef

section
variable {K : Type} [Field K] [StarRing K] [Coef K]

private theorem change_alg {t : OpType} (ht : t = .pauli ∨ t = .majorana) :
    ∃ R : StrAlg K (Module.End K (Conf → K)), ∀ S s, TypedString t S s → R.Str s := by
  rcases ht with rfl | rfl
  · exact ⟨(waveRep K).strAlg, fun S s h => (h.resolve_right (by simp)).2.mono (Set.subset_univ S)⟩
  · exact ⟨(waveMajorana K).strAlg, fun S s h => (h.resolve_left (by simp)).2.mono (Set.subset_univ S)⟩

omit [StarRing K] [Coef K] in
theorem BasisArg.All.mono {P Q : OpString → Prop} (h : ∀ s, P s → Q s) {x : BasisArg K} (hx : x.All P) : x.All Q := by
  cases x with
  | strings b => exact fun s hs => h s (hx s hs)
  | operators l => exact fun o ho s hs => h s (hx o ho s hs)

/-- **C106** (change of basis): if the elements of `y` are linear combinations of those of `x`, with coefficients `U`, then the columns of
`liouvillian_matrix(y, O)` are the same linear combinations of those of `liouvillian_matrix(x, O)`, string by string, and
`commutant_matrix(y, O) = U† commutant_matrix(x, O) U`.  Both may be Bases or lists of Operators, and the operation any of the three. -/
theorem C106_change {t : OpType} (ht : t = .pauli ∨ t = .majorana) {S : Set ℤ} (mode : Mode) {x y : BasisArg K} (hx : x.All (TypedString t S))
    (hnx : x ≠ .operators []) (hy : y.All (TypedString t S)) (hny : y ≠ .operators []) {O : Operator K} (hO : ∀ s ∈ O.basis.strs, TypedString t S s)
    {U : ℕ → ℕ → K} (h : LinearCombinations x y U) :
    ∃ L ext L' ext' C C', liouvillianMatrix x O mode = .ok (L, ext) ∧ liouvillianMatrix y O mode = .ok (L', ext') ∧
      commutantMatrix x O mode = .ok (C, ext) ∧ commutantMatrix y O mode = .ok (C', ext') ∧
      (∀ j < y.size, ∀ s, L'.coefAt ext' j s = ∑ k ∈ Finset.range x.size, U k j * L.coefAt ext k s) ∧
      ∀ i < y.size, ∀ j < y.size, C'.get i j = ∑ k ∈ Finset.range x.size, ∑ l ∈ Finset.range x.size, star (U k i) * C.get k l * U l j := by
  obtain ⟨R, hR⟩ := change_alg (K := K) ht
  exact R.commutant_change mode (hx.mono (hR S)) hnx (hy.mono (hR S)) hny (fun s hs => hR S s (hO s hs)) h

/-- **C106** (strings): the entries of `liouvillian_matrix`, `commutant_matrix` and `structure_constants` depend on the strings they belong to, not on
their positions, nor on the other strings of the basis. -/
theorem C106_strings {t : OpType} (ht : t = .pauli ∨ t = .majorana) {S : Set ℤ} (mode : Mode) {b b' : Basis} (hb : ∀ s ∈ b.strs, TypedString t S s)
    (hb' : ∀ s ∈ b'.strs, TypedString t S s) {O : Operator K} (hO : ∀ s ∈ O.basis.strs, TypedString t S s) :
    ∃ L ext L' ext' C C', liouvillianMatrix (.strings b) O mode = .ok (L, ext) ∧ liouvillianMatrix (.strings b') O mode = .ok (L', ext') ∧
      commutantMatrix (.strings b) O mode = .ok (C, ext) ∧ commutantMatrix (.strings b') O mode = .ok (C', ext') ∧
      ∀ j (hj : j < b.strs.length) j' (hj' : j' < b'.strs.length), b.strs[j] = b'.strs[j'] → (∀ s, L.coefAt ext j s = L'.coefAt ext' j' s) ∧
        ∀ i (hi : i < b.strs.length) i' (hi' : i' < b'.strs.length), b.strs[i] = b'.strs[i'] → C.get i j = C'.get i' j' := by
  obtain ⟨R, hR⟩ := change_alg (K := K) ht
  obtain ⟨L, C, ext, a1, a2, a3, -, -, a6⟩ := R.commutant_ok mode (x := .strings b) (fun s hs => hR S s (hb s hs)) (by simp) (fun s hs => hR S s (hO s hs))
  obtain ⟨L', C', ext', b1, b2, b3, -, -, b6⟩ := R.commutant_ok mode (x := .strings b') (fun s hs => hR S s (hb' s hs)) (by simp) (fun s hs => hR S s (hO s hs))
  have key : ∀ j (hj : j < b.strs.length) j' (hj' : j' < b'.strs.length), b.strs[j] = b'.strs[j'] → ∀ s, L.coefAt ext j s = L'.coefAt ext' j' s := by
    intro j hj j' hj' e s
    have c1 := a3.col j (by simpa [BasisArg.den] using hj)
    have c2 := b3.col j' (by simpa [BasisArg.den] using hj')
    simp only [BasisArg.den, List.getElem?_map, List.getElem?_eq_getElem hj, List.getElem?_eq_getElem hj', Option.map_some, Option.getD_some] at c1 c2
    rw [R.coefAt_eq (hR S _ (hb _ (List.getElem_mem hj))) (fun s hs => hR S s (hO s hs)) a3.ext_inv.2 a3.ext_str c1,
      R.coefAt_eq (hR S _ (hb' _ (List.getElem_mem hj'))) (fun s hs => hR S s (hO s hs)) b3.ext_inv.2 b3.ext_str c2, e]
  refine ⟨L, ext, L', ext', C, C', a1, b1, a2, b2, fun j hj j' hj' e => ⟨key j hj j' hj' e, fun i hi i' hi' e' => ?_⟩⟩
  classical
  let T : Finset OpString := ext.strs.toFinset ∪ ext'.strs.toFinset
  rw [commutant_coefAt a3.ext_inv.2 a3.nrows a6 T (fun s hs => by simp [T, hs]), commutant_coefAt b3.ext_inv.2 b3.nrows b6 T (fun s hs => by simp [T, hs])]
  exact Finset.sum_congr rfl fun s _ => by rw [key i hi i' hi' e', key j hj j' hj' e]

/-- **C106** (structure constants) -/
theorem C106_structure_constants {t : OpType} (ht : t = .pauli ∨ t = .majorana) {S : Set ℤ} (mode : Mode) {tol : ℚ} (h0 : 0 < tol) (h1 : tol ≤ 1)
    {A B A' B' : Basis} (hA : ∀ s ∈ A.strs, TypedString t S s) (hB : ∀ s ∈ B.strs, TypedString t S s) (hA' : ∀ s ∈ A'.strs, TypedString t S s)
    (hB' : ∀ s ∈ B'.strs, TypedString t S s) :
    ∃ (N N' : Dict (Mat K)) (ext ext' : Basis), structureConstants A B mode tol = .ok (N, ext) ∧ structureConstants A' B' mode tol = .ok (N', ext') ∧
      ∀ i (hi : i < A.strs.length) i' (hi' : i' < A'.strs.length), A.strs[i] = A'.strs[i'] → ∀ u ∈ B.strs, u ∈ B'.strs →
        ∃ M M', N.get? u = some M ∧ N'.get? u = some M' ∧ ∀ s, M.coefAt ext i s = M'.coefAt ext' i' s := by
  obtain ⟨R, hR⟩ := change_alg (K := K) ht
  obtain ⟨N, ext, g1, g2, -⟩ := R.structure_entry mode h0 h1 (fun s hs => hR S s (hA s hs)) (fun s hs => hR S s (hB s hs))
  obtain ⟨N', ext', k1, k2, -⟩ := R.structure_entry mode h0 h1 (fun s hs => hR S s (hA' s hs)) (fun s hs => hR S s (hB' s hs))
  refine ⟨N, N', ext, ext', g1, k1, fun i hi i' hi' e u hu hu' => ?_⟩
  obtain ⟨M, m1, m2⟩ := g2 i hi u hu
  obtain ⟨M', n1, n2⟩ := k2 i' hi' u hu'
  exact ⟨M, M', m1, n1, fun s => by rw [m2, n2, e]⟩

/-- **C106** (symmetry matrices): so do the entries of `symmetry_matrix`, for every Transformation that does not fail. -/
theorem C106_symmetry_matrix [RealCoef K] {b b' : Basis} (hb : b.Inv) (hb' : b'.Inv) {T : Transformation K} {tol : ℚ} (h : ∀ s ∈ b.strs, ∃ O, T s = .ok O ∧ O.WF)
    (h' : ∀ s ∈ b'.strs, ∃ O, T s = .ok O ∧ O.WF) :
    ∃ M M', symmetryMatrix b T tol = .ok M ∧ symmetryMatrix b' T tol = .ok M' ∧
      ∀ i (hi : i < b.strs.length) j (hj : j < b.strs.length) i' (hi' : i' < b'.strs.length) j' (hj' : j' < b'.strs.length),
        b.strs[i] = b'.strs[i'] → b.strs[j] = b'.strs[j'] → M.get i j = M'.get i' j' := by
  obtain ⟨M, m1, -, -, m4⟩ := C41_entries hb (tol := tol) h
  obtain ⟨M', n1, -, -, n4⟩ := C41_entries hb' (tol := tol) h'
  refine ⟨M, M', m1, n1, fun i hi j hj i' hi' j' hj' e1 e2 => ?_⟩
  obtain ⟨O, o1, o2⟩ := m4 i j hi hj
  obtain ⟨O', o1', o2'⟩ := n4 i' j' hi' hj'
  rw [e2, o1'] at o1
  obtain rfl := Except.ok.inj o1
  rw [o2, o2', e1]

end

section
variable {t : OpType} {S : Set ℤ}

theorem commuting_exact (ht : t = .pauli ∨ t = .majorana) :
    ∃ R : StrAlg ℂ (Module.End ℂ (Conf → ℂ)), R.type = t ∧ (∀ s, TypedString t S s → R.Str s) ∧ R.den (identityString t) = 1 ∧
      (∀ s, R.Str s → TypedString t Set.univ s) ∧ ∀ (mode : Mode) (O : Operator ℂ), (∀ s ∈ O.basis.strs, TypedString t S s) → ∀ x : BasisArg ℂ, x.All (TypedString t S) → x ≠ .operators [] →
      ∀ eigh : Eigh, ExactEigh eigh →
      ∃ δ > 0, ∀ tol, 0 < tol → tol ≤ δ → ∃ r, commutingOperators eigh x O mode tol = .ok r ∧ r.dim = x.size ∧ OrthonormalColumns r.vecs ∧
        ∀ v : Fin r.dim → ℂ, v ∈ colSpan r.vecs ↔ bracketOf mode (∑ j, v j • ((x.den R.den)[(j : ℕ)]?).getD 0) (O.den R.den) = 0 := by
  have fin : ∀ (d : OpString → Module.End ℂ (Conf → ℂ)) (x : BasisArg ℂ) (v : Fin (x.den d).length → ℂ),
      ∑ j, v j • ((x.den d)[(j : ℕ)]?).getD 0 = ∑ j, v j • (x.den d)[j] := fun d x v =>
    Finset.sum_congr rfl fun j _ => by rw [List.getElem?_eq_getElem j.2]; rfl
  rcases ht with rfl | rfl
  · refine ⟨(waveRep ℂ).strAlg, rfl, fun s h => (h.resolve_right (by simp)).2.mono (Set.subset_univ S), by
      show (waveRep ℂ).den (identityString .pauli) = 1
      simp [PauliRep.den, identityString, wordProd, Pref.val], fun s h => Or.inl ⟨rfl, h⟩, fun mode O hO x hx hne eigh he => ?_⟩
    have hm : ∀ s, TypedString .pauli S s → PauliString Set.univ s := fun s h => (h.resolve_right (by simp)).2.mono (Set.subset_univ S)
    obtain ⟨δ, hδ, H⟩ := C49_exact_pauli (waveRep ℂ) mode (hx.mono hm) hne (fun s hs => hm s (hO s hs)) he
    refine ⟨δ, hδ, fun tol h0 h1 => ?_⟩
    obtain ⟨vecs, M, evals, evecs, k1, k2, k3⟩ := H tol h0 h1
    exact ⟨_, k1, x.den_length _, k2, fun v => by rw [k3]; exact (fin (waveRep ℂ).den x v) ▸ Iff.rfl⟩
  · refine ⟨(waveMajorana ℂ).strAlg, rfl, fun s h => (h.resolve_left (by simp)).2.mono (Set.subset_univ S), by
      show (waveMajorana ℂ).den (identityString .majorana) = 1
      simp [MajoranaRep.den, identityString, wordProd, Pref.val], fun s h => Or.inr ⟨rfl, h⟩, fun mode O hO x hx hne eigh he => ?_⟩
    have hm : ∀ s, TypedString .majorana S s → MajoranaString Set.univ s := fun s h => (h.resolve_left (by simp)).2.mono (Set.subset_univ S)
    obtain ⟨δ, hδ, H⟩ := C49_exact_majorana (waveMajorana ℂ) mode (hx.mono hm) hne (fun s hs => hm s (hO s hs)) he
    refine ⟨δ, hδ, fun tol h0 h1 => ?_⟩
    obtain ⟨vecs, M, evals, evecs, k1, k2, k3⟩ := H tol h0 h1
    exact ⟨_, k1, x.den_length _, k2, fun v => by rw [k3]; exact (fin (waveMajorana ℂ).den x v) ▸ Iff.rfl⟩

/-- **C106** (`commuting_operators`): a combination of the elements of `y` is found to commute with `O` if and only if it is found as a combination of
elements of `x`, whichever exact eigensolvers are used, for all tolerances below a positive bound. -/
theorem C106_commuting_operators (ht : t = .pauli ∨ t = .majorana) (mode : Mode) {x y : BasisArg ℂ} (hx : x.All (TypedString t S))
    (hnx : x ≠ .operators []) (hy : y.All (TypedString t S)) (hny : y ≠ .operators []) {O : Operator ℂ} (hO : ∀ s ∈ O.basis.strs, TypedString t S s)
    {U : ℕ → ℕ → ℂ} (h : LinearCombinations x y U) {eigh eigh' : Eigh} (he : ExactEigh eigh) (he' : ExactEigh eigh') :
    ∃ δ > 0, ∀ tol, 0 < tol → tol ≤ δ → ∃ r r', commutingOperators eigh x O mode tol = .ok r ∧ commutingOperators eigh' y O mode tol = .ok r' ∧
      r.dim = x.size ∧ r'.dim = y.size ∧ OrthonormalColumns r.vecs ∧ OrthonormalColumns r'.vecs ∧
      ∀ v : Fin r'.dim → ℂ, v ∈ colSpan r'.vecs ↔ (fun k : Fin r.dim => ∑ j : Fin r'.dim, U k j * v j) ∈ colSpan r.vecs := by
  obtain ⟨R, -, -, -, -, H'⟩ := commuting_exact (S := S) ht
  have H := H' mode O hO
  obtain ⟨δ, d1, d2⟩ := H x hx hnx eigh he
  obtain ⟨δ', d1', d2'⟩ := H y hy hny eigh' he'
  refine ⟨min δ δ', lt_min d1 d1', fun tol h0 h1 => ?_⟩
  obtain ⟨r, a1, a2, a3, a4⟩ := d2 tol h0 (h1.trans (min_le_left _ _))
  obtain ⟨r', b1, b2, b3, b4⟩ := d2' tol h0 (h1.trans (min_le_right _ _))
  refine ⟨r, r', a1, b1, a2, b2, a3, b3, fun v => ?_⟩
  rw [a4, b4]
  have e : ∑ j : Fin r'.dim, v j • ((y.den R.den)[(j : ℕ)]?).getD 0 =
      ∑ k : Fin r.dim, (∑ j : Fin r'.dim, U k j * v j) • ((x.den R.den)[(k : ℕ)]?).getD 0 := by
    simp only [Finset.sum_smul]
    rw [Finset.sum_comm]
    refine Finset.sum_congr rfl fun j _ => ?_
    rw [h.den R.den (by rw [← b2]; exact j.2), Finset.smul_sum, Finset.sum_range, a2]
    exact Finset.sum_congr rfl fun k _ => by rw [smul_smul, mul_comm]
  rw [e]

/-- **C106** (larger bases): with more strings `commuting_operators` finds at least as many operators; the order of the strings does not matter for the
number. -/
theorem C106_count (ht : t = .pauli ∨ t = .majorana) (mode : Mode) {b b' : Basis} (hb : ∀ s ∈ b.strs, TypedString t S s) (hn' : b'.strs.Nodup)
    (hsub : ∀ s ∈ b'.strs, s ∈ b.strs) {O : Operator ℂ} (hO : ∀ s ∈ O.basis.strs, TypedString t S s) {eigh eigh' : Eigh} (he : ExactEigh eigh)
    (he' : ExactEigh eigh') :
    ∃ δ > 0, ∀ tol, 0 < tol → tol ≤ δ → ∃ r r', commutingOperators eigh (.strings b) O mode tol = .ok r ∧
      commutingOperators eigh' (.strings b') O mode tol = .ok r' ∧ r'.vecs.length ≤ r.vecs.length := by
  let U : ℕ → ℕ → ℂ := fun k j => if b'.strs[j]? = some (b.strs.getD k (identityString t)) ∧ b.strs.idxOf (b.strs.getD k (identityString t)) = k then 1 else 0
  have hU : ∀ j (hj : j < b'.strs.length) k, k < b.strs.length → U k j = if k = b.strs.idxOf b'.strs[j] then 1 else 0 := by
    intro j hj k hk
    simp only [U, List.getElem?_eq_getElem hj, List.getD_eq_getElem _ _ hk, Option.some.injEq]
    by_cases h : k = b.strs.idxOf b'.strs[j]
    · subst h
      simp
    · rw [if_neg h, if_neg]
      rintro ⟨e1, e2⟩
      exact h (by rw [e1, e2])
  have hlt : ∀ j (hj : j < b'.strs.length), b.strs.idxOf b'.strs[j] < b.strs.length := fun j hj => List.idxOf_lt_length_iff.mpr (hsub _ (List.getElem_mem hj))
  have hl : LinearCombinations (.strings b) (.strings b') U := by
    intro j hj s
    have hj' : j < b'.strs.length := by simpa [BasisArg.size, BasisArg.elementTerms] using hj
    have hs : (BasisArg.strings b : BasisArg ℂ).size = b.strs.length := by simp [BasisArg.size, BasisArg.elementTerms]
    rw [hs, Finset.sum_congr rfl (g := fun k => if k = b.strs.idxOf b'.strs[j] then (BasisArg.strings b : BasisArg ℂ).coefOf k s else 0) (fun k hk => by
      rw [hU j hj' k (Finset.mem_range.mp hk)]; split_ifs <;> simp), Finset.sum_ite_eq' , if_pos (Finset.mem_range.mpr (hlt j hj'))]
    have := hlt j hj'
    simp only [BasisArg.coefOf, BasisArg.elementTerms, List.getD_eq_getElem?_getD, List.getElem?_map, List.getElem?_eq_getElem hj', List.getElem?_eq_getElem this]
    simp
  obtain ⟨δ, d1, d2⟩ := C106_commuting_operators ht mode (x := .strings b) (y := .strings b') hb (by simp) (fun s hs => hb s (hsub s hs)) (by simp) hO hl he he'
  refine ⟨δ, d1, fun tol h0 h1 => ?_⟩
  obtain ⟨r, r', a1, a2, a3, a4, a5, a6, a7⟩ := d2 tol h0 h1
  refine ⟨r, r', a1, a2, ?_⟩
  have s1 : r.dim = b.strs.length := by rw [a3]; simp [BasisArg.size, BasisArg.elementTerms]
  have s2 : r'.dim = b'.strs.length := by rw [a4]; simp [BasisArg.size, BasisArg.elementTerms]
  let f : (Fin r'.dim → ℂ) →ₗ[ℂ] (Fin r.dim → ℂ) := Matrix.mulVecLin (fun (k : Fin r.dim) (j : Fin r'.dim) => U k j)
  have hf : ∀ v k, f v k = ∑ j : Fin r'.dim, U k j * v j := fun v k => rfl
  have hinj : Function.Injective f := by
    intro v w hvw
    funext j
    have hj : (j : ℕ) < b'.strs.length := by rw [← s2]; exact j.2
    have hk := hlt j hj
    have := congrFun hvw ⟨_, by rw [s1]; exact hk⟩
    rw [hf, hf] at this
    have one : ∀ u : Fin r'.dim → ℂ, ∑ i : Fin r'.dim, U (b.strs.idxOf b'.strs[(j : ℕ)]) i * u i = u j := by
      intro u
      rw [Finset.sum_eq_single j]
      · rw [hU j hj _ hk, if_pos rfl, one_mul]
      · intro i _ hij
        have hi : (i : ℕ) < b'.strs.length := by rw [← s2]; exact i.2
        rw [hU i hi _ hk, if_neg, zero_mul]
        intro e
        have e' : b'.strs[(j : ℕ)] = b'.strs[(i : ℕ)] := (List.idxOf_inj (hsub _ (List.getElem_mem hj))).mp e
        exact hij (Fin.ext ((hn'.getElem_inj_iff).mp e').symm)
      · simp
    rwa [one, one] at this
  have hmap : ∀ v ∈ colSpan r'.vecs, f v ∈ colSpan r.vecs := fun v hv => (a7 v).mp hv
  have := LinearMap.finrank_le_finrank_of_injective (f := f.restrict hmap) (fun v w hvw => Subtype.ext (hinj (congrArg Subtype.val hvw)))
  rwa [(orthonormal_independent a6).finrank, (orthonormal_independent a5).finrank] at this

/-! ### `invariant_operators` -/

private theorem size_len (x : BasisArg ℂ) : x.size = x.len := by
  cases x <;> simp [BasisArg.size, BasisArg.elementTerms, BasisArg.len]

private theorem coefOf_coef (x : BasisArg ℂ) (j : Fin x.len) (s : OpString) : x.coefOf j s = x.coef j s := by
  cases x with
  | strings b =>
    have hj : (j : ℕ) < b.strs.length := j.2
    simp only [BasisArg.coefOf, BasisArg.elementTerms, List.getD_eq_getElem?_getD, List.getElem?_map, List.getElem?_eq_getElem hj]
    simp only [BasisArg.coef, Option.map_some, Option.getD_some, coefT_cons, coefT_nil, add_zero]
    congr
  | operators l =>
    have hj : (j : ℕ) < l.length := j.2
    simp only [BasisArg.coefOf, BasisArg.elementTerms, List.getD_eq_getElem?_getD, List.getElem?_map, List.getElem?_eq_getElem hj]
    rfl

private theorem orthonormal_on {t : OpType} {V : OpString → Prop} {x : BasisArg ℂ} (h : x.Orthonormal t V) : x.On t V := by
  cases x with
  | strings b => exact h
  | operators l => exact h.1

/-- **C106** (`invariant_operators`): let the elements of `y` be linear combinations of the elements of `x`, both orthonormal.  A combination of the
elements of `y` is found to satisfy `T(A) = A` (or `-A`) if and only if it is found as a combination of elements of `x`, whichever exact numerical
routines are used, for all tolerances below a positive bound. -/
theorem C106_invariant_operators {T : Transformation ℂ} {V : OpString → Prop} {ε : OpString → ℂ} {f : OpString → OpString} (hT : SignRule T t V ε f)
    (hinj : Set.InjOn f {s | V s}) {x y : BasisArg ℂ} (hx : x.Orthonormal t V) (hnx : x ≠ .operators [])
    (hy : y.Orthonormal t V) (hny : y ≠ .operators []) {U : ℕ → ℕ → ℂ} (h : LinearCombinations x y U) {eigh eigh' : Eigh} (he : ExactEigh eigh)
    (he' : ExactEigh eigh') {pinv pinv' : Mat ℂ → Py (Mat ℂ)} (hp : IsPinv pinv) (hp' : IsPinv pinv') {mode : String} {sign : ℤ}
    (hs : symmetrySign mode = .ok sign) :
    ∃ δ > 0, ∀ tol, 0 < tol → tol ≤ δ → ∃ r r', invariantOperators eigh pinv x T mode tol = .ok r ∧ invariantOperators eigh' pinv' y T mode tol = .ok r' ∧
      r.dim = x.size ∧ r'.dim = y.size ∧ OrthonormalColumns r.vecs ∧ OrthonormalColumns r'.vecs ∧
      ∀ v : Fin r'.dim → ℂ, v ∈ colSpan r'.vecs ↔ (fun k : Fin r.dim => ∑ j : Fin r'.dim, U k j * v j) ∈ colSpan r.vecs := by
  obtain ⟨δ, d1, d2⟩ := C50_exact hT hinj hp hx hnx he hs
  obtain ⟨δ', d1', d2'⟩ := C50_exact hT hinj hp' hy hny he' hs
  refine ⟨min δ δ', lt_min d1 d1', fun tol h0 h1 => ?_⟩
  obtain ⟨vecs, M, evals, evecs, a1, a2, a3⟩ := d2 tol h0 (h1.trans (min_le_left _ _))
  obtain ⟨vecs', M', evals', evecs', b1, b2, b3⟩ := d2' tol h0 (h1.trans (min_le_right _ _))
  refine ⟨_, _, a1, b1, (size_len x).symm, (size_len y).symm, a2, b2, fun v => ?_⟩
  obtain ⟨A, hA, hv⟩ := (orthonormal_on hy).exists hT.type v
  obtain ⟨_, _, _, _, -, hI, -⟩ := C50_signed hT hinj hp hx hnx he hs h0
  obtain ⟨B, hB⟩ := hI.total A hA
  rw [b3 v A B hA hv hB, a3 _ A B hA _ hB]
  intro s
  rw [hv s]
  have e : ∀ j : Fin y.len, y.coef j s = ∑ k : Fin x.len, U k j * x.coef k s := by
    intro j
    rw [← coefOf_coef, h j (by rw [size_len]; exact j.2) s, size_len, Finset.sum_range]
    exact Finset.sum_congr rfl fun k _ => by rw [coefOf_coef]
  simp only [e, Finset.mul_sum, Finset.sum_mul]
  rw [Finset.sum_comm]
  exact Finset.sum_congr rfl fun k _ => Finset.sum_congr rfl fun j _ => by ring

end

/-! ### the hypotheses are met: the strings `X 0`, `Z 0` and the Operators `X 0 + Z 0`, `X 0 - Z 0` -/

private def xz : Basis := Basis.ofList [⟨[.X], [0], .pauli, .float1⟩, ⟨[.Z], [0], .pauli, .float1⟩]
private def hadamard : List (Operator QI) := [⟨[1, 1], xz, .pauli⟩, ⟨[1, -1], xz, .pauli⟩]

private theorem xz_typed : ∀ s ∈ xz.strs, TypedString .pauli (siteLabels 1) s := by
  intro s hs
  simp only [xz, Basis.ofList, List.mem_cons, List.not_mem_nil, or_false] at hs
  rcases hs with rfl | rfl <;> exact Or.inl ⟨rfl, rfl, by simp, rfl, by simp, by simp [siteLabels], by simp⟩

example : (BasisArg.operators hadamard).All (TypedString .pauli (siteLabels 1)) ∧
    LinearCombinations (.strings xz) (.operators hadamard) (fun k j => if k = 1 ∧ j = 1 then -1 else 1) := by
  constructor
  · intro o ho s hs
    simp only [hadamard, List.mem_cons, List.not_mem_nil, or_false] at ho
    rcases ho with rfl | rfl <;> exact xz_typed s hs
  · intro j hj s
    have : j = 0 ∨ j = 1 := by
      have : j < 2 := hj
      omega
    rw [show (BasisArg.strings xz : BasisArg QI).size = 2 from rfl, Finset.sum_range_succ, Finset.sum_range_one]
    rcases this with rfl | rfl <;>
      simp [BasisArg.coefOf, BasisArg.elementTerms, hadamard, xz, Basis.ofList, Operator.terms]

example : (commutantMatrix (.operators hadamard) (⟨[1], Basis.ofList [⟨[.Z], [0], .pauli, .float1⟩], .pauli⟩ : Operator QI) .commutator).map
    (fun x => (x.1.get 0 0, x.1.get 0 1)) = .ok ((4 : QI), 4) := by decide +kernel

/-- time reversal, the strings `X 0`, `Z 0` and the string `Z 0` alone -/
example : SignRule (timeReversal : Transformation ℂ) .pauli (TypedString .pauli (siteLabels 1)) (trSign ℂ) id ∧
    (BasisArg.strings xz).Orthonormal .pauli (TypedString .pauli (siteLabels 1)) ∧
    (BasisArg.strings (Basis.ofList [⟨[.Z], [0], .pauli, .float1⟩])).Orthonormal .pauli (TypedString .pauli (siteLabels 1)) ∧
    LinearCombinations (K := ℂ) (.strings xz) (.strings (Basis.ofList [⟨[.Z], [0], .pauli, .float1⟩])) (fun k _ => if k = 1 then 1 else 0) := by
  refine ⟨timeReversal_signRule .pauli _, ⟨Basis.Inv.ofList (by decide), xz_typed⟩, ⟨Basis.Inv.ofList (by decide), fun s hs => xz_typed s ?_⟩, ?_⟩
  · simp only [Basis.ofList, List.mem_cons, List.not_mem_nil, or_false] at hs
    subst hs
    simp [xz, Basis.ofList]
  · intro j hj s
    obtain rfl : j = 0 := by
      have : j < 1 := hj
      omega
    rw [show (BasisArg.strings xz : BasisArg ℂ).size = 2 from rfl, Finset.sum_range_succ, Finset.sum_range_one]
    simp [BasisArg.coefOf, BasisArg.elementTerms, xz, Basis.ofList]

end Qosy
