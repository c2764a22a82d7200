import Verif.Lemmas.PauliTrace
import Verif.Lemmas.Subsystem
import Verif.Props.Transformation
import Mathlib.LinearAlgebra.Matrix.PosDef
import Verif.Lemmas.LieAlgebra
import Verif.Lemmas.StrAlgInst
import Verif.Lemmas.JordanWigner
import Verif.Lemmas.Hermitian
import Verif.Spec.Concrete
import Verif.Props.StringAlgebra

/-! # C43-C46: matrices, vectors and reduced density matrices of spin systems -/

namespace Qosy
open Coef
variable {K : Type} [Field K] [StarRing K] [Coef K] {n : ℕ}

/-! ### C43 -/

/-- **C43**: the numbers below `2 ^ n` enumerate the configurations, so `IsMatrixOf` determines a matrix and its entries. -/
theorem C43_configurations (n : ℕ) : Function.Bijective (fun k : Fin (2 ^ n) => cfgOf n k) := cfgOf_bijective n

/-- **C43** (OperatorStrings): `to_matrix(S, n)` is the matrix of the operator that `S` denotes. -/
theorem C43_string {s : OpString} (hs : PauliString (siteLabels n) s) :
    ∃ M : Mat K, toMatrixString s n = .ok M ∧ IsMatrixOf n M ((matRep K n).den s) := by
  obtain ⟨M, h1, h2, _⟩ := toMatrixString_ok (K := K) hs
  exact ⟨M, h1, h2⟩

/-- **C43** (tensor products): the entries of `to_matrix(S, n)` are the products over the sites of the entries of the 2×2 Pauli
matrices, site 0 being the most significant bit. -/
theorem C43_tensor {s : OpString} (hs : PauliString (siteLabels n) s) :
    ∃ M : Mat K, toMatrixString s n = .ok M ∧ M.nrows = 2 ^ n ∧ M.ncols = 2 ^ n ∧ ∀ a b, a < 2 ^ n → b < 2 ^ n →
      M.get a b = ∏ i : Fin n, pauliMatrix (s.siteOp i) (a.testBit (n - 1 - i)) (b.testBit (n - 1 - i)) := by
  obtain ⟨M, h1, h2⟩ := C43_string (K := K) hs
  refine ⟨M, h1, h2.nrows, h2.ncols, fun a b ha hb => ?_⟩
  rw [h2.entries a b ha hb, PauliRep.den_eq, hs.val, one_smul, prod_entry s.word hs.good.ok (by rw [word_map_snd hs.len]; exact hs.nodup)]
  rfl

/-- **C43** (Operators): `to_matrix` of an Operator is the linear combination of the matrices of its strings. -/
theorem C43_operator {A : Operator K} (hA : ∀ s ∈ A.basis.strs, PauliString (siteLabels n) s) :
    ∃ M : Mat K, toMatrixOperator A n = .ok M ∧ IsMatrixOf n M (A.den (matRep K n).den) := by
  obtain ⟨M, h1, h2, _⟩ := toMatrixOperator_ok hA
  exact ⟨M, h1, h2⟩

/-- **C43** (products): if `product(A, B) = (c, C)` then `to_matrix(A).dot(to_matrix(B))` is `c * to_matrix(C)`. -/
theorem C43_product {A B C : OpString} (hA : PauliString (siteLabels n) A) (hB : PauliString (siteLabels n) B) {c : K}
    (h : productS A B = .ok (c, some C)) : ∃ MA MB MC P : Mat K, toMatrixString A n = .ok MA ∧ toMatrixString B n = .ok MB ∧
      toMatrixString C n = .ok MC ∧ MA.dot MB = .ok P ∧ P.nrows = MC.nrows ∧ P.ncols = MC.ncols ∧ ∀ i j, P.get i j = c * MC.get i j := by
  obtain ⟨c1, c2, C', hr⟩ := pauli_core (matRep K n) hA hB
  have := hr.prod
  rw [show productS A B = (Except.ok (c, some C) : Py (K × Option OpString)) from h] at this
  simp only [Except.ok.injEq, Prod.mk.injEq, Option.some.injEq] at this
  obtain ⟨rfl, rfl⟩ := this
  obtain ⟨MA, a1, a2, a3⟩ := toMatrixString_ok (K := K) hA
  obtain ⟨MB, b1, b2, b3⟩ := toMatrixString_ok (K := K) hB
  obtain ⟨MC, c1', c2', c3⟩ := toMatrixString_ok (K := K) hr.str
  obtain ⟨P, p1, p2, _⟩ := a2.dot b2 a3 b3
  refine ⟨MA, MB, MC, P, a1, b1, c1', p1, by rw [p2.nrows, c2'.nrows], by rw [p2.ncols, c2'.ncols], fun i j => ?_⟩
  by_cases hij : i < 2 ^ n ∧ j < 2 ^ n
  · rw [p2.entries i j hij.1 hij.2, c2'.entries i j hij.1 hij.2, hr.ab, Matrix.smul_apply, smul_eq_mul]
  · rw [p2.outside i j hij, c2'.outside i j hij, mul_zero]

/-- **C43** (Hermitian and unitary): the matrix of a string equals its conjugate transpose, and its square is the identity. -/
theorem C43_hermitian_unitary {s : OpString} (hs : PauliString (siteLabels n) s) : ∃ M P : Mat K, toMatrixString s n = .ok M ∧
    (∀ i j, M.getH.get i j = M.get i j) ∧ M.getH.dot M = .ok P ∧ IsMatrixOf n P 1 := by
  obtain ⟨M, a1, a2, a3⟩ := toMatrixString_ok (K := K) hs
  have hstar : star ((matRep K n).den s) = (matRep K n).den s := (matRep K n).star_den (matRep_star K n) hs
  have hH := a2.getH
  rw [hstar] at hH
  obtain ⟨P, p1, p2, _⟩ := hH.dot a2 (Mat.getH_wf a3) a3
  rw [C05_pauli_square _ hs] at p2
  refine ⟨M, P, a1, fun i j => ?_, p1, p2⟩
  by_cases hij : i < 2 ^ n ∧ j < 2 ^ n
  · rw [hH.entries i j hij.1 hij.2, a2.entries i j hij.1 hij.2]
  · rw [hH.outside i j hij, a2.outside i j hij]

/-- **C43** (errors): a label beyond the last site raises ValueError; strings of other types raise NotImplementedError. -/
theorem C43_errors (s : OpString) (hl : s.ops.length = s.labels.length) :
    (s.opType = .pauli → (∃ l ∈ s.labels, (n : ℤ) ≤ l) → toMatrixString (K := K) s n = .error .valueError) ∧
    (s.opType ≠ .pauli → toMatrixString (K := K) s n = .error .notImplemented) := by
  constructor
  · rintro ht ⟨l, h1, h2⟩
    have hw : ∃ x ∈ s.ops.zip s.labels, (n : ℤ) ≤ x.2 := by
      have : l ∈ (s.ops.zip s.labels).map Prod.snd := by rw [List.map_snd_zip (by omega)]; exact h1
      obtain ⟨x, hx, rfl⟩ := List.mem_map.mp this
      exact ⟨x, hx, h2⟩
    have h0 : ∀ k, applyOpstring (K := K) s k n = .error .valueError := by
      intro k
      rw [applyOpstring, if_neg (not_not.mpr ht)]
      exact applyOps_err _ _ hw
    have : (List.range (2 ^ n)) ≠ [] := by simp
    obtain ⟨x, xs, hx⟩ := List.exists_cons_of_ne_nil this
    rw [toMatrixString, toMatrixTriples, if_pos ht, hx, List.mapM_cons]
    simp only [h0]
    rfl
  · intro ht
    rw [toMatrixString, toMatrixTriples, if_neg ht]; rfl

/-- **C43**: negative labels are not rejected: `Z` at the site -1 gives the identity matrix instead of an error. -/
theorem C43_negative_label : ∃ M, toMatrixString (K := QI) ⟨[.Z], [-1], .pauli, .float1⟩ 1 = .ok M ∧ M.data = [(0, 0, 1), (1, 1, 1)] :=
  ⟨⟨2, 2, [(0, 0, 1), (1, 1, 1)]⟩, by decide +kernel, rfl⟩

/-- the hypotheses are met: `X 0 Y 2` on three sites -/
example : PauliString (siteLabels 3) ⟨[.X, .Y], [0, 2], .pauli, .float1⟩ :=
  ⟨rfl, by decide, rfl, by decide, by intro l hl; fin_cases hl <;> (unfold siteLabels; decide), by decide⟩

/-! ### C44 -/

/-- **C44** (orthonormality): `tr(S† T) / 2 ** n` is 1 if the strings are the same and 0 otherwise, for strings with sorted labels (as the
library returns them). -/
theorem C44_orthonormal {s t : OpString} (hs : PauliString (siteLabels n) s) (ht : PauliString (siteLabels n) t) (cs : s.Canonical) (ct : t.Canonical) :
    ∃ MS MT P : Mat K, toMatrixString s n = .ok MS ∧ toMatrixString t n = .ok MT ∧ MS.getH.dot MT = .ok P ∧
      P.diagSum / 2 ^ n = if s = t then 1 else 0 := by
  obtain ⟨MS, a1, a2, a3⟩ := toMatrixString_ok (K := K) hs
  obtain ⟨MT, b1, b2, b3⟩ := toMatrixString_ok (K := K) ht
  obtain ⟨P, p1, p2, _⟩ := a2.getH.dot b2 (Mat.getH_wf a3) b3
  refine ⟨MS, MT, P, a1, b1, p1, ?_⟩
  rw [p2.diagSum, trace_den_den hs ht cs ct]
  split
  · exact div_self (pow_ne_zero _ two_ne_zero')
  · exact zero_div _

/-- **C44**: `to_vector(to_matrix(O, n), basis, n)` lists the coefficients of `O` for the strings of the basis. -/
theorem C44_to_vector {A : Operator K} (hA : ∀ s ∈ A.basis.strs, PauliString (siteLabels n) s ∧ s.Canonical) {b : Basis}
    (hb : ∀ s ∈ b.strs, PauliString (siteLabels n) s ∧ s.Canonical) :
    ∃ M, toMatrixOperator A n = .ok M ∧ toVectorOf M b n = .ok (b.strs.map A.coef) := by
  obtain ⟨M, h1, h2, h3⟩ := toMatrixOperator_ok (n := n) (A := A) (fun s hs => (hA s hs).1)
  refine ⟨M, h1, ?_⟩
  rw [toVectorOf_ok h2 h3 (fun s hs => (hb s hs).1)]
  congr 1
  apply List.map_congr_left
  intro s hs
  have h2n : (2 : K) ^ n ≠ 0 := pow_ne_zero _ two_ne_zero'
  have key : ∀ ts : List (K × OpString), (∀ t ∈ ts, PauliString (siteLabels n) t.2 ∧ t.2.Canonical) →
      (star ((matRep K n).den s) * denT (matRep K n).den ts).trace = 2 ^ n * coefT ts s := by
    intro ts
    induction ts with
    | nil => simp [denT, coefT]
    | cons t ts ih =>
      intro h
      rw [denT_cons, mul_add, Matrix.trace_add, mul_smul_comm, Matrix.trace_smul,
        trace_den_den (hb s hs).1 (h t (by simp)).1 (hb s hs).2 (h t (by simp)).2, ih (fun t ht => h t (List.mem_cons_of_mem _ ht)), coefT_cons]
      by_cases e : s = t.2
      · simp [e]; ring
      · simp [e, Ne.symm e]
  rw [Operator.den, key A.terms (fun t ht => hA _ (List.of_mem_zip ht).2), mul_comm, mul_div_assoc, div_self h2n, mul_one]
  rfl

/-- **C44** (inverse): over the basis of all Pauli strings of the sites, every `2 ** n` × `2 ** n` matrix is recovered by
`to_matrix(Operator(to_vector(M, basis, n), basis), n)`. -/
theorem C44_complete {M : Mat K} (wM : M.WF) (hr : M.nrows = 2 ^ n) (hc : M.ncols = 2 ^ n) {b : Basis} (hb : b.Inv)
    (hs : ∀ s, s ∈ b.strs ↔ PauliString (siteLabels n) s ∧ s.Canonical) :
    ∃ v M', toVectorOf M b n = .ok v ∧ v.length = b.len ∧ toMatrixOperator ⟨v, b, .pauli⟩ n = .ok M' ∧
      M'.nrows = M.nrows ∧ M'.ncols = M.ncols ∧ ∀ i j, M'.get i j = M.get i j := by
  let D : Matrix (Cfg n) (Cfg n) K := fun σ τ => M.get ((cfgEquiv n).symm σ) ((cfgEquiv n).symm τ)
  have hk : ∀ a (ha : a < 2 ^ n), (cfgEquiv n).symm (cfgOf n a) = ⟨a, ha⟩ := by
    intro a ha
    rw [Equiv.symm_apply_eq]; rfl
  have hM : IsMatrixOf n M D := by
    refine ⟨hr, hc, ?_, ?_⟩
    · intro a c ha hc'
      simp only [D]
      rw [hk a ha, hk c hc']
    · intro a c h
      apply tget_eq_zero
      intro e he
      have := wM e he
      rw [hr, hc] at this
      by_contra hcon
      push Not at hcon
      exact h ⟨hcon.1 ▸ this.1, hcon.2 ▸ this.2⟩
  have hv := toVectorOf_ok hM wM (fun s h => ((hs s).mp h).1)
  obtain ⟨M', h1, h2⟩ := C43_operator (n := n) (A := (⟨b.strs.map (fun s => (star ((matRep K n).den s) * D).trace / 2 ^ n), b, .pauli⟩ : Operator K))
    (fun s h => ((hs s).mp h).1)
  have hden : (⟨b.strs.map (fun s => (star ((matRep K n).den s) * D).trace / 2 ^ n), b, .pauli⟩ : Operator K).den (matRep K n).den = D := by
    conv_rhs => rw [pauli_expansion hb.2 (fun s h => (hs s).mp h) (fun s h1 h2 => (hs s).mpr ⟨h1, h2⟩) D]
    simp only [Operator.den, denT, Operator.terms]
    congr 1
    induction b.strs with
    | nil => rfl
    | cons x xs ih => simp only [List.map_cons, List.zip_cons_cons, ih]
  rw [hden] at h2
  refine ⟨_, M', hv, by simp [Basis.len], h1, by rw [h2.nrows, hr], by rw [h2.ncols, hc], fun i j => ?_⟩
  by_cases hij : i < 2 ^ n ∧ j < 2 ^ n
  · rw [h2.entries i j hij.1 hij.2, hM.entries i j hij.1 hij.2]
  · rw [h2.outside i j hij, hM.outside i j hij]

/-- the basis of all Pauli strings exists -/
example (n : ℕ) : ∃ b : Basis, b.Inv ∧ ∀ s, s ∈ b.strs ↔ PauliString (siteLabels n) s ∧ s.Canonical := by
  have hfin : {s : OpString | PauliString (siteLabels n) s ∧ s.Canonical}.Finite := by
    refine (finite_canonical [.X, .Y, .Z] .pauli (Finset.Ico 0 (n : ℤ))).subset ?_
    rintro s ⟨h1, h2, h3⟩
    exact ⟨fun op h => by simpa using h1.ops op h, h1.type, h1.len, h2, h3, fun l hl => by simpa [siteLabels] using h1.mem l hl⟩
  refine ⟨Basis.ofList hfin.toFinset.toList, Basis.Inv.ofList (Finset.nodup_toList _), fun s => ?_⟩
  show s ∈ hfin.toFinset.toList ↔ _
  rw [Finset.mem_toList, Set.Finite.mem_toFinset]
  rfl

/-! ### C94 -/

theorem coefT_zip_map {f : OpString → K} {s : OpString} : ∀ {l : List OpString}, l.Nodup → coefT ((l.map f).zip l) s = if s ∈ l then f s else 0
  | [], _ => by simp [coefT]
  | a :: l, h => by
    rw [List.nodup_cons] at h
    rw [List.map_cons, List.zip_cons_cons, coefT_cons, coefT_zip_map h.2]
    by_cases hs : a = s
    · subst hs; simp [h.1]
    · simp [hs, Ne.symm hs]

/-- **C94** is violated: `to_operator` raises TypeError for all arguments, because it calls `to_vector` without `num_orbitals`. -/
theorem C94_refuted (M : Mat K) (b : Basis) (n : ℕ) : toOperatorOf M b n = .error .typeError := rfl

/-- **C94** (the rest): with `num_orbitals` passed on, the body of `to_operator` inverts `to_matrix` for operators on the strings of a
basis that is not empty. -/
theorem C94_partial {A : Operator K} (hA : ∀ s ∈ A.basis.strs, PauliString (siteLabels n) s ∧ s.Canonical) {b : Basis} (hi : b.Inv) (hne : b.strs ≠ [])
    (hb : ∀ s ∈ b.strs, PauliString (siteLabels n) s ∧ s.Canonical) (hAb : ∀ s ∈ A.basis.strs, s ∈ b.strs) :
    ∃ M B, toMatrixOperator A n = .ok M ∧ toOperatorBody (some n) M b = .ok B ∧ B.opType = .pauli ∧ B.basis.strs = b.strs ∧ ∀ s, B.coef s = A.coef s := by
  obtain ⟨M, h1, h2⟩ := C44_to_vector hA hb
  obtain ⟨a, l, hl⟩ := List.exists_cons_of_ne_nil hne
  refine ⟨M, ⟨b.strs.map A.coef, Basis.ofList b.strs, .pauli⟩, h1, ?_, rfl, rfl, fun s => ?_⟩
  · unfold toOperatorBody callToVector
    simp only [h2, bind, Except.bind]
    have e : pyGet b.strs 0 = .ok a := by rw [hl]; rfl
    rw [e]
    simp only [mkOperator, mkBasis_ok hi.2, bind, Except.bind, mkOperatorB]
    have ha := (hb a (by rw [hl]; exact List.mem_cons_self ..)).1.type
    simp only [Basis.ofList, hl, ha]
  · show coefT ((b.strs.map A.coef).zip b.strs) s = _
    rw [coefT_zip_map hi.2]
    split
    · rfl
    · rename_i hs
      refine (coefT_of_not_mem (fun h => hs (hAb s ?_))).symm
      obtain ⟨t, ht, rfl⟩ := List.mem_map.mp h
      exact (List.of_mem_zip ht).2

/-- non-vacuity: the operator `X_0 + 2 Z_1` over the basis `X_0, Y_1, Z_1` -/
example : (do
    let M ← toMatrixOperator (K := QI) ⟨[1, 2], Basis.ofList [⟨[.X], [0], .pauli, .float1⟩, ⟨[.Z], [1], .pauli, .float1⟩], .pauli⟩ 2
    let B ← toOperatorBody (some 2) M (Basis.ofList [⟨[.X], [0], .pauli, .float1⟩, ⟨[.Y], [1], .pauli, .float1⟩, ⟨[.Z], [1], .pauli, .float1⟩])
    .ok B.coeffs : Py (List QI)) = .ok [1, 0, 2] := by decide +kernel

/-! ### C45 -/

/-- **C45** (configurations): the spin that was at site `i` is afterwards at site `g i`. -/
theorem C45_configuration (g : Equiv.Perm (Fin n)) (k : ℕ) : ∃ k', applyTransformationConf (some (labelsOf (permArray g))) k n = .ok k' ∧
    k' < 2 ^ n ∧ ∀ i, cfgOf n k' (g i) = cfgOf n k i := by
  obtain ⟨a, a1, a2, a3⟩ := permuteConf_ok g k
  refine ⟨a, ?_, a2, fun i => congrFun a3 i⟩
  rw [applyTransformationConf]
  rw [if_neg (by simp [labelsOf, permArray])]
  exact a1

/-- **C45** (vectors): the amplitude of the configuration `σ` afterwards is the amplitude that the configuration with the spin
`σ (g i)` at every site `i` had before. -/
theorem C45_vector (g : Equiv.Perm (Fin n)) {v : List K} {ψ : Cfg n → K} (hv : IsState n v ψ) :
    ∃ w, applyTransformation (some (labelsOf (permArray g))) v n = .ok w ∧ IsState n w (fun σ => ψ (fun i => σ (g i))) :=
  applyTransformation_ok g hv

/-- every list of `2 ** n` numbers is a state -/
theorem C45_states {v : List K} (h : v.length = 2 ^ n) : ∃ ψ, IsState n v ψ := by
  refine ⟨fun σ => v.getD ((cfgEquiv n).symm σ) 0, h, fun k hk => ?_⟩
  have e : (cfgEquiv n).symm (cfgOf n k) = ⟨k, hk⟩ := by rw [Equiv.symm_apply_eq]; rfl
  rw [e]
  simp [List.getD_eq_getElem?_getD, h, hk]

/-- **C45** (inner products): the transformation is unitary. -/
theorem C45_unitary (g : Equiv.Perm (Fin n)) {v w : List K} (hv : v.length = 2 ^ n) (hw : w.length = 2 ^ n) :
    ∃ v' w', applyTransformation (some (labelsOf (permArray g))) v n = .ok v' ∧ applyTransformation (some (labelsOf (permArray g))) w n = .ok w' ∧
      v'.length = 2 ^ n ∧ w'.length = 2 ^ n ∧
      ∑ k ∈ Finset.range (2 ^ n), star (v'.getD k 0) * w'.getD k 0 = ∑ k ∈ Finset.range (2 ^ n), star (v.getD k 0) * w.getD k 0 := by
  obtain ⟨ψ, hψ⟩ := C45_states hv
  obtain ⟨φ, hφ⟩ := C45_states hw
  obtain ⟨v', a1, a2⟩ := applyTransformation_ok g hψ
  obtain ⟨w', b1, b2⟩ := applyTransformation_ok g hφ
  refine ⟨v', w', a1, b1, a2.length, b2.length, ?_⟩
  have key : ∀ {x y : List K} {χ ξ : Cfg n → K}, IsState n x χ → IsState n y ξ →
      ∑ k ∈ Finset.range (2 ^ n), star (x.getD k 0) * y.getD k 0 = ∑ σ, star (χ σ) * ξ σ := by
    intro x y χ ξ hx hy
    rw [← sum_range_cfg']
    apply Finset.sum_congr rfl
    intro k hk
    rw [hx.getD (Finset.mem_range.mp hk), hy.getD (Finset.mem_range.mp hk)]
  rw [key a2 b2, key hψ hφ]
  exact (g.symm.arrowCongr (Equiv.refl Bool)).sum_comp (fun σ => star (ψ σ) * φ σ)

/-- **C45** (composition): transforming with `g` and then with `h` is transforming with their composition. -/
theorem C45_compose (g h : Equiv.Perm (Fin n)) {v : List K} (hv : v.length = 2 ^ n) :
    ∃ w u, applyTransformation (some (labelsOf (permArray g))) v n = .ok w ∧ applyTransformation (some (labelsOf (permArray h))) w n = .ok u ∧
      applyTransformation (some (labelsOf (permArray (h * g)))) v n = .ok u := by
  obtain ⟨ψ, hψ⟩ := C45_states hv
  obtain ⟨w, a1, a2⟩ := applyTransformation_ok g hψ
  obtain ⟨u, b1, b2⟩ := applyTransformation_ok h a2
  obtain ⟨u', c1, c2⟩ := applyTransformation_ok (h * g) hψ
  exact ⟨w, u, a1, b1, by rw [c1, c2.ext b2 rfl]⟩

/-- **C45** (operators): `apply_transformation(T, to_matrix(A).dot(v)) = to_matrix(T(A)).dot(apply_transformation(T, v))`, where `T` is the label
permutation acting on Operators. -/
theorem C45_intertwines (g : Equiv.Perm (Fin n)) {A : Operator K} (hA : A.On .pauli (PauliString (siteLabels n))) {v : List K}
    (hv : v.length = 2 ^ n) :
    ∃ B M M' w, (labelPermutation (labelsOf (permArray g))).apply A = .ok B ∧ toMatrixOperator A n = .ok M ∧ toMatrixOperator B n = .ok M' ∧
      applyTransformation (some (labelsOf (permArray g))) v n = .ok w ∧
      applyTransformation (some (labelsOf (permArray g))) (matVec M v) n = .ok (matVec M' w) := by
  obtain ⟨ψ, hψ⟩ := C45_states hv
  have hlen : (permArray g).length = n := by simp [permArray]
  have hAB : ∃ B, (labelPermutation (labelsOf (permArray g))).apply A = .ok B ∧ B.On .pauli (PauliString (siteLabels n)) ∧
      B.den (matRep K n).den = A.den ((matRep K n).relabelOn (relabelMap (siteList g.toEmbedding)) relabelMap_siteList_inj relabelMap_siteList_mapsTo).den := by
    have hp := permArray_isPermArray g
    have hV : TypedString .pauli (siteLabels n) = PauliString (siteLabels n) := by
      funext s; simp [TypedString]
    have h := labelPermutation_signRule (K := K) hp .pauli
    rw [hlen, hV] at h
    refine apply_den h.maps hA (matRep K n).den _ (fun s hs => ?_)
    rw [Sends.image (h.sends s hs), (matRep K n).den_relabel relabelMap_siteList_inj relabelMap_siteList_mapsTo hs, siteList_perm]
    simp [denT]
  obtain ⟨B, b1, b2, b3⟩ := hAB
  obtain ⟨M, m1, m2⟩ := C43_operator hA.mem
  obtain ⟨M', m1', m2'⟩ := C43_operator b2.mem
  obtain ⟨w, w1, w2⟩ := applyTransformation_ok g hψ
  obtain ⟨u, u1, u2⟩ := applyTransformation_ok g (matVec_state m2 hψ)
  refine ⟨B, M, M', w, b1, m1, m1', w1, ?_⟩
  rw [u1, u2.ext (matVec_state m2' w2)]
  funext σ
  rw [b3, ← embedOp_operator (perm_rest g) hA.mem, Matrix.mulVec, Matrix.mulVec, dotProduct, dotProduct]
  rw [← (g.symm.arrowCongr (Equiv.refl Bool)).sum_comp]
  apply Finset.sum_congr rfl
  intro τ _
  rw [embedOp_apply, if_pos (by funext i; exact i.elim0)]
  rfl

/-- **C45** (errors): a transformation that is not a label permutation, or of another number of orbitals, gives ValueError. -/
theorem C45_errors (v : List K) (k : ℕ) : applyTransformation none v n = .error .valueError ∧ applyTransformationConf none k n = .error .valueError ∧
    ∀ p : List ℤ, p.length ≠ n → applyTransformation (some p) v n = .error .valueError ∧ applyTransformationConf (some p) k n = .error .valueError := by
  refine ⟨rfl, rfl, fun p hp => ⟨?_, ?_⟩⟩
  · rw [applyTransformation]; exact if_pos hp
  · rw [applyTransformationConf]; exact if_pos hp

/-- a cyclic shift of three sites moves the amplitude of `100` to `010` -/
example : applyTransformation (K := QI) (some [1, 2, 0]) [0, 0, 0, 0, 1, 0, 0, 0] 3 = .ok [0, 0, 1, 0, 0, 0, 0, 0] := by decide +kernel

/-! ### C46 -/

/-- **C46** (partial trace): `reduced_density_matrix(v, labels, n)` is the partial trace of `|v⟩⟨v|` over the other sites. -/
theorem C46_partial_trace {m : ℕ} (f : Fin m ↪ Fin n) {v : List K} {ψ : Cfg n → K} (hv : IsState n v ψ) :
    ∃ ρ, reducedDensityMatrix v (siteList f) n = .ok ρ ∧ IsDenseOf m ρ (partialTrace f ψ ψ) := by
  rw [reducedDensityMatrix_eq]
  exact reducedTransitionMatrix_ok f hv hv

/-- **C46** (pairs of vectors): the same for a pair of vectors. -/
theorem C46_transition {m : ℕ} (f : Fin m ↪ Fin n) {v w : List K} {ψ φ : Cfg n → K} (hv : IsState n v ψ) (hw : IsState n w φ) :
    ∃ ρ, reducedTransitionMatrix v w (siteList f) n = .ok ρ ∧ IsDenseOf m ρ (partialTrace f ψ φ) :=
  reducedTransitionMatrix_ok f hv hw

/-- every list of distinct labels in `range(n)` is of the form considered -/
theorem C46_labels {l : List ℤ} (hn : l.Nodup) (hl : ∀ x ∈ l, x ∈ siteLabels n) : ∃ f : Fin l.length ↪ Fin n, siteList f = l :=
  exists_siteList hn hl

open scoped ComplexOrder in
/-- **C46** (density matrix): the result is Hermitian and positive semidefinite, and its trace is the squared norm of the vector. -/
theorem C46_density {m : ℕ} (f : Fin m ↪ Fin n) {v : List K} (hv : v.length = 2 ^ n) :
    ∃ ρ, reducedDensityMatrix v (siteList f) n = .ok ρ ∧ ρ.nrows = 2 ^ m ∧ ρ.ncols = 2 ^ m ∧
      (∀ a b, a < 2 ^ m → b < 2 ^ m → ρ.get b a = star (ρ.get a b)) ∧
      (Matrix.of (fun a b : Fin (2 ^ m) => toC (ρ.get a b))).PosSemidef ∧
      ∑ a ∈ Finset.range (2 ^ m), ρ.get a a = ∑ k ∈ Finset.range (2 ^ n), star (v.getD k 0) * v.getD k 0 := by
  obtain ⟨ψ, hψ⟩ := C45_states hv
  obtain ⟨ρ, h1, h2⟩ := C46_partial_trace f hψ
  obtain ⟨t, h, ht, hc⟩ := tracedLabels_siteList f
  refine ⟨ρ, h1, h2.nrows, h2.ncols, ?_, ?_, ?_⟩
  · intro a b ha hb
    rw [h2.entries a b ha hb, h2.entries b a hb ha, partialTrace_eq hc, partialTrace_eq hc, star_sum]
    apply Finset.sum_congr rfl
    intro γ _
    rw [star_mul', star_star, mul_comm]
  · let C : Matrix (Fin (2 ^ m)) (Cfg t) ℂ := fun a γ => toC (ψ ((splitEquiv hc).symm (cfgOf m a, γ)))
    have : Matrix.of (fun a b : Fin (2 ^ m) => toC (ρ.get a b)) = C * C.conjTranspose := by
      ext a b
      rw [Matrix.mul_apply]
      simp only [Matrix.of_apply, Matrix.conjTranspose_apply, C]
      rw [h2.entries a b a.2 b.2, partialTrace_eq hc, map_sum]
      apply Finset.sum_congr rfl
      intro γ _
      rw [map_mul, toC_star]
      rfl
    rw [this]
    exact Matrix.posSemidef_self_mul_conjTranspose C
  · have e1 : ∑ a ∈ Finset.range (2 ^ m), ρ.get a a = ∑ α, partialTrace f ψ ψ α α := by
      rw [← sum_range_cfg']
      apply Finset.sum_congr rfl
      intro a ha
      rw [Finset.mem_range] at ha
      exact h2.entries a a ha ha
    have e2 : ∑ k ∈ Finset.range (2 ^ n), star (v.getD k 0) * v.getD k 0 = ∑ σ, star (ψ σ) * ψ σ := by
      rw [← sum_range_cfg']
      apply Finset.sum_congr rfl
      intro k hk
      rw [hψ.getD (Finset.mem_range.mp hk)]
    rw [e1, e2, ← (splitEquiv hc).symm.sum_comp, Fintype.sum_prod_type]
    apply Finset.sum_congr rfl
    intro α _
    rw [partialTrace_eq hc]
    apply Finset.sum_congr rfl
    intro γ _
    ring

/-- **C46** (expectation values): for a string `S` on the `m` sites of the subsystem, `tr(to_matrix(S, m) ρ)` is the matrix element
`⟨w| to_matrix(S', n) |v⟩`, where `S'` is `S` moved to the sites `labels[0], labels[1], …` of the full system. -/
theorem C46_expectation {m : ℕ} (f : Fin m ↪ Fin n) {v w : List K} (hv : v.length = 2 ^ n) (hw : w.length = 2 ^ n) {s : OpString}
    (hs : PauliString (siteLabels m) s) :
    ∃ s' M M' ρ, (labelPermutation (siteList f) : Transformation K).Sends s 1 s' ∧ toMatrixString s m = .ok M ∧ toMatrixString s' n = .ok M' ∧
      reducedTransitionMatrix v w (siteList f) n = .ok ρ ∧
      ∑ a ∈ Finset.range (2 ^ m), ∑ b ∈ Finset.range (2 ^ m), M.get a b * ρ.get b a =
        ∑ a ∈ Finset.range (2 ^ n), ∑ b ∈ Finset.range (2 ^ n), star (w.getD a 0) * M'.get a b * v.getD b 0 := by
  obtain ⟨ψ, hψ⟩ := C45_states hv
  obtain ⟨φ, hφ⟩ := C45_states hw
  obtain ⟨ρ, h1, h2⟩ := C46_transition f hψ hφ
  obtain ⟨t, h, ht, hc⟩ := tracedLabels_siteList f
  have hs' : PauliString (siteLabels (siteList f).length) s := by rw [siteList_length]; exact hs
  obtain ⟨s', s1, _, s3⟩ := C36_pauli (K := K) (siteList_nodup f) hs'
  obtain ⟨s4, s5⟩ := s3 (T := siteLabels n) (by rw [siteList_length]; exact relabelMap_siteList_mapsTo)
  have s6 := embedOp_den (K := K) hc hs
  obtain ⟨M, m1, m2⟩ := C43_string (K := K) hs
  obtain ⟨M', m1', m2'⟩ := C43_string (K := K) s4
  refine ⟨s', M, M', ρ, s1, m1, m1', h1, ?_⟩
  have hden : embedOp hc ((matRep K m).den s) = (matRep K n).den s' := by
    rw [s6, ← s5 (matRep K n)]
    rfl
  have e1 : ∑ a ∈ Finset.range (2 ^ m), ∑ b ∈ Finset.range (2 ^ m), M.get a b * ρ.get b a =
      ∑ α, ∑ β, (matRep K m).den s α β * partialTrace f ψ φ β α := by
    rw [← sum_range_cfg']
    apply Finset.sum_congr rfl
    intro a ha
    rw [← sum_range_cfg']
    apply Finset.sum_congr rfl
    intro b hb
    rw [Finset.mem_range] at ha hb
    rw [m2.entries a b ha hb, h2.entries b a hb ha]
  have e2 : ∑ a ∈ Finset.range (2 ^ n), ∑ b ∈ Finset.range (2 ^ n), star (w.getD a 0) * M'.get a b * v.getD b 0 =
      ∑ σ, ∑ τ, star (φ σ) * (matRep K n).den s' σ τ * ψ τ := by
    rw [← sum_range_cfg']
    apply Finset.sum_congr rfl
    intro a ha
    rw [← sum_range_cfg']
    apply Finset.sum_congr rfl
    intro b hb
    rw [Finset.mem_range] at ha hb
    rw [m2'.entries a b ha hb, hφ.getD ha, hψ.getD hb]
  rw [e1, e2, ← hden]
  exact trace_partialTrace hc _ ψ φ

/-- the two-site singlet `|01⟩ - |10⟩`: the reduced density matrix of either site is the identity -/
example : ∃ ρ : Dense QI, reducedDensityMatrix [0, 1, -1, 0] [1] 2 = .ok ρ ∧ ρ.get 0 0 = 1 ∧ ρ.get 0 1 = 0 ∧ ρ.get 1 0 = 0 ∧ ρ.get 1 1 = 1 :=
  ⟨_, rfl, by decide +kernel, by decide +kernel, by decide +kernel, by decide +kernel⟩

end Qosy
