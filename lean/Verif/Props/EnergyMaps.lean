import Verif.Lemmas.EnergyMaps
import Verif.Props.Energies
import Verif.Props.Ladder
import Verif.Props.CommutantAlgebra
import Verif.Lemmas.LadderNumerics

/-!
# Property C110: the operators found act on the energy eigenstates as promised
-/

namespace Qosy
open Matrix Coef RealOps
variable {n : ℕ} {eig : Eigensolvers}

private theorem energies (heig : eig.Exact) {H : Operator ℂ} (hH : H.On .pauli (PauliString (siteLabels n))) (hreal : ∀ x ∈ H.terms, star x.1 = x.1) :
    ∃ vals vecs MH, diagonalize eig H n = .ok (vals, vecs) ∧ vals.length = 2 ^ n ∧ toMatrixOperator H n = .ok MH ∧
      IsMatrixOf n MH (H.den (matRep ℂ n).den) ∧ (∀ v ∈ vecs, v.length = 2 ^ n) ∧
      ∀ (act : List ℂ → List ℂ) (F : (Cfg n → ℂ) → Cfg n → ℂ) (f : ℂ → ℂ), (∀ v ψ, IsState n v ψ → IsState n (act v) (F ψ)) →
        (∀ (E : ℝ) (ψ : Cfg n → ℂ), (H.den (matRep ℂ n).den).mulVec ψ = (E : ℂ) • ψ → (H.den (matRep ℂ n).den).mulVec (F ψ) = f E • F ψ) →
        MapsEnergies MH act vals vecs f := by
  have hh := hermitian_of_real (fun s hs => star_den_matRep (hH.mem s hs)) hreal
  have hd := diagonalizable_pauli hH hh
  obtain ⟨pairs, c, vecs, h1, h2, h3, h4, -, h5, h6, -⟩ := C81_energies heig hd.wf hd.mem hd.convertible hd.hermitian (numVecs := none) (by simp)
  rw [h6 (by rw [hH.type]; decide)] at h1
  rw [den_pauli hH] at h4
  obtain ⟨MH, m1, m2⟩ := C43_operator (n := n) hH.mem
  refine ⟨pairs.map (fun p => (p.1 : ℂ)), vecs, MH, by simpa using h1, by rw [List.length_map]; exact h3, m1, m2, fun v hv => ?_, fun act F f hF hX => mapsEnergies hh h4 (h5 rfl) h2 m2 hF hX⟩
  obtain ⟨i, hi, rfl⟩ := List.getElem_of_mem hv
  exact ((List.forall₂_iff_get.mp h2).2 i hi ((List.forall₂_iff_get.mp h2).1 ▸ hi)).length

private theorem mulVec_shift {ι : Type} [Fintype ι] {D X : Matrix ι ι ℂ} {δ E : ℂ} (h : D * X - X * D = δ • X) {ψ : ι → ℂ} (hψ : D.mulVec ψ = E • ψ) :
    D.mulVec (X.mulVec ψ) = (E + δ) • X.mulVec ψ := by
  rw [mulVec_mulVec, sub_eq_iff_eq_add.mp h, add_mulVec, smul_mulVec, ← mulVec_mulVec, hψ, mulVec_smul, add_smul, add_comm]

private theorem mulVec_negate {ι : Type} [Fintype ι] {D X : Matrix ι ι ℂ} {E : ℂ} (h : X * D + D * X = 0) {ψ : ι → ℂ} (hψ : D.mulVec ψ = E • ψ) :
    D.mulVec (X.mulVec ψ) = (-E) • X.mulVec ψ := by
  rw [mulVec_mulVec, eq_neg_of_add_eq_zero_right h, neg_mulVec, ← mulVec_mulVec, hψ, mulVec_smul, neg_smul]

/-- **C110** (ladder operators): the operators of `_ladder_operators` raise the energies of the Hamiltonian by their values. -/
theorem C110_ladder (heig : eig.Exact) {H : Operator ℂ} (hH : H.On .pauli (PauliString (siteLabels n))) (hreal : ∀ x ∈ H.coeffs, IsReal x)
    {num : LadderNumerics ℂ} (hnum : IsLadderNumerics num) {b : Basis} (hb : b.Inv) (hs : ∀ s ∈ b.strs, PauliString (siteLabels n) s ∧ s.Canonical)
    (hcl : ClosedUnder (PauliString (siteLabels n)) (matRep ℂ n).den b.strs H) {tol : ℚ} (htol : 0 < tol) {ops : List (Operator ℂ)} {steps : List ℂ}
    (h : ladderOperators num b H false tol = .ok (ops, steps)) :
    ∃ vals vecs MH, diagonalize eig H n = .ok (vals, vecs) ∧ vals.length = 2 ^ n ∧ toMatrixOperator H n = .ok MH ∧
      List.Forall₂ (fun A δ => ∃ M, toMatrixOperator A n = .ok M ∧ MapsEnergies MH (matVec M) vals vecs (· + δ)) ops steps := by
  obtain ⟨vals, vecs, MH, h1, h2, h3, -, -, h4⟩ := energies heig hH (fun x hx => by
    obtain ⟨h, -⟩ := List.of_mem_zip (show (x.1, x.2) ∈ H.coeffs.zip H.basis.strs from hx)
    exact hreal _ h)
  refine ⟨vals, vecs, MH, h1, h2, h3, (C86_pauli_partial (matRep ℂ n) hnum hb hs hH.wf hH.mem hreal hcl (by simp) htol h).1.imp ?_⟩
  rintro A δ ⟨a1, -, -, a2⟩
  obtain ⟨M, m1, m2⟩ := C43_operator (n := n) (A := A) (fun s hs' => (hs s (a1.over ▸ hs')).1)
  exact ⟨M, m1, h4 _ _ _ (fun _ _ => matVec_state m2) fun E ψ hψ => mulVec_shift a2 hψ⟩

/-- **C110** (commuting operators): an operator that `commuting_operators` finds maps eigenstates of the Hamiltonian to eigenstates with the same energy, or
with the negative energy if it was asked for operators that anticommute. -/
theorem C110_commuting (heig : eig.Exact) {H : Operator ℂ} (hH : H.On .pauli (PauliString (siteLabels n))) (hreal : ∀ x ∈ H.terms, star x.1 = x.1)
    {b : Basis} (hn : b.strs.Nodup) (hb : ∀ s ∈ b.strs, PauliString (siteLabels n) s) {eigh : Eigh} (he : ExactEigh eigh) :
    ∃ vals vecs MH, diagonalize eig H n = .ok (vals, vecs) ∧ vals.length = 2 ^ n ∧ toMatrixOperator H n = .ok MH ∧
      ∃ δ > 0, ∀ tol, 0 < tol → tol ≤ δ → ∃ r r', commutingOperators eigh (.strings b) H .commutator tol = .ok r ∧
        commutingOperators eigh (.strings b) H .anticommutator tol = .ok r' ∧
        ∀ A : Operator ℂ, A.On .pauli (· ∈ b.strs) → ∃ M, toMatrixOperator A n = .ok M ∧
          (coordinates b r.dim A ∈ colSpan r.vecs → MapsEnergies MH (matVec M) vals vecs id) ∧
          (coordinates b r'.dim A ∈ colSpan r'.vecs → MapsEnergies MH (matVec M) vals vecs (- ·)) := by
  obtain ⟨vals, vecs, MH, h1, h2, h3, -, -, h4⟩ := energies heig hH hreal
  obtain ⟨δ, d1, d2⟩ := C49_exact_pauli (matRep ℂ n) .commutator (x := .strings b) hb (by simp) hH.mem he
  obtain ⟨δ', d1', d2'⟩ := C49_exact_pauli (matRep ℂ n) .anticommutator (x := .strings b) hb (by simp) hH.mem he
  refine ⟨vals, vecs, MH, h1, h2, h3, min δ δ', lt_min d1 d1', fun tol t0 t1 => ?_⟩
  obtain ⟨c, M₁, e₁, w₁, r1, -, r2⟩ := d2 tol t0 (t1.trans (min_le_left _ _))
  obtain ⟨c', M₂, e₂, w₂, s1, -, s2⟩ := d2' tol t0 (t1.trans (min_le_right _ _))
  refine ⟨_, _, r1, s1, fun A hA => ?_⟩
  obtain ⟨M, m1, m2⟩ := C43_operator (n := n) (A := A) (fun s hs => hb s (hA.mem s hs))
  have hden : ∑ j, coordinates b _ A j • ((BasisArg.strings b : BasisArg ℂ).den (matRep ℂ n).den)[j] = A.den (matRep ℂ n).den := by
    rw [← coordinates_den (matRep ℂ n).den hn hA.mem (n := ((BasisArg.strings b : BasisArg ℂ).den (matRep ℂ n).den).length) (by simp [BasisArg.den])]
    exact Finset.sum_congr rfl fun j _ => by rw [List.getElem?_eq_getElem j.2]; rfl
  refine ⟨M, m1, fun hf => h4 _ _ _ (fun _ _ => matVec_state m2) fun E ψ hψ => ?_, fun hf => h4 _ _ _ (fun _ _ => matVec_state m2) fun E ψ hψ => ?_⟩
  · have := (r2 _).mp hf
    rw [hden] at this
    have e : H.den (matRep ℂ n).den * A.den (matRep ℂ n).den - A.den (matRep ℂ n).den * H.den (matRep ℂ n).den = (0 : ℂ) • A.den (matRep ℂ n).den := by
      rw [zero_smul, ← neg_sub, show A.den (matRep ℂ n).den * H.den (matRep ℂ n).den - H.den (matRep ℂ n).den * A.den (matRep ℂ n).den = 0 from this, neg_zero]
    simpa using mulVec_shift e hψ
  · have := (s2 _).mp hf
    rw [hden] at this
    exact mulVec_negate this hψ

/-- **C110** (site permutations): if the label permutation `T` leaves the Hamiltonian unchanged, `apply_transformation(T, v)` is an eigenstate with the energy of
the eigenstate `v`. -/
theorem C110_permutation (heig : eig.Exact) (g : Equiv.Perm (Fin n)) {H B : Operator ℂ} (hH : H.On .pauli (PauliString (siteLabels n)))
    (hreal : ∀ x ∈ H.terms, star x.1 = x.1) (hB : (labelPermutation (labelsOf (permArray g))).apply H = .ok B) (hsym : ∀ s, B.coef s = H.coef s) :
    ∃ vals vecs MH act, diagonalize eig H n = .ok (vals, vecs) ∧ vals.length = 2 ^ n ∧ toMatrixOperator H n = .ok MH ∧
      (∀ v ∈ vecs, applyTransformation (some (labelsOf (permArray g))) v n = .ok (act v)) ∧ MapsEnergies MH act vals vecs id := by
  obtain ⟨vals, vecs, MH, h1, h2, h3, h5, h6, h4⟩ := energies heig hH hreal
  have tot : ∀ v : List ℂ, ∃ w, v.length = 2 ^ n → applyTransformation (some (labelsOf (permArray g))) v n = .ok w := fun v => by
    by_cases hv : v.length = 2 ^ n
    · obtain ⟨ψ, hψ⟩ := C45_states hv
      obtain ⟨w, w1, -⟩ := applyTransformation_ok g hψ
      exact ⟨w, fun _ => w1⟩
    · exact ⟨[], fun h => absurd h hv⟩
  choose act hact using tot
  have state : ∀ v ψ, IsState n v ψ → IsState n (act v) (fun σ => ψ (σ ∘ g)) := fun v ψ hv => by
    obtain ⟨w, w1, w2⟩ := applyTransformation_ok g hv
    rw [hact v hv.length] at w1
    cases w1
    exact w2
  refine ⟨vals, vecs, MH, act, h1, h2, h3, fun v hv => hact v (h6 v hv), h4 act _ id state fun E ψ hψ => ?_⟩
  have hv : IsState n ((List.range (2 ^ n)).map fun k => ψ (cfgOf n k)) ψ := ⟨by simp, fun k hk => by simp [hk]⟩
  generalize (List.range (2 ^ n)).map (fun k => ψ (cfgOf n k)) = v at hv
  have hBm : ∀ s ∈ B.basis.strs, PauliString (siteLabels n) s := by
    have hV : TypedString .pauli (siteLabels n) = PauliString (siteLabels n) := by funext s; simp [TypedString]
    have h := labelPermutation_signRule (K := ℂ) (permArray_isPermArray g) .pauli
    rw [show (permArray g).length = n by simp [permArray], hV] at h
    obtain ⟨B', b1, b2, -⟩ := apply_den h.maps hH (matRep ℂ n).den (fun s => denT (matRep ℂ n).den (Transformation.image (labelPermutation (labelsOf (permArray g))) s)) (fun s _ => rfl)
    rw [hB] at b1
    cases b1
    exact b2.mem
  obtain ⟨B', M, M', w, b1, b2, b3, b4, b5⟩ := C45_intertwines g hH hv.length
  rw [hB] at b1
  cases b1
  rw [h3] at b2
  cases b2
  rw [hact v hv.length] at b4
  cases b4
  obtain ⟨M₂, n1, n2⟩ := C43_operator (n := n) hBm
  rw [b3] at n1
  cases n1
  rw [show B.den (matRep ℂ n).den = H.den (matRep ℂ n).den from denT_congr _ hsym] at n2
  have s1 := state _ _ (matVec_state h5 hv)
  have hl : (matVec MH v).length = 2 ^ n := (matVec_state h5 hv).length
  rw [hact _ hl] at b5
  rw [Except.ok.inj b5, hψ] at s1
  have s2 := matVec_state n2 (state v ψ hv)
  funext σ
  obtain ⟨k, rfl⟩ := (cfgEquiv n).surjective σ
  have e1 := s1.entries k k.2
  have e2 := s2.entries k k.2
  rw [e1] at e2
  exact (Option.some.inj e2).symm

/-! ### examples -/

private def one (op : Op) : OpString := ⟨[op], [0], .pauli, .float1⟩
private def strings : List OpString := [⟨[], [], .pauli, .float1⟩, one .X, one .Y, one .Z]

private theorem strings_valid : ∀ s ∈ strings, PauliString (siteLabels 1) s ∧ s.Canonical := by
  have h0 : (0 : ℤ) ∈ siteLabels 1 := ⟨le_refl _, by norm_num⟩
  intro s hs
  simp only [strings, one, List.mem_cons, List.not_mem_nil, or_false] at hs
  rcases hs with rfl | rfl | rfl | rfl <;> exact ⟨⟨rfl, by decide, rfl, by decide, by simpa using h0, by decide⟩, by decide, by decide⟩

/-- every string on one site is in the list -/
private theorem strings_all {s : OpString} (h : PauliString (siteLabels 1) s) (hc : s.Canonical) : s ∈ strings := by
  have hl : ∀ l ∈ s.labels, l = 0 := fun l hl => by
    have := h.mem l hl
    have h1 : 0 ≤ l ∧ l < (1 : ℕ) := this
    omega
  obtain ⟨ops, labels, t, p⟩ := s
  have hp : p = .float1 := hc.2.resolve_left h.pref
  have ht : t = .pauli := h.type
  have hlen : ops.length = labels.length := h.len
  have hops : ∀ op ∈ ops, op = .X ∨ op = .Y ∨ op = .Z := h.ops
  have hnd : labels.Nodup := h.nodup
  simp only at hl
  subst hp ht
  match labels, ops, hlen, hl, hops, hnd with
  | [], [], _, _, _, _ => simp [strings]
  | [l], [op], _, hl, hops, _ =>
    obtain rfl := hl l (by simp)
    rcases hops op (by simp) with rfl | rfl | rfl <;> simp [strings, one]
  | l :: l' :: ls, _, _, hl, _, hnd =>
    exfalso
    have h1 := hl l (by simp)
    have h2 := hl l' (by simp)
    simp [h1, h2] at hnd

private noncomputable def zOp : Operator ℂ := ⟨[1], Basis.ofList [one .Z], .pauli⟩

private theorem zOp_on : zOp.On .pauli (PauliString (siteLabels 1)) :=
  ⟨⟨Basis.Inv.ofList (by simp), rfl, by intro s hs; simp [zOp] at hs; subst hs; rfl⟩, rfl, by
    intro s hs
    simp [zOp] at hs
    subst hs
    exact (strings_valid _ (by simp [strings])).1⟩

private noncomputable def raising : ℕ → ℂ := fun j => if j = 1 then 1 else if j = 2 then Complex.I else 0

private theorem zero_mem : (0 : ℤ) ∈ siteLabels 1 := ⟨le_refl _, by norm_num⟩

private theorem den_raising : linComb (matRep ℂ 1).den strings raising = (matRep ℂ 1).X 0 + Complex.I • (matRep ℂ 1).Y 0 := by
  show ∑ i : Fin 4, raising i • (matRep ℂ 1).den (strings[i]'(by exact i.2)) = _
  rw [Fin.sum_univ_four]
  simp [strings, raising, one, PauliRep.den, wordProd, PauliRep.site, Pref.val]

private theorem ladder_one : IsLadder (zOp.den (matRep ℂ 1).den) (linComb (matRep ℂ 1).den (Basis.ofList strings).strs raising) (2 : ℂ) := by
  show bracketOf .commutator _ (linComb (matRep ℂ 1).den strings raising) = (2 : ℂ) • linComb (matRep ℂ 1).den strings raising
  have e : zOp.den (matRep ℂ 1).den = (matRep ℂ 1).Z 0 := by
    simp [zOp, Operator.den, one, denT, Operator.terms, PauliRep.den, wordProd, PauliRep.site, Pref.val]
  have hI : (CoefOps.I : ℂ) = Complex.I := rfl
  rw [den_raising, e]
  simp only [bracketOf, mul_add, add_mul, mul_smul_comm, smul_mul_assoc, (matRep ℂ 1).z_mul_x 0 zero_mem, (matRep ℂ 1).z_mul_y 0 zero_mem, (matRep ℂ 1).x_mul_z 0 zero_mem,
    (matRep ℂ 1).y_mul_z 0 zero_mem, hI, smul_neg, smul_smul, Complex.I_mul_I]
  module

private theorem raising_ne : linComb (matRep ℂ 1).den strings raising ≠ 0 := by
  rw [den_raising]
  intro h
  have h1 : (matRep ℂ 1).X 0 * ((matRep ℂ 1).X 0 + Complex.I • (matRep ℂ 1).Y 0) + ((matRep ℂ 1).X 0 + Complex.I • (matRep ℂ 1).Y 0) * (matRep ℂ 1).X 0 = (2 : ℂ) • 1 := by
    simp only [mul_add, add_mul, mul_smul_comm, smul_mul_assoc, (matRep ℂ 1).x_sq 0 zero_mem, (matRep ℂ 1).x_mul_y 0 zero_mem, (matRep ℂ 1).y_mul_x 0 zero_mem, smul_neg]
    module
  rw [h, mul_zero, zero_mul, add_zero] at h1
  rcases smul_eq_zero.mp h1.symm with h2 | h2
  · norm_num at h2
  · exact one_ne_zero h2

/-- non-vacuity: there are exact routines with which `_ladder_operators` finds the ladder operators of `Z_0` among all strings on one site, and it finds at least one with the
value 2 -/
example : ∃ (eig : Eigensolvers) (num : LadderNumerics ℂ) (ops : List (Operator ℂ)) (steps : List ℂ) (vals : List ℂ) (vecs : List (List ℂ)) (MH : Mat ℂ),
    eig.Exact ∧ IsLadderNumerics num ∧ ladderOperators num (Basis.ofList strings) zOp false (1 / 10 ^ 12) = .ok (ops, steps) ∧ 2 ∈ steps ∧
      diagonalize eig zOp 1 = .ok (vals, vecs) ∧ vals.length = 2 ∧
      List.Forall₂ (fun A δ => ∃ M, toMatrixOperator A 1 = .ok M ∧ MapsEnergies MH (matVec M) vals vecs (· + δ)) ops steps := by
  obtain ⟨eig, heig⟩ := exists_exactEigensolvers
  obtain ⟨num, hnum, n1, n2, n3⟩ := exists_ladderNumerics
  have hb : (Basis.ofList strings).Inv := Basis.Inv.ofList (by decide)
  have hreal : ∀ x ∈ zOp.coeffs, IsReal x := by
    intro x hx
    simp [zOp] at hx
    subst hx
    exact star_one _
  have hcl : ClosedUnder (PauliString (siteLabels 1)) (matRep ℂ 1).den (Basis.ofList strings).strs zOp := fun t ht => strings_all ht.1.1 ht.1.2
  have hsv : ∀ s ∈ (Basis.ofList strings).strs, PauliString (siteLabels 1) s ∧ s.Canonical := strings_valid
  match h : ladderOperators num (Basis.ofList strings) zOp false (1 / 10 ^ 12) with
  | .error e =>
    exfalso
    rcases C86_exceptions_pauli (matRep ℂ 1) hnum hb hsv zOp_on.wf zOp_on.mem hreal h with ⟨M, h⟩ | ⟨M, h⟩ | ⟨l, h⟩
    · exact n1 M e h
    · exact n2 M e h
    · exact n3 l e h
  | .ok (ops, steps) =>
    obtain ⟨vals, vecs, MH, c1, c2, -, c3⟩ := C110_ladder heig zOp_on hreal hnum hb hsv hcl (by norm_num) h
    refine ⟨eig, num, ops, steps, vals, vecs, MH, heig, hnum, h, ?_, c1, c2, c3⟩
    obtain ⟨-, -, -, hall⟩ := C86_pauli_partial (matRep ℂ 1) hnum hb hsv zOp_on.wf zOp_on.mem hreal hcl (sparsification := false) (by simp) (by norm_num) h
    have key := hall raising 2 (by simp [IsReal]) (by
      show ((1 / 10 ^ 12 : ℚ) : ℝ) < (2 : ℂ).re
      norm_num) ladder_one
    by_contra hne
    have h0 : ladderSpan (matRep ℂ 1).den ops steps 2 = ⊥ := by
      rw [ladderSpan, Submodule.span_eq_bot]
      rintro x ⟨A, hA, -⟩
      exact absurd (List.of_mem_zip hA).2 hne
    rw [h0, Submodule.mem_bot] at key
    exact raising_ne key

/-- non-vacuity: exact routines, `Z_0` and all strings on one site -/
example : ∃ (eig : Eigensolvers) (eigh : Eigh), eig.Exact ∧ ExactEigh eigh ∧ zOp.On .pauli (PauliString (siteLabels 1)) ∧ (∀ x ∈ zOp.terms, star x.1 = x.1) ∧
    (Basis.ofList strings).strs.Nodup ∧ ∀ s ∈ (Basis.ofList strings).strs, PauliString (siteLabels 1) s := by
  obtain ⟨eig, heig⟩ := exists_exactEigensolvers
  obtain ⟨eigh, he⟩ := exists_exactEigh
  refine ⟨eig, eigh, heig, he, zOp_on, ?_, by decide, fun s hs => (strings_valid s hs).1⟩
  intro x hx
  simp [zOp, Operator.terms] at hx
  simp [hx]

/-- non-vacuity: exchanging the sites leaves `Z_0 + X_0 Y_1 + Y_0 X_1 + Z_1` unchanged -/
example : ((labelPermutation (labelsOf (permArray (Equiv.swap (0 : Fin 2) 1)))).apply
      (⟨[1, 3, 3, 1], Basis.ofList [⟨[.Z], [0], .pauli, .float1⟩, ⟨[.X, .Y], [0, 1], .pauli, .float1⟩, ⟨[.Y, .X], [0, 1], .pauli, .float1⟩, ⟨[.Z], [1], .pauli, .float1⟩], .pauli⟩ : Operator QI)).map
      (fun B => B.terms) =
    .ok [(1, ⟨[.Z], [1], .pauli, .float1⟩), (3, ⟨[.Y, .X], [0, 1], .pauli, .float1⟩), (3, ⟨[.X, .Y], [0, 1], .pauli, .float1⟩), (1, ⟨[.Z], [0], .pauli, .float1⟩)] := by
  decide +kernel

end Qosy
