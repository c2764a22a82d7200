import Verif.Lemmas.GeneratorVecsCumulative
import Verif.Props.Lanczos
import Verif.Props.Generator

/-! # C92, C93: the generator with `num_vecs` -/

namespace Qosy
open Matrix Coef
variable {𝔸 : Type} [Ring 𝔸] [Algebra ℂ 𝔸] [Nontrivial 𝔸] {S : Set ℤ} {V : OpString → Prop} {eigh : Eigh} {eigsh : Eigsh} {pinv : Mat ℂ → Py (Mat ℂ)}
  {lu : PermutedLu} {argsort : List ℕ → List ℕ}

/-- **C92**: if no symmetry was added with `num_vecs`, the generator does what C67 - C69 say. -/
theorem C92_none (eigh : Eigh) (eigsh : Eigsh) (pinv : Mat ℂ → Py (Mat ℂ)) (lu : PermutedLu) (argsort : List ℕ → List ℕ) (x : BasisArg ℂ)
    (inputs : List SymmetryInput) (s o : Bool) (tol : ℝ) :
    generateNoncumulativeVecs eigh eigsh pinv lu argsort x (inputs.map (fun inp => ⟨inp, none⟩)) s o tol =
      (generateNoncumulative eigh pinv lu argsort x inputs {} s o tol).map (fun st => ⟨st.outputs.map Generated.found, st.projected⟩) :=
  generateNoncumulativeVecs_none ..

/-- **C92** (Pauli): if the first symmetry is an Operator added with `num_vecs=k`, the others without, and fewer than `k` independent
operators have the first symmetry, then the noncumulative mode computes the operators with each symmetry and the operators with the
first symmetries, as in C67, without warnings. -/
theorem C92_pauli_partial (R : PauliRep ℂ 𝔸 S) (hV : ∀ s, V s → PauliString S s) (he : ExactEigh eigh) (hs : ExactEigsh eigsh) (hp : IsPinv pinv)
    (hlu : ExactLu lu) (hsort : IsSort argsort) {x : BasisArg ℂ} (hx : x.On .pauli V) {O : Operator ℂ} (hO : ∀ s ∈ O.basis.strs, V s) {mode : Mode} {k : ℕ}
    (hk : 0 < k) (hkn : k + 1 < x.len) {rest : List SymmetryInput} (hi : ∀ inp ∈ rest, inp.Valid .pauli V)
    (ho : (∃ inp ∈ rest, ∃ T, inp.symmetry = .transformation T) → x.Orthonormal .pauli V)
    (hfew : FewerThan .pauli V x (SymmetryInput.Holds R.den ⟨.operator O, mode⟩) k)
    (hgap : ∀ i inp, 0 < i → ((⟨.operator O, mode⟩ : SymmetryInput) :: rest)[i]? = some inp →
      AngleGap (x.coefficients .pauli V (inp.Holds R.den)) (x.coefficients .pauli V (HasSymmetries R.den (⟨.operator O, mode⟩ :: rest) i)) (1 / 10 ^ 10)) (s : Bool) :
    ∃ δ > 0, ∀ tol, 0 < tol → tol ≤ δ →
      ∃ st, generateNoncumulativeVecs eigh eigsh pinv lu argsort x (⟨⟨.operator O, mode⟩, some k⟩ :: rest.map (fun inp => ⟨inp, none⟩)) s false tol = .ok st ∧
        st.Correct R.den .pauli V x (⟨.operator O, mode⟩ :: rest) ∧ ∀ g ∈ st.outputs, g.warned = false :=
  R.strAlg.noncumulativeVecs hV he hs hp hlu hsort hx hO hk hkn hi ho hfew hgap s

/-- **C92** (Majorana) -/
theorem C92_majorana_partial (R : MajoranaRep ℂ 𝔸 S) (hV : ∀ s, V s → MajoranaString S s) (he : ExactEigh eigh) (hs : ExactEigsh eigsh) (hp : IsPinv pinv)
    (hlu : ExactLu lu) (hsort : IsSort argsort) {x : BasisArg ℂ} (hx : x.On .majorana V) {O : Operator ℂ} (hO : ∀ s ∈ O.basis.strs, V s) {mode : Mode} {k : ℕ}
    (hk : 0 < k) (hkn : k + 1 < x.len) {rest : List SymmetryInput} (hi : ∀ inp ∈ rest, inp.Valid .majorana V)
    (ho : (∃ inp ∈ rest, ∃ T, inp.symmetry = .transformation T) → x.Orthonormal .majorana V)
    (hfew : FewerThan .majorana V x (SymmetryInput.Holds R.den ⟨.operator O, mode⟩) k)
    (hgap : ∀ i inp, 0 < i → ((⟨.operator O, mode⟩ : SymmetryInput) :: rest)[i]? = some inp →
      AngleGap (x.coefficients .majorana V (inp.Holds R.den)) (x.coefficients .majorana V (HasSymmetries R.den (⟨.operator O, mode⟩ :: rest) i)) (1 / 10 ^ 10)) (s : Bool) :
    ∃ δ > 0, ∀ tol, 0 < tol → tol ≤ δ →
      ∃ st, generateNoncumulativeVecs eigh eigsh pinv lu argsort x (⟨⟨.operator O, mode⟩, some k⟩ :: rest.map (fun inp => ⟨inp, none⟩)) s false tol = .ok st ∧
        st.Correct R.den .majorana V x (⟨.operator O, mode⟩ :: rest) ∧ ∀ g ∈ st.outputs, g.warned = false :=
  R.strAlg.noncumulativeVecs hV he hs hp hlu hsort hx hO hk hkn hi ho hfew hgap s

/-- **C92** (violated): if the second symmetry was added with `num_vecs`, the noncumulative mode raises an exception, for every basis,
all symmetries and all options.  At most `num_vecs` operators have the second symmetry according to the first part, hence at most that many are
left after the projection, but then `eigsh` is asked for `num_vecs` eigenvectors of the projected matrix again. -/
theorem C92_second_fails (he : ExactEigh eigh) (hs : ExactEigsh eigsh) (x : BasisArg ℂ) {a b : SymmetryCall} {rest : List SymmetryCall} {k : ℕ}
    (hb : b.numVecs = some k) (s o : Bool) (tol : ℝ) : ∃ e, generateNoncumulativeVecs eigh eigsh pinv lu argsort x (a :: b :: rest) s o tol = .error e :=
  generateNoncumulativeVecs_error he hs hb s o tol

/-- **C93**: if no symmetry was added with `num_vecs`, the cumulative mode does what C68 says, without warnings. -/
theorem C93_none (eigh : Eigh) (eigsh : Eigsh) (pinv : Mat ℂ → Py (Mat ℂ)) (lu : PermutedLu) (argsort : List ℕ → List ℕ) (x : BasisArg ℂ)
    (inputs : List SymmetryInput) (s o : Bool) (tol : ℝ) :
    generateCumulativeVecs eigh eigsh pinv lu argsort x s o tol (inputs.map (fun inp => ⟨inp, none⟩)) true [] false =
      (generateCumulative eigh pinv lu argsort x s o tol inputs true []).map (fun p => (p, false)) :=
  generateCumulativeVecs_none ..

/-- **C93** (Pauli): for small tolerances the cumulative mode with `num_vecs` finds, in each step, normalised and independent operators with
all symmetries so far, at most `num_vecs` of them.  It warns exactly if a step found `num_vecs` operators, and if it does not warn these are all
operators with the symmetries.  There can be an exception only if `num_vecs` was given for a Transformation or for a later symmetry or was too
large or zero. -/
theorem C93_pauli (R : PauliRep ℂ 𝔸 S) (hV : ∀ s, V s → PauliString S s) (he : ExactEigh eigh) (hs : ExactEigsh eigsh) (hp : IsPinv pinv)
    (hlu : ExactLu lu) (hsort : IsSort argsort) {x : BasisArg ℂ} (hx : x.On .pauli V) (hind : x.Independent) (hne : x.len ≠ 0) {inputs : List SymmetryCall}
    (hi : ∀ inp ∈ inputs, inp.Valid .pauli V) (ho : (∃ inp ∈ inputs, ∃ T, inp.symmetry = .transformation T) → x.Orthonormal .pauli V)
    (s o : Bool) (htr : (∃ inp ∈ inputs.tail, ∃ T, inp.symmetry = .transformation T) → s = false ∨ o = true) :
    ∃ δ > 0, ((∃ (i : ℕ) (inp : SymmetryCall) (k : ℕ), inputs[i]? = some inp ∧ inp.numVecs = some k ∧
          (0 < i ∨ (∃ T, inp.symmetry = .transformation T) ∨ k = 0 ∨ x.len ≤ k + 1)) ∧
        ∃ e, ∀ tol, 0 < tol → tol ≤ δ → generateCumulativeVecs eigh eigsh pinv lu argsort x s o tol inputs true [] false = .error e) ∨
      ∃ p w, (∀ tol, 0 < tol → tol ≤ δ → generateCumulativeVecs eigh eigsh pinv lu argsort x s o tol inputs true [] false = .ok (p, w)) ∧
      CumulativeVecsCorrect R.den .pauli V x inputs p w ∧
      (s = false ∨ o = true → x.Orthonormal .pauli V → ∀ ops ∈ p, (BasisArg.operators ops).Orthonormal .pauli V) :=
  R.strAlg.cumulativeVecs hV he hs hp hlu hsort hx hind hne hi ho s o htr

/-- **C93** (Majorana) -/
theorem C93_majorana (R : MajoranaRep ℂ 𝔸 S) (hV : ∀ s, V s → MajoranaString S s) (he : ExactEigh eigh) (hs : ExactEigsh eigsh) (hp : IsPinv pinv)
    (hlu : ExactLu lu) (hsort : IsSort argsort) {x : BasisArg ℂ} (hx : x.On .majorana V) (hind : x.Independent) (hne : x.len ≠ 0) {inputs : List SymmetryCall}
    (hi : ∀ inp ∈ inputs, inp.Valid .majorana V) (ho : (∃ inp ∈ inputs, ∃ T, inp.symmetry = .transformation T) → x.Orthonormal .majorana V)
    (s o : Bool) (htr : (∃ inp ∈ inputs.tail, ∃ T, inp.symmetry = .transformation T) → s = false ∨ o = true) :
    ∃ δ > 0, ((∃ (i : ℕ) (inp : SymmetryCall) (k : ℕ), inputs[i]? = some inp ∧ inp.numVecs = some k ∧
          (0 < i ∨ (∃ T, inp.symmetry = .transformation T) ∨ k = 0 ∨ x.len ≤ k + 1)) ∧
        ∃ e, ∀ tol, 0 < tol → tol ≤ δ → generateCumulativeVecs eigh eigsh pinv lu argsort x s o tol inputs true [] false = .error e) ∨
      ∃ p w, (∀ tol, 0 < tol → tol ≤ δ → generateCumulativeVecs eigh eigsh pinv lu argsort x s o tol inputs true [] false = .ok (p, w)) ∧
      CumulativeVecsCorrect R.den .majorana V x inputs p w ∧
      (s = false ∨ o = true → x.Orthonormal .majorana V → ∀ ops ∈ p, (BasisArg.operators ops).Orthonormal .majorana V) :=
  R.strAlg.cumulativeVecs hV he hs hp hlu hsort hx hind hne hi ho s o htr

/-- **C93**: if only the first symmetry, an Operator, was added with `num_vecs=k`, `0 < k < n - 1`, and fewer than `k` independent operators
have it, there is no exception and no warning, and all operators are found. -/
theorem C93_first (R : PauliRep ℂ 𝔸 S) (hV : ∀ s, V s → PauliString S s) (he : ExactEigh eigh) (hs : ExactEigsh eigsh) (hp : IsPinv pinv)
    (hlu : ExactLu lu) (hsort : IsSort argsort) {x : BasisArg ℂ} (hx : x.On .pauli V) (hind : x.Independent) {O : Operator ℂ} (hO : ∀ s ∈ O.basis.strs, V s)
    {mode : Mode} {k : ℕ} (hk : 0 < k) (hkn : k + 1 < x.len) {rest : List SymmetryInput} (hi : ∀ inp ∈ rest, inp.Valid .pauli V)
    (ho : (∃ inp ∈ rest, ∃ T, inp.symmetry = .transformation T) → x.Orthonormal .pauli V) (s o : Bool)
    (htr : (∃ inp ∈ rest, ∃ T, inp.symmetry = .transformation T) → s = false ∨ o = true)
    (hfew : FewerThan .pauli V x (SymmetryInput.Holds R.den ⟨.operator O, mode⟩) k) :
    ∃ δ > 0, ∃ p, (∀ tol, 0 < tol → tol ≤ δ →
        generateCumulativeVecs eigh eigsh pinv lu argsort x s o tol (⟨⟨.operator O, mode⟩, some k⟩ :: rest.map (fun inp => ⟨inp, none⟩)) true [] false = .ok (p, false)) ∧
      CumulativeCorrect R.den .pauli V x (⟨.operator O, mode⟩ :: rest) p := by
  have hvalid : ∀ inp ∈ ((⟨⟨.operator O, mode⟩, some k⟩ : SymmetryCall) :: rest.map (fun inp => ⟨inp, none⟩)), inp.Valid .pauli V := by
    intro inp h
    rcases List.mem_cons.mp h with rfl | h
    · exact hO
    · obtain ⟨a, ha, rfl⟩ := List.mem_map.mp h
      exact hi a ha
  have hmem : ∀ inp ∈ rest.map (fun inp => (⟨inp, none⟩ : SymmetryCall)), (∃ T, inp.symmetry = .transformation T) →
      ∃ inp ∈ rest, ∃ T, inp.symmetry = .transformation T := by
    rintro inp h hT
    obtain ⟨a, ha, rfl⟩ := List.mem_map.mp h
    exact ⟨a, ha, hT⟩
  obtain ⟨δ, hδ, h⟩ := C93_pauli R hV he hs hp hlu hsort hx hind (by omega) hvalid (by
    rintro ⟨inp, h, T, hT⟩
    rcases List.mem_cons.mp h with rfl | h
    · cases hT
    · exact ho (hmem inp h ⟨T, hT⟩)) s o (fun ⟨inp, h, hT⟩ => htr (hmem inp h hT))
  rcases h with ⟨⟨i, inp, k', h1, h2, h3⟩, -⟩ | ⟨p, w, h1, h2, -⟩
  · exfalso
    cases i with
    | zero =>
      cases h1
      cases h2
      rcases h3 with h | ⟨T, h⟩ | h
      · omega
      · cases h
      · omega
    | succ i =>
      rw [List.getElem?_cons_succ, List.getElem?_map] at h1
      obtain ⟨a, -, rfl⟩ := Option.map_eq_some_iff.mp h1
      cases h2
  · have hw : w = false := by
      by_contra hc
      obtain ⟨i, ops, inp, a, b, c⟩ := h2.warning.mp (by simpa using hc)
      cases i with
      | succ i =>
        rw [List.getElem?_cons_succ, List.getElem?_map] at b
        obtain ⟨a, -, rfl⟩ := Option.map_eq_some_iff.mp b
        cases c
      | zero =>
        cases b
        have c : k = ops.length := Option.some.inj c
        have hpart := h2.part 0 ops a
        exact absurd (hfew.of_part (hpart.mono (fun A h => h _ (by simp)))) (by omega)
    subst hw
    have hmap : (((⟨⟨.operator O, mode⟩, some k⟩ : SymmetryCall) :: rest.map (fun inp => ⟨inp, none⟩)).map (·.toSymmetryInput)) = ⟨.operator O, mode⟩ :: rest := by
      simp [Function.comp_def]
    have := h2.all rfl
    rw [hmap] at this
    exact ⟨δ, hδ, p, h1, this⟩

/-! ### Examples -/

/-- the strings `X_1, Y_1, X_1 X_2, Z_2` -/
def fourStrings : Basis := Basis.ofList [siteX, siteY, ⟨[.X, .X], [1, 2], .pauli, .float1⟩, ⟨[.Z], [2], .pauli, .float1⟩]

/-- the Operator `Z_3` -/
noncomputable def commutesZ3 : SymmetryInput := ⟨.operator ⟨[1], Basis.ofList [⟨[.Z], [3], .pauli, .float1⟩], .pauli⟩, .commutator⟩

theorem fourStrings_on : (BasisArg.strings fourStrings).On .pauli (PauliString Set.univ) := by
  refine ⟨Basis.Inv.ofList (by decide), fun s hs => ?_⟩
  simp only [fourStrings, Basis.ofList, List.mem_cons, List.not_mem_nil, or_false] at hs
  rcases hs with rfl | rfl | rfl | rfl
  · exact site_valid.1
  · exact site_valid.2.1
  · exact ⟨rfl, by decide, rfl, by decide, by simp, by decide⟩
  · exact ⟨rfl, by decide, rfl, by decide, by simp, by decide⟩

theorem fourStrings_independent : (BasisArg.strings fourStrings).Independent :=
  BasisArg.Orthonormal.independent (t := .pauli) (V := PauliString Set.univ) fourStrings_on

theorem commutesZ3_valid : commutesZ3.Valid .pauli (PauliString Set.univ) := by
  intro s hs
  simp only [Basis.ofList, List.mem_cons, List.not_mem_nil, or_false] at hs
  subst hs
  exact ⟨rfl, by decide, rfl, by decide, by simp, by decide⟩

theorem fourStrings_den (R : PauliRep ℂ 𝔸 Set.univ) {v : Fin 4 → ℂ} {A : Operator ℂ} (hA : (BasisArg.strings fourStrings).Combines v A) :
    A.den R.den = v 0 • R.X 1 + v 1 • R.Y 1 + v 2 • (R.X 1 * R.X 2) + v 3 • R.Z 2 := by
  rw [Combines.den fourStrings_on hA R.den]
  have e : ∀ w : Fin 4 → 𝔸, ∑ j, v j • w j = v 0 • w 0 + v 1 • w 1 + v 2 • w 2 + v 3 • w 3 := fun w => Fin.sum_univ_four _
  refine (e ![R.den siteX, R.den siteY, R.den ⟨[.X, .X], [1, 2], .pauli, .float1⟩, R.den ⟨[.Z], [2], .pauli, .float1⟩]).trans ?_
  simp [siteX, siteY, PauliRep.den, wordProd, PauliRep.site, Pref.val]

/-- `Z_3` commutes with all of them -/
theorem fourStrings_commutesZ3 (R : PauliRep ℂ 𝔸 Set.univ) {v : Fin 4 → ℂ} {A : Operator ℂ} (hA : (BasisArg.strings fourStrings).Combines v A) :
    commutesZ3.Holds R.den A := by
  show bracketOf .commutator (A.den R.den) _ = 0
  have e : (⟨[1], Basis.ofList [⟨[.Z], [3], .pauli, .float1⟩], .pauli⟩ : Operator ℂ).den R.den = R.Z 3 := by
    simp [Operator.den, denT, Operator.terms, Basis.ofList, PauliRep.den, wordProd, PauliRep.site, Pref.val]
  rw [fourStrings_den R hA, e, bracketOf]
  have h1 := R.xz 1 trivial 3 trivial (by decide)
  have h2 := R.yz 1 trivial 3 trivial (by decide)
  have h3 := R.xz 2 trivial 3 trivial (by decide)
  have h4 := R.zz 2 trivial 3 trivial (by decide)
  simp only [add_mul, mul_add, smul_mul_assoc, mul_smul_comm, h1, h2, h4]
  rw [mul_assoc, h3, ← mul_assoc, h1, mul_assoc]
  abel

/-- only multiples of `Z_2` commute with `Z_1` -/
theorem fourStrings_commutesZ (R : PauliRep ℂ 𝔸 Set.univ) {v : Fin 4 → ℂ} {A : Operator ℂ} (hA : (BasisArg.strings fourStrings).Combines v A)
    (h : commutesZ.Holds R.den A) : v 0 = 0 ∧ v 1 = 0 ∧ v 2 = 0 := by
  have h : bracketOf .commutator (A.den R.den) ((⟨[1], Basis.ofList [siteZ], .pauli⟩ : Operator ℂ).den R.den) = 0 := h
  have e : (⟨[1], Basis.ofList [siteZ], .pauli⟩ : Operator ℂ).den R.den = R.Z 1 := by
    simp [Operator.den, denT, Operator.terms, Basis.ofList, siteZ, PauliRep.den, wordProd, PauliRep.site, Pref.val]
  have h1 : R.X 1 * R.Z 1 = -(R.Z 1 * R.X 1) := by rw [R.x_mul_z 1 trivial, R.z_mul_x 1 trivial]
  have h2 : R.Y 1 * R.Z 1 = -(R.Z 1 * R.Y 1) := by rw [R.y_mul_z 1 trivial, R.z_mul_y 1 trivial, neg_neg]
  have h3 := R.xz 2 trivial 1 trivial (by decide)
  have h4 := R.zz 2 trivial 1 trivial (by decide)
  have key : (2 : ℂ) • (R.Z 1 * (v 0 • R.X 1 + v 1 • R.Y 1 + v 2 • (R.X 1 * R.X 2))) = 0 := by
    rw [fourStrings_den R hA, e, bracketOf] at h
    have h5 : R.X 1 * R.X 2 * R.Z 1 = -(R.Z 1 * (R.X 1 * R.X 2)) := by rw [mul_assoc, h3, ← mul_assoc, h1, neg_mul, mul_assoc]
    simp only [add_mul, mul_add, smul_mul_assoc, mul_smul_comm, h1, h2, h4, h5, smul_neg] at h
    rw [← neg_eq_zero, ← h, two_smul]
    simp only [mul_add, mul_smul_comm]
    abel
  have key2 : v 0 • R.X 1 + v 1 • R.Y 1 + v 2 • (R.X 1 * R.X 2) = 0 := by
    have := congrArg (fun a => R.Z 1 * a) ((smul_eq_zero.mp key).resolve_left two_ne_zero)
    simpa [← mul_assoc, R.z_sq 1 trivial] using this
  have hind := R.strAlg.independent (strs := [siteX, siteY, ⟨[.X, .X], [1, 2], .pauli, .float1⟩]) (by decide)
    (by intro s hs
        simp only [List.mem_cons, List.not_mem_nil, or_false] at hs
        rcases hs with rfl | rfl | rfl
        · exact ⟨site_valid.1, by simp [siteX, OpString.Canonical]⟩
        · exact ⟨site_valid.2.1, by simp [siteY, OpString.Canonical]⟩
        · exact ⟨⟨rfl, by decide, rfl, by decide, by simp, by decide⟩, by simp [OpString.Canonical]⟩)
    (w := fun i => ![v 0, v 1, v 2, 0] (Fin.ofNat 4 i))
    (by
      have e : ∀ w : Fin 3 → 𝔸, w 0 + w 1 + w 2 = 0 → ∑ j, w j = 0 := fun w h => by rw [Fin.sum_univ_three, h]
      refine e (fun j => (![v 0, v 1, v 2, 0] (Fin.ofNat 4 j)) • ![R.den siteX, R.den siteY, R.den ⟨[.X, .X], [1, 2], .pauli, .float1⟩] j) ?_
      have d1 : R.den siteX = R.X 1 := by simp [siteX, PauliRep.den, wordProd, PauliRep.site, Pref.val]
      have d2 : R.den siteY = R.Y 1 := by simp [siteY, PauliRep.den, wordProd, PauliRep.site, Pref.val]
      have d3 : R.den ⟨[.X, .X], [1, 2], .pauli, .float1⟩ = R.X 1 * R.X 2 := by simp [PauliRep.den, wordProd, PauliRep.site, Pref.val]
      rw [d1, d2, d3]
      exact key2)
  exact ⟨hind 0 (by decide), hind 1 (by decide), hind 2 (by decide)⟩

theorem four_few {q : List (Fin 4 → ℂ)} (hq : IndependentColumns q) (z : ∀ v ∈ q, v 0 = 0 ∧ v 1 = 0 ∧ v 2 = 0) : q.length < 2 := by
  by_contra hc
  have l0 : 0 < q.length := by omega
  have l1 : 1 < q.length := by omega
  obtain ⟨a0, a1, a2⟩ := z q[0] (List.getElem_mem _)
  obtain ⟨b0, b1, b2⟩ := z q[1] (List.getElem_mem _)
  have hp := LinearIndependent.pair_iff.mp (show LinearIndependent ℂ ![q[0], q[1]] by
    have := LinearIndependent.comp hq ![(⟨0, l0⟩ : Fin q.length), ⟨1, l1⟩] (by
      intro i j h
      fin_cases i <;> fin_cases j <;> simp_all)
    convert this using 1
    funext i
    fin_cases i <;> rfl)
  have h := hp (q[1] 3) (-(q[0] 3)) (by
    funext i
    fin_cases i <;> simp [a0, a1, a2, b0, b1, b2]
    ring)
  have h0 := hp 1 0 (by
    funext i
    have e : q[0] 3 = 0 := neg_eq_zero.mp h.2
    fin_cases i <;> simp [a0, a1, a2, e])
  exact one_ne_zero h0.1

theorem fourStrings_few (R : PauliRep ℂ 𝔸 Set.univ) : FewerThan .pauli (PauliString Set.univ) (.strings fourStrings) (commutesZ.Holds R.den) 2 :=
  fun q hq hv => four_few (q := q) hq (fun v h => by
    obtain ⟨A, -, a, b⟩ := hv v h
    exact fourStrings_commutesZ R a b)

theorem AngleGap.symm {n : ℕ} {U W : Set (Fin n → ℂ)} {tol : ℝ} (h : AngleGap U W tol) : AngleGap W U tol :=
  fun v hv w hw c hvw h1 h2 hc => h w hw v hv c hvw.symm h2 h1 hc

/-- non-vacuity: `Z_1` with `num_vecs=2` and `Z_3`, for the basis of four strings -/
theorem C92_example : ∃ (eigh : Eigh) (eigsh : Eigsh) (pinv : _) (lu : _) (argsort : _), ExactEigh eigh ∧ ExactEigsh eigsh ∧ IsPinv pinv ∧
    ∃ δ > 0, ∀ tol, 0 < tol → tol ≤ δ →
    ∃ st, generateNoncumulativeVecs eigh eigsh pinv lu argsort (.strings fourStrings) [⟨commutesZ, some 2⟩, ⟨commutesZ3, none⟩] true false tol = .ok st ∧
      st.Correct (waveRep ℂ).den .pauli (PauliString Set.univ) (.strings fourStrings) [commutesZ, commutesZ3] := by
  obtain ⟨eigh, he⟩ := exists_exactEigh
  obtain ⟨eigsh, hs⟩ := exists_exactEigsh
  obtain ⟨pinv, hp⟩ := exists_isPinv
  obtain ⟨lu, hlu⟩ := exists_exactLu
  obtain ⟨argsort, hsort⟩ := exists_isSort
  obtain ⟨δ, hδ, h⟩ := C92_pauli_partial (waveRep ℂ) (fun _ h => h) he hs hp hlu hsort fourStrings_on commutesZ_valid (mode := .commutator) (k := 2) (by decide)
    (show 3 < 4 by decide) (rest := [commutesZ3])
    (by intro inp hi
        rw [List.mem_singleton.mp hi]
        exact commutesZ3_valid)
    (by rintro ⟨inp, hi, T, hT⟩
        rw [List.mem_singleton.mp hi] at hT
        cases hT)
    (fourStrings_few _)
    (by intro i inp hi0 hi
        obtain ⟨hil, hin⟩ := List.getElem?_eq_some_iff.mp hi
        obtain rfl : i = 1 := by simp at hil; omega
        have e : (BasisArg.strings fourStrings).coefficients .pauli (PauliString Set.univ) (inp.Holds (waveRep ℂ).den) = Set.univ := by
          apply Set.eq_univ_of_forall
          intro v
          obtain ⟨A, a, b⟩ := fourStrings_on.exists (fun s hs => hs.type) v
          refine ⟨A, a, b, ?_⟩
          rw [← hin]
          exact fourStrings_commutesZ3 (waveRep ℂ) b
        rw [e]
        exact (AngleGap.of_univ _ (by norm_num)).symm) true
  refine ⟨eigh, eigsh, pinv, lu, argsort, he, hs, hp, δ, hδ, fun tol t1 t2 => ?_⟩
  obtain ⟨st, h1, h2, -⟩ := h tol t1 t2
  exact ⟨st, h1, h2⟩

/-- **C92 refuted**: in the same example with `num_vecs=2` for the second symmetry `Z_1` instead of the first, the generator raises an exception -/
theorem C92_refuted (he : ExactEigh eigh) (hs : ExactEigsh eigsh) (s o : Bool) (tol : ℝ) (R : PauliRep ℂ 𝔸 Set.univ) :
    FewerThan .pauli (PauliString Set.univ) (.strings fourStrings) (commutesZ.Holds R.den) 2 ∧
    ∃ e, generateNoncumulativeVecs eigh eigsh pinv lu argsort (.strings fourStrings) [⟨commutesZ3, none⟩, ⟨commutesZ, some 2⟩] s o tol = .error e :=
  ⟨fourStrings_few R, C92_second_fails he hs _ rfl s o tol⟩

/-- non-vacuity of C93: the same with the cumulative mode -/
theorem C93_example : ∃ (eigh : Eigh) (eigsh : Eigsh) (pinv : _) (lu : _) (argsort : _), ExactEigh eigh ∧ ExactEigsh eigsh ∧ IsPinv pinv ∧
    ∃ δ > 0, ∃ p, (∀ tol, 0 < tol → tol ≤ δ →
      generateCumulativeVecs eigh eigsh pinv lu argsort (.strings fourStrings) true false tol [⟨commutesZ, some 2⟩, ⟨commutesZ3, none⟩] true [] false = .ok (p, false)) ∧
      CumulativeCorrect (waveRep ℂ).den .pauli (PauliString Set.univ) (.strings fourStrings) [commutesZ, commutesZ3] p := by
  obtain ⟨eigh, he⟩ := exists_exactEigh
  obtain ⟨eigsh, hs⟩ := exists_exactEigsh
  obtain ⟨pinv, hp⟩ := exists_isPinv
  obtain ⟨lu, hlu⟩ := exists_exactLu
  obtain ⟨argsort, hsort⟩ := exists_isSort
  have hn : ∀ inp ∈ [commutesZ3], ¬ ∃ T, inp.symmetry = .transformation T := by
    rintro inp hi ⟨T, hT⟩
    rw [List.mem_singleton.mp hi] at hT
    cases hT
  refine ⟨eigh, eigsh, pinv, lu, argsort, he, hs, hp, C93_first (waveRep ℂ) (fun _ h => h) he hs hp hlu hsort fourStrings_on fourStrings_independent commutesZ_valid
    (mode := .commutator) (k := 2) (by decide) (show 3 < 4 by decide) (rest := [commutesZ3])
    (by intro inp hi
        rw [List.mem_singleton.mp hi]
        exact commutesZ3_valid)
    (fun ⟨inp, h, hT⟩ => absurd hT (hn inp h)) true false (fun ⟨inp, h, hT⟩ => absurd hT (hn inp h)) (fourStrings_few _)⟩

end Qosy
