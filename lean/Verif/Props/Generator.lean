import Verif.Lemmas.GeneratorNoncumulative
import Verif.Lemmas.GeneratorCumulative
import Verif.Lemmas.ExactLu
import Verif.Props.Core
import Verif.Props.Algorithms

/-!
# Properties C67, C68, C69: `SymmetricOperatorGenerator`

Exact complex arithmetic, exact eigensolver (`ExactEigh`), pseudo-inverse (`IsPinv`), LU decomposition (`ExactLu`) and sorting (`IsSort`).
-/

namespace Qosy
open Matrix Coef
variable {𝔸 : Type} [Ring 𝔸] [Algebra ℂ 𝔸] [Nontrivial 𝔸] {S : Set ℤ} {V : OpString → Prop}
variable {eigh : Eigh} {pinv : Mat ℂ → Py (Mat ℂ)} {lu : PermutedLu} {argsort : List ℕ → List ℕ}

/-! ### C67: the noncumulative mode -/

theorem noncumulative_mode {x : BasisArg ℂ} {inputs : List SymmetryInput} {s o : Bool} {P : NoncumulativeState → Prop}
    (h : ∃ δ > 0, ∀ tol, 0 < tol → tol ≤ δ → ∃ st, generateNoncumulative eigh pinv lu argsort x inputs {} s o tol = .ok st ∧ P st) :
    ∃ δ > 0, ∀ tol, 0 < tol → tol ≤ δ → ∃ st, generate eigh pinv lu argsort x inputs "noncumulative" s o tol = .ok (.noncumulative st) ∧ P st := by
  obtain ⟨δ, hδ, h⟩ := h
  refine ⟨δ, hδ, fun tol t1 t2 => ?_⟩
  obtain ⟨st, h1, h2⟩ := h tol t1 t2
  refine ⟨st, ?_, h2⟩
  rw [generate, if_neg (by decide), if_pos rfl, h1]
  rfl

/-- **C67** (Pauli): without orthogonalization, for tolerances below a positive bound, the noncumulative mode computes the operators with
each symmetry and the operators with the first symmetries, with and without sparsification.  The tolerance in `intersection` is fixed, so the
angles between the spaces must not be small. -/
theorem C67_pauli (R : PauliRep ℂ 𝔸 S) (hV : ∀ s, V s → PauliString S s) (he : ExactEigh eigh) (hp : IsPinv pinv) (hlu : ExactLu lu)
    (hsort : IsSort argsort) {x : BasisArg ℂ} (hx : x.On .pauli V) (hne : x ≠ .operators []) {inputs : List SymmetryInput}
    (hi : ∀ inp ∈ inputs, inp.Valid .pauli V) (ho : (∃ inp ∈ inputs, ∃ T, inp.symmetry = .transformation T) → x.Orthonormal .pauli V)
    (hgap : ∀ i inp, 0 < i → inputs[i]? = some inp →
      AngleGap (x.coefficients .pauli V (inp.Holds R.den)) (x.coefficients .pauli V (HasSymmetries R.den inputs i)) (1 / 10 ^ 10)) (s : Bool) :
    ∃ δ > 0, ∀ tol, 0 < tol → tol ≤ δ → ∃ st, generate eigh pinv lu argsort x inputs "noncumulative" s false tol = .ok (.noncumulative st) ∧
      st.Correct R.den .pauli V x inputs :=
  noncumulative_mode (R.strAlg.noncumulative hV he hp hlu hsort hx hne hi ho hgap s)

/-- **C67** (Majorana) -/
theorem C67_majorana (R : MajoranaRep ℂ 𝔸 S) (hV : ∀ s, V s → MajoranaString S s) (he : ExactEigh eigh) (hp : IsPinv pinv) (hlu : ExactLu lu)
    (hsort : IsSort argsort) {x : BasisArg ℂ} (hx : x.On .majorana V) (hne : x ≠ .operators []) {inputs : List SymmetryInput}
    (hi : ∀ inp ∈ inputs, inp.Valid .majorana V) (ho : (∃ inp ∈ inputs, ∃ T, inp.symmetry = .transformation T) → x.Orthonormal .majorana V)
    (hgap : ∀ i inp, 0 < i → inputs[i]? = some inp →
      AngleGap (x.coefficients .majorana V (inp.Holds R.den)) (x.coefficients .majorana V (HasSymmetries R.den inputs i)) (1 / 10 ^ 10)) (s : Bool) :
    ∃ δ > 0, ∀ tol, 0 < tol → tol ≤ δ → ∃ st, generate eigh pinv lu argsort x inputs "noncumulative" s false tol = .ok (.noncumulative st) ∧
      st.Correct R.den .majorana V x inputs :=
  noncumulative_mode (R.strAlg.noncumulative hV he hp hlu hsort hx hne hi ho hgap s)

/-- the gap condition holds if all operators have the previous symmetries -/
theorem AngleGap.of_univ {n : ℕ} (U : Set (Fin n → ℂ)) {tol : ℝ} (ht : tol ≤ 1) : AngleGap U Set.univ tol := by
  intro v hv w _ c hvw h1 h2 hc
  have e : v = (c : ℂ) • w := by
    have h := h2 (v - (c : ℂ) • w) trivial
    rw [← vnorm_sq] at h
    have h' : vnorm (v - (c : ℂ) • w) = 0 := by
      have : vnorm (v - (c : ℂ) • w) ^ 2 = 0 := by exact_mod_cast h
      exact pow_eq_zero_iff (two_ne_zero) |>.mp this
    exact sub_eq_zero.mp (vnorm_eq_zero.mp h')
  have hw : w ≠ 0 := by
    rintro rfl
    rw [smul_zero] at e
    exact hvw.elim (fun h => h e) (fun h => h rfl)
  have h := h1 v hv
  have e2 : w - (c : ℂ) • v = ((1 - c * c : ℝ) : ℂ) • w := by
    rw [e, smul_smul]
    push_cast
    module
  rw [e2, e] at h
  have h3 : vdot ((c : ℂ) • w) (((1 - c * c : ℝ) : ℂ) • w) = ((c * (1 - c * c) * vnorm w ^ 2 : ℝ) : ℂ) := by
    have := vnorm_sq w
    push_cast at this ⊢
    rw [this]
    simp only [vdot, Pi.smul_apply, smul_eq_mul, star_mul', Complex.star_def, Complex.conj_ofReal, Finset.mul_sum]
    exact Finset.sum_congr rfl (fun i _ => by ring)
  rw [h3] at h
  have h4 : c * (1 - c * c) * vnorm w ^ 2 = 0 := by exact_mod_cast h
  have h5 : vnorm w ^ 2 ≠ 0 := pow_ne_zero 2 (fun h => hw (vnorm_eq_zero.mp h))
  have h6 : c * (1 - c * c) = 0 := (mul_eq_zero.mp h4).resolve_right h5
  have hc0 : 0 < c := by
    have := (abs_lt.mp hc).2
    linarith
  have h7 : 1 - c * c = 0 := (mul_eq_zero.mp h6).resolve_left hc0.ne'
  nlinarith

/-! ### The example used below: the Pauli strings `Z_1`, `Z_2`, the symmetries `Z_1` and `X_1` -/

def siteZ2 : OpString := ⟨[.Z], [2], .pauli, .float1⟩
def zBasis : Basis := Basis.ofList [siteZ, siteZ2]
noncomputable def commutesZ : SymmetryInput := ⟨.operator ⟨[1], Basis.ofList [siteZ], .pauli⟩, .commutator⟩
noncomputable def commutesX : SymmetryInput := ⟨.operator ⟨[1], Basis.ofList [siteX], .pauli⟩, .commutator⟩

theorem zBasis_on : (BasisArg.strings zBasis).On .pauli (PauliString Set.univ) := by
  refine ⟨Basis.Inv.ofList (by decide), fun s hs => ?_⟩
  simp only [zBasis, Basis.ofList, List.mem_cons, List.not_mem_nil, or_false] at hs
  rcases hs with rfl | rfl
  · exact site_valid.2.2
  · exact ⟨rfl, by decide, rfl, by decide, by simp, by decide⟩

theorem commutesZ_valid : commutesZ.Valid .pauli (PauliString Set.univ) := by
  intro s hs
  simp only [Basis.ofList, List.mem_cons, List.not_mem_nil, or_false] at hs
  subst hs
  exact site_valid.2.2

theorem commutesX_valid : commutesX.Valid .pauli (PauliString Set.univ) := by
  intro s hs
  simp only [Basis.ofList, List.mem_cons, List.not_mem_nil, or_false] at hs
  subst hs
  exact site_valid.1

theorem zBasis_den (R : PauliRep ℂ 𝔸 Set.univ) {v : Fin 2 → ℂ} {A : Operator ℂ} (hA : (BasisArg.strings zBasis).Combines v A) :
    A.den R.den = v 0 • R.Z 1 + v 1 • R.Z 2 := by
  rw [Combines.den zBasis_on hA R.den]
  have e : ∀ w : Fin 2 → 𝔸, ∑ j, v j • w j = v 0 • w 0 + v 1 • w 1 := fun w => Fin.sum_univ_two _
  refine (e ![R.den siteZ, R.den siteZ2]).trans ?_
  simp [siteZ, siteZ2, PauliRep.den, wordProd, PauliRep.site, Pref.val]

theorem commutesZ_holds (R : PauliRep ℂ 𝔸 Set.univ) {v : Fin 2 → ℂ} {A : Operator ℂ} (hA : (BasisArg.strings zBasis).Combines v A) :
    commutesZ.Holds R.den A := by
  show bracketOf .commutator (A.den R.den) _ = 0
  rw [zBasis_den R hA]
  have e : (⟨[1], Basis.ofList [siteZ], .pauli⟩ : Operator ℂ).den R.den = R.Z 1 := by
    simp [Operator.den, denT, Operator.terms, Basis.ofList, siteZ, PauliRep.den, wordProd, PauliRep.site, Pref.val]
  rw [e, bracketOf]
  simp only [add_mul, mul_add, smul_mul_assoc, mul_smul_comm]
  rw [R.zz 2 trivial 1 trivial (by decide)]
  abel

theorem commutesX_holds (R : PauliRep ℂ 𝔸 Set.univ) {v : Fin 2 → ℂ} {A : Operator ℂ} (hA : (BasisArg.strings zBasis).Combines v A) :
    commutesX.Holds R.den A ↔ v 0 = 0 := by
  have e : (⟨[1], Basis.ofList [siteX], .pauli⟩ : Operator ℂ).den R.den = R.X 1 := by
    simp [Operator.den, denT, Operator.terms, Basis.ofList, siteX, PauliRep.den, wordProd, PauliRep.site, Pref.val]
  have h : bracketOf .commutator (A.den R.den) ((⟨[1], Basis.ofList [siteX], .pauli⟩ : Operator ℂ).den R.den) = (2 * v 0 * Complex.I) • R.Y 1 := by
    rw [zBasis_den R hA, e, bracketOf]
    simp only [add_mul, mul_add, smul_mul_assoc, mul_smul_comm]
    rw [← R.xz 1 trivial 2 trivial (by decide), R.z_mul_x 1 trivial, R.x_mul_z 1 trivial]
    have : (I : ℂ) = Complex.I := rfl
    rw [this]
    module
  show bracketOf .commutator (A.den R.den) _ = 0 ↔ _
  rw [h]
  constructor
  · intro h0
    have h1 := congrArg (· * R.Y 1) h0
    simp only [smul_mul_assoc, zero_mul, R.y_sq 1 trivial] at h1
    rw [← Algebra.algebraMap_eq_smul_one] at h1
    have h2 := (map_eq_zero_iff _ (algebraMap ℂ 𝔸).injective).mp h1
    simpa using h2
  · intro h0
    rw [h0]; simp

/-- non-vacuity of C67: two symmetries, given as Operators; all operators of the basis have the first -/
example : ∃ (eigh : Eigh) (pinv : _) (lu : _) (argsort : _) (δ : ℝ), 0 < δ ∧ ∀ tol, 0 < tol → tol ≤ δ →
    ∃ st, generate eigh pinv lu argsort (.strings zBasis) [commutesZ, commutesX] "noncumulative" true false tol = .ok (.noncumulative st) ∧
      st.Correct (waveRep ℂ).den .pauli (PauliString Set.univ) (.strings zBasis) [commutesZ, commutesX] := by
  obtain ⟨eigh, he⟩ := exists_exactEigh
  obtain ⟨pinv, hp⟩ := exists_isPinv
  obtain ⟨lu, hlu⟩ := exists_exactLu
  obtain ⟨argsort, hsort⟩ := exists_isSort
  obtain ⟨δ, hδ, h⟩ := C67_pauli (waveRep ℂ) (fun _ h => h) he hp hlu hsort zBasis_on (by simp) (inputs := [commutesZ, commutesX])
    (by intro inp hi
        simp only [List.mem_cons, List.not_mem_nil, or_false] at hi
        rcases hi with rfl | rfl
        · exact commutesZ_valid
        · exact commutesX_valid)
    (fun _ => zBasis_on)
    (by intro i inp hi0 hi
        obtain ⟨hil, -⟩ := List.getElem?_eq_some_iff.mp hi
        obtain rfl : i = 1 := by simp at hil; omega
        have e : (BasisArg.strings zBasis).coefficients .pauli (PauliString Set.univ) (HasSymmetries (waveRep ℂ).den [commutesZ, commutesX] 1) = Set.univ := by
          apply Set.eq_univ_of_forall
          intro v
          obtain ⟨A, a, b⟩ := zBasis_on.exists (fun s hs => hs.type) v
          exact ⟨A, a, b, by simpa [HasSymmetries] using commutesZ_holds (waveRep ℂ) b⟩
        rw [e]
        exact AngleGap.of_univ _ (by norm_num)) true
  exact ⟨eigh, pinv, lu, argsort, δ, hδ, h⟩

/-- an eigensolver that returns the standard basis for the zero matrix, like numpy's -/
noncomputable def standardEigh (eigh : Eigh) : Eigh := by
  classical
  exact fun n D => if D = 0 then ⟨0, 1⟩ else eigh n D

theorem standardEigh_exact (he : ExactEigh eigh) : ExactEigh (standardEigh eigh) := by
  classical
  intro n D hD
  unfold standardEigh
  by_cases h : D = 0
  · rw [if_pos h, h]
    exact ⟨by simp, by simp, by simp⟩
  · rw [if_neg h]
    exact he n D hD

theorem commutingOperators_vecs {x : BasisArg ℂ} {O : Operator ℂ} {mode : Mode} {tol : ℝ} {g : Generated} (h : commutingOperators eigh x O mode tol = .ok g) :
    g.vecs = selectColumns (eigh g.dim g.superoperator) 0 tol := by
  unfold commutingOperators at h
  cases hL : liouvillianMatrix x O mode with
  | error e => rw [hL] at h; simp [bind, Except.bind] at h
  | ok Le =>
    obtain ⟨L, e⟩ := Le
    rw [hL] at h
    simp only [bind, Except.bind] at h
    cases hD : L.getH.dot L with
    | error e => rw [hD] at h; simp at h
    | ok D =>
      rw [hD] at h
      simp only [Except.ok.injEq] at h
      subst h
      rfl

/-- one vector orthonormal and without first component -/
theorem single_column {q : List (Fin 2 → ℂ)} (hq : OrthonormalColumns q) (hspan : ∀ v, v ∈ colSpan q ↔ v 0 = 0) :
    ∃ u : Fin 2 → ℂ, q = [u] ∧ u 0 = 0 ∧ star (u 1) * u 1 = 1 := by
  have h0 : ∀ u ∈ q, u 0 = 0 := fun u hu => (hspan u).mp (Submodule.subset_span hu)
  have h1 : ∀ i (hi : i < q.length), star (q[i] 1) * q[i] 1 = 1 := by
    intro i hi
    have := hq i i hi hi
    rw [if_pos rfl, Fin.sum_univ_two, h0 _ (List.getElem_mem hi)] at this
    simpa using this
  match q, hq, hspan, h0, h1 with
  | [], _, hspan, _, _ =>
    have := (hspan ![0, 1]).mpr rfl
    simp only [colSpan, List.not_mem_nil, Set.setOf_false, Submodule.span_empty, Submodule.mem_bot] at this
    have := congrFun this 1
    simp at this
  | [u], _, _, h0, h1 => exact ⟨u, rfl, h0 u (List.mem_singleton_self u), h1 0 (by simp)⟩
  | u :: w :: q, hq, _, h0, h1 =>
    exfalso
    have h2 := hq 0 1 (by simp) (by simp)
    have h3 := h1 0 (by simp)
    have h4 := h1 1 (by simp)
    simp only [List.getElem_cons_zero, List.getElem_cons_succ] at h2 h3 h4
    rw [if_neg (by decide), Fin.sum_univ_two, h0 w (by simp), mul_zero, zero_add] at h2
    rcases mul_eq_zero.mp h2 with h | h
    · rw [h, zero_mul] at h3; exact zero_ne_one h3
    · rw [h, mul_zero] at h4; exact zero_ne_one h4

theorem matrix_zero_of_null {n : ℕ} {vecs : List (Fin n → ℂ)} {M : Matrix (Fin n) (Fin n) ℂ} (h : ∀ v, v ∈ colSpan vecs) (hn : ∀ v ∈ vecs, M *ᵥ v = 0) : M = 0 := by
  have hz : ∀ v, M *ᵥ v = 0 := by
    intro v
    have : colSpan vecs ≤ LinearMap.ker (Matrix.mulVecLin M) := by
      rw [colSpan, Submodule.span_le]
      intro u hu
      exact hn u hu
    exact this (h v)
  ext i j
  have := congrFun (hz (Pi.single j 1)) i
  rw [Matrix.mulVec_single_one] at this
  exact this

theorem standard_select {tol : ℝ} (t1 : 0 < tol) : selectColumns (standardEigh eigh 2 0) 0 tol = [![1, 0], ![0, 1]] := by
  unfold standardEigh
  rw [if_pos rfl]
  unfold selectColumns
  have e : List.finRange 2 = [0, 1] := rfl
  rw [e]
  simp only [Pi.zero_apply, sub_zero, abs_zero, t1, decide_true, List.filter_true, List.map_cons, List.map_nil]
  congr 1
  · funext i
    fin_cases i
    · exact Matrix.one_apply_eq 0
    · exact Matrix.one_apply_ne (by decide)
  · congr 1
    funext i
    fin_cases i
    · exact Matrix.one_apply_ne (by decide)
    · exact Matrix.one_apply_eq 1

theorem zBasis_one (R : PauliRep ℂ 𝔸 Set.univ) (he : ExactEigh eigh) (hp : IsPinv pinv) {inp : SymmetryInput} (hi : inp.Valid .pauli (PauliString Set.univ)) :
    ∃ δ > 0, ∃ (vecs : List (Fin 2 → ℂ)) (M : Matrix (Fin 2) (Fin 2) ℂ) (a : Fin 2 → ℝ) (b : Matrix (Fin 2) (Fin 2) ℂ),
      (∀ tol, 0 < tol → tol ≤ δ → generateOne eigh pinv (.strings zBasis) inp tol = .ok ⟨2, vecs, M, a, b⟩) ∧ OrthonormalColumns vecs ∧ (∀ v ∈ vecs, M *ᵥ v = 0) ∧
      ∀ (v : Fin 2 → ℂ) (A : Operator ℂ), A.On .pauli (PauliString Set.univ) → (BasisArg.strings zBasis).Combines v A → (v ∈ colSpan vecs ↔ inp.Holds R.den A) := by
  obtain ⟨δ, d, vecs, M, a, b, h, r⟩ := generateOne_ok R.strAlg (fun _ h => h) he hp zBasis_on (by simp) hi (fun _ => zBasis_on)
  exact ⟨δ, d, vecs, M, a, b, h, r.orthonormal, r.null, r.span⟩

/-- **C67 refuted** with `orthogonalization=True`: the step overwrites columns of the earlier result.  For the basis `Z_1, Z_2` and the
symmetries `Z_1` and `X_1`, all operators of the basis have the first symmetry, but the first result of the generator does not contain
`Z_1`. -/
theorem C67_refuted (R : PauliRep ℂ 𝔸 Set.univ) : ∃ eigh, ExactEigh eigh ∧ ∀ pinv, IsPinv pinv → ∀ lu argsort, ∃ δ > 0, ∀ tol, 0 < tol → tol ≤ δ →
    ∃ st c, generateNoncumulative eigh pinv lu argsort (.strings zBasis) [commutesZ, commutesX] {} false true tol = .ok st ∧ st.projected[0]? = some c ∧
      ¬ IsBasisOf .pauli (PauliString Set.univ) (.strings zBasis) (HasSymmetries R.den [commutesZ, commutesX] 1) c := by
  obtain ⟨eigh0, he0⟩ := exists_exactEigh
  have he := standardEigh_exact he0
  refine ⟨standardEigh eigh0, he, fun pinv hp lu argsort => ?_⟩
  have htype : ∀ s, PauliString Set.univ s → s.opType = .pauli := fun s hs => hs.type
  obtain ⟨δ1, d1, v1, M1, a1, b1, h1, o1, n1, r1⟩ := zBasis_one R he hp commutesZ_valid
  obtain ⟨δ2, d2, v2, M2, a2, b2, h2, o2, n2, r2⟩ := zBasis_one R he hp commutesX_valid
  refine ⟨min δ1 δ2, lt_min d1 d2, fun tol t1 t2 => ?_⟩
  replace h1 := h1 tol t1 (t2.trans (min_le_left _ _))
  replace h2 := h2 tol t1 (t2.trans (min_le_right _ _))
  have hs1 : ∀ v : Fin 2 → ℂ, v ∈ colSpan v1 := by
    intro v
    obtain ⟨A, a, b⟩ := zBasis_on.exists htype v
    exact (r1 v A a b).mpr (commutesZ_holds R b)
  have hs2 : ∀ v : Fin 2 → ℂ, v ∈ colSpan v2 ↔ v 0 = 0 := by
    intro v
    obtain ⟨A, a, b⟩ := zBasis_on.exists htype v
    exact (r2 v A a b).trans (commutesX_holds R b)
  have hM : M1 = (0 : Matrix (Fin 2) (Fin 2) ℂ) := matrix_zero_of_null hs1 n1
  have hv1 : v1 = [![1, 0], ![0, 1]] :=
    (commutingOperators_vecs h1).trans ((congrArg (fun M : Matrix (Fin 2) (Fin 2) ℂ => selectColumns (standardEigh eigh0 2 M) 0 tol) hM).trans (standard_select t1))
  obtain ⟨q, q1, q2, q3⟩ := projectStep_ok he (evals := a2) (evecs := b2) o2 n2 o1 (by
    have : ((colSpan v1 : Submodule ℂ (Fin 2 → ℂ)) : Set (Fin 2 → ℂ)) = Set.univ := Set.eq_univ_of_forall hs1
    exact this ▸ AngleGap.of_univ _ (by norm_num)) t1
  obtain ⟨u, rfl, u0, u1⟩ := single_column (q := q) q2 (fun v => by
    rw [q3, Submodule.mem_inf, hs2]
    exact ⟨fun h => h.1, fun h => ⟨h, hs1 v⟩⟩)
  have hn : vnorm u = 1 := OrthonormalColumns.unit q2 (List.mem_singleton_self u)
  have hd : vdiv u 1 = u := by funext i; simp [vdiv]
  have hgs : gsProject [u] ![0, 1] = 0 := by
    simp only [gsProject]
    funext i
    fin_cases i
    · simp [u0, vdot, Fin.sum_univ_two]
    · simp only [vdot, Fin.sum_univ_two, u0, Pi.zero_apply]
      simp only [star_zero, zero_mul, zero_add, Fin.mk_one, Matrix.cons_val_one, Matrix.cons_val_fin_one, mul_one]
      rw [u1, sub_self]
  have hstep : orthogonalizeStep ⟨2, [u]⟩ ⟨2, [![1, 0], ![0, 1]]⟩ = .ok ⟨2, [u]⟩ := by
    unfold orthogonalizeStep
    simp only [dite_true]
    rw [if_pos (by simp)]
    have : gramSchmidt ([u] ++ ([![1, 0], ![0, 1]] : List (Fin 2 → ℂ)).drop [u].length) 0 = some [u] := by
      show gramSchmidt [u, ![0, 1]] 0 = _
      unfold gramSchmidt
      simp only [gsLoop, hn, hd, hgs]
      rw [if_neg (by decide), if_neg (by norm_num), vnorm_eq_zero.mpr rfl, if_neg (lt_irrefl _)]
    simp only [this]
  refine ⟨⟨[⟨2, v1, M1, a1, b1⟩, ⟨2, v2, M2, a2, b2⟩], [⟨2, [u]⟩, ⟨2, [u]⟩]⟩, ⟨2, [u]⟩, ?_, rfl, ?_⟩
  · unfold generateNoncumulative
    rw [List.mapM_cons, List.mapM_cons, h1, h2]
    simp only [List.mapM_nil, bind, Except.bind, pure, Except.pure, List.nil_append, List.length_cons, List.length_nil]
    have e1 : projectLoop (standardEigh eigh0) tol [⟨2, v1, M1, a1, b1⟩, ⟨2, v2, M2, a2, b2⟩] (List.range (0 + 1 + 1)) [] = .ok [⟨2, v1⟩, ⟨2, [u]⟩] := by
      show projectLoop (standardEigh eigh0) tol _ [0, 1] [] = _
      simp only [projectLoop, pyGet, bind, Except.bind, List.getElem?_cons_zero, List.getElem?_cons_succ, if_true, List.nil_append]
      rw [if_neg (by decide)]
      simp only [Nat.sub_self, List.getElem?_cons_zero]
      rw [q1]
      rfl
    have e2 : orthogonalizeLoop [1] [⟨2, v1⟩, ⟨2, [u]⟩] = .ok [⟨2, [u]⟩, ⟨2, [u]⟩] := by
      simp only [orthogonalizeLoop, pyGet, bind, Except.bind, List.getElem?_cons_succ, List.getElem?_cons_zero, Nat.sub_self]
      rw [hv1, hstep]
      rfl
    simp only [Bool.false_eq_true, if_false, if_true]
    rw [e1]
    simp only
    have e2' : orthogonalizeLoop (List.range' 1 (0 + 1 + 1 - 1)).reverse [⟨2, v1⟩, ⟨2, [u]⟩] = .ok [⟨2, [u]⟩, ⟨2, [u]⟩] := e2
    rw [e2']
  · rintro ⟨q', hq', -, hspan⟩
    have hq'' : q' = [u] := by
      have h : (⟨2, [u]⟩ : Columns) = ⟨2, q'⟩ := hq'
      injection h with _ h'
      exact h'.symm
    obtain ⟨A, a, b⟩ := zBasis_on.exists htype (![1, 0] : Fin 2 → ℂ)
    have hm := (hspan ![1, 0] A a b).mpr (by simpa [HasSymmetries] using commutesZ_holds R b)
    rw [hq''] at hm
    have hle : colSpan [u] ≤ LinearMap.ker (LinearMap.proj (R := ℂ) (φ := fun _ : Fin 2 => ℂ) 0) := by
      rw [colSpan, Submodule.span_le]
      intro w hw
      rw [List.mem_singleton.mp hw]
      exact u0
    have := hle hm
    simp at this

/-! ### C68: the cumulative mode -/

theorem cumulative_mode {x : BasisArg ℂ} {inputs : List SymmetryInput} {s o : Bool} {P : List (List (Operator ℂ)) → Prop}
    (h : ∃ δ > 0, ∃ p, (∀ tol, 0 < tol → tol ≤ δ → generateCumulative eigh pinv lu argsort x s o tol inputs true [] = .ok p) ∧ P p) :
    ∃ δ > 0, ∃ p, (∀ tol, 0 < tol → tol ≤ δ → generate eigh pinv lu argsort x inputs "cumulative" s o tol = .ok (.cumulative p)) ∧ P p := by
  obtain ⟨δ, hδ, p, h, h'⟩ := h
  refine ⟨δ, hδ, p, fun tol t1 t2 => ?_, h'⟩
  rw [generate, if_pos rfl, h tol t1 t2]
  rfl

/-- **C68** (Pauli): for tolerances below a positive bound, the cumulative mode computes normalized Operators that span the operators with
the first symmetries, for each number of symmetries, until no operator is left.  With the default options (`sparsification` without
`orthogonalization`) only the first symmetry may be a Transformation; see `C68_refuted`. -/
theorem C68_pauli (R : PauliRep ℂ 𝔸 S) (hV : ∀ s, V s → PauliString S s) (he : ExactEigh eigh) (hp : IsPinv pinv) (hlu : ExactLu lu)
    (hsort : IsSort argsort) {x : BasisArg ℂ} (hx : x.On .pauli V) (hind : x.Independent) (hne : x.len ≠ 0) {inputs : List SymmetryInput}
    (hi : ∀ inp ∈ inputs, inp.Valid .pauli V) (ho : (∃ inp ∈ inputs, ∃ T, inp.symmetry = .transformation T) → x.Orthonormal .pauli V)
    (s o : Bool) (htr : (∃ inp ∈ inputs.tail, ∃ T, inp.symmetry = .transformation T) → s = false ∨ o = true) :
    ∃ δ > 0, ∃ p, (∀ tol, 0 < tol → tol ≤ δ → generate eigh pinv lu argsort x inputs "cumulative" s o tol = .ok (.cumulative p)) ∧
      CumulativeCorrect R.den .pauli V x inputs p ∧
      (s = false ∨ o = true → x.Orthonormal .pauli V → ∀ ops ∈ p, (BasisArg.operators ops).Orthonormal .pauli V) :=
  cumulative_mode (R.strAlg.cumulative hV he hp hlu hsort hx hind hne hi ho s o htr)

/-- **C68** (Majorana) -/
theorem C68_majorana (R : MajoranaRep ℂ 𝔸 S) (hV : ∀ s, V s → MajoranaString S s) (he : ExactEigh eigh) (hp : IsPinv pinv) (hlu : ExactLu lu)
    (hsort : IsSort argsort) {x : BasisArg ℂ} (hx : x.On .majorana V) (hind : x.Independent) (hne : x.len ≠ 0) {inputs : List SymmetryInput}
    (hi : ∀ inp ∈ inputs, inp.Valid .majorana V) (ho : (∃ inp ∈ inputs, ∃ T, inp.symmetry = .transformation T) → x.Orthonormal .majorana V)
    (s o : Bool) (htr : (∃ inp ∈ inputs.tail, ∃ T, inp.symmetry = .transformation T) → s = false ∨ o = true) :
    ∃ δ > 0, ∃ p, (∀ tol, 0 < tol → tol ≤ δ → generate eigh pinv lu argsort x inputs "cumulative" s o tol = .ok (.cumulative p)) ∧
      CumulativeCorrect R.den .majorana V x inputs p ∧
      (s = false ∨ o = true → x.Orthonormal .majorana V → ∀ ops ∈ p, (BasisArg.operators ops).Orthonormal .majorana V) :=
  cumulative_mode (R.strAlg.cumulative hV he hp hlu hsort hx hind hne hi ho s o htr)

/-- **C68** an empty basis and a second symmetry raise IndexError -/
theorem C68_empty (s o : Bool) (tol : ℝ) (a b : SymmetryInput) (rest : List SymmetryInput) {x : BasisArg ℂ} (hx : x.len = 0) :
    generate eigh pinv lu argsort x (a :: b :: rest) "cumulative" s o tol = .error .indexError := by
  have hxe : x.isEmpty = true := by
    cases x with
    | strings b => simpa [BasisArg.isEmpty, BasisArg.len] using hx
    | operators l => simpa [BasisArg.isEmpty, BasisArg.len] using hx
  rw [generate, if_pos rfl, generateCumulative]
  simp only [cumulativeBasis, if_true, bind, Except.bind, hxe]
  rw [generateCumulative]
  rfl

/-- **C68** every other mode raises ValueError -/
theorem C68_mode (s o : Bool) (tol : ℝ) (inputs : List SymmetryInput) {x : BasisArg ℂ} {mode : String} (hm : mode ≠ "cumulative") (hm' : mode ≠ "noncumulative") :
    generate eigh pinv lu argsort x inputs mode s o tol = .error .valueError := by
  rw [generate, if_neg hm, if_neg hm']

/-- non-vacuity of C68 with the default options: `X_1` as the second symmetry leaves `Z_2` -/
example : ∃ (eigh : Eigh) (pinv : _) (lu : _) (argsort : _) (δ : ℝ) (p : _), 0 < δ ∧
    (∀ tol, 0 < tol → tol ≤ δ → generate eigh pinv lu argsort (.strings zBasis) [commutesZ, commutesX] "cumulative" true false tol = .ok (.cumulative p)) ∧
    CumulativeCorrect (waveRep ℂ).den .pauli (PauliString Set.univ) (.strings zBasis) [commutesZ, commutesX] p := by
  obtain ⟨eigh, he⟩ := exists_exactEigh
  obtain ⟨pinv, hp⟩ := exists_isPinv
  obtain ⟨lu, hlu⟩ := exists_exactLu
  obtain ⟨argsort, hsort⟩ := exists_isSort
  have ho : (BasisArg.strings zBasis).Orthonormal .pauli (PauliString Set.univ) := zBasis_on
  obtain ⟨δ, hδ, p, h1, h2, -⟩ := C68_pauli (waveRep ℂ) (fun _ h => h) he hp hlu hsort zBasis_on ho.independent (by decide) (inputs := [commutesZ, commutesX])
    (by intro inp hi
        simp only [List.mem_cons, List.not_mem_nil, or_false] at hi
        rcases hi with rfl | rfl
        · exact commutesZ_valid
        · exact commutesX_valid)
    (fun _ => ho) true false (by simp [commutesX])
  exact ⟨eigh, pinv, lu, argsort, δ, p, hδ, h1, h2⟩

/-! ### C69: calling `generate` again -/

theorem generateCumulative_append {x : BasisArg ℂ} (s o : Bool) (tol : ℝ) (p0 : List (List (Operator ℂ))) : ∀ (inputs : List SymmetryInput)
    (p : List (List (Operator ℂ))), p ≠ [] → generateCumulative eigh pinv lu argsort x s o tol inputs false (p0 ++ p) =
      (generateCumulative eigh pinv lu argsort x s o tol inputs false p).map (p0 ++ ·)
  | [], p, _ => rfl
  | inp :: inputs, p, hp => by
    obtain ⟨l, hl⟩ : ∃ l, p.getLast? = some l := ⟨_, List.getLast?_eq_some_getLast hp⟩
    have hb : ∀ p' : List (List (Operator ℂ)), p'.getLast? = some l → cumulativeBasis x false p' = .ok (.operators l) := by
      intro p' h'; simp [cumulativeBasis, h']
    rw [generateCumulative, generateCumulative, hb p hl, hb (p0 ++ p) (by rw [List.getLast?_append, hl]; rfl)]
    simp only [bind, Except.bind]
    by_cases he : (BasisArg.operators l).isEmpty = true
    · rw [if_pos he, if_pos he]
      exact generateCumulative_append s o tol p0 inputs p hp
    · rw [if_neg he, if_neg he]
      cases cumulativeStep eigh pinv lu argsort (.operators l) inp s o tol with
      | error e => rfl
      | ok ops =>
        simp only [List.append_assoc]
        exact generateCumulative_append s o tol p0 inputs (p ++ [ops]) (by simp)

/-- **C69** in the cumulative mode, `generate` may be called again after adding symmetries: the results are those of a new generator,
appended to the previous ones. -/
theorem C69_cumulative {x : BasisArg ℂ} (hne : x.len ≠ 0) (s o : Bool) (tol : ℝ) (p0 : List (List (Operator ℂ))) (inputs : List SymmetryInput) :
    generateCumulative eigh pinv lu argsort x s o tol inputs true p0 = (generateCumulative eigh pinv lu argsort x s o tol inputs true []).map (p0 ++ ·) := by
  cases inputs with
  | nil => simp [generateCumulative, Except.map]
  | cons inp inputs =>
    have hxe : x.isEmpty = false := by
      cases x with
      | strings b => simp only [BasisArg.isEmpty, List.isEmpty_eq_false_iff]; rintro h; exact hne (by simp [BasisArg.len, h])
      | operators l => simp only [BasisArg.isEmpty, List.isEmpty_eq_false_iff]; rintro h; exact hne (by simp [BasisArg.len, h])
    rw [generateCumulative, generateCumulative]
    simp only [cumulativeBasis, if_true, bind, Except.bind, hxe, Bool.false_eq_true, if_false]
    cases cumulativeStep eigh pinv lu argsort x inp s o tol with
    | error e => rfl
    | ok ops =>
      simp only [List.nil_append]
      exact generateCumulative_append s o tol p0 inputs [ops] (by simp)

theorem AngleGap.self {n : ℕ} (U : Submodule ℂ (Fin n → ℂ)) {tol : ℝ} (ht : tol ≤ 1) : AngleGap (n := n) U U tol := by
  intro v hv w hw c hvw h1 h2 hc
  have zero : ∀ u ∈ U, (∀ a ∈ U, vdot a u = 0) → u = 0 := by
    intro u hu h
    have h' := h u hu
    rw [← vnorm_sq] at h'
    have : vnorm u ^ 2 = 0 := by exact_mod_cast h'
    exact vnorm_eq_zero.mp (pow_eq_zero_iff (two_ne_zero) |>.mp this)
  have e1 : w = (c : ℂ) • v := sub_eq_zero.mp (zero _ (U.sub_mem hw (U.smul_mem _ hv)) h1)
  have e2 : v = (c : ℂ) • w := sub_eq_zero.mp (zero _ (U.sub_mem hv (U.smul_mem _ hw)) h2)
  have hv0 : v ≠ 0 := by
    rintro rfl
    rw [smul_zero] at e1
    exact hvw.elim (fun h => h rfl) (fun h => h e1)
  have hcc : (1 - c * c : ℂ) • v = 0 := by
    rw [e1, smul_smul] at e2
    rw [sub_smul, one_smul, ← e2, sub_self]
  have h7 : (1 - c * c : ℂ) = 0 := (smul_eq_zero.mp hcc).resolve_right hv0
  have h8 : 1 - c * c = 0 := by exact_mod_cast h7
  have hc0 : 0 < c := by
    have := (abs_lt.mp hc).2
    linarith
  nlinarith

/-- **C69 refuted** in the noncumulative mode: `generate` is called for one symmetry, a second symmetry is added, and `generate` is called
again.  The attributes still hold the old results and the indices refer to those, so that every result has only the first symmetry:
the second is never used. -/
theorem C69_refuted (R : PauliRep ℂ 𝔸 S) (hV : ∀ s, V s → PauliString S s) (he : ExactEigh eigh) (hp : IsPinv pinv)
    {x : BasisArg ℂ} (hx : x.On .pauli V) (hne : x ≠ .operators []) {a b : SymmetryInput} (ha : a.Valid .pauli V) (hb : b.Valid .pauli V)
    (ho : x.Orthonormal .pauli V) : ∃ δ > 0, ∀ tol, 0 < tol → tol ≤ δ → ∃ st1 st2,
      generateNoncumulative eigh pinv lu argsort x [a] {} false false tol = .ok st1 ∧
      generateNoncumulative eigh pinv lu argsort x [a, b] st1 false false tol = .ok st2 ∧
      st2.projected.length = 3 ∧ ∀ c ∈ st2.projected, IsBasisOf .pauli V x (a.Holds R.den) c := by
  obtain ⟨δ1, d1, v1, M1, a1, b1, h1, r1⟩ := generateOne_ok R.strAlg hV he hp hx hne ha (fun _ => ho)
  obtain ⟨δ2, d2, v2, M2, a2, b2, h2, r2⟩ := generateOne_ok R.strAlg hV he hp hx hne hb (fun _ => ho)
  refine ⟨min δ1 δ2, lt_min d1 d2, fun tol t1 t2 => ?_⟩
  replace h1 := h1 tol t1 (t2.trans (min_le_left _ _))
  replace h2 := h2 tol t1 (t2.trans (min_le_right _ _))
  obtain ⟨q, q1, q2, q3⟩ := projectStep_ok he (evals := a1) (evecs := b1) r1.orthonormal r1.null r1.orthonormal (AngleGap.self _ (by norm_num)) t1
  rw [inf_idem] at q3
  have hv : IsBasisOf .pauli V x (a.Holds R.den) ⟨x.len, v1⟩ := ⟨v1, rfl, r1.orthonormal, r1.span⟩
  have hq : IsBasisOf .pauli V x (a.Holds R.den) ⟨x.len, q⟩ := ⟨q, rfl, q2, fun v A hA hc => by rw [q3]; exact r1.span v A hA hc⟩
  refine ⟨⟨[⟨x.len, v1, M1, a1, b1⟩], [⟨x.len, v1⟩]⟩, ⟨[⟨x.len, v1, M1, a1, b1⟩, ⟨x.len, v1, M1, a1, b1⟩, ⟨x.len, v2, M2, a2, b2⟩],
    [⟨x.len, v1⟩, ⟨x.len, v1⟩, ⟨x.len, q⟩]⟩, ?_, ?_, rfl, ?_⟩
  · unfold generateNoncumulative
    rw [List.mapM_cons, h1]
    rfl
  · unfold generateNoncumulative
    rw [List.mapM_cons, List.mapM_cons, h1, h2]
    simp only [List.mapM_nil, bind, Except.bind, pure, Except.pure, List.length_cons, List.length_nil]
    have e1 : projectLoop eigh tol ([⟨x.len, v1, M1, a1, b1⟩] ++ [⟨x.len, v1, M1, a1, b1⟩, ⟨x.len, v2, M2, a2, b2⟩]) (List.range (0 + 1 + 1)) [⟨x.len, v1⟩] =
        .ok [⟨x.len, v1⟩, ⟨x.len, v1⟩, ⟨x.len, q⟩] := by
      show projectLoop eigh tol [⟨x.len, v1, M1, a1, b1⟩, ⟨x.len, v1, M1, a1, b1⟩, ⟨x.len, v2, M2, a2, b2⟩] [0, 1] _ = _
      simp only [projectLoop, pyGet, bind, Except.bind, List.getElem?_cons_zero, List.getElem?_cons_succ, if_true, List.cons_append, List.nil_append]
      rw [if_neg (by decide)]
      simp only [Nat.sub_self, List.getElem?_cons_zero]
      rw [q1]
    rw [e1]
    rfl
  · intro c hc
    simp only [List.mem_cons, List.not_mem_nil, or_false] at hc
    rcases hc with rfl | rfl | rfl
    · exact hv
    · exact hv
    · exact hq

/-- the case of `Z_1` and then `X_1`: no result commutes with `X_1` -/
example (he : ExactEigh eigh) (hp : IsPinv pinv) : ∃ δ > 0, ∀ tol, 0 < tol → tol ≤ δ → ∃ st1 st2,
    generateNoncumulative eigh pinv lu argsort (.strings zBasis) [commutesZ] {} false false tol = .ok st1 ∧
    generateNoncumulative eigh pinv lu argsort (.strings zBasis) [commutesZ, commutesX] st1 false false tol = .ok st2 ∧
    st2.projected.length = 3 ∧ ∀ c ∈ st2.projected, ¬ IsBasisOf .pauli (PauliString Set.univ) (.strings zBasis) (HasSymmetries (waveRep ℂ).den [commutesZ, commutesX] 2) c := by
  obtain ⟨δ, hδ, h⟩ := C69_refuted (waveRep ℂ) (lu := lu) (argsort := argsort) (fun _ h => h) he hp zBasis_on (by simp) commutesZ_valid commutesX_valid zBasis_on
  refine ⟨δ, hδ, fun tol t1 t2 => ?_⟩
  obtain ⟨st1, st2, h1, h2, h3, h4⟩ := h tol t1 t2
  refine ⟨st1, st2, h1, h2, h3, fun c hc => ?_⟩
  rintro ⟨q, rfl, -, hs⟩
  obtain ⟨q', hq', -, hs'⟩ := h4 _ hc
  injection hq' with _ e
  subst e
  obtain ⟨A, ha, hb⟩ := zBasis_on.exists (fun s hs => hs.type) (![1, 0] : Fin 2 → ℂ)
  have hm := (hs' ![1, 0] A ha hb).mpr (commutesZ_holds (waveRep ℂ) hb)
  have hx := (hs ![1, 0] A ha hb).mp hm commutesX (by simp)
  have := (commutesX_holds (waveRep ℂ) hb).mp hx
  simp at this

end Qosy
