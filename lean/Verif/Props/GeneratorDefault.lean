import Verif.Props.Generator
import Verif.Lemmas.GeneratorSwap
import Verif.Lemmas.Symmetrization
import Verif.Props.SymmetryMatrix

/-!
# Property C68: the default options miss operators

With `sparsification=True, orthogonalization=False` (the default) the basis of the second step is not orthogonal.  The symmetry matrix of
a reflection in such a basis is not Hermitian, and the eigenvalues of its Hermitian part are not `± 1`.
-/

namespace Qosy
open Matrix Coef
variable {𝔸 : Type} [Ring 𝔸] [Algebra ℂ 𝔸] [Nontrivial 𝔸]
variable {eigh : Eigh} {pinv : Mat ℂ → Py (Mat ℂ)} {lu : PermutedLu} {argsort : List ℕ → List ℕ}

/-- the Majorana string `i a_j a_3` -/
def pairString (j : Fin 3) : OpString := ⟨[.A, .A], [(j : ℤ), 3], .majorana, .imag⟩
/-- the basis `i a_0 a_3, i a_1 a_3, i a_2 a_3` -/
def pairBasis : Basis := Basis.ofList [pairString 0, pairString 1, pairString 2]
/-- the Majorana string `a_j` -/
def modeString (j : Fin 3) : OpString := ⟨[.A], [(j : ℤ)], .majorana, .float1⟩
/-- the Operator `a_0 + a_1 + a_2` -/
noncomputable def modeSum : Operator ℂ := ⟨[1, 1, 1], Basis.ofList [modeString 0, modeString 1, modeString 2], .majorana⟩
/-- the orbitals `b` and `c` of four are exchanged -/
def exchange (b c : Fin 3) : Equiv.Perm (Fin 4) := Equiv.swap b.castSucc c.castSucc
/-- the first symmetry: commuting with `a_0 + a_1 + a_2` -/
noncomputable def commutesSum : SymmetryInput := ⟨.operator modeSum, .commutator⟩
/-- the second symmetry: invariant when `b` and `c` are exchanged -/
noncomputable def exchangeSymmetry (b c : Fin 3) : SymmetryInput := ⟨.transformation (labelPermutation (labelsOf (permArray (exchange b c)))), .commutator⟩

abbrev Strings4 : OpString → Prop := CanonicalOn .majorana 4

theorem pairString_on (j : Fin 3) : Strings4 (pairString j) := by
  refine ⟨Or.inr ⟨rfl, rfl, by simp [pairString], rfl, ?_, ?_, by simp [pairString]⟩, ?_⟩
  · fin_cases j <;> simp [pairString]
  · intro l hl
    simp only [pairString, List.mem_cons, List.not_mem_nil, or_false] at hl
    rcases hl with rfl | rfl
    · fin_cases j <;> exact ⟨by decide, by decide⟩
    · exact ⟨by decide, by decide⟩
  · refine ⟨?_, Or.inl rfl⟩
    fin_cases j <;> simp [pairString]

theorem modeString_on (j : Fin 3) : Strings4 (modeString j) := by
  refine ⟨Or.inr ⟨rfl, rfl, by simp [modeString], rfl, by simp [modeString], ?_, by simp [modeString]⟩, by simp [modeString], Or.inr rfl⟩
  intro l hl
  simp only [modeString, List.mem_cons, List.not_mem_nil, or_false] at hl
  subst hl
  fin_cases j <;> exact ⟨by decide, by decide⟩

theorem pairBasis_on : (BasisArg.strings pairBasis).On .majorana Strings4 := by
  refine ⟨Basis.Inv.ofList (by decide), fun s hs => ?_⟩
  simp only [pairBasis, Basis.ofList, List.mem_cons, List.not_mem_nil, or_false] at hs
  rcases hs with rfl | rfl | rfl <;> exact pairString_on _

theorem commutesSum_valid : commutesSum.Valid .majorana Strings4 := by
  intro s hs
  have hs : s ∈ [modeString 0, modeString 1, modeString 2] := hs
  simp only [List.mem_cons, List.not_mem_nil, or_false] at hs
  rcases hs with rfl | rfl | rfl <;> exact modeString_on _

theorem exchangeSymmetry_valid (b c : Fin 3) : (exchangeSymmetry b c).Valid .majorana Strings4 := by
  refine ⟨by simp [exchangeSymmetry], _, _, act_signRule (exchange b c), ?_⟩
  intro s hs s' hs' h
  rw [← (act_inv hs (exchange b c)).1, h, (act_inv hs' (exchange b c)).1]

theorem pair_den (R : MajoranaRep ℂ 𝔸 (siteLabels 4)) {v : Fin 3 → ℂ} {A : Operator ℂ} (hA : (BasisArg.strings pairBasis).Combines v A) :
    A.den R.den = (Complex.I * v 0) • (R.a 0 * R.a 3) + (Complex.I * v 1) • (R.a 1 * R.a 3) + (Complex.I * v 2) • (R.a 2 * R.a 3) := by
  rw [Combines.den pairBasis_on hA R.den]
  have e : ∀ w : Fin 3 → 𝔸, ∑ j, v j • w j = v 0 • w 0 + v 1 • w 1 + v 2 • w 2 := fun w => Fin.sum_univ_three _
  refine (e ![R.den (pairString 0), R.den (pairString 1), R.den (pairString 2)]).trans ?_
  have hI : (I : ℂ) = Complex.I := rfl
  simp [pairString, MajoranaRep.den, wordProd, MajoranaRep.site, Pref.val, hI, smul_smul, mul_comm]

theorem modeSum_den (R : MajoranaRep ℂ 𝔸 (siteLabels 4)) : modeSum.den R.den = R.a 0 + R.a 1 + R.a 2 := by
  simp [modeSum, Operator.den, denT, Operator.terms, Basis.ofList, modeString, MajoranaRep.den, wordProd, MajoranaRep.site, Pref.val, add_assoc]

theorem pair_bracket (R : MajoranaRep ℂ 𝔸 (siteLabels 4)) (j : Fin 3) :
    R.a j * R.a 3 * (R.a 0 + R.a 1 + R.a 2) - (R.a 0 + R.a 1 + R.a 2) * (R.a j * R.a 3) = (-2 : ℂ) • R.a 3 := by
  have m : ∀ i : Fin 3, (i : ℤ) ∈ siteLabels 4 := by intro i; fin_cases i <;> exact ⟨by decide, by decide⟩
  have m3 : (3 : ℤ) ∈ siteLabels 4 := ⟨by decide, by decide⟩
  have key : ∀ k : Fin 3, R.a j * R.a 3 * R.a k - R.a k * (R.a j * R.a 3) = if k = j then (-2 : ℂ) • R.a 3 else 0 := by
    intro k
    have h3 : R.a 3 * R.a k = -(R.a k * R.a 3) := R.aa 3 m3 k (m k) (by fin_cases k <;> decide)
    rw [mul_assoc, h3]
    by_cases hkj : k = j
    · subst hkj
      rw [if_pos rfl]
      simp only [mul_neg, ← mul_assoc, R.a_sq _ (m k), one_mul]
      module
    · rw [if_neg hkj, mul_neg, ← mul_assoc, ← mul_assoc, R.aa k (m k) j (m j) (by intro h; exact hkj (Fin.ext (by exact_mod_cast h)))]
      simp
  have k0 := key 0
  have k1 := key 1
  have k2 := key 2
  simp only [Fin.val_zero, Fin.val_one, Fin.val_two, Nat.cast_zero, Nat.cast_one, Nat.cast_ofNat] at k0 k1 k2
  have hsum : R.a j * R.a 3 * (R.a 0 + R.a 1 + R.a 2) - (R.a 0 + R.a 1 + R.a 2) * (R.a j * R.a 3) =
      (R.a j * R.a 3 * R.a 0 - R.a 0 * (R.a j * R.a 3)) + (R.a j * R.a 3 * R.a 1 - R.a 1 * (R.a j * R.a 3)) +
      (R.a j * R.a 3 * R.a 2 - R.a 2 * (R.a j * R.a 3)) := by
    simp only [mul_add, add_mul]; abel
  rw [hsum, k0, k1, k2]
  fin_cases j <;> simp

theorem commutesSum_holds (R : MajoranaRep ℂ 𝔸 (siteLabels 4)) {v : Fin 3 → ℂ} {A : Operator ℂ} (hA : (BasisArg.strings pairBasis).Combines v A) :
    commutesSum.Holds R.den A ↔ v 0 + v 1 + v 2 = 0 := by
  show bracketOf .commutator (A.den R.den) (modeSum.den R.den) = 0 ↔ _
  have h : bracketOf .commutator (A.den R.den) (modeSum.den R.den) = (-2 * Complex.I * (v 0 + v 1 + v 2)) • R.a 3 := by
    have k0 := pair_bracket R 0
    have k1 := pair_bracket R 1
    have k2 := pair_bracket R 2
    simp only [Fin.val_zero, Fin.val_one, Fin.val_two, Nat.cast_zero, Nat.cast_one, Nat.cast_ofNat] at k0 k1 k2
    rw [pair_den R hA, modeSum_den, bracketOf]
    calc _ = (Complex.I * v 0) • (R.a 0 * R.a 3 * (R.a 0 + R.a 1 + R.a 2) - (R.a 0 + R.a 1 + R.a 2) * (R.a 0 * R.a 3)) +
          (Complex.I * v 1) • (R.a 1 * R.a 3 * (R.a 0 + R.a 1 + R.a 2) - (R.a 0 + R.a 1 + R.a 2) * (R.a 1 * R.a 3)) +
          (Complex.I * v 2) • (R.a 2 * R.a 3 * (R.a 0 + R.a 1 + R.a 2) - (R.a 0 + R.a 1 + R.a 2) * (R.a 2 * R.a 3)) := by
          simp only [smul_sub, add_mul, mul_add, smul_mul_assoc, mul_smul_comm, smul_add]
          abel
      _ = _ := by rw [k0, k1, k2]; module
  rw [h]
  constructor
  · intro h0
    have h1 := congrArg (· * R.a 3) h0
    simp only [smul_mul_assoc, zero_mul, R.a_sq 3 ⟨by decide, by decide⟩] at h1
    rw [← Algebra.algebraMap_eq_smul_one] at h1
    have h2 := (map_eq_zero_iff _ (algebraMap ℂ 𝔸).injective).mp h1
    simpa using h2
  · intro h0
    rw [h0]; simp

/-- the coefficient of `s` in the `j`-th string -/
noncomputable def pairCoef (j : Fin 3) (s : OpString) : ℂ := if pairString j = s then 1 else 0

theorem pair_combines {v : Fin 3 → ℂ} {A : Operator ℂ} : (BasisArg.strings pairBasis).Combines v A ↔ ∀ s, A.coef s = v 0 * pairCoef 0 s + v 1 * pairCoef 1 s + v 2 * pairCoef 2 s := by
  refine forall_congr' fun s => ?_
  have e : ∀ w : Fin 3 → ℂ, ∑ j, v j * w j = v 0 * w 0 + v 1 * w 1 + v 2 * w 2 := fun w => Fin.sum_univ_three _
  exact iff_of_eq (congrArg (A.coef s = ·) (e fun j => pairCoef j s))

theorem pair_relabel (b c j : Fin 3) : relabelString (permMap (exchange b c)) (pairString j) = pairString (Equiv.swap b c j) ∧
    relabelSign (permMap (exchange b c)) (pairString j) = 1 := by
  revert b c j
  decide +kernel

/-- the action of the exchange -/
theorem exchange_apply (b c : Fin 3) {A : Operator ℂ} (hA : A.On .majorana Strings4) {v : Fin 3 → ℂ}
    (hv : ∀ s, A.coef s = ∑ j, v j * pairCoef j s) :
    ∃ B, (labelPermutation (labelsOf (permArray (exchange b c))) : Transformation ℂ).apply A = .ok B ∧
      ∀ s, B.coef s = ∑ j, v j * pairCoef (Equiv.swap b c j) s := by
  have hr := act_signRule (K := ℂ) (t := .majorana) (exchange b c)
  obtain ⟨B, h1, -, h3⟩ := apply_ok hr.maps hA
  refine ⟨B, h1, fun s => ?_⟩
  have hA0 : ∀ s, A.coef s = (⟨[v 0, v 1, v 2], pairBasis, .majorana⟩ : Operator ℂ).coef s := by
    intro s
    rw [hv s, Fin.sum_univ_three]
    simp [Operator.coef, Operator.terms, coefT, pairBasis, Basis.ofList, pairCoef]
    ring
  rw [h3, sum_terms_congr hA0 (fun u => (labelPermutation (labelsOf (permArray (exchange b c))) : Transformation ℂ).entry s u), Fin.sum_univ_three]
  have he : ∀ j, (labelPermutation (labelsOf (permArray (exchange b c))) : Transformation ℂ).entry s (pairString j) = pairCoef (Equiv.swap b c j) s := by
    intro j
    rw [Sends.entry (hr.sends _ (pairString_on j)), (pair_relabel b c j).1, (pair_relabel b c j).2]
    simp [pairCoef]
  simp only [Operator.terms, pairBasis, Basis.ofList, List.zip_cons_cons, List.zip_nil_right, List.map_cons, List.map_nil, List.sum_cons, List.sum_nil, he]
  ring

/-- no eigenvalue is near one if the square of the matrix is `5/4` -/
theorem select_empty {n : ℕ} {H : Matrix (Fin n) (Fin n) ℂ} {r : EighResult (Fin n) n} (hE : IsEigh H r) (h2 : H * H = (5 / 4 : ℂ) • 1) {tol : ℝ} (ht : tol ≤ 1 / 10) :
    selectColumns r 1 tol = [] := by
  classical
  unfold selectColumns
  rw [List.map_eq_nil_iff, List.filter_eq_nil_iff]
  intro k _
  simp only [decide_eq_true_eq, not_lt]
  by_contra hcon
  push Not at hcon
  have hc := hE.column k
  have h3 : H *ᵥ (H *ᵥ fun i => r.evecs i k) = (5 / 4 : ℂ) • fun i => r.evecs i k := by
    rw [mulVec_mulVec, h2, smul_mulVec, one_mulVec]
  rw [hc, mulVec_smul, hc, smul_smul] at h3
  have hne : (fun i => r.evecs i k) ≠ 0 := by
    intro h0
    have := hE.inner k k
    rw [if_pos rfl] at this
    have hz : ∀ i, r.evecs i k = 0 := fun i => congrFun h0 i
    simp [hz] at this
  have h4 : ((r.evals k : ℂ) * r.evals k - 5 / 4) • (fun i => r.evecs i k) = 0 := by rw [sub_smul, h3, sub_self]
  have h5 := (smul_eq_zero.mp h4).resolve_right hne
  have h6 : r.evals k * r.evals k = 5 / 4 := by
    have : ((r.evals k * r.evals k : ℝ) : ℂ) = ((5 / 4 : ℝ) : ℂ) := by push_cast; linear_combination h5
    exact_mod_cast this
  rcases abs_lt.mp hcon with ⟨l1, l2⟩
  nlinarith

/-- the matrix of the exchange in the basis of two operators -/
theorem exchange_matrix {T : Transformation ℂ} {t : OpType} {V : OpString → Prop} {ε : OpString → ℂ} {f : OpString → OpString} (hr : SignRule T t V ε f) (hp : IsPinv pinv)
    {o1 o2 : Operator ℂ} (h1 : o1.On t V) (h2 : o2.On t V) (hind : (BasisArg.operators [o1, o2]).Independent) (m : Matrix (Fin 2) (Fin 2) ℂ)
    (t1 : ∃ B, T.apply o1 = .ok B ∧ ∀ s, B.coef s = m 0 0 * o1.coef s + m 1 0 * o2.coef s)
    (t2 : ∃ B, T.apply o2 = .ok B ∧ ∀ s, B.coef s = m 0 1 * o1.coef s + m 1 1 * o2.coef s) :
    ∃ M : Mat ℂ, symmetryMatrixOf pinv (.operators [o1, o2]) T = .ok M ∧ M.ncols = 2 ∧ ∀ i j : Fin 2, M.get i j = m i j := by
  have htol : tolTransformation < 1 := by rw [tolTransformation]; norm_num
  obtain ⟨M, m1, m2, m3, m4⟩ := C41_operators (tol := tolTransformation) hr.maps (ops := [o1, o2]) (by simp)
    (by intro o ho
        simp only [List.mem_cons, List.not_mem_nil, or_false] at ho
        rcases ho with rfl | rfl
        · exact h1
        · exact h2)
    (by intro s s' hs _
        rw [Sends.entry (hr.sends s hs)]
        split
        · exact Or.inr (sign_kept (hr.sign s hs))
        · exact Or.inl rfl)
    pinv (fun C hC => by obtain ⟨P, a, b, c, d, e, -⟩ := hp C hC; exact ⟨P, a, b, c, d, e⟩)
    (by intro o ho
        simp only [List.mem_cons, List.not_mem_nil, or_false] at ho
        have e : ∀ (w : Fin 2 → ℂ) (s : OpString), ∑ c : Fin 2, w c * [o1, o2][c].coef s = w 0 * o1.coef s + w 1 * o2.coef s := fun w s => Fin.sum_univ_two _
        rcases ho with rfl | rfl
        · obtain ⟨B, b1, b2⟩ := t1
          exact ⟨B, fun c : Fin 2 => m c 0, b1, fun s => (b2 s).trans (e (fun c => m c 0) s).symm⟩
        · obtain ⟨B, b1, b2⟩ := t2
          exact ⟨B, fun c : Fin 2 => m c 1, b1, fun s => (b2 s).trans (e (fun c => m c 1) s).symm⟩)
  refine ⟨M, m1, m3, ?_⟩
  have key : ∀ a : Fin 2, ∀ (B : Operator ℂ) (o : Operator ℂ), [o1, o2][a] = o → T.apply o = .ok B →
      (∀ s, B.coef s = m 0 a * o1.coef s + m 1 a * o2.coef s) → M.get 0 a = m 0 a ∧ M.get 1 a = m 1 a := by
    intro a B o ho hB hc
    obtain ⟨B', b1, b2⟩ := m4 a a.2
    have b1' : T.apply o = .ok B' := ho ▸ b1
    obtain rfl : B = B' := by rw [hB] at b1'; simpa using b1'
    have e : ∀ (w : Fin 2 → ℂ) (s : OpString), ∑ c : Fin 2, w c * (BasisArg.operators [o1, o2]).coef c s = w 0 * o1.coef s + w 1 * o2.coef s := fun w s => Fin.sum_univ_two _
    have h0 := hind (fun c : Fin 2 => M.get c a - m c a) (fun s => by
      refine (e (fun c => M.get c a - m c a) s).trans ?_
      have := (b2 s).symm.trans (hc s)
      have e' : ∑ c : Fin 2, M.get c a * [o1, o2][c].coef s = M.get 0 a * o1.coef s + M.get 1 a * o2.coef s := Fin.sum_univ_two _
      have this' : M.get 0 a * o1.coef s + M.get 1 a * o2.coef s = m 0 a * o1.coef s + m 1 a * o2.coef s := e'.symm.trans this
      simp only [Fin.val_zero, Fin.val_one]
      linear_combination this')
    have z0 := congrFun h0 (0 : Fin 2)
    have z1 := congrFun h0 (1 : Fin 2)
    exact ⟨sub_eq_zero.mp z0, sub_eq_zero.mp z1⟩
  obtain ⟨B1, b1, b2⟩ := t1
  obtain ⟨B2, c1, c2⟩ := t2
  have k0 := key 0 B1 o1 rfl b1 b2
  have k1 := key 1 B2 o2 rfl c1 c2
  intro i j
  fin_cases i <;> fin_cases j
  · exact k0.1
  · exact k1.1
  · exact k0.2
  · exact k1.2

theorem invariant_empty (he : ExactEigh eigh) {x : BasisArg ℂ} {T : Transformation ℂ} {M : Mat ℂ} (hM : symmetryMatrixOf pinv x T = .ok M)
    {m : Matrix (Fin 2) (Fin 2) ℂ} (hn : M.ncols = 2) (hm : ∀ i j : Fin 2, M.get i j = m i j) (h2 : hermitianPart m * hermitianPart m = (5 / 4 : ℂ) • 1) {tol : ℝ}
    (ht : tol ≤ 1 / 10) : ∃ g, invariantOperators eigh pinv x T "commutator" tol = .ok g ∧ g.vecs = [] := by
  unfold invariantOperators
  simp only [hM, bind, Except.bind, show symmetrySign "commutator" = .ok 1 from by decide]
  refine ⟨_, rfl, ?_⟩
  show selectColumns (eigh M.ncols (hermitianPart M.toarray)) ((1 : ℤ) : ℝ) tol = []
  have key : ∀ k (hk : k = 2) (D : Matrix (Fin k) (Fin k) ℂ), (∀ i j : Fin k, D i j = m (Fin.cast hk i) (Fin.cast hk j)) → selectColumns (eigh k (hermitianPart D)) ((1 : ℤ) : ℝ) tol = [] := by
    rintro k rfl D hD
    have : D = m := by ext i j; exact hD i j
    rw [this, Int.cast_one]
    exact select_empty (he _ _ (hermitianPart_isHermitian m)) h2 ht
  exact key _ hn M.toarray (fun i j => hm (Fin.cast hn i) (Fin.cast hn j))

theorem BasisArg.Independent.unique {x : BasisArg ℂ} (h : x.Independent) {v w : Fin x.len → ℂ} {A : Operator ℂ} (hv : x.Combines v A) (hw : x.Combines w A) : v = w := by
  have : v - w = 0 := h (v - w) (fun s => by
    have e := (hv s).symm.trans (hw s)
    simp only [Pi.sub_apply, sub_mul, Finset.sum_sub_distrib]
    rw [e, sub_self])
  exact sub_eq_zero.mp this

theorem pairString_inj {i j : Fin 3} (h : pairString i = pairString j) : i = j := by
  revert i j; decide

/-- the normalized difference of two strings -/
theorem difference_coef {a c : Fin 3} (hac : a ≠ c) {α : ℂ} {o : Operator ℂ}
    (h : IsCombination .majorana Strings4 (.strings pairBasis) (α • (Pi.single a 1 - Pi.single c 1) : Fin 3 → ℂ) o) :
    ∃ α', (∀ s, o.coef s = α' * (pairCoef a s - pairCoef c s)) ∧ ‖α'‖ ^ 2 = 1 / 2 := by
  classical
  obtain ⟨r, r1, r2⟩ := h.coef
  have hc : ∀ s, o.coef s = (r * α) * (pairCoef a s - pairCoef c s) := by
    intro s
    rw [r2 s, mul_assoc]
    congr 1
    have e : ∑ j : Fin 3, (α • (Pi.single a 1 - Pi.single c 1) : Fin 3 → ℂ) j * pairCoef j s = α * (pairCoef a s - pairCoef c s) := by
      simp only [Pi.smul_apply, Pi.sub_apply, smul_eq_mul, mul_assoc, sub_mul, ← Finset.mul_sum, Finset.sum_sub_distrib]
      rw [Finset.sum_eq_single a, Finset.sum_eq_single c]
      · simp
      · intro j _ hj; simp [hj]
      · simp
      · intro j _ hj; simp [hj]
      · simp
    exact e
  refine ⟨r * α, hc, ?_⟩
  have h1 := (Operator.norm_eq_one h.on.wf).mp h.norm
  have hsub : ∑ s ∈ o.basis.strs.toFinset, star (o.coef s) * o.coef s =
      ∑ s ∈ {pairString a, pairString c}, star (o.coef s) * o.coef s := by
    have e1 : ∑ s ∈ o.basis.strs.toFinset, star (o.coef s) * o.coef s =
        ∑ s ∈ o.basis.strs.toFinset ∪ {pairString a, pairString c}, star (o.coef s) * o.coef s := by
      apply Finset.sum_subset Finset.subset_union_left
      intro s _ hs
      rw [coef_zero_of_not_mem (by simpa using hs)]; simp
    rw [e1]
    symm
    apply Finset.sum_subset Finset.subset_union_right
    intro s _ hs
    simp only [Finset.mem_insert, Finset.mem_singleton, not_or] at hs
    rw [hc s, pairCoef, pairCoef, if_neg (Ne.symm hs.1), if_neg (Ne.symm hs.2)]; simp
  have hne : pairString a ≠ pairString c := fun e => hac (pairString_inj e)
  rw [hsub, Finset.sum_pair hne, hc, hc] at h1
  simp only [pairCoef, if_true, hne, hne.symm, if_false, sub_zero, mul_one, zero_sub, mul_neg, star_neg, neg_mul, neg_neg] at h1
  have h2 : star ((r : ℂ) * α) * (r * α) = ((‖(r : ℂ) * α‖ ^ 2 : ℝ) : ℂ) := by
    rw [Complex.star_def, Complex.conj_mul']; push_cast; rfl
  rw [h2] at h1
  have h3 : ‖(r : ℂ) * α‖ ^ 2 + ‖(r : ℂ) * α‖ ^ 2 = 1 := by exact_mod_cast h1
  linarith

theorem hermitian_square {γ : ℂ} (hγ : star γ * γ = 1) :
    hermitianPart !![1, 0; -γ, -1] * hermitianPart !![1, 0; -γ, -1] = (5 / 4 : ℂ) • 1 ∧
    hermitianPart !![-1, -γ; 0, 1] * hermitianPart !![-1, -γ; 0, 1] = (5 / 4 : ℂ) • 1 := by
  have hγ' : (starRingEnd ℂ) γ * γ = 1 := hγ
  constructor
  all_goals
    ext i j
    fin_cases i <;> fin_cases j <;> simp [hermitianPart, Matrix.mul_apply, Fin.sum_univ_two]
  all_goals first
    | linear_combination (1 / 4 : ℂ) * hγ'
    | ring

/-- the step with the exchange finds nothing -/
theorem exchange_step (he : ExactEigh eigh) (hp : IsPinv pinv) {a b c : Fin 3} (hab : a ≠ b) (hac : a ≠ c) (hbc : b ≠ c) {α β : ℂ} {oa ob : Operator ℂ}
    (ha : IsCombination .majorana Strings4 (.strings pairBasis) (α • (Pi.single a 1 - Pi.single c 1) : Fin 3 → ℂ) oa)
    (hb : IsCombination .majorana Strings4 (.strings pairBasis) (β • (Pi.single b 1 - Pi.single c 1) : Fin 3 → ℂ) ob) {ops : List (Operator ℂ)}
    (hops : ops = [oa, ob] ∨ ops = [ob, oa]) (hind : (BasisArg.operators ops).Independent) {tol : ℝ} (ht : tol ≤ 1 / 10) :
    ∃ g, generateOne eigh pinv (.operators ops) (exchangeSymmetry b c) tol = .ok g ∧ g.vecs = [] := by
  obtain ⟨α', a1, a2⟩ := difference_coef hac ha
  obtain ⟨β', b1, b2⟩ := difference_coef hbc hb
  have hβ : β' ≠ 0 := by rintro rfl; norm_num at b2
  have hγ : star (α' / β') * (α' / β') = 1 := by
    rw [Complex.star_def, Complex.conj_mul', norm_div, ← Complex.ofReal_pow, div_pow, a2, b2]
    norm_num
  have hr := act_signRule (K := ℂ) (t := .majorana) (exchange b c)
  have hcoef : ∀ (x y : Fin 3) (k : ℂ) (o : Operator ℂ), (∀ s, o.coef s = k * (pairCoef x s - pairCoef y s)) →
      ∀ s, o.coef s = ∑ j, (k • (Pi.single x 1 - Pi.single y 1) : Fin 3 → ℂ) j * pairCoef j s := by
    intro x y k o h s
    rw [h s]
    simp only [Pi.smul_apply, Pi.sub_apply, smul_eq_mul, mul_assoc, sub_mul, ← Finset.mul_sum, Finset.sum_sub_distrib]
    rw [Finset.sum_eq_single x, Finset.sum_eq_single y]
    · simp
    · intro j _ hj; simp [hj]
    · simp
    · intro j _ hj; simp [hj]
    · simp
  have himage : ∀ (x y : Fin 3) (k : ℂ) (o : Operator ℂ), o.On .majorana Strings4 → (∀ s, o.coef s = k * (pairCoef x s - pairCoef y s)) →
      ∃ B, (labelPermutation (labelsOf (permArray (exchange b c))) : Transformation ℂ).apply o = .ok B ∧
        ∀ s, B.coef s = k * (pairCoef (Equiv.swap b c x) s - pairCoef (Equiv.swap b c y) s) := by
    intro x y k o ho h
    obtain ⟨B, h1, h2⟩ := exchange_apply b c ho (hcoef x y k o h)
    refine ⟨B, h1, fun s => ?_⟩
    rw [h2 s]
    simp only [Pi.smul_apply, Pi.sub_apply, smul_eq_mul, mul_assoc, sub_mul, ← Finset.mul_sum, Finset.sum_sub_distrib]
    rw [Finset.sum_eq_single x, Finset.sum_eq_single y]
    · simp
    · intro j _ hj; simp [hj]
    · simp
    · intro j _ hj; simp [hj]
    · simp
  obtain ⟨A', ia1, ia2⟩ := himage a c α' oa ha.on a1
  obtain ⟨B', ib1, ib2⟩ := himage b c β' ob hb.on b1
  rw [Equiv.swap_apply_of_ne_of_ne hab hac, Equiv.swap_apply_right] at ia2
  rw [Equiv.swap_apply_left, Equiv.swap_apply_right] at ib2
  have ea : ∀ s, A'.coef s = oa.coef s - α' / β' * ob.coef s := by
    intro s
    rw [ia2, a1, b1]
    field_simp
    ring
  have eb : ∀ s, B'.coef s = - ob.coef s := by
    intro s
    rw [ib2, b1]; ring
  rcases hops with rfl | rfl
  · obtain ⟨M, m1, m2, m3⟩ := exchange_matrix hr hp ha.on hb.on hind !![1, 0; -(α' / β'), -1]
      ⟨A', ia1, fun s => by rw [ea]; simp; ring⟩ ⟨B', ib1, fun s => by rw [eb]; simp⟩
    exact invariant_empty he m1 m2 m3 (hermitian_square hγ).1 ht
  · obtain ⟨M, m1, m2, m3⟩ := exchange_matrix hr hp hb.on ha.on hind !![-1, -(α' / β'); 0, 1]
      ⟨B', ib1, fun s => by rw [eb]; simp⟩ ⟨A', ia1, fun s => by rw [ea]; simp; ring⟩
    exact invariant_empty he m1 m2 m3 (hermitian_square hγ).2 ht

theorem pair_one (R : MajoranaRep ℂ 𝔸 (siteLabels 4)) (he : ExactEigh eigh) (hp : IsPinv pinv) :
    ∃ δ > 0, ∃ (vecs : List (Fin 3 → ℂ)) (M : Matrix (Fin 3) (Fin 3) ℂ) (a : Fin 3 → ℝ) (b : Matrix (Fin 3) (Fin 3) ℂ),
      (∀ tol, 0 < tol → tol ≤ δ → generateOne eigh pinv (.strings pairBasis) commutesSum tol = .ok ⟨3, vecs, M, a, b⟩) ∧ OrthonormalColumns vecs ∧
      ∀ (v : Fin 3 → ℂ), v ∈ colSpan vecs ↔ v 0 + v 1 + v 2 = 0 := by
  have hV : ∀ s, Strings4 s → MajoranaString (siteLabels 4) s := by
    rintro s ⟨h | h, -⟩
    · exact absurd h.1 (by decide)
    · exact h.2
  obtain ⟨δ, d, vecs, M, a, b, h, r⟩ := generateOne_ok R.strAlg hV he hp (x := .strings pairBasis) pairBasis_on (by simp) commutesSum_valid (fun _ => pairBasis_on)
  refine ⟨δ, d, vecs, M, a, b, h, r.orthonormal, fun v => ?_⟩
  obtain ⟨A, a, b⟩ := pairBasis_on.exists (fun s hs => (hV s hs).type) v
  exact (r.span v A a b).trans (commutesSum_holds R b)

/-- **C68 refuted** for the default options: for every exact eigensolver, LU decomposition and sort there are two orbitals `b`, `c` such that
for the basis `i a_0 a_3, i a_1 a_3, i a_2 a_3`, the symmetry `a_0 + a_1 + a_2` and the exchange of `b` and `c`, the generator returns no
operator for the second step, although `2 i a_a a_3 - i a_b a_3 - i a_c a_3` has both symmetries. -/
theorem C68_refuted (R : MajoranaRep ℂ 𝔸 (siteLabels 4)) (he : ExactEigh eigh) (hp : IsPinv pinv) (hlu : ExactLu lu) (hsort : IsSort argsort) :
    ∃ b c : Fin 3, (∀ inp ∈ [commutesSum, exchangeSymmetry b c], inp.Valid .majorana Strings4) ∧
      (∃ δ > 0, ∀ tol, 0 < tol → tol ≤ δ → ∃ ops, generateCumulative eigh pinv lu argsort (.strings pairBasis) true false tol
        [commutesSum, exchangeSymmetry b c] true [] = .ok [ops, []]) ∧
      ∃ A : Operator ℂ, A.On .majorana Strings4 ∧ (∃ v, (BasisArg.strings pairBasis).Combines v A) ∧ (∃ s, A.coef s ≠ 0) ∧
        commutesSum.Holds R.den A ∧ (exchangeSymmetry b c).Holds R.den A := by
  obtain ⟨δ1, d1, vecs, M, ev, U, g1, g2, g3⟩ := pair_one R he hp
  obtain ⟨q, a, b, c, α, β, q1, hab, hac, hbc, q2, q3⟩ := chosenVectors_sum_zero hlu hsort g2 g3
  have htype : ∀ s, Strings4 s → s.opType = .majorana := fun s hs => hs.1.type
  have hort : (BasisArg.strings pairBasis).Orthonormal .majorana Strings4 := pairBasis_on
  obtain ⟨δ2, d2, ops, h3, h4⟩ := vectorOperators_ok (x := .strings pairBasis) pairBasis_on htype hort.independent (by simp) q q3
  refine ⟨b, c, ?_, ⟨min (min δ1 δ2) (1 / 10), lt_min (lt_min d1 d2) (by norm_num), fun tol t1 t2 => ⟨ops, ?_⟩⟩, ?_⟩
  · intro inp hi
    simp only [List.mem_cons, List.not_mem_nil, or_false] at hi
    rcases hi with rfl | rfl
    · exact commutesSum_valid
    · exact exchangeSymmetry_valid b c
  · have t3 : tol ≤ δ1 := t2.trans ((min_le_left _ _).trans (min_le_left _ _))
    have t4 : tol ≤ δ2 := t2.trans ((min_le_left _ _).trans (min_le_right _ _))
    have t5 : tol ≤ 1 / 10 := t2.trans (min_le_right _ _)
    have hqi : IndependentColumns q := by
      obtain ⟨q', k1, k2, -⟩ := chosenVectors_ok hlu hsort g2 true false
      rw [q1] at k1
      obtain rfl : q = q' := by simpa using k1
      exact k2
    have hind : (BasisArg.operators ops).Independent := (combinations_spans (x := .strings pairBasis) (P := fun A => ∃ v ∈ colSpan q, (BasisArg.strings pairBasis).Combines v A)
      hort.independent (q := q) hqi (fun v A _ hv => by
        constructor
        · intro h; exact ⟨v, h, hv⟩
        · rintro ⟨w, hw, hw'⟩
          exact (BasisArg.Independent.unique hort.independent hv hw') ▸ hw) h4).independent
    have hpair : ∃ oa ob, IsCombination .majorana Strings4 (.strings pairBasis) (α • (Pi.single a 1 - Pi.single c 1) : Fin 3 → ℂ) oa ∧
        IsCombination .majorana Strings4 (.strings pairBasis) (β • (Pi.single b 1 - Pi.single c 1) : Fin 3 → ℂ) ob ∧ (ops = [oa, ob] ∨ ops = [ob, oa]) := by
      obtain ⟨u, v, rfl⟩ : ∃ u v, q = [u, v] := List.length_eq_two.mp q2.length_eq
      obtain ⟨o1, l1, k1, k1', rfl⟩ := List.forall₂_cons_left_iff.mp h4
      obtain ⟨o2, l2, k2, k2', rfl⟩ := List.forall₂_cons_left_iff.mp k1'
      obtain rfl := List.forall₂_nil_left_iff.mp k2'
      have hu : u = α • (Pi.single a 1 - Pi.single c 1) ∨ u = β • (Pi.single b 1 - Pi.single c 1) := by
        simpa using q2.mem_iff.mp (List.mem_cons_self ..)
      rcases hu with rfl | rfl
      · have := (List.perm_cons _).mp q2
        obtain rfl : v = _ := by simpa using List.singleton_perm_singleton.mp this
        exact ⟨o1, o2, k1, k2, Or.inl rfl⟩
      · have := (List.perm_cons _).mp (q2.trans (List.Perm.swap _ _ _))
        obtain rfl : v = _ := by simpa using List.singleton_perm_singleton.mp this
        exact ⟨o2, o1, k2, k1, Or.inr rfl⟩
    obtain ⟨oa, ob, ha, hb, hops⟩ := hpair
    obtain ⟨g, e1, e2⟩ := exchange_step (eigh := eigh) he hp hab hac hbc ha hb hops hind t5
    have hne : ops.isEmpty = false := by rcases hops with rfl | rfl <;> rfl
    have hstep1 : cumulativeStep eigh pinv lu argsort (.strings pairBasis) commutesSum true false tol = .ok ops := by
      unfold cumulativeStep
      rw [g1 tol t1 t3]
      have h3' := h3 tol t1 t4
      simp only [bind, Except.bind, q1]
      exact h3'
    have hstep2 : cumulativeStep eigh pinv lu argsort (.operators ops) (exchangeSymmetry b c) true false tol = .ok [] := by
      unfold cumulativeStep chosenVectors
      rw [e1]
      simp only [bind, Except.bind, e2, sparsify, List.length_nil, Nat.zero_le, if_true, Bool.false_eq_true, if_false]
      rfl
    rw [generateCumulative]
    simp only [cumulativeBasis, if_true, bind, Except.bind]
    rw [if_neg (by decide), hstep1]
    simp only [List.nil_append]
    rw [generateCumulative]
    simp only [cumulativeBasis, Bool.false_eq_true, if_false, List.getLast?_singleton, bind, Except.bind]
    rw [if_neg (by simp [BasisArg.isEmpty, hne]), hstep2]
    rfl
  · obtain ⟨A, a1, a2⟩ := pairBasis_on.exists htype (2 • Pi.single a 1 - Pi.single b 1 - Pi.single c 1 : Fin 3 → ℂ)
    have hv : ∀ s, A.coef s = ∑ j, (2 • Pi.single a 1 - Pi.single b 1 - Pi.single c 1 : Fin 3 → ℂ) j * pairCoef j s := a2
    have hexp : ∀ (e : Equiv.Perm (Fin 3)) (s : OpString), ∑ j, (2 • Pi.single a 1 - Pi.single b 1 - Pi.single c 1 : Fin 3 → ℂ) j * pairCoef (e j) s =
        2 * pairCoef (e a) s - pairCoef (e b) s - pairCoef (e c) s := by
      intro e s
      simp only [nsmul_eq_mul, Pi.sub_apply, Pi.mul_apply, Pi.ofNat_apply, Nat.cast_ofNat, sub_mul, Finset.sum_sub_distrib, mul_assoc, ← Finset.mul_sum]
      rw [Finset.sum_eq_single a, Finset.sum_eq_single b, Finset.sum_eq_single c]
      · simp
      · intro j _ hj; simp [hj]
      · simp
      · intro j _ hj; simp [hj]
      · simp
      · intro j _ hj; simp [hj]
      · simp
    refine ⟨A, a1, ⟨_, a2⟩, ⟨pairString a, ?_⟩, (commutesSum_holds R a2).mpr ?_, ?_⟩
    · rw [hv]
      have := hexp 1 (pairString a)
      simp only [Equiv.Perm.one_apply] at this
      rw [this]
      have n1 : pairString b ≠ pairString a := fun e => hab (pairString_inj e).symm
      have n2 : pairString c ≠ pairString a := fun e => hac (pairString_inj e).symm
      simp [pairCoef, n1, n2]
    · have key : ∀ a b c : Fin 3, a ≠ b → a ≠ c → b ≠ c → (a = 0 ∧ b = 1 ∧ c = 2) ∨ (a = 0 ∧ b = 2 ∧ c = 1) ∨ (a = 1 ∧ b = 0 ∧ c = 2) ∨
        (a = 1 ∧ b = 2 ∧ c = 0) ∨ (a = 2 ∧ b = 0 ∧ c = 1) ∨ (a = 2 ∧ b = 1 ∧ c = 0) := by decide
      rcases key a b c hab hac hbc with ⟨rfl, rfl, rfl⟩ | ⟨rfl, rfl, rfl⟩ | ⟨rfl, rfl, rfl⟩ | ⟨rfl, rfl, rfl⟩ | ⟨rfl, rfl, rfl⟩ | ⟨rfl, rfl, rfl⟩ <;>
        simp [Pi.single_apply] <;> norm_num
    · obtain ⟨B, b1, b2⟩ := exchange_apply b c a1 hv
      refine ⟨B, b1, fun s => ?_⟩
      have h0 := hexp 1 s
      simp only [Equiv.Perm.one_apply] at h0
      rw [b2, hv, hexp (Equiv.swap b c), h0, Equiv.swap_apply_of_ne_of_ne hab hac, Equiv.swap_apply_left, Equiv.swap_apply_right]
      simp [exchangeSymmetry, Mode.sign]
      ring

/-- the numerical routines exist -/
example : ∃ (eigh : Eigh) (pinv : _) (lu : _) (argsort : _), ExactEigh eigh ∧ IsPinv pinv ∧ ExactLu lu ∧ IsSort argsort := by
  obtain ⟨eigh, he⟩ := exists_exactEigh
  obtain ⟨pinv, hp⟩ := exists_isPinv
  obtain ⟨lu, hlu⟩ := exists_exactLu
  obtain ⟨argsort, hsort⟩ := exists_isSort
  exact ⟨eigh, pinv, lu, argsort, he, hp, hlu, hsort⟩

end Qosy
