import Verif.Spec.GeneratorVecs
import Verif.Lemmas.Lanczos
import Verif.Lemmas.GeneratorNoncumulative
import Verif.Lemmas.ManyOps2
import Mathlib.LinearAlgebra.Dimension.Finrank
import Mathlib.LinearAlgebra.Dimension.Constructions

/-! # The generator with `num_vecs` -/

namespace Qosy
open Matrix Coef
open scoped ComplexOrder

/-! ### The superoperator of a result is Hermitian, its eigenvectors are orthonormal -/

theorem Mat.getH_dot_hermitian {L C : Mat ℂ} (h : L.getH.dot L = .ok C) : C.toarray.IsHermitian := by
  rw [Mat.dot] at h
  split at h
  · simp at h
  · cases h
    have key : ∀ i j : ℕ, Mat.get (⟨L.getH.nrows, L.ncols, L.getH.data.flatMap (fun e => (L.data.filter (fun f => decide (f.1 = e.2.1))).map
        (fun f => (e.1, f.2.1, e.2.2 * f.2.2)))⟩ : Mat ℂ) i j =
        (L.data.map fun e => (L.data.map fun f => if e.2.1 = i ∧ f.2.1 = j ∧ f.1 = e.1 then star e.2.2 * f.2.2 else 0).sum).sum := by
      intro i j
      have hf : ∀ (e : ℕ × ℕ × ℂ) (D : List (ℕ × ℕ × ℂ)), (((D.filter (fun f => decide (f.1 = e.2.1))).map (fun f => (e.1, f.2.1, e.2.2 * f.2.2))).map
          (fun g => if g.1 = i ∧ g.2.1 = j then g.2.2 else 0)).sum =
          (D.map fun f => if e.1 = i ∧ f.2.1 = j ∧ f.1 = e.2.1 then e.2.2 * f.2.2 else 0).sum := by
        intro e D
        induction D with
        | nil => rfl
        | cons f D ih =>
          by_cases hh : f.1 = e.2.1
          · rw [List.filter_cons_of_pos (by simpa using hh), List.map_cons, List.map_cons, List.sum_cons, ih, List.map_cons, List.sum_cons]
            simp [hh]
          · rw [List.filter_cons_of_neg (by simpa using hh), ih, List.map_cons, List.sum_cons]
            simp [hh]
      rw [Mat.get]
      show (List.map _ (List.flatMap _ (L.data.map (fun e => (e.2.1, e.1, star e.2.2))))).sum = _
      generalize hD : L.data = D0
      have : ∀ D : List (ℕ × ℕ × ℂ), (List.map (fun g : ℕ × ℕ × ℂ => if g.1 = i ∧ g.2.1 = j then g.2.2 else 0) ((D.map (fun e => (e.2.1, e.1, star e.2.2))).flatMap
          (fun e => (D0.filter (fun f => decide (f.1 = e.2.1))).map (fun f => (e.1, f.2.1, e.2.2 * f.2.2))))).sum =
          (D.map fun e => (D0.map fun f => if e.2.1 = i ∧ f.2.1 = j ∧ f.1 = e.1 then star e.2.2 * f.2.2 else 0).sum).sum := by
        intro D
        induction D with
        | nil => rfl
        | cons e D ih =>
          rw [List.map_cons, List.flatMap_cons, List.map_append, List.sum_append, ih, hf, List.map_cons, List.sum_cons]
      exact this D0
    ext i j
    rw [conjTranspose_apply]
    show star (Mat.get _ _ _) = Mat.get _ _ _
    rw [key, key]
    have hswap : ∀ (D E : List (ℕ × ℕ × ℂ)) (g : (ℕ × ℕ × ℂ) → (ℕ × ℕ × ℂ) → ℂ), (D.map fun e => (E.map fun f => g e f).sum).sum = (E.map fun f => (D.map fun e => g e f).sum).sum := by
      intro D E g
      induction D with
      | nil => simp
      | cons e D ih =>
        rw [List.map_cons, List.sum_cons, ih, ← List.sum_map_add]
        simp
    have hstar : ∀ (D : List (ℕ × ℕ × ℂ)) (g : (ℕ × ℕ × ℂ) → ℂ), star (D.map g).sum = (D.map fun e => star (g e)).sum := by
      intro D g
      induction D with
      | nil => simp
      | cons e D ih => rw [List.map_cons, List.sum_cons, star_add, ih, List.map_cons, List.sum_cons]
    rw [hstar]
    simp only [hstar]
    rw [hswap]
    congr 1
    refine List.map_congr_left (fun e _ => ?_)
    congr 1
    refine List.map_congr_left (fun f _ => ?_)
    by_cases hc : f.2.1 = (j : ℕ) ∧ e.2.1 = (i : ℕ) ∧ e.1 = f.1
    · rw [if_pos hc, if_pos ⟨hc.2.1, hc.1, hc.2.2.symm⟩, star_mul', star_star, mul_comm]
    · rw [if_neg hc, if_neg (fun h => hc ⟨h.2.1, h.1, h.2.2.symm⟩), star_zero]

theorem generateOneVecs_found {eigh : Eigh} (he : ExactEigh eigh) {eigsh : Eigsh} (hs : ExactEigsh eigsh) {pinv : Mat ℂ → Py (Mat ℂ)} {x : BasisArg ℂ}
    {inp : SymmetryCall} {tol : ℝ} {g : Found} (h : generateOneVecs eigh eigsh pinv x inp tol = .ok g) :
    OrthonormalColumns g.vecs ∧ ∀ k, inp.numVecs = some k → g.vecs.length ≤ k := by
  unfold generateOneVecs at h
  cases hk : inp.numVecs with
  | none =>
    rw [hk] at h
    obtain ⟨G, h1, h2⟩ := py_bind_ok h
    cases h2
    refine ⟨?_, by simp⟩
    unfold generateOne at h1
    split at h1
    · unfold commutingOperators at h1
      obtain ⟨⟨L, e⟩, -, h1⟩ := py_bind_ok h1
      obtain ⟨C, h3, h1⟩ := py_bind_ok h1
      cases h1
      exact select_orthonormal (he _ _ (Mat.getH_dot_hermitian h3))
    · unfold invariantOperators at h1
      obtain ⟨S, -, h1⟩ := py_bind_ok h1
      obtain ⟨sign, -, h1⟩ := py_bind_ok h1
      cases h1
      exact select_orthonormal (he _ _ (hermitianPart_isHermitian _))
    · cases h1
  | some k =>
    rw [hk] at h
    dsimp only at h
    split at h
    · obtain ⟨G, h1, h2⟩ := py_bind_ok h
      cases h2
      unfold commutingOperatorsVecs at h1
      obtain ⟨⟨L, e⟩, -, h1⟩ := py_bind_ok h1
      obtain ⟨C, h3, h1⟩ := py_bind_ok h1
      obtain ⟨r, h4, h1⟩ := py_bind_ok h1
      cases h1
      exact ⟨selectVecs_orthonormal (hs.correct _ _ _ _ _ (Mat.getH_dot_hermitian h3) h4), by rintro k' ⟨⟩; exact selectVecs_length⟩
    · obtain ⟨G, h1, h2⟩ := py_bind_ok h
      cases h2
      unfold invariantOperatorsVecs at h1
      obtain ⟨S, -, h1⟩ := py_bind_ok h1
      obtain ⟨sign, -, h1⟩ := py_bind_ok h1
      obtain ⟨r, h4, h1⟩ := py_bind_ok h1
      cases h1
      exact ⟨selectVecs_orthonormal (hs.correct _ _ _ _ _ (hermitianPart_isHermitian _) h4), by rintro k' ⟨⟩; exact selectVecs_length⟩
    · cases h

/-! ### The number of common vectors found by `intersection` -/

section
variable {n p q : ℕ} {A : Matrix (Fin n) (Fin p) ℂ} {B : Matrix (Fin n) (Fin q) ℂ}

/-- there are at most as many eigenvalues below 1 as columns in the first matrix -/
theorem IsEigh.small_card (hB : Bᴴ * B = 1) {r : EighResult (Fin p ⊕ Fin q) (p + q)} (h : IsEigh ((hstackNeg A B)ᴴ * hstackNeg A B) r) :
    Fintype.card {k // r.evals k < 1} ≤ p := by
  classical
  set ι := {k // r.evals k < 1}
  let E : Matrix (Fin p ⊕ Fin q) ι ℂ := fun i k => r.evecs i k
  let N : Matrix (Fin p) ι ℂ := fun j k => r.evecs (Sum.inl j) k
  have hE : Eᴴ * E = 1 := by
    ext k l
    rw [Matrix.mul_apply, Matrix.one_apply]
    exact (h.inner k l).trans (by by_cases e : k = l
                                  · rw [if_pos e, if_pos (congrArg _ e)]
                                  · rw [if_neg e, if_neg (fun e' => e (Subtype.ext e'))])
  have hD : ((hstackNeg A B)ᴴ * hstackNeg A B) * E = E * Matrix.diagonal (fun k : ι => (r.evals k : ℂ)) := by
    ext i k
    rw [Matrix.mul_diagonal]
    have := congrFun (h.column k) i
    rw [Pi.smul_apply, smul_eq_mul, mul_comm] at this
    exact this
  have hinj : Function.Injective (Matrix.mulVecLin N) := by
    rw [← LinearMap.ker_eq_bot, LinearMap.ker_eq_bot']
    intro c hc
    rw [Matrix.mulVecLin_apply] at hc
    -- the first part of the vector vanishes
    have e1 : hstackNeg A B *ᵥ (E *ᵥ c) = -(B *ᵥ fun j => (E *ᵥ c) (Sum.inr j)) := by
      rw [hstackNeg_mulVec]
      have : (fun j => (E *ᵥ c) (Sum.inl j)) = 0 := hc
      rw [this, Matrix.mulVec_zero, zero_sub]
    have e2 : star (hstackNeg A B *ᵥ (E *ᵥ c)) ⬝ᵥ (hstackNeg A B *ᵥ (E *ᵥ c)) = star (E *ᵥ c) ⬝ᵥ (E *ᵥ c) := by
      rw [e1, star_neg, neg_dotProduct_neg, Matrix.star_mulVec, Matrix.dotProduct_mulVec, Matrix.vecMul_vecMul, hB, Matrix.vecMul_one]
      show _ = ∑ i, _
      rw [Fintype.sum_sum_type]
      have : ∀ j, (E *ᵥ c) (Sum.inl j) = 0 := fun j => congrFun hc j
      simp only [this, mul_zero, Finset.sum_const_zero, zero_add]
      rfl
    have e3 : star (E *ᵥ c) ⬝ᵥ (E *ᵥ c) = star c ⬝ᵥ c := by
      rw [Matrix.star_mulVec, Matrix.dotProduct_mulVec, Matrix.vecMul_vecMul, hE, Matrix.vecMul_one]
    have e4 : star (hstackNeg A B *ᵥ (E *ᵥ c)) ⬝ᵥ (hstackNeg A B *ᵥ (E *ᵥ c)) = ∑ k : ι, ((r.evals k * ‖c k‖ ^ 2 : ℝ) : ℂ) := by
      rw [Matrix.star_mulVec, Matrix.dotProduct_mulVec, Matrix.vecMul_vecMul, ← Matrix.dotProduct_mulVec, Matrix.mulVec_mulVec, hD, ← Matrix.mulVec_mulVec,
        Matrix.star_mulVec, Matrix.dotProduct_mulVec, Matrix.vecMul_vecMul, hE, Matrix.vecMul_one]
      refine Finset.sum_congr rfl (fun k _ => ?_)
      rw [Matrix.mulVec_diagonal, Pi.star_apply, Complex.ofReal_mul, Complex.ofReal_pow, ← Complex.conj_mul']
      show star (c k) * _ = _ * (star (c k) * c k)
      ring
    have e5 : star c ⬝ᵥ c = ∑ k : ι, ((‖c k‖ ^ 2 : ℝ) : ℂ) := by
      refine Finset.sum_congr rfl (fun k _ => ?_)
      rw [Complex.ofReal_pow, ← Complex.conj_mul']; rfl
    rw [e2, e3, e5, ← Complex.ofReal_sum, ← Complex.ofReal_sum, Complex.ofReal_inj] at e4
    have e6 : ∑ k : ι, (1 - r.evals k) * ‖c k‖ ^ 2 = 0 := by
      simp only [sub_mul, one_mul, Finset.sum_sub_distrib]
      linarith
    rw [Finset.sum_eq_zero_iff_of_nonneg (fun k _ => mul_nonneg (by linarith [k.2]) (by positivity))] at e6
    funext k
    have := e6 k (Finset.mem_univ _)
    rcases mul_eq_zero.mp this with h1 | h1
    · have := k.2; linarith
    · exact norm_eq_zero.mp (by simpa using h1)
  have := LinearMap.finrank_le_finrank_of_injective hinj
  simpa [Module.finrank_fintype_fun_eq_card] using this

/-- `intersection` returns at most as many columns as the first array has -/
theorem intersection_length {m : ℕ} {B : Matrix (Fin m) (Fin q) ℂ} (hB : Bᴴ * B = 1) {eigh : Matrix (Fin p ⊕ Fin q) (Fin p ⊕ Fin q) ℂ → EighResult (Fin p ⊕ Fin q) (p + q)}
    (heigh : ∀ D : Matrix (Fin p ⊕ Fin q) (Fin p ⊕ Fin q) ℂ, D.IsHermitian → IsEigh D (eigh D)) {tol : ℝ} (ht : tol ≤ 1) {c : List (Option (Fin n → ℂ))}
    (h : intersection eigh A B tol = .ok c) : c.length ≤ p := by
  classical
  unfold intersection at h
  split at h
  · rename_i hn
    subst hn
    cases h
    have hr := heigh _ (Matrix.isHermitian_conjTranspose_mul_self (hstackNeg A B))
    have hcard := hr.small_card hB
    rw [List.length_map]
    set r := eigh ((hstackNeg A B)ᴴ * hstackNeg A B)
    refine le_trans ?_ hcard
    rw [Fintype.card_subtype]
    have e : ∀ l : List (Fin (p + q)), l.Nodup → (∀ k ∈ l, r.evals k < 1) → l.length ≤ (Finset.univ.filter (fun k => r.evals k < 1)).card := by
      intro l hl h
      rw [← List.toFinset_card_of_nodup hl]
      refine Finset.card_le_card (fun k hk => ?_)
      rw [Finset.mem_filter]
      exact ⟨Finset.mem_univ _, h k (List.mem_toFinset.mp hk)⟩
    refine e _ ((List.nodup_finRange _).filter _) (fun k hk => ?_)
    have h1 : |r.evals k| < tol := of_decide_eq_true (List.mem_filter.mp hk).2
    exact ((le_abs_self _).trans_lt h1).trans_le ht
  · cases h

end

/-- the projection with `num_vecs` onto an orthonormal set fails -/
theorem projectStepVecs_error {eigh : Eigh} (he : ExactEigh eigh) {eigsh : Eigsh} (hs : ExactEigsh eigsh) {curr : Found} {prev : Columns} {k : ℕ}
    (hk : curr.vecs.length ≤ k) (hp : OrthonormalColumns prev.cols) (tol : ℝ) : ∃ e, projectStepVecs eigh eigsh curr prev (some k) tol = .error e := by
  cases h : projectStepVecs eigh eigsh curr prev (some k) tol with
  | error e => exact ⟨e, rfl⟩
  | ok c =>
    unfold projectStepVecs at h
    obtain ⟨common, h1, h⟩ := py_bind_ok h
    obtain ⟨ops, h2, h⟩ := py_bind_ok h
    dsimp only at h
    obtain ⟨r, h3, h⟩ := py_bind_ok h
    have hl := intersection_length (columnsMatrix_isometry hp) (fun D hD => eighBlocks_ok he _ _ D hD) (by norm_num) h1
    have hl2 := (mapM_ok_inv h2).length_eq
    obtain ⟨e, he⟩ := hs.size ops.length ((columnsMatrix ops)ᴴ * curr.superoperator * columnsMatrix ops) k (-(1 / 10 ^ 6)) (by omega)
    rw [he] at h3
    cases h3

theorem generateNoncumulativeVecs_error {eigh : Eigh} (he : ExactEigh eigh) {eigsh : Eigsh} (hs : ExactEigsh eigsh) {pinv : Mat ℂ → Py (Mat ℂ)}
    {lu : PermutedLu} {argsort : List ℕ → List ℕ} {x : BasisArg ℂ} {a b : SymmetryCall} {rest : List SymmetryCall} {k : ℕ} (hb : b.numVecs = some k)
    (s o : Bool) (tol : ℝ) : ∃ e, generateNoncumulativeVecs eigh eigsh pinv lu argsort x (a :: b :: rest) s o tol = .error e := by
  cases h : generateNoncumulativeVecs eigh eigsh pinv lu argsort x (a :: b :: rest) s o tol with
  | error e => exact ⟨e, rfl⟩
  | ok c =>
    unfold generateNoncumulativeVecs at h
    obtain ⟨outputs, h1, h⟩ := py_bind_ok h
    obtain ⟨p1, h2, -⟩ := py_bind_ok h
    have h3 := mapM_ok_inv h1
    cases h3 with
    | @cons _ ga _ _ ha h3 =>
      cases h3 with
      | @cons _ gb _ _ hb' h3 =>
        have hlen : (a :: b :: rest).length = rest.length + 1 + 1 := rfl
        rw [hlen, List.range_eq_range', List.range'_succ, List.range'_succ] at h2
        unfold projectLoopVecs at h2
        simp only [pyGet, bind, Except.bind, List.getElem?_cons_zero, if_true, List.nil_append] at h2
        unfold projectLoopVecs at h2
        simp only [pyGet, bind, Except.bind, List.getElem?_cons_zero, List.getElem?_cons_succ, zero_add, one_ne_zero, if_false, Nat.sub_self] at h2
        obtain ⟨e, he⟩ := projectStepVecs_error (prev := ⟨ga.dim, ga.vecs⟩) he hs ((generateOneVecs_found he hs hb').2 k hb) (generateOneVecs_found he hs ha).1 tol
        rw [hb, he] at h2
        cases h2

/-! ### Only the first symmetry with `num_vecs` -/

theorem selectVecs_const {n k : ℕ} (r : EighResult (Fin n) k) : ∃ δ > 0, ∀ tol, 0 < tol → tol ≤ δ → selectVecs r 0 tol = selectVecs r 0 δ ∧
    ∀ j, |r.evals j - 0| < tol → r.evals j = 0 := by
  have : ∃ δ : ℝ, 0 < δ ∧ ∀ k, r.evals k ≠ 0 → δ ≤ |r.evals k - 0| := by
    by_cases hne : (Finset.univ.filter (fun k => r.evals k ≠ 0)).Nonempty
    · obtain ⟨k, hk, hmin⟩ := Finset.exists_min_image _ (fun k => |r.evals k - 0|) hne
      refine ⟨|r.evals k - 0|, ?_, fun l hl => hmin l (by simp [hl])⟩
      rw [sub_zero]
      exact abs_pos.mpr (by simpa using hk)
    · refine ⟨1, one_pos, fun k hk => ?_⟩
      exact absurd ⟨k, by simp [hk]⟩ hne
  obtain ⟨δ, hδ, h⟩ := this
  refine ⟨δ, hδ, fun tol ht htδ => ⟨?_, fun k hk => ?_⟩⟩
  · unfold selectVecs
    congr 1
    apply List.filter_congr
    intro k _
    congr 1
    apply propext
    by_cases hk : r.evals k = 0
    · rw [hk, sub_zero, abs_zero]; exact ⟨fun _ => hδ, fun _ => ht⟩
    · have := h k hk
      constructor <;> intro hh <;> linarith
  · by_contra hk0
    have := h k hk0
    linarith

section
variable {𝔸 : Type} [Ring 𝔸] [Algebra ℂ 𝔸] {V : OpString → Prop}

/-- `commuting_operators` with `num_vecs` in terms of `eigsh` -/
theorem commutingOperatorsVecs_facts (R : StrAlg ℂ 𝔸) [Nontrivial 𝔸] (hV : ∀ s, V s → R.Str s) (eigsh : Eigsh) {x : BasisArg ℂ}
    (hx : x.On R.type V) (hne : x ≠ .operators []) {O : Operator ℂ} (hO : ∀ s ∈ O.basis.strs, V s) (mode : Mode) (k : ℕ) :
    ∃ M : Matrix (Fin x.len) (Fin x.len) ℂ, M.PosSemidef ∧
      (∀ (v : Fin x.len → ℂ) (A : Operator ℂ), A.On R.type V → x.Combines v A → (M *ᵥ v = 0 ↔ bracketOf mode (A.den R.den) (O.den R.den) = 0)) ∧
      ∀ tol, commutingOperatorsVecs eigsh x O k mode tol = (eigsh x.len M k (-(1 / 10 ^ 6))).map (fun r =>
        ⟨x.len, selectVecs r 0 tol, M, r.evals, r.evecs, decide ((selectVecs r 0 tol).length = k)⟩) := by
  obtain ⟨C, ext, h2, h5, hps, hkern, -⟩ := R.commutant_facts mode (hx.all hV) hne (fun s h => hV s (hO s h)) rfl
  have hq := fun tol => commutingOperatorsVecs_eq (eigsh := eigsh) (tol := tol) (k := k) h2
  have hl := x.len_den R.den
  have hcomb : ∀ (v : Fin x.len → ℂ) (A : Operator ℂ), x.Combines v A → A.den R.den = ∑ j : Fin (x.den R.den).length, v (Fin.cast (x.len_den R.den) j) • (x.den R.den)[j] :=
    fun v A hA => Combines.den hx hA R.den
  have tr : ∀ (y : List 𝔸) (m : ℕ) (hl : y.length = m), C.ncols = y.length → (C.square y.length).PosSemidef →
      (∀ v : Fin y.length → ℂ, C.square y.length *ᵥ v = ((0 : ℝ) : ℂ) • v ↔ bracketOf mode (∑ j, v j • y[j]) (O.den R.den) = 0) →
      ∃ M : Matrix (Fin m) (Fin m) ℂ, M.PosSemidef ∧
      (∀ v : Fin m → ℂ, M *ᵥ v = 0 ↔ bracketOf mode (∑ j : Fin y.length, v (Fin.cast hl j) • y[j]) (O.den R.den) = 0) ∧
      ∀ tol, commutingOperatorsVecs eigsh x O k mode tol = (eigsh m M k (-(1 / 10 ^ 6))).map (fun r =>
        ⟨m, selectVecs r 0 tol, M, r.evals, r.evecs, decide ((selectVecs r 0 tol).length = k)⟩) := by
    rintro y m rfl hn hps hker
    have hMC : ∀ (m : ℕ) (hm : C.ncols = m) (tol : ℝ), (eigsh C.ncols C.toarray k (-(1 / 10 ^ 6))).map (fun r => (⟨C.ncols, selectVecs r 0 tol, C.toarray, r.evals, r.evecs,
          decide ((selectVecs r 0 tol).length = k)⟩ : GeneratedVecs k)) =
        (eigsh m (C.square m) k (-(1 / 10 ^ 6))).map (fun r => ⟨m, selectVecs r 0 tol, C.square m, r.evals, r.evecs, decide ((selectVecs r 0 tol).length = k)⟩) := by
      rintro m rfl tol
      rfl
    exact ⟨_, hps, fun v => by simpa using hker v, fun tol => (hq tol).trans (hMC _ hn tol)⟩
  obtain ⟨M, m1, m2, m3⟩ := tr _ _ hl h5 hps hkern
  exact ⟨M, m1, fun v A _ hA => by rw [m2 v, hcomb v A hA], m3⟩

/-- what is found for one Operator with `num_vecs`, with the tolerance small enough -/
structure VecsResult (den : OpString → 𝔸) (t : OpType) (V : OpString → Prop) (x : BasisArg ℂ) (inp : SymmetryInput) (k : ℕ) (vecs : List (Fin x.len → ℂ))
    (M : Matrix (Fin x.len) (Fin x.len) ℂ) (warned : Bool) : Prop where
  orthonormal : OrthonormalColumns vecs
  null : ∀ v ∈ vecs, M *ᵥ v = 0
  length : vecs.length ≤ k
  warning : warned = true ↔ vecs.length = k
  sound : ∀ (v : Fin x.len → ℂ) (A : Operator ℂ), A.On t V → x.Combines v A → v ∈ colSpan vecs → inp.Holds den A
  complete : warned = false → ∀ (v : Fin x.len → ℂ) (A : Operator ℂ), A.On t V → x.Combines v A → inp.Holds den A → v ∈ colSpan vecs

theorem VecsResult.one {den : OpString → 𝔸} {t : OpType} {x : BasisArg ℂ} {inp : SymmetryInput} {k : ℕ} {vecs : List (Fin x.len → ℂ)}
    {M : Matrix (Fin x.len) (Fin x.len) ℂ} (h : VecsResult den t V x inp k vecs M false) : OneResult den t V x inp vecs M :=
  ⟨h.orthonormal, h.null, fun v A hA hc => ⟨h.sound v A hA hc, h.complete rfl v A hA hc⟩⟩

/-- for all small tolerances the call of `commuting_operators` with `num_vecs` fails with the same exception, or has the same correct result -/
theorem generateOneVecs_operator (R : StrAlg ℂ 𝔸) [Nontrivial 𝔸] (hV : ∀ s, V s → R.Str s) (eigh : Eigh) {eigsh : Eigsh} (hs : ExactEigsh eigsh)
    (pinv : Mat ℂ → Py (Mat ℂ)) {x : BasisArg ℂ} (hx : x.On R.type V) (hne : x ≠ .operators []) {O : Operator ℂ} (hO : ∀ s ∈ O.basis.strs, V s)
    (mode : Mode) (k : ℕ) :
    ∃ δ > 0, (∃ vecs M w, (∀ tol, 0 < tol → tol ≤ δ → generateOneVecs eigh eigsh pinv x ⟨⟨.operator O, mode⟩, some k⟩ tol = .ok ⟨x.len, vecs, M, w⟩) ∧
        VecsResult R.den R.type V x ⟨.operator O, mode⟩ k vecs M w) ∨
      ((k = 0 ∨ x.len ≤ k + 1) ∧ ∃ e, ∀ tol, generateOneVecs eigh eigsh pinv x ⟨⟨.operator O, mode⟩, some k⟩ tol = .error e) := by
  obtain ⟨M, m1, m2, m3⟩ := commutingOperatorsVecs_facts R hV eigsh hx hne hO mode k
  have hg : ∀ tol, generateOneVecs eigh eigsh pinv x ⟨⟨.operator O, mode⟩, some k⟩ tol = (eigsh x.len M k (-(1 / 10 ^ 6))).map (fun r =>
      ⟨x.len, selectVecs r 0 tol, M, decide ((selectVecs r 0 tol).length = k)⟩) := by
    intro tol
    unfold generateOneVecs
    dsimp only
    rw [m3 tol]
    cases eigsh x.len M k (-(1 / 10 ^ 6)) <;> rfl
  have hnot : ¬ IsEigenvalue M (-(1 / 10 ^ 6)) := by
    rintro ⟨z, hz, h⟩
    have := eigenvalue_nonneg m1 hz h
    norm_num at this
  cases hr : eigsh x.len M k (-(1 / 10 ^ 6)) with
  | error e =>
    refine ⟨1, one_pos, Or.inr ⟨?_, e, fun tol => by rw [hg, hr]; rfl⟩⟩
    by_contra hc
    push_neg at hc
    obtain ⟨r, hr'⟩ := hs.returns _ M k _ m1.isHermitian (by omega) hc.2 hnot
    rw [hr] at hr'
    cases hr'
  | ok r =>
    have hE := hs.correct _ _ _ _ _ m1.isHermitian hr
    obtain ⟨δ, hδ, hc⟩ := selectVecs_const r
    have hev : ∀ j, 0 ≤ r.evals j := fun j => eigenvalue_nonneg m1 (hE.column_ne j) (hE.column j)
    have hnull : ∀ v ∈ colSpan (selectVecs r 0 δ), M *ᵥ v = 0 := by
      intro v hv
      have : colSpan (selectVecs r 0 δ) ≤ LinearMap.ker (Matrix.mulVecLin M) := by
        rw [colSpan, Submodule.span_le]
        intro v hv
        obtain ⟨j, hj, rfl⟩ := mem_selectVecs.mp hv
        rw [SetLike.mem_coe, LinearMap.mem_ker, Matrix.mulVecLin_apply, hE.column j, (hc δ hδ le_rfl).2 j hj, Complex.ofReal_zero, zero_smul]
      exact this hv
    refine ⟨δ, hδ, Or.inl ⟨selectVecs r 0 δ, M, decide ((selectVecs r 0 δ).length = k), fun tol t1 t2 => ?_, selectVecs_orthonormal hE,
      fun v hv => hnull v (Submodule.subset_span hv), selectVecs_length, by simp, ?_, ?_⟩⟩
    · rw [hg, hr, ← (hc tol t1 t2).1]; rfl
    · intro v A hA hv h
      exact (m2 v A hA hv).mp (hnull v h)
    · intro hw v A hA hv h
      refine selectVecs_complete m1.isHermitian hE hδ (by simpa using hw) ?_ (by rw [(m2 v A hA hv).mpr h]; simp)
      intro hn j
      have h1 := hn j
      have h2 := hev j
      rw [abs_of_nonneg (by norm_num; linarith), abs_of_nonneg (by norm_num)] at h1
      linarith

end

/-- the loop only uses the operators and superoperators, and `num_vecs` of the later symmetries -/
theorem projectLoopVecs_eq {eigh : Eigh} {eigsh : Eigsh} {tol : ℝ} {inputs : List SymmetryCall} {outputs : List Found} {gs : List Generated}
    (h1 : ∀ i : ℕ, outputs[i]?.map (fun g => (⟨g.dim, g.vecs, g.superoperator, false⟩ : Found)) = gs[i]?.map Generated.found)
    (h2 : ∀ i inp, 0 < i → inputs[i]? = some inp → inp.numVecs = none) (h3 : outputs.length = inputs.length) :
    ∀ (inds : List ℕ) (P : List Columns), projectLoopVecs eigh eigsh tol inputs outputs inds P = projectLoop eigh tol gs inds P
  | [], P => rfl
  | i :: inds, P => by
    unfold projectLoopVecs projectLoop
    have hi := h1 i
    cases hg : gs[i]? with
    | none =>
      rw [hg] at hi
      have ho : outputs[i]? = none := by simpa using hi
      simp [pyGet, hg, ho, bind, Except.bind]
    | some g =>
      rw [hg] at hi
      obtain ⟨f, hf, hfg⟩ : ∃ f, outputs[i]? = some f ∧ (⟨f.dim, f.vecs, f.superoperator, false⟩ : Found) = g.found := by
        simpa using hi
      obtain ⟨n, vecs, M, w⟩ := f
      obtain ⟨n', vecs', M', a, b⟩ := g
      simp only [Generated.found, Found.mk.injEq] at hfg
      obtain ⟨rfl, hv, hM, -⟩ := hfg
      cases hv
      cases hM
      simp only [pyGet, hg, hf, bind, Except.bind]
      by_cases h0 : i = 0
      · simp only [h0, if_true]
        exact projectLoopVecs_eq h1 h2 h3 inds _
      · have hil : i < inputs.length := by
          rw [← h3]; exact (List.getElem?_eq_some_iff.mp hf).1
        have hin := List.getElem?_eq_getElem hil
        have hnv := h2 i _ (by omega) hin
        simp only [h0, if_false, hin]
        cases hp : P[i - 1]? with
        | none => rfl
        | some prev =>
          simp only [hnv]
          have e : projectStepVecs eigh eigsh ⟨n, vecs, M, w⟩ prev none tol = projectStep eigh ⟨n, vecs, M, a, b⟩ prev tol := rfl
          rw [e]
          cases projectStep eigh ⟨n, vecs, M, a, b⟩ prev tol with
          | error e => rfl
          | ok c => exact projectLoopVecs_eq h1 h2 h3 inds _

end Qosy

namespace Qosy
open Matrix Coef
variable {𝔸 : Type} [Ring 𝔸] [Algebra ℂ 𝔸] {V : OpString → Prop}

/-- without `num_vecs` it is the generator of Model/Generator -/
theorem generateNoncumulativeVecs_none (eigh : Eigh) (eigsh : Eigsh) (pinv : Mat ℂ → Py (Mat ℂ)) (lu : PermutedLu) (argsort : List ℕ → List ℕ) (x : BasisArg ℂ)
    (inputs : List SymmetryInput) (s o : Bool) (tol : ℝ) :
    generateNoncumulativeVecs eigh eigsh pinv lu argsort x (inputs.map (fun inp => ⟨inp, none⟩)) s o tol =
      (generateNoncumulative eigh pinv lu argsort x inputs {} s o tol).map (fun st => ⟨st.outputs.map Generated.found, st.projected⟩) := by
  have h1 : (inputs.map (fun inp => (⟨inp, none⟩ : SymmetryCall))).mapM (fun inp => generateOneVecs eigh eigsh pinv x inp tol) =
      (inputs.mapM (fun inp => generateOne eigh pinv x inp tol)).map (List.map Generated.found) := by
    induction inputs with
    | nil => rfl
    | cons a l ih =>
      rw [List.map_cons, List.mapM_cons, List.mapM_cons, ih]
      have e : generateOneVecs eigh eigsh pinv x ⟨a, none⟩ tol = (generateOne eigh pinv x a tol).map Generated.found := by
        unfold generateOneVecs
        dsimp only
        cases generateOne eigh pinv x a tol <;> rfl
      rw [e]
      cases generateOne eigh pinv x a tol with
      | error e => rfl
      | ok g =>
        cases List.mapM (fun inp => generateOne eigh pinv x inp tol) l <;> rfl
  unfold generateNoncumulativeVecs generateNoncumulative
  rw [h1]
  cases hg : List.mapM (fun inp => generateOne eigh pinv x inp tol) inputs with
  | error e => rfl
  | ok gs =>
    have hl := (mapM_ok_inv hg).length_eq
    simp only [Except.map, bind, Except.bind, List.length_map, List.nil_append]
    rw [projectLoopVecs_eq (gs := gs) (by intro i; rw [List.getElem?_map, Option.map_map]; rfl)
      (by intro i inp _ hi
          rw [List.getElem?_map] at hi
          obtain ⟨a, -, rfl⟩ := Option.map_eq_some_iff.mp hi
          rfl) (by simp [hl])]
    cases projectLoop eigh tol gs (List.range inputs.length) [] with
    | error e => rfl
    | ok p1 =>
      cases s with
      | false =>
        cases o with
        | false => rfl
        | true =>
          simp only [if_true, Bool.false_eq_true, if_false]
          cases orthogonalizeLoop (List.range' 1 (inputs.length - 1)).reverse p1 <;> rfl
      | true =>
        simp only [if_true]
        cases sparsifyLoop lu argsort (List.range inputs.length) p1 with
        | error e => rfl
        | ok p2 =>
          cases o with
          | false => rfl
          | true =>
            simp only [if_true]
            cases orthogonalizeLoop (List.range' 1 (inputs.length - 1)).reverse p2 <;> rfl

theorem StrAlg.noncumulativeVecs (R : StrAlg ℂ 𝔸) [Nontrivial 𝔸] (hV : ∀ s, V s → R.Str s) {eigh : Eigh} (he : ExactEigh eigh) {eigsh : Eigsh}
    (hs : ExactEigsh eigsh) {pinv : Mat ℂ → Py (Mat ℂ)} (hp : IsPinv pinv) {lu : PermutedLu} (hlu : ExactLu lu) {argsort : List ℕ → List ℕ}
    (hsort : IsSort argsort) {x : BasisArg ℂ} (hx : x.On R.type V) {O : Operator ℂ} (hO : ∀ s ∈ O.basis.strs, V s) {mode : Mode} {k : ℕ}
    (hk : 0 < k) (hkn : k + 1 < x.len) {rest : List SymmetryInput} (hi : ∀ inp ∈ rest, inp.Valid R.type V)
    (ho : (∃ inp ∈ rest, ∃ T, inp.symmetry = .transformation T) → x.Orthonormal R.type V)
    (hfew : FewerThan R.type V x (SymmetryInput.Holds R.den ⟨.operator O, mode⟩) k)
    (hgap : ∀ i inp, 0 < i → ((⟨.operator O, mode⟩ : SymmetryInput) :: rest)[i]? = some inp →
      AngleGap (x.coefficients R.type V (inp.Holds R.den)) (x.coefficients R.type V (HasSymmetries R.den (⟨.operator O, mode⟩ :: rest) i)) (1 / 10 ^ 10)) (s : Bool) :
    ∃ δ > 0, ∀ tol, 0 < tol → tol ≤ δ →
      ∃ st, generateNoncumulativeVecs eigh eigsh pinv lu argsort x (⟨⟨.operator O, mode⟩, some k⟩ :: rest.map (fun inp => ⟨inp, none⟩)) s false tol = .ok st ∧
        st.Correct R.den R.type V x (⟨.operator O, mode⟩ :: rest) ∧ ∀ g ∈ st.outputs, g.warned = false := by
  have hne : x ≠ .operators [] := by rintro rfl; simp [BasisArg.len] at hkn
  have htype : ∀ s, V s → s.opType = R.type := fun s hs => R.str_type s (hV s hs)
  obtain ⟨δ1, d1, h1⟩ := generateOneVecs_operator R hV eigh hs pinv hx hne hO mode k
  obtain ⟨vecs, M, w, h1, h2⟩ := h1.resolve_right (fun h => by omega)
  have hw : w = false := by
    by_contra hc
    have hl := h2.warning.mp (by simpa using hc)
    have := hfew vecs (orthonormal_independent h2.orthonormal) (fun v hv => by
      obtain ⟨A, a, b⟩ := hx.exists htype v
      exact ⟨A, a, b, h2.sound v A a b (Submodule.subset_span hv)⟩)
    omega
  subst hw
  obtain ⟨δ2, d2, gs, h3, h4⟩ := generateAll_ok R hV he hp hx hne rest hi ho
  refine ⟨min δ1 δ2, lt_min d1 d2, fun tol t1 t2 => ?_⟩
  have hall : List.Forall₂ (fun inp g => ∃ vecs M a b, g = ⟨x.len, vecs, M, a, b⟩ ∧ OneResult R.den R.type V x inp vecs M)
      (⟨.operator O, mode⟩ :: rest) ((⟨x.len, vecs, M, 0, 0⟩ : Generated) :: gs) := .cons ⟨vecs, M, 0, 0, rfl, h2.one⟩ h4
  obtain ⟨P, Q, p1, q1, q2, q3⟩ := projectAll_ok htype he hlu hsort hx hall hgap s t1
  have hrest : (rest.map (fun inp => (⟨inp, none⟩ : SymmetryCall))).mapM (fun inp => generateOneVecs eigh eigsh pinv x inp tol) = .ok (gs.map Generated.found) := by
    have h3' := h3 tol t1 (t2.trans (min_le_right _ _))
    clear * - h3'
    revert h3'
    induction rest generalizing gs with
    | nil => intro h; cases h; rfl
    | cons a l ih =>
      intro h
      rw [List.mapM_cons] at h
      obtain ⟨g, e1, h⟩ := py_bind_ok h
      obtain ⟨l', e2, h⟩ := py_bind_ok h
      cases h
      rw [List.map_cons, List.mapM_cons, ih _ e2]
      unfold generateOneVecs
      dsimp only
      rw [e1]; rfl
  refine ⟨⟨⟨x.len, vecs, M, false⟩ :: gs.map Generated.found, Q⟩, ?_, ⟨?_, q2, q3⟩, ?_⟩
  · unfold generateNoncumulativeVecs
    rw [List.mapM_cons, h1 tol t1 (t2.trans (min_le_left _ _)), hrest]
    have hl : (({ toSymmetryInput := ⟨.operator O, mode⟩, numVecs := some k } : SymmetryCall) :: rest.map (fun inp => (⟨inp, none⟩ : SymmetryCall))).length =
        ((⟨.operator O, mode⟩ : SymmetryInput) :: rest).length := by simp
    simp only [bind, Except.bind, pure, Except.pure, hl]
    rw [projectLoopVecs_eq (gs := (⟨x.len, vecs, M, 0, 0⟩ : Generated) :: gs)
      (by intro i
          cases i with
          | zero => rfl
          | succ i => rw [List.getElem?_cons_succ, List.getElem?_cons_succ, List.getElem?_map, Option.map_map]; rfl)
      (by intro i inp i0 hi
          obtain ⟨i, rfl⟩ : ∃ j, i = j + 1 := ⟨i - 1, by omega⟩
          rw [List.getElem?_cons_succ, List.getElem?_map] at hi
          obtain ⟨a, -, rfl⟩ := Option.map_eq_some_iff.mp hi
          rfl)
      (by simp [h4.length_eq]), p1]
    cases s with
    | false =>
      simp only [Bool.false_eq_true, if_false] at q1 ⊢
      cases q1; rfl
    | true =>
      simp only [if_true] at q1 ⊢
      rw [q1]; rfl
  · refine .cons ⟨vecs, rfl, h2.one.orthonormal, h2.one.span⟩ ?_
    rw [List.forall₂_map_right_iff]
    refine h4.imp ?_
    rintro inp g ⟨vecs, M, a, b, rfl, r⟩
    exact ⟨vecs, rfl, r.orthonormal, r.span⟩
  · intro g hg
    simp only [List.mem_cons, List.mem_map] at hg
    rcases hg with rfl | ⟨g', -, rfl⟩ <;> rfl

end Qosy
