import Verif.Lemmas.GeneratorOne
import Verif.Props.LinAlg
import Verif.Props.Sparsify

/-! # The noncumulative mode of the generator -/

namespace Qosy
open Matrix Coef

theorem eighBlocks_ok {eigh : Eigh} (he : ExactEigh eigh) (p q : ℕ) (D : Matrix (Fin p ⊕ Fin q) (Fin p ⊕ Fin q) ℂ) (hD : D.IsHermitian) :
    IsEigh D (eighBlocks eigh p q D) := by
  have h := he (p + q) (D.submatrix finSumFinEquiv.symm finSumFinEquiv.symm) (hD.submatrix _)
  set r := eigh (p + q) (D.submatrix finSumFinEquiv.symm finSumFinEquiv.symm) with hr
  have hev : (eighBlocks eigh p q D).evecs = r.evecs.submatrix finSumFinEquiv id := rfl
  have hevl : (eighBlocks eigh p q D).evals = r.evals := rfl
  refine ⟨?_, ?_, ?_⟩
  · rw [hev, conjTranspose_submatrix]
    exact (Matrix.submatrix_mul_equiv r.evecsᴴ r.evecs id finSumFinEquiv id).trans (by rw [h.orthonormal]; rfl)
  · rw [hev, conjTranspose_submatrix]
    refine (Matrix.submatrix_mul_equiv r.evecs r.evecsᴴ finSumFinEquiv (Equiv.refl _) finSumFinEquiv).trans ?_
    rw [h.complete, Matrix.submatrix_one_equiv]
  · rw [hev, hevl]
    have e := congrArg (fun M : Matrix (Fin (p + q)) (Fin (p + q)) ℂ => M.submatrix finSumFinEquiv id) h.eigen
    have e1 : (D.submatrix finSumFinEquiv.symm finSumFinEquiv.symm * r.evecs).submatrix finSumFinEquiv id = D * r.evecs.submatrix finSumFinEquiv id := by
      rw [← Matrix.submatrix_mul_equiv _ _ finSumFinEquiv finSumFinEquiv id, Matrix.submatrix_submatrix]
      simp
    rw [← e1]
    refine e.trans ?_
    ext i j
    simp [Matrix.mul_diagonal]

theorem columnsMatrix_mulVec {n : ℕ} (l : List (Fin n → ℂ)) (v : Fin l.length → ℂ) : columnsMatrix l *ᵥ v = ∑ j, v j • l[j] := by
  funext i
  simp only [Matrix.mulVec, dotProduct, columnsMatrix, Finset.sum_apply, Pi.smul_apply, smul_eq_mul]
  exact Finset.sum_congr rfl (fun j _ => mul_comm _ _)

theorem columnSpace_columnsMatrix {n : ℕ} (l : List (Fin n → ℂ)) : columnSpace (columnsMatrix l) = colSpan l := by
  rw [colSpan_range]
  apply le_antisymm
  · rintro _ ⟨v, rfl⟩
    rw [Matrix.mulVecLin_apply, columnsMatrix_mulVec]
    exact Submodule.sum_mem _ (fun j _ => Submodule.smul_mem _ _ (Submodule.subset_span ⟨j, rfl⟩))
  · rw [Submodule.span_le]
    rintro _ ⟨j, rfl⟩
    refine ⟨Pi.single j 1, ?_⟩
    rw [Matrix.mulVecLin_apply, columnsMatrix_mulVec]
    simp [Pi.single_apply]

theorem columnsMatrix_isometry {n : ℕ} {l : List (Fin n → ℂ)} (h : OrthonormalColumns l) : (columnsMatrix l)ᴴ * columnsMatrix l = 1 := by
  ext i j
  rw [Matrix.mul_apply, Matrix.one_apply]
  refine (h i j i.2 j.2).trans ?_
  simp [Fin.ext_iff]

/-- a gap between the principal angles is a gap in the spectrum that `intersection` looks at -/
theorem AngleGap.spectral {n p q : ℕ} {A : Matrix (Fin n) (Fin p) ℂ} {B : Matrix (Fin n) (Fin q) ℂ} (hA : Aᴴ * A = 1) (hB : Bᴴ * B = 1) {tol : ℝ}
    (h : AngleGap (n := n) (columnSpace A) (columnSpace B) tol) :
    ∀ (μ : ℝ) (z : Fin p ⊕ Fin q → ℂ), z ≠ 0 → ((hstackNeg A B)ᴴ * hstackNeg A B) *ᵥ z = (μ : ℂ) • z → |μ| < tol → μ = 0 := by
  intro μ z hz he hμ
  set a : Fin p → ℂ := fun j => z (Sum.inl j) with ha
  set b : Fin q → ℂ := fun j => z (Sum.inr j) with hb
  rw [← Matrix.mulVec_mulVec, hstackNeg_mulVec] at he
  have hC : (hstackNeg A B)ᴴ = Matrix.fromRows Aᴴ (-Bᴴ) := by
    rw [hstackNeg, Matrix.conjTranspose_fromCols_eq_fromRows_conjTranspose, Matrix.conjTranspose_neg]
  rw [hC, Matrix.fromRows_mulVec] at he
  have e1 : a - Aᴴ *ᵥ (B *ᵥ b) = (μ : ℂ) • a := by
    have : Aᴴ *ᵥ (A *ᵥ a - B *ᵥ b) = (μ : ℂ) • a := funext fun j => congrFun he (Sum.inl j)
    rw [Matrix.mulVec_sub, Matrix.mulVec_mulVec, hA, Matrix.one_mulVec] at this
    exact this
  have e2 : b - Bᴴ *ᵥ (A *ᵥ a) = (μ : ℂ) • b := by
    have : (-Bᴴ) *ᵥ (A *ᵥ a - B *ᵥ b) = (μ : ℂ) • b := funext fun j => congrFun he (Sum.inr j)
    rw [Matrix.mulVec_sub, Matrix.neg_mulVec, Matrix.neg_mulVec, Matrix.mulVec_mulVec, Matrix.mulVec_mulVec, hB, Matrix.one_mulVec] at this
    rw [← this, ← Matrix.mulVec_mulVec]; abel
  have hdot : ∀ {k : ℕ} (D : Matrix (Fin n) (Fin k) ℂ) (u : Fin k → ℂ) (w : Fin n → ℂ), vdot (D *ᵥ u) w = vdot u (Dᴴ *ᵥ w) := by
    intro k D u w
    rw [vdot_eq, vdot_eq, Matrix.star_mulVec, ← Matrix.dotProduct_mulVec]
  have := h (A *ᵥ a) ⟨a, rfl⟩ (B *ᵥ b) ⟨b, rfl⟩ (1 - μ) ?_ ?_ ?_ (by simpa using hμ)
  · linarith
  · by_contra hc
    push Not at hc
    apply hz
    have ha0 : a = 0 := by
      have := congrArg (fun w => Aᴴ *ᵥ w) hc.1
      simpa [Matrix.mulVec_mulVec, hA] using this
    have hb0 : b = 0 := by
      have := congrArg (fun w => Bᴴ *ᵥ w) hc.2
      simpa [Matrix.mulVec_mulVec, hB] using this
    funext i
    rcases i with i | i
    · exact congrFun ha0 i
    · exact congrFun hb0 i
  · rintro _ ⟨u, rfl⟩
    rw [Matrix.mulVecLin_apply, hdot, Matrix.mulVec_sub, Matrix.mulVec_smul, Matrix.mulVec_mulVec _ Aᴴ A, hA, Matrix.one_mulVec]
    have : Aᴴ *ᵥ (B *ᵥ b) - ((1 - μ : ℝ) : ℂ) • a = 0 := by
      have e : Aᴴ *ᵥ (B *ᵥ b) = a - (μ : ℂ) • a := by rw [← e1]; abel
      rw [e]; push_cast; module
    rw [this]; simp [vdot]
  · rintro _ ⟨u, rfl⟩
    rw [Matrix.mulVecLin_apply, hdot, Matrix.mulVec_sub, Matrix.mulVec_smul, Matrix.mulVec_mulVec _ Bᴴ B, hB, Matrix.one_mulVec]
    have : Bᴴ *ᵥ (A *ᵥ a) - ((1 - μ : ℝ) : ℂ) • b = 0 := by
      have e : Bᴴ *ᵥ (A *ᵥ a) = b - (μ : ℂ) • b := by rw [← e2]; abel
      rw [e]; push_cast; module
    rw [this]; simp [vdot]

theorem mapM_defined {n : ℕ} : ∀ c : List (Fin n → ℂ), (c.map some).mapM definedColumn = .ok c
  | [] => rfl
  | v :: c => by rw [List.map_cons, List.mapM_cons, mapM_defined c]; rfl

theorem projectStep_ok {eigh : Eigh} (he : ExactEigh eigh) {n : ℕ} {vecs cols : List (Fin n → ℂ)} {M : Matrix (Fin n) (Fin n) ℂ} {evals : Fin n → ℝ}
    {evecs : Matrix (Fin n) (Fin n) ℂ} (hv : OrthonormalColumns vecs) (hM : ∀ v ∈ vecs, M *ᵥ v = 0) (hc : OrthonormalColumns cols)
    (hgap : AngleGap (n := n) (colSpan vecs) (colSpan cols) (1 / 10 ^ 10)) {tol : ℝ} (ht : 0 < tol) :
    ∃ q, projectStep eigh ⟨n, vecs, M, evals, evecs⟩ ⟨n, cols⟩ tol = .ok ⟨n, q⟩ ∧ OrthonormalColumns q ∧ colSpan q = colSpan vecs ⊓ colSpan cols := by
  have hA := columnsMatrix_isometry hv
  have hB := columnsMatrix_isometry hc
  rw [← columnSpace_columnsMatrix, ← columnSpace_columnsMatrix] at hgap
  obtain ⟨c, h1, h2, h3⟩ := C28_intersection hA hB (eigh := eighBlocks eigh _ _) (fun D hD => eighBlocks_ok he _ _ D hD) (by positivity) (hgap.spectral hA hB)
  rw [columnSpace_columnsMatrix, columnSpace_columnsMatrix] at h3
  have hM0 : ∀ v ∈ colSpan vecs, M *ᵥ v = 0 := by
    intro v hv
    have : colSpan vecs ≤ LinearMap.ker (Matrix.mulVecLin M) := by
      rw [colSpan, Submodule.span_le]
      intro w hw
      exact hM w hw
    exact this hv
  have hPSO : (columnsMatrix c)ᴴ * M * columnsMatrix c = 0 := by
    rw [Matrix.mul_assoc]
    have : M * columnsMatrix c = 0 := by
      ext i j
      have hj : M *ᵥ (c.get j) = 0 := hM0 _ (by
        have : c.get j ∈ colSpan c := Submodule.subset_span (List.get_mem _ _)
        rw [h3] at this; exact this.1)
      exact congrFun hj i
    rw [this, Matrix.mul_zero]
  have hE := he c.length 0 (by simp [Matrix.IsHermitian])
  set r := eigh c.length 0 with hr
  have h0 : ∀ k, r.evals k = 0 := by
    intro k
    have := hE.column k
    rw [Matrix.zero_mulVec] at this
    by_contra hk
    have hz : (fun i => r.evecs i k) = 0 := by
      have hk' : (r.evals k : ℂ) ≠ 0 := by exact_mod_cast hk
      have := this.symm
      rcases smul_eq_zero.mp this with h | h
      · exact absurd h hk'
      · exact h
    have hi := hE.inner k k
    rw [if_pos rfl] at hi
    have hz' : ∀ i, r.evecs i k = 0 := fun i => congrFun hz i
    simp [hz'] at hi
  have hsel : selectColumns r 0 tol = (List.finRange c.length).map (fun k i => r.evecs i k) := by
    unfold selectColumns
    rw [List.filter_eq_self.mpr]
    intro k _
    simp [h0 k, ht]
  set q := (selectColumns r 0 tol).map (columnsMatrix c).mulVec with hq
  have hqv : ∀ v ∈ q, ∃ k, v = columnsMatrix c *ᵥ (fun i => r.evecs i k) := by
    intro v hv
    rw [hq, hsel, List.map_map] at hv
    obtain ⟨k, -, rfl⟩ := List.mem_map.mp hv
    exact ⟨k, rfl⟩
  have hC := columnsMatrix_isometry h2
  refine ⟨q, ?_, ?_, ?_⟩
  · unfold projectStep
    simp only [bind, Except.bind]
    rw [h1]
    simp only [mapM_defined]
    rw [hPSO, ← hr, ← hq]
  · apply Ortho.columns
    rw [hq, hsel, List.map_map]
    constructor
    · intro e he'
      obtain ⟨k, -, rfl⟩ := List.mem_map.mp he'
      simp only [Function.comp]
      rw [vdot_isometry hC]
      exact (hE.inner k k).trans (if_pos rfl)
    · rw [List.pairwise_map]
      refine (List.nodup_finRange _).imp ?_
      intro k l hkl
      simp only [Function.comp]
      rw [vdot_isometry hC]
      exact (hE.inner k l).trans (if_neg hkl)
  · rw [← h3]
    apply le_antisymm
    · rw [colSpan, Submodule.span_le]
      intro v hv
      obtain ⟨k, rfl⟩ := hqv v hv
      rw [← columnSpace_columnsMatrix]
      exact ⟨_, rfl⟩
    · rw [← columnSpace_columnsMatrix]
      rintro _ ⟨u, rfl⟩
      have hu : u = ∑ k, (r.evecsᴴ *ᵥ u) k • (fun i => r.evecs i k) := by
        have : u = r.evecs *ᵥ (r.evecsᴴ *ᵥ u) := by rw [Matrix.mulVec_mulVec, hE.complete, Matrix.one_mulVec]
        conv_lhs => rw [this]
        funext i
        simp only [Matrix.mulVec, dotProduct, Finset.sum_apply, Pi.smul_apply, smul_eq_mul]
        exact Finset.sum_congr rfl (fun k _ => mul_comm _ _)
      rw [Matrix.mulVecLin_apply, hu, Matrix.mulVec_sum]
      apply Submodule.sum_mem
      intro k _
      rw [Matrix.mulVec_smul]
      refine Submodule.smul_mem _ _ (Submodule.subset_span ?_)
      show _ ∈ q
      rw [hq, hsel, List.map_map]
      exact List.mem_map.mpr ⟨k, List.mem_finRange k, rfl⟩

/-- the vectors that lie in the first spaces -/
def commonVectors {n : ℕ} (S : ℕ → Submodule ℂ (Fin n → ℂ)) (i : ℕ) : Submodule ℂ (Fin n → ℂ) := ⨅ j : Fin i, S j

theorem mem_commonVectors {n : ℕ} {S : ℕ → Submodule ℂ (Fin n → ℂ)} {i : ℕ} {v : Fin n → ℂ} : v ∈ commonVectors S i ↔ ∀ j < i, v ∈ S j := by
  rw [commonVectors, Submodule.mem_iInf]
  exact ⟨fun h j hj => h ⟨j, hj⟩, fun h j => h j j.2⟩

/-- orthonormal bases of the intersections of the first spaces -/
def ProjectedOK {n : ℕ} (S : ℕ → Submodule ℂ (Fin n → ℂ)) (P : List Columns) : Prop :=
  ∀ i < P.length, ∃ q, P[i]? = some ⟨n, q⟩ ∧ OrthonormalColumns q ∧ colSpan q = commonVectors S (i + 1)

theorem projectLoop_ok {eigh : Eigh} (he : ExactEigh eigh) {n m : ℕ} {outputs : List Generated} {S : ℕ → Submodule ℂ (Fin n → ℂ)}
    (hout : ∀ i < m, ∃ vecs M a b, outputs[i]? = some ⟨n, vecs, M, a, b⟩ ∧ OrthonormalColumns vecs ∧ (∀ v ∈ vecs, M *ᵥ v = 0) ∧ colSpan vecs = S i)
    (hgap : ∀ i, 0 < i → i < m → AngleGap (n := n) (S i) (commonVectors S i) (1 / 10 ^ 10)) {tol : ℝ} (ht : 0 < tol) :
    ∀ (r k : ℕ) (P : List Columns), k + r = m → P.length = k → ProjectedOK S P →
      ∃ Q, projectLoop eigh tol outputs (List.range' k r) P = .ok Q ∧ Q.length = m ∧ ProjectedOK S Q
  | 0, k, P, hk, hP, hok => ⟨P, rfl, by omega, hok⟩
  | r + 1, k, P, hk, hP, hok => by
    obtain ⟨vecs, M, a, b, h1, h2, h3, h4⟩ := hout k (by omega)
    have hstep : ∃ q, (if k = 0 then (.ok ⟨n, vecs⟩ : Py Columns) else (do
        let prev ← pyGet P (k - 1)
        projectStep eigh ⟨n, vecs, M, a, b⟩ prev tol)) = .ok ⟨n, q⟩ ∧ OrthonormalColumns q ∧ colSpan q = commonVectors S (k + 1) := by
      by_cases hk0 : k = 0
      · subst hk0
        refine ⟨vecs, by rw [if_pos rfl], h2, ?_⟩
        rw [h4]
        ext v
        rw [mem_commonVectors]
        exact ⟨fun h j hj => by obtain rfl : j = 0 := by omega
                                exact h, fun h => h 0 (by omega)⟩
      · obtain ⟨c, c1, c2, c3⟩ := hok (k - 1) (by omega)
        rw [show k - 1 + 1 = k by omega] at c3
        obtain ⟨q, q1, q2, q3⟩ := projectStep_ok he (evals := a) (evecs := b) h2 h3 c2 (by rw [h4, c3]; exact hgap k (by omega) (by omega)) ht
        refine ⟨q, ?_, q2, ?_⟩
        · rw [if_neg hk0, pyGet, c1]
          exact q1
        · rw [q3, h4, c3]
          ext v
          rw [Submodule.mem_inf, mem_commonVectors, mem_commonVectors]
          constructor
          · rintro ⟨x, y⟩ j hj
            rcases Nat.lt_succ_iff_lt_or_eq.mp hj with h | rfl
            · exact y j h
            · exact x
          · intro h
            exact ⟨h k (by omega), fun j hj => h j (by omega)⟩
    obtain ⟨q, q1, q2, q3⟩ := hstep
    have hok' : ProjectedOK S (P ++ [⟨n, q⟩]) := by
      intro i hi
      rw [List.length_append, List.length_singleton] at hi
      by_cases hik : i < P.length
      · rw [List.getElem?_append_left hik]
        exact hok i hik
      · obtain rfl : i = P.length := by omega
        refine ⟨q, by simp, q2, by rw [q3, hP]⟩
    obtain ⟨Q, Q1, Q2, Q3⟩ := projectLoop_ok he hout hgap ht r (k + 1) (P ++ [⟨n, q⟩]) (by omega) (by simp [hP]) hok'
    refine ⟨Q, ?_, Q2, Q3⟩
    rw [List.range'_succ, projectLoop]
    rw [pyGet, h1]
    simp only [bind, Except.bind] at q1 ⊢
    by_cases hk0 : k = 0
    · rw [if_pos hk0] at q1 ⊢
      simp only [Except.ok.injEq, Columns.mk.injEq, heq_eq_eq, true_and] at q1
      rw [q1]
      exact Q1
    · rw [if_neg hk0] at q1 ⊢
      cases hg : pyGet P (k - 1) with
      | error e => rw [hg] at q1; simp at q1
      | ok v =>
        rw [hg] at q1
        simp only at q1 ⊢
        rw [q1]
        exact Q1

theorem sparsify_orthonormal {lu : PermutedLu} (hlu : ExactLu lu) {argsort : List ℕ → List ℕ} (hsort : IsSort argsort) {n : ℕ} {cols : List (Fin n → ℂ)}
    (h : OrthonormalColumns cols) (tol : ℝ) : ∃ q, sparsify lu argsort cols true tol = .ok q ∧ OrthonormalColumns q ∧ colSpan q = colSpan cols ∧ q.length = cols.length := by
  have hi := orthonormal_independent h
  by_cases h1 : cols.length ≤ 1
  · exact ⟨cols, C66_short cols true tol h1, h, rfl, rfl⟩
  · obtain ⟨q, a, b, -, -, -, c, -⟩ := C66_sparsify hlu hsort cols true tol (by omega) hi.le
    obtain ⟨q', a', b'⟩ := C66_span hlu hsort cols true tol (by omega) hi.le
    rw [a] at a'
    cases a'
    exact ⟨q, a, c rfl, b'.mpr hi, b⟩

theorem sparsifyLoop_ok {lu : PermutedLu} (hlu : ExactLu lu) {argsort : List ℕ → List ℕ} (hsort : IsSort argsort) {n : ℕ} {S : ℕ → Submodule ℂ (Fin n → ℂ)} :
    ∀ (inds : List ℕ) (P : List Columns), (∀ i ∈ inds, i < P.length) → ProjectedOK S P →
      ∃ Q, sparsifyLoop lu argsort inds P = .ok Q ∧ Q.length = P.length ∧ ProjectedOK S Q
  | [], P, _, hP => ⟨P, rfl, rfl, hP⟩
  | i :: inds, P, hi, hP => by
    have hil := hi i (List.mem_cons_self ..)
    obtain ⟨c, c1, c2, c3⟩ := hP i hil
    obtain ⟨q, q1, q2, q3, -⟩ := sparsify_orthonormal hlu hsort c2 (1 / 10 ^ 12)
    have hP' : ProjectedOK S (P.set i ⟨n, q⟩) := by
      intro j hj
      rw [List.length_set] at hj
      by_cases hij : i = j
      · subst hij
        exact ⟨q, by simp [hil], q2, by rw [q3, c3]⟩
      · rw [List.getElem?_set_ne hij]
        exact hP j hj
    obtain ⟨Q, Q1, Q2, Q3⟩ := sparsifyLoop_ok hlu hsort inds (P.set i ⟨n, q⟩) (fun j hj => by rw [List.length_set]; exact hi j (List.mem_cons_of_mem _ hj)) hP'
    refine ⟨Q, ?_, by rw [Q2, List.length_set], Q3⟩
    rw [sparsifyLoop, pyGet, c1]
    simp only [bind, Except.bind]
    rw [q1]
    exact Q1

end Qosy
