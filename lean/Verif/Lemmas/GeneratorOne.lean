import Verif.Spec.Generator
import Verif.Lemmas.CommutingOperators
import Verif.Lemmas.InvariantOperators
import Verif.Lemmas.StrAlgInst
import Verif.Lemmas.Sparsify

/-! # The operators with one symmetry, for small tolerances -/

namespace Qosy
open Matrix Coef
variable {𝔸 : Type} [Ring 𝔸] [Algebra ℂ 𝔸] {t : OpType} {V : OpString → Prop}

theorem BasisArg.len_den (den : OpString → 𝔸) (x : BasisArg ℂ) : (x.den den).length = x.len := by
  cases x <;> simp [BasisArg.den, BasisArg.len]

/-- all strings of a basis argument -/
def BasisArg.allStrings : BasisArg ℂ → List OpString
  | .strings b => b.strs
  | .operators l => l.flatMap (fun o => o.basis.strs)

theorem BasisArg.On.strings {x : BasisArg ℂ} (h : x.On t V) : ∀ s ∈ x.allStrings, V s := by
  cases x with
  | strings b => exact h.2
  | operators l =>
    intro s hs
    obtain ⟨o, ho, hs⟩ := List.mem_flatMap.mp hs
    exact (h o ho).mem s hs

theorem BasisArg.On.all {x : BasisArg ℂ} (h : x.On t V) {P : OpString → Prop} (hP : ∀ s, V s → P s) : x.All P := by
  cases x with
  | strings b => exact fun s hs => hP s (h.2 s hs)
  | operators l => exact fun o ho s hs => hP s ((h o ho).mem s hs)

theorem BasisArg.Orthonormal.on {x : BasisArg ℂ} (h : x.Orthonormal t V) : x.On t V := by
  cases x with
  | strings b => exact h
  | operators l => exact h.1

theorem coef_eq_zero {A : Operator ℂ} {s : OpString} (h : s ∉ A.basis.strs) : A.coef s = 0 := coef_zero_of_not_mem h

theorem BasisArg.coef_eq_zero {x : BasisArg ℂ} {s : OpString} (h : s ∉ x.allStrings) (j : Fin x.len) : x.coef j s = 0 := by
  cases x with
  | strings b =>
    show (if b.strs[(j : ℕ)]'j.2 = s then (1 : ℂ) else 0) = 0
    rw [if_neg]
    rintro rfl; exact h (List.getElem_mem _)
  | operators l =>
    apply coef_zero_of_not_mem
    intro hs
    exact h (List.mem_flatMap.mpr ⟨_, List.getElem_mem _, hs⟩)

theorem den_sum {A : Operator ℂ} {l : List OpString} (hn : l.Nodup) (hl : ∀ s ∈ A.basis.strs, s ∈ l) (den : OpString → 𝔸) :
    A.den den = ∑ i : Fin l.length, A.coef l[i] • den l[i] :=
  (denT_eq_sum den hn A.terms (fun t ht => hl _ (mem_terms ht))).symm

/-- each element denotes the combination of strings given by its coefficients -/
theorem BasisArg.den_elem {x : BasisArg ℂ} (h : x.On t V) {l : List OpString} (hn : l.Nodup) (hl : ∀ s ∈ x.allStrings, s ∈ l)
    (den : OpString → 𝔸) (j : Fin x.len) (hj : (j : ℕ) < (x.den den).length) :
    (x.den den)[(j : ℕ)] = ∑ i : Fin l.length, x.coef j l[i] • den l[i] := by
  cases x with
  | strings b =>
    have hj' : (j : ℕ) < b.strs.length := j.2
    obtain ⟨i, hi, he⟩ := List.getElem_of_mem (hl _ (List.getElem_mem hj'))
    have e : ((BasisArg.strings b : BasisArg ℂ).den den)[(j : ℕ)] = den b.strs[(j : ℕ)] := by simp [BasisArg.den]
    rw [e, Finset.sum_eq_single (⟨i, hi⟩ : Fin l.length)]
    · show _ = (if b.strs[(j : ℕ)] = l[i] then (1 : ℂ) else 0) • den l[i]
      rw [he, if_pos rfl, one_smul]
    · intro k _ hk
      show (if b.strs[(j : ℕ)] = l[(k : ℕ)] then (1 : ℂ) else 0) • den l[(k : ℕ)] = 0
      rw [if_neg, zero_smul]
      intro e
      rw [← he] at e
      exact hk (Fin.ext (hn.getElem_inj_iff.mp e).symm)
    · simp
  | operators ops =>
    have hj' : (j : ℕ) < ops.length := j.2
    have e : ((BasisArg.operators ops : BasisArg ℂ).den den)[(j : ℕ)] = ops[(j : ℕ)].den den := by simp [BasisArg.den]
    rw [e]
    exact den_sum hn (fun s hs => hl s (List.mem_flatMap.mpr ⟨_, List.getElem_mem hj', hs⟩)) den

theorem Combines.den {x : BasisArg ℂ} (h : x.On t V) {v : Fin x.len → ℂ} {A : Operator ℂ} (hA : x.Combines v A) (den : OpString → 𝔸) :
    A.den den = ∑ j : Fin (x.den den).length, v (Fin.cast (x.len_den den) j) • (x.den den)[j] := by
  classical
  let l := (A.basis.strs ++ x.allStrings).dedup
  have hn : l.Nodup := List.nodup_dedup _
  have h1 : ∀ s ∈ A.basis.strs, s ∈ l := fun s hs => List.mem_dedup.mpr (List.mem_append_left _ hs)
  have h2 : ∀ s ∈ x.allStrings, s ∈ l := fun s hs => List.mem_dedup.mpr (List.mem_append_right _ hs)
  rw [den_sum hn h1]
  have e : ∀ j : Fin (x.den den).length, (x.den den)[j] = ∑ i : Fin l.length, x.coef (Fin.cast (x.len_den den) j) l[i] • den l[i] :=
    fun j => x.den_elem h hn h2 den (Fin.cast (x.len_den den) j) j.2
  simp only [e, Finset.smul_sum, smul_smul]
  rw [Finset.sum_comm]
  apply Finset.sum_congr rfl
  intro i _
  rw [← Finset.sum_smul, hA]
  congr 1
  exact (Fintype.sum_equiv (finCongr (x.len_den den)) _ _ (fun j => rfl)).symm

/-- every combination of the elements is an Operator -/
theorem BasisArg.On.exists {x : BasisArg ℂ} (h : x.On t V) (ht : ∀ s, V s → s.opType = t) (v : Fin x.len → ℂ) : ∃ A : Operator ℂ, A.On t V ∧ x.Combines v A := by
  classical
  let l := x.allStrings.dedup
  have hn : l.Nodup := List.nodup_dedup _
  have hl : ∀ s ∈ l, V s := fun s hs => h.strings s (List.mem_dedup.mp hs)
  let w : Fin l.length → ℂ := fun i => ∑ j, v j * x.coef j l[i]
  refine ⟨⟨List.ofFn w, Basis.ofList l, t⟩, ⟨⟨Basis.Inv.ofList hn, by simp [Basis.ofList], fun s hs => ht s (hl s hs)⟩, rfl, hl⟩, fun s => ?_⟩
  have he : (⟨List.ofFn w, Basis.ofList l, t⟩ : Operator ℂ).coef s = coefT ((List.ofFn w).zip l) s := rfl
  rw [he]
  by_cases hs : s ∈ l
  · obtain ⟨i, hi, rfl⟩ := List.getElem_of_mem hs
    rw [coefT_zip_mem (by simp) hn i hi]
    simp [w]
  · rw [coefT_zip (by simp) hn, if_neg hs]
    symm
    apply Finset.sum_eq_zero
    intro j _
    rw [BasisArg.coef_eq_zero (fun hh => hs (List.mem_dedup.mpr hh)), mul_zero]

theorem Mode.symmetrySign {m : Mode} (h : m ≠ .product) : symmetrySign m.name = .ok m.sign := by
  cases m with
  | product => exact absurd rfl h
  | commutator => simp [Qosy.symmetrySign, Mode.name, Mode.sign]
  | anticommutator => simp [Qosy.symmetrySign, Mode.name, Mode.sign]

theorem Mode.sign_sq (m : Mode) : m.sign ^ 2 = 1 := by cases m <;> rfl

/-- only the selected vectors depend on the tolerance -/
theorem generateOne_tol {eigh : Eigh} {pinv : Mat ℂ → Py (Mat ℂ)} {x : BasisArg ℂ} {inp : SymmetryInput} {tol : ℝ} {g : Generated}
    (h : generateOne eigh pinv x inp tol = .ok g) (tol' : ℝ) :
    generateOne eigh pinv x inp tol' = .ok ⟨g.dim, selectColumns ⟨g.evals, g.evecs⟩ 0 tol', g.superoperator, g.evals, g.evecs⟩ := by
  unfold generateOne at h ⊢
  match hs : inp.symmetry with
  | .operator O =>
    rw [hs] at h
    simp only at h ⊢
    unfold commutingOperators at h ⊢
    cases hL : liouvillianMatrix x O inp.mode with
    | error e => rw [hL] at h; simp [bind, Except.bind] at h
    | ok Le =>
      obtain ⟨L, e⟩ := Le
      rw [hL] at h
      simp only [bind, Except.bind] at h ⊢
      cases hD : L.getH.dot L with
      | error e => rw [hD] at h; simp at h
      | ok D =>
        rw [hD] at h
        simp only [Except.ok.injEq] at h
        subst h
        rfl
  | .transformation T =>
    rw [hs] at h
    simp only at h ⊢
    unfold invariantOperators at h ⊢
    cases hL : symmetryMatrixOf pinv x T with
    | error e => rw [hL] at h; simp [bind, Except.bind] at h
    | ok S =>
      rw [hL] at h
      simp only [bind, Except.bind] at h ⊢
      cases hσ : symmetrySign inp.mode.name with
      | error e => rw [hσ] at h; simp at h
      | ok σ =>
        rw [hσ] at h
        simp only [Except.ok.injEq] at h
        subst h
        simp only [Except.ok.injEq, Generated.mk.injEq, heq_eq_eq, and_true, true_and]
        have hσ2 : σ = 1 ∨ σ = -1 := by
          unfold symmetrySign at hσ
          split at hσ
          · simp only [Except.ok.injEq] at hσ; exact .inl hσ.symm
          · split at hσ
            · simp only [Except.ok.injEq] at hσ; exact .inr hσ.symm
            · simp at hσ
        unfold selectColumns
        congr 1
        apply List.filter_congr
        intro k _
        congr 1
        apply propext
        rcases hσ2 with rfl | rfl
        · simp only [Int.cast_one, one_mul, sub_zero]
          rw [abs_sub_comm]
        · simp only [Int.cast_neg, Int.cast_one, sub_zero]
          rw [show (1 : ℝ) - -1 * _ = _ - -1 by ring]
  | .other => rw [hs] at h; simp at h

theorem selectColumns_const {n : ℕ} (r : EighResult (Fin n) n) : ∃ δ > 0, ∀ tol, 0 < tol → tol ≤ δ → selectColumns r 0 tol = selectColumns r 0 δ ∧
    ∀ k, |r.evals k - 0| < tol → r.evals k = 0 := by
  have : ∃ δ : ℝ, 0 < δ ∧ ∀ k, r.evals k ≠ 0 → δ ≤ |r.evals k - 0| := by
    by_cases hne : (Finset.univ.filter (fun k => r.evals k ≠ 0)).Nonempty
    · obtain ⟨k, hk, hmin⟩ := Finset.exists_min_image _ (fun k => |r.evals k - 0|) hne
      refine ⟨|r.evals k - 0|, ?_, fun l hl => hmin l (by simp [hl])⟩
      rw [sub_zero]
      exact abs_pos.mpr (by simpa using hk)
    · refine ⟨1, one_pos, fun k hk => ?_⟩
      exact absurd ⟨k, by simp [hk]⟩ hne
  obtain ⟨δ, hδ, h⟩ := this
  refine ⟨δ, hδ, fun tol ht htδ => ⟨?_, fun k hk => ?_⟩⟩
  · unfold selectColumns
    congr 1
    apply List.filter_congr
    intro k _
    congr 1
    apply propext
    by_cases hk : r.evals k = 0
    · rw [hk, sub_zero, abs_zero]; exact ⟨fun _ => hδ, fun _ => ht⟩
    · have := h k hk
      constructor <;> intro hh <;> linarith
  · by_contra hk0
    have := h k hk0
    linarith

/-- the result of `generateOne`, with the tolerance small enough -/
structure OneResult (den : OpString → 𝔸) (t : OpType) (V : OpString → Prop) (x : BasisArg ℂ) (inp : SymmetryInput) (vecs : List (Fin x.len → ℂ))
    (M : Matrix (Fin x.len) (Fin x.len) ℂ) : Prop where
  orthonormal : OrthonormalColumns vecs
  null : ∀ v ∈ vecs, M *ᵥ v = 0
  span : ∀ (v : Fin x.len → ℂ) (A : Operator ℂ), A.On t V → x.Combines v A → (v ∈ colSpan vecs ↔ inp.Holds den A)

theorem generateOne_ok (R : StrAlg ℂ 𝔸) [Nontrivial 𝔸] (hV : ∀ s, V s → R.Str s) {eigh : Eigh} (he : ExactEigh eigh) {pinv : Mat ℂ → Py (Mat ℂ)}
    (hp : IsPinv pinv) {x : BasisArg ℂ} (hx : x.On R.type V) (hne : x ≠ .operators []) {inp : SymmetryInput} (hi : inp.Valid R.type V)
    (ho : (∃ T, inp.symmetry = .transformation T) → x.Orthonormal R.type V) :
    ∃ δ > 0, ∃ vecs M evals evecs, (∀ tol, 0 < tol → tol ≤ δ → generateOne eigh pinv x inp tol = .ok ⟨x.len, vecs, M, evals, evecs⟩) ∧
      OneResult R.den R.type V x inp vecs M := by
  -- for one tolerance
  have key : ∃ M evals evecs, (∃ vecs, generateOne eigh pinv x inp 1 = .ok ⟨x.len, vecs, M, evals, evecs⟩) ∧ IsEigh M ⟨evals, evecs⟩ ∧
      ∀ tol > 0, SpectralGap M 0 tol → ∃ (vecs : List (Fin x.len → ℂ)) (M' : Matrix (Fin x.len) (Fin x.len) ℂ) (evals' : _) (evecs' : _),
        generateOne eigh pinv x inp tol = .ok ⟨x.len, vecs, M', evals', evecs'⟩ ∧ OrthonormalColumns vecs ∧
        ∀ (v : Fin x.len → ℂ) (A : Operator ℂ), A.On R.type V → x.Combines v A → (v ∈ colSpan vecs ↔ inp.Holds R.den A) := by
    match hs : inp.symmetry with
    | .operator O =>
      have hO : ∀ s ∈ O.basis.strs, R.Str s := by
        unfold SymmetryInput.Valid at hi
        rw [hs] at hi
        exact fun s h => hV s (hi s h)
      have hgen : ∀ tol, generateOne eigh pinv x inp tol = commutingOperators eigh x O inp.mode tol := fun tol => by simp only [generateOne, hs]
      have hall := hx.all hV
      have hhold : ∀ A : Operator ℂ, inp.Holds R.den A ↔ bracketOf inp.mode (A.den R.den) (O.den R.den) = 0 := fun A => by
        unfold SymmetryInput.Holds; rw [hs]
      have hcomb : ∀ (v : Fin x.len → ℂ) (A : Operator ℂ), x.Combines v A → A.den R.den = ∑ j : Fin (x.den R.den).length, v (Fin.cast (x.len_den R.den) j) • (x.den R.den)[j] :=
        fun v A hA => Combines.den hx hA R.den
      simp only [hgen, hhold]
      have hl := x.len_den R.den
      have main : ∀ tol > 0, ∃ (vecs : List (Fin x.len → ℂ)) (M : Matrix (Fin x.len) (Fin x.len) ℂ) (evals : _) (evecs : _),
          commutingOperators eigh x O inp.mode tol = .ok ⟨x.len, vecs, M, evals, evecs⟩ ∧ IsEigh M ⟨evals, evecs⟩ ∧ OrthonormalColumns vecs ∧
          (SpectralGap M 0 tol → ∀ v : Fin x.len → ℂ, v ∈ colSpan vecs ↔
            bracketOf inp.mode (∑ j : Fin (x.den R.den).length, v (Fin.cast (x.len_den R.den) j) • (x.den R.den)[j]) (O.den R.den) = 0) := by
        intro tol ht
        obtain ⟨vecs, M, evals, evecs, h1, h2, h3, h4⟩ := R.commutingOperators_ok inp.mode hall hne hO he ht
        have tr : ∀ (y : List 𝔸) (m : ℕ) (hl : y.length = m) (vecs : List (Fin y.length → ℂ)) (M : Matrix (Fin y.length) (Fin y.length) ℂ)
            (evals : Fin y.length → ℝ) (evecs : Matrix (Fin y.length) (Fin y.length) ℂ), IsEigh M ⟨evals, evecs⟩ → OrthonormalColumns vecs →
            (SpectralGap M 0 tol → ∀ v, v ∈ colSpan vecs ↔ bracketOf inp.mode (∑ j, v j • y[j]) (O.den R.den) = 0) →
            ∃ (vecs' : List (Fin m → ℂ)) (M' : Matrix (Fin m) (Fin m) ℂ) (evals' : _) (evecs' : _),
              (⟨y.length, vecs, M, evals, evecs⟩ : Generated) = ⟨m, vecs', M', evals', evecs'⟩ ∧ IsEigh M' ⟨evals', evecs'⟩ ∧ OrthonormalColumns vecs' ∧
              (SpectralGap M' 0 tol → ∀ v : Fin m → ℂ, v ∈ colSpan vecs' ↔
                bracketOf inp.mode (∑ j : Fin y.length, v (Fin.cast hl j) • y[j]) (O.den R.den) = 0) := by
          rintro y m rfl vecs M evals evecs a b c
          exact ⟨vecs, M, evals, evecs, rfl, a, b, c⟩
        obtain ⟨vecs', M', evals', evecs', e, t⟩ := tr _ _ hl vecs M evals evecs h4 h2.orthonormal h2.exact
        exact ⟨vecs', M', evals', evecs', by rw [h1, e], t⟩
      obtain ⟨vecs, M, evals, evecs, h1, h2, -, -⟩ := main 1 one_pos
      refine ⟨M, evals, evecs, ⟨vecs, h1⟩, h2, fun tol ht hg => ?_⟩
      obtain ⟨vecs', M', evals', evecs', k1, k2, k3, k4⟩ := main tol ht
      have hM : M' = M := by
        have e1 := generateOne_tol ((hgen 1).trans h1) tol
        rw [hgen, k1] at e1
        simp only [Except.ok.injEq, Generated.mk.injEq, heq_eq_eq, true_and] at e1
        exact e1.2.1
      refine ⟨vecs', M', evals', evecs', k1, k3, fun v A _ hA => ?_⟩
      rw [k4 (hM ▸ hg) v, hcomb v A hA]
    | .transformation T =>
      have hi' := hi
      unfold SymmetryInput.Valid at hi'
      rw [hs] at hi'
      obtain ⟨hm, ε, f, hsr, hinj⟩ := hi'
      have hgen : ∀ tol, generateOne eigh pinv x inp tol = invariantOperators eigh pinv x T inp.mode.name tol := fun tol => by simp only [generateOne, hs]
      have hho := ho ⟨T, hs⟩
      have hsg := Mode.symmetrySign hm
      simp only [hgen]
      obtain ⟨vecs, M, evals, evecs, h1, -, -, h2⟩ := invariantOperators_ok hsr hinj hp hho hne he hsg one_pos
      refine ⟨M, evals, evecs, ⟨vecs, h1⟩, h2, fun tol ht hg => ?_⟩
      obtain ⟨vecs', M', evals', evecs', k1, k2, -, -⟩ := invariantOperators_ok hsr hinj hp hho hne he hsg ht
      have hM : M' = M := by
        have e1 := generateOne_tol ((hgen 1).trans h1) tol
        rw [hgen, k1] at e1
        simp only [Except.ok.injEq, Generated.mk.injEq, heq_eq_eq, true_and] at e1
        exact e1.2.1
      refine ⟨vecs', M', evals', evecs', k1, k2.orthonormal, fun v A hA hc => ?_⟩
      obtain ⟨B, hB⟩ := k2.total A hA
      rw [k2.exact (hM ▸ hg) v A B hA hc hB]
      unfold SymmetryInput.Holds
      rw [hs]
      constructor
      · intro h; exact ⟨B, hB, h⟩
      · rintro ⟨B', hB', h⟩
        rw [hB] at hB'
        cases hB'
        exact h
    | .other =>
      unfold SymmetryInput.Valid at hi
      rw [hs] at hi
      exact hi.elim
  obtain ⟨M, evals, evecs, ⟨vecs, h1⟩, h2, h3⟩ := key
  obtain ⟨δ1, hδ1, hg⟩ := h2.exists_gap 0
  obtain ⟨δ2, hδ2, hs⟩ := selectColumns_const (⟨evals, evecs⟩ : EighResult (Fin x.len) x.len)
  have hall := generateOne_tol h1
  simp only at hall
  have hδ : 0 < min δ1 δ2 := lt_min hδ1 hδ2
  obtain ⟨vecs', M', evals', evecs', k1, k2, k3⟩ := h3 (min δ1 δ2) hδ (hg _ (min_le_left _ _))
  rw [hall] at k1
  simp only [Except.ok.injEq, Generated.mk.injEq, heq_eq_eq, true_and] at k1
  obtain ⟨e1, -⟩ := k1
  refine ⟨min δ1 δ2, hδ, vecs', M, evals, evecs, fun tol ht htδ => ?_, k2, ?_, k3⟩
  · rw [hall tol, (hs tol ht (htδ.trans (min_le_right _ _))).1, ← (hs _ hδ (min_le_right _ _)).1, e1]
  · intro v hv
    rw [← e1] at hv
    obtain ⟨k, hk, rfl⟩ := List.mem_map.mp hv
    rw [List.mem_filter] at hk
    have hk' := (hs _ hδ (min_le_right _ _)).2 k (by simpa using hk.2)
    have := h2.column k
    rw [this]
    show ((evals k : ℝ) : ℂ) • _ = 0
    rw [show evals k = 0 from hk', Complex.ofReal_zero, zero_smul]

end Qosy
