import Verif.Lemmas.GeneratorProject

/-! # The noncumulative mode of the generator: all steps -/

namespace Qosy
open Matrix Coef
variable {𝔸 : Type} [Ring 𝔸] [Algebra ℂ 𝔸] {t : OpType} {V : OpString → Prop}

theorem OneResult.coefficients {den : OpString → 𝔸} {x : BasisArg ℂ} (hx : x.On t V) (ht : ∀ s, V s → s.opType = t) {inp : SymmetryInput}
    {vecs : List (Fin x.len → ℂ)} {M : Matrix (Fin x.len) (Fin x.len) ℂ} (h : OneResult den t V x inp vecs M) :
    x.coefficients t V (inp.Holds den) = colSpan vecs := by
  ext v
  constructor
  · rintro ⟨A, a, b, c⟩
    exact (h.span v A a b).mpr c
  · intro hv
    obtain ⟨A, a, b⟩ := hx.exists ht v
    exact ⟨A, a, b, (h.span v A a b).mp hv⟩

/-- all symmetries, for one small tolerance -/
theorem generateAll_ok (R : StrAlg ℂ 𝔸) [Nontrivial 𝔸] (hV : ∀ s, V s → R.Str s) {eigh : Eigh} (he : ExactEigh eigh) {pinv : Mat ℂ → Py (Mat ℂ)}
    (hp : IsPinv pinv) {x : BasisArg ℂ} (hx : x.On R.type V) (hne : x ≠ .operators []) :
    ∀ inputs : List SymmetryInput, (∀ inp ∈ inputs, inp.Valid R.type V) →
    ((∃ inp ∈ inputs, ∃ T, inp.symmetry = .transformation T) → x.Orthonormal R.type V) →
    ∃ δ > 0, ∃ gs : List Generated, (∀ tol, 0 < tol → tol ≤ δ → inputs.mapM (fun inp => generateOne eigh pinv x inp tol) = .ok gs) ∧
      List.Forall₂ (fun inp g => ∃ vecs M a b, g = ⟨x.len, vecs, M, a, b⟩ ∧ OneResult R.den R.type V x inp vecs M) inputs gs
  | [], _, _ => ⟨1, one_pos, [], fun _ _ _ => rfl, .nil⟩
  | inp :: inputs, hi, ho => by
    obtain ⟨δ1, d1, vecs, M, a, b, h1, h2⟩ := generateOne_ok R hV he hp hx hne (hi inp (List.mem_cons_self ..)) (fun h => ho ⟨inp, List.mem_cons_self .., h⟩)
    obtain ⟨δ2, d2, gs, h3, h4⟩ := generateAll_ok R hV he hp hx hne inputs (fun i h => hi i (List.mem_cons_of_mem _ h))
      (fun ⟨i, h, h'⟩ => ho ⟨i, List.mem_cons_of_mem _ h, h'⟩)
    refine ⟨min δ1 δ2, lt_min d1 d2, ⟨x.len, vecs, M, a, b⟩ :: gs, fun tol t1 t2 => ?_, .cons ⟨vecs, M, a, b, rfl, h2⟩ h4⟩
    rw [List.mapM_cons, h1 tol t1 (t2.trans (min_le_left _ _)), h3 tol t1 (t2.trans (min_le_right _ _))]
    rfl

/-- the second and third part, given the operators with each symmetry -/
theorem projectAll_ok {den : OpString → 𝔸} (htype : ∀ s, V s → s.opType = t) {eigh : Eigh} (he : ExactEigh eigh)
    {lu : PermutedLu} (hlu : ExactLu lu) {argsort : List ℕ → List ℕ} (hsort : IsSort argsort)
    {x : BasisArg ℂ} (hx : x.On t V) {inputs : List SymmetryInput} {gs : List Generated}
    (h2 : List.Forall₂ (fun inp g => ∃ vecs M a b, g = ⟨x.len, vecs, M, a, b⟩ ∧ OneResult den t V x inp vecs M) inputs gs)
    (hgap : ∀ i inp, 0 < i → inputs[i]? = some inp →
      AngleGap (x.coefficients t V (inp.Holds den)) (x.coefficients t V (HasSymmetries den inputs i)) (1 / 10 ^ 10)) (s : Bool) {tol : ℝ} (t1 : 0 < tol) :
    ∃ P Q, projectLoop eigh tol gs (List.range inputs.length) [] = .ok P ∧
      (if s then sparsifyLoop lu argsort (List.range inputs.length) P else .ok P) = .ok Q ∧ Q.length = inputs.length ∧
      ∀ i c, Q[i]? = some c → IsBasisOf t V x (HasSymmetries den inputs (i + 1)) c := by
  have hlen := h2.length_eq
  let S : ℕ → Submodule ℂ (Fin x.len → ℂ) := fun i => match inputs[i]? with
    | some inp => Submodule.span ℂ (x.coefficients t V (inp.Holds den))
    | none => ⊤
  have hget : ∀ (i : ℕ) (inp : SymmetryInput), inputs[i]? = some inp → ∃ (g : Generated) (vecs : List (Fin x.len → ℂ)) (M : Matrix (Fin x.len) (Fin x.len) ℂ) (a : Fin x.len → ℝ) (b : Matrix (Fin x.len) (Fin x.len) ℂ), gs[i]? = some g ∧ g = ⟨x.len, vecs, M, a, b⟩ ∧ OneResult den t V x inp vecs M := by
    intro i inp hin
    obtain ⟨hil, rfl⟩ := List.getElem?_eq_some_iff.mp hin
    obtain ⟨vecs, M, a, b, e, r⟩ := (List.forall₂_iff_get.mp h2).2 i hil (by omega)
    exact ⟨_, vecs, M, a, b, List.getElem?_eq_getElem (by omega), e, r⟩
  have hS : ∀ (i : ℕ) (inp : SymmetryInput), inputs[i]? = some inp → ∀ (v : Fin x.len → ℂ) (A : Operator ℂ), A.On t V → x.Combines v A → (v ∈ S i ↔ inp.Holds den A) := by
    intro i inp hin v A hA hc
    obtain ⟨g, vecs, M, a, b, -, -, r⟩ := hget i inp hin
    simp only [S, hin]
    rw [r.coefficients hx htype, Submodule.span_eq]
    exact r.span v A hA hc
  have hcommon : ∀ i, i ≤ inputs.length → ∀ (v : Fin x.len → ℂ) (A : Operator ℂ), A.On t V → x.Combines v A →
      (v ∈ commonVectors S i ↔ HasSymmetries den inputs i A) := by
    intro i hil v A hA hc
    rw [mem_commonVectors]
    constructor
    · intro h inp hin
      obtain ⟨j, hj, rfl⟩ := List.getElem_of_mem hin
      rw [List.length_take] at hj
      rw [List.getElem_take]
      exact (hS j _ (List.getElem?_eq_getElem (by omega)) v A hA hc).mp (h j (by omega))
    · intro h j hj
      refine (hS j _ (List.getElem?_eq_getElem (by omega)) v A hA hc).mpr (h _ ?_)
      rw [List.mem_take_iff_getElem]
      exact ⟨j, by omega, rfl⟩
  have hset : ∀ i, i ≤ inputs.length → (commonVectors S i : Set (Fin x.len → ℂ)) = x.coefficients t V (HasSymmetries den inputs i) := by
    intro i hil
    ext v
    constructor
    · intro hv
      obtain ⟨A, a, b⟩ := hx.exists htype v
      exact ⟨A, a, b, (hcommon i hil v A a b).mp hv⟩
    · rintro ⟨A, a, b, c⟩
      exact (hcommon i hil v A a b).mpr c
  have hout : ∀ i < inputs.length, ∃ (vecs : List (Fin x.len → ℂ)) (M : Matrix (Fin x.len) (Fin x.len) ℂ) (a : Fin x.len → ℝ) (b : Matrix (Fin x.len) (Fin x.len) ℂ), gs[i]? = some ⟨x.len, vecs, M, a, b⟩ ∧ OrthonormalColumns vecs ∧ (∀ v ∈ vecs, M *ᵥ v = 0) ∧
      colSpan vecs = S i := by
    intro i hil
    obtain ⟨g, vecs, M, a, b, e1, rfl, r⟩ := hget i _ (List.getElem?_eq_getElem hil)
    refine ⟨vecs, M, a, b, e1, r.orthonormal, r.null, ?_⟩
    simp only [S, List.getElem?_eq_getElem hil]
    rw [r.coefficients hx htype, Submodule.span_eq]
  have hg : ∀ i, 0 < i → i < inputs.length → AngleGap (n := x.len) (S i) (commonVectors S i) (1 / 10 ^ 10) := by
    intro i i0 hil
    rw [hset i hil.le]
    have := hgap i _ i0 (List.getElem?_eq_getElem hil)
    have e : (S i : Set (Fin x.len → ℂ)) = x.coefficients t V (inputs[i].Holds den) := by
      obtain ⟨g, vecs, M, a, b, -, -, r⟩ := hget i _ (List.getElem?_eq_getElem hil)
      simp only [S, List.getElem?_eq_getElem hil]
      rw [r.coefficients hx htype, Submodule.span_eq]
    rw [e]
    exact this
  obtain ⟨P, p1, p2, p3⟩ := projectLoop_ok he hout hg t1 inputs.length 0 [] (by omega) rfl (by intro i hi; simp at hi)
  have hsp : ∃ Q, (if s then sparsifyLoop lu argsort (List.range inputs.length) P else .ok P) = .ok Q ∧ Q.length = inputs.length ∧ ProjectedOK S Q := by
    cases s with
    | false => exact ⟨P, by simp, p2, p3⟩
    | true =>
      obtain ⟨Q, a, b, c⟩ := sparsifyLoop_ok hlu hsort (List.range inputs.length) P (fun i hi => by rw [p2]; exact List.mem_range.mp hi) p3
      exact ⟨Q, by simpa using a, by rw [b, p2], c⟩
  obtain ⟨Q, q1, q2, q3⟩ := hsp
  refine ⟨P, Q, by rw [List.range_eq_range']; exact p1, q1, q2, ?_⟩
  intro i c hic
  obtain ⟨hil, -⟩ := List.getElem?_eq_some_iff.mp hic
  change i < Q.length at hil
  obtain ⟨q, e1, e2, e3⟩ := q3 i hil
  rw [hic] at e1
  cases e1
  refine ⟨q, rfl, e2, fun v A hA hc => ?_⟩
  rw [e3]
  exact hcommon (i + 1) (by omega) v A hA hc

theorem StrAlg.noncumulative (R : StrAlg ℂ 𝔸) [Nontrivial 𝔸] (hV : ∀ s, V s → R.Str s) {eigh : Eigh} (he : ExactEigh eigh)
    {pinv : Mat ℂ → Py (Mat ℂ)} (hp : IsPinv pinv) {lu : PermutedLu} (hlu : ExactLu lu) {argsort : List ℕ → List ℕ} (hsort : IsSort argsort)
    {x : BasisArg ℂ} (hx : x.On R.type V) (hne : x ≠ .operators []) {inputs : List SymmetryInput} (hi : ∀ inp ∈ inputs, inp.Valid R.type V)
    (ho : (∃ inp ∈ inputs, ∃ T, inp.symmetry = .transformation T) → x.Orthonormal R.type V)
    (hgap : ∀ i inp, 0 < i → inputs[i]? = some inp →
      AngleGap (x.coefficients R.type V (inp.Holds R.den)) (x.coefficients R.type V (HasSymmetries R.den inputs i)) (1 / 10 ^ 10)) (s : Bool) :
    ∃ δ > 0, ∀ tol, 0 < tol → tol ≤ δ → ∃ st, generateNoncumulative eigh pinv lu argsort x inputs {} s false tol = .ok st ∧
      st.Correct R.den R.type V x inputs := by
  have htype : ∀ s, V s → s.opType = R.type := fun s hs => R.str_type s (hV s hs)
  obtain ⟨δ, hδ, gs, h1, h2⟩ := generateAll_ok R hV he hp hx hne inputs hi ho
  refine ⟨δ, hδ, fun tol t1 t2 => ?_⟩
  obtain ⟨P, Q, p1, q1, q2, q3⟩ := projectAll_ok htype he hlu hsort hx h2 hgap s t1
  refine ⟨⟨gs, Q⟩, ?_, ?_, q2, q3⟩
  · unfold generateNoncumulative
    simp only [h1 tol t1 t2, bind, Except.bind, List.nil_append]
    rw [p1]
    cases s with
    | false =>
      simp only [Bool.false_eq_true, if_false] at q1 ⊢
      cases q1; rfl
    | true =>
      simp only [if_true] at q1 ⊢
      rw [q1]; rfl
  · refine h2.imp ?_
    rintro inp g ⟨vecs, M, a, b, rfl, r⟩
    exact ⟨vecs, rfl, r.orthonormal, r.span⟩

end Qosy
