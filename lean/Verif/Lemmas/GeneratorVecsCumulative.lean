import Verif.Lemmas.GeneratorVecs
import Verif.Lemmas.GeneratorCumulative

/-! # The cumulative mode of the generator with `num_vecs` -/

namespace Qosy
open Matrix Coef
open scoped ComplexOrder
variable {𝔸 : Type} [Ring 𝔸] [Algebra ℂ 𝔸] {V : OpString → Prop}

/-- what is known about the vectors found with one symmetry -/
structure VecsFound (den : OpString → 𝔸) (t : OpType) (V : OpString → Prop) (x : BasisArg ℂ) (inp : SymmetryCall) (vecs : List (Fin x.len → ℂ)) (w : Bool) : Prop where
  orthonormal : OrthonormalColumns vecs
  sound : ∀ (v : Fin x.len → ℂ) (A : Operator ℂ), A.On t V → x.Combines v A → v ∈ colSpan vecs → inp.Holds den A
  complete : w = false → ∀ (v : Fin x.len → ℂ) (A : Operator ℂ), A.On t V → x.Combines v A → inp.Holds den A → v ∈ colSpan vecs
  few : ∀ k, inp.numVecs = some k → vecs.length ≤ k
  warning : w = true ↔ inp.numVecs = some vecs.length

theorem selectVecs_nil {n k : ℕ} (r : EighResult (Fin n) k) {a : ℝ} (h : ∀ j, r.evals j ≠ a) : ∃ δ > 0, ∀ tol, tol ≤ δ → selectVecs r a tol = [] := by
  have : ∃ δ : ℝ, 0 < δ ∧ ∀ j, δ ≤ |r.evals j - a| := by
    rcases isEmpty_or_nonempty (Fin k) with hE | hN
    · exact ⟨1, one_pos, fun j => isEmptyElim j⟩
    · obtain ⟨j, -, hj⟩ := Finset.exists_min_image (Finset.univ : Finset (Fin k)) (fun j => |r.evals j - a|) Finset.univ_nonempty
      exact ⟨_, abs_pos.mpr (sub_ne_zero.mpr (h j)), fun l => hj l (Finset.mem_univ _)⟩
  obtain ⟨δ, hδ, hd⟩ := this
  refine ⟨δ, hδ, fun tol ht => ?_⟩
  unfold selectVecs
  rw [List.map_eq_nil_iff, List.filter_eq_nil_iff]
  intro j _
  have := hd j
  simp only [decide_eq_true_eq, not_lt]
  linarith

/-- for all small tolerances there is the same exception, or the same result -/
theorem generateOneVecs_outcome (R : StrAlg ℂ 𝔸) [Nontrivial 𝔸] (hV : ∀ s, V s → R.Str s) {eigh : Eigh} (he : ExactEigh eigh) {eigsh : Eigsh} (hs : ExactEigsh eigsh)
    {pinv : Mat ℂ → Py (Mat ℂ)} (hp : IsPinv pinv) {x : BasisArg ℂ} (hx : x.On R.type V) (hne : x ≠ .operators []) {inp : SymmetryCall}
    (hi : inp.Valid R.type V) (ho : (∃ T, inp.symmetry = .transformation T) → x.Orthonormal R.type V) :
    ∃ δ > 0, ((∃ k, inp.numVecs = some k ∧ ((∃ T, inp.symmetry = .transformation T) ∨ k = 0 ∨ x.len ≤ k + 1)) ∧
        ∃ e, ∀ tol, 0 < tol → tol ≤ δ → generateOneVecs eigh eigsh pinv x inp tol = .error e) ∨
      ∃ vecs M w, (∀ tol, 0 < tol → tol ≤ δ → generateOneVecs eigh eigsh pinv x inp tol = .ok ⟨x.len, vecs, M, w⟩) ∧
        VecsFound R.den R.type V x inp vecs w := by
  obtain ⟨⟨sym, mode⟩, nv⟩ := inp
  cases nv with
  | none =>
    obtain ⟨δ, hδ, vecs, M, a, b, h1, h2⟩ := generateOne_ok R hV he hp hx hne hi ho
    refine ⟨δ, hδ, Or.inr ⟨vecs, M, false, fun tol t1 t2 => ?_, h2.orthonormal, fun v A hA hc => (h2.span v A hA hc).mp,
      fun _ v A hA hc => (h2.span v A hA hc).mpr, by simp, by simp⟩⟩
    unfold generateOneVecs
    dsimp only
    rw [h1 tol t1 t2]
    rfl
  | some k =>
    match sym, hi, ho with
    | .operator O, hi, ho =>
      obtain ⟨δ, hδ, h⟩ := generateOneVecs_operator R hV eigh hs pinv hx hne hi mode k
      rcases h with ⟨vecs, M, w, h1, h2⟩ | ⟨hk, e, h⟩
      · exact ⟨δ, hδ, Or.inr ⟨vecs, M, w, h1, h2.orthonormal, h2.sound, h2.complete, fun k' hk => by cases hk; exact h2.length,
          by rw [h2.warning, Option.some.injEq, eq_comm]⟩⟩
      · exact ⟨δ, hδ, Or.inl ⟨⟨k, rfl, Or.inr hk⟩, e, fun tol _ _ => h tol⟩⟩
    | .transformation T, hi, ho =>
      obtain ⟨hm, ε, f, hsr, hinj⟩ := hi
      have hxo := ho ⟨T, rfl⟩
      have hsg := Mode.symmetrySign hm
      have hσ := symmetrySign_sq hsg
      obtain ⟨S, l, h1, h2, h3, h4, h5⟩ := symmetryMatrixOf_compression hsr hp hxo hne
      have hg : ∀ tol, generateOneVecs eigh eigsh pinv x ⟨⟨.transformation T, mode⟩, some k⟩ tol =
          (do .ok (← (invariantOperatorsVecs eigsh pinv x T k mode.name tol)).found) := fun tol => rfl
      simp only [fun tol => invariantOperatorsVecs_eq (eigsh := eigsh) (tol := tol) (k := k) h1 hsg h2] at hg
      have hH := hermitianPart_isHermitian (fun i j => S.get i j : Matrix (Fin x.len) (Fin x.len) ℂ)
      cases hr : eigsh x.len (hermitianPart (fun i j => S.get i j)) k mode.sign with
      | error e =>
        refine ⟨1, one_pos, Or.inl ⟨⟨k, rfl, Or.inl ⟨T, rfl⟩⟩, e, fun tol _ _ => ?_⟩⟩
        rw [hg, hr]; rfl
      | ok r =>
        have hE := hs.correct _ _ _ _ _ hH hr
        have hnot : ¬ IsEigenvalue (hermitianPart (fun i j => S.get i j : Matrix (Fin x.len) (Fin x.len) ℂ)) (mode.sign : ℝ) := by
          intro h
          obtain ⟨e, h⟩ := hs.singular _ _ k _ hH h
          rw [hr] at h
          cases h
        obtain ⟨δ, hδ, hd⟩ := selectVecs_nil r (a := (mode.sign : ℝ)) (fun j hj => hnot ⟨_, hE.column_ne j, by rw [← hj]; exact hE.column j⟩)
        refine ⟨δ, hδ, Or.inr ⟨[], 1 - ((mode.sign : ℤ) : ℂ) • hermitianPart (fun i j => S.get i j), decide (0 = k), fun tol t1 t2 => ?_, ?_, ?_, ?_, ?_, ?_⟩⟩
        · rw [hg, hr]
          simp only [Except.map, bind, Except.bind, GeneratedVecs.found, hd tol t2]
          rfl
        · intro i j hi
          simp at hi
        · intro v A hA hv h
          have hv0 : v = 0 := by
            rw [colSpan] at h
            simpa using h
          obtain ⟨B, hB, -⟩ := apply_ok hsr.maps hA
          exact ⟨B, hB, (h5.eigen_iff hsr hinj h3 h4 hσ hA hv hB).mp (by rw [hv0]; simp)⟩
        · rintro - v A hA hv ⟨B, hB, hinv⟩
          by_cases hv0 : v = 0
          · rw [hv0]; exact Submodule.zero_mem _
          · exact absurd ⟨v, hv0, (h5.eigen_iff hsr hinj h3 h4 hσ hA hv hB).mpr hinv⟩ hnot
        · simp
        · simp [eq_comm]
    | .other, hi, ho => exact hi.elim

/-- one step -/
theorem cumulativeStepVecs_ok (R : StrAlg ℂ 𝔸) [Nontrivial 𝔸] (hV : ∀ s, V s → R.Str s) {eigh : Eigh} (he : ExactEigh eigh) {eigsh : Eigsh} (hs : ExactEigsh eigsh)
    {pinv : Mat ℂ → Py (Mat ℂ)} (hp : IsPinv pinv) {lu : PermutedLu} (hlu : ExactLu lu) {argsort : List ℕ → List ℕ} (hsort : IsSort argsort)
    {x : BasisArg ℂ} (hx : x.On R.type V) (hind : x.Independent) (hne : x ≠ .operators []) {inp : SymmetryCall}
    (hi : inp.Valid R.type V) (ho : (∃ T, inp.symmetry = .transformation T) → x.Orthonormal R.type V) (s o : Bool) :
    ∃ δ > 0, ((∃ k, inp.numVecs = some k ∧ ((∃ T, inp.symmetry = .transformation T) ∨ k = 0 ∨ x.len ≤ k + 1)) ∧
        ∃ e, ∀ tol, 0 < tol → tol ≤ δ → cumulativeStepVecs eigh eigsh pinv lu argsort x inp s o tol = .error e) ∨
      ∃ ops w, (∀ tol, 0 < tol → tol ≤ δ → cumulativeStepVecs eigh eigsh pinv lu argsort x inp s o tol = .ok (ops, w)) ∧
        SpansPart R.type V x (inp.Holds R.den) ops ∧ (w = false → SpansSymmetric R.type V x (inp.Holds R.den) ops) ∧
        ((s = false ∨ o = true) → x.Orthonormal R.type V → (BasisArg.operators ops).Orthonormal R.type V) ∧
        (∀ k, inp.numVecs = some k → ops.length ≤ k) ∧ (w = true ↔ inp.numVecs = some ops.length) := by
  have htype : ∀ s, V s → s.opType = R.type := fun s hs => R.str_type s (hV s hs)
  obtain ⟨δ1, d1, h1⟩ := generateOneVecs_outcome R hV he hs hp hx hne hi ho
  rcases h1 with ⟨hk, e, h1⟩ | ⟨vecs, M, w, h1, h2⟩
  · refine ⟨δ1, d1, Or.inl ⟨hk, e, fun tol t1 t2 => ?_⟩⟩
    unfold cumulativeStepVecs
    rw [h1 tol t1 t2]
    rfl
  · have huniq : ∀ (v w : Fin x.len → ℂ) (A : Operator ℂ), x.Combines v A → x.Combines w A → v = w := by
      intro v w A hv hw
      refine sub_eq_zero.mp (hind _ (fun s => ?_))
      simp only [Pi.sub_apply, sub_mul, Finset.sum_sub_distrib]
      rw [← hv s, ← hw s, sub_self]
    obtain ⟨δ2, d2, ops, q, q1, h3, h4, h5, h6⟩ := cumulativeOps_ok htype hlu hsort hx hind hne (P := fun A => ∃ v ∈ colSpan vecs, x.Combines v A) h2.orthonormal
      (fun v A hA hv => ⟨fun h => ⟨v, h, hv⟩, fun ⟨u, hu, hc⟩ => by rw [huniq v u A hv hc]; exact hu⟩) s o
    refine ⟨min δ1 δ2, lt_min d1 d2, Or.inr ⟨ops, w, fun tol t1 t2 => ?_, ⟨h4.on, h4.norm, h4.independent, fun A hA hw => ?_⟩, fun hw => ?_, h5, ?_, ?_⟩⟩
    · unfold cumulativeStepVecs
      rw [h1 tol t1 (t2.trans (min_le_left _ _))]
      simp only [bind, Except.bind, q1]
      rw [h3 tol t1 (t2.trans (min_le_right _ _))]
    · obtain ⟨a, v, hv, hc⟩ := (h4.span A hA).mp hw
      exact ⟨a, h2.sound v A hA hc hv⟩
    · refine ⟨h4.on, h4.norm, h4.independent, fun A hA => ?_⟩
      rw [h4.span A hA]
      exact ⟨fun ⟨a, v, hv, hc⟩ => ⟨a, h2.sound v A hA hc hv⟩, fun ⟨⟨v, hc⟩, b⟩ => ⟨⟨v, hc⟩, v, h2.complete hw v A hA hc b, hc⟩⟩
    · rw [h6]; exact h2.few
    · rw [h6]; exact h2.warning

theorem SpansPart.mono {t : OpType} {x : BasisArg ℂ} {P Q : Operator ℂ → Prop} (h : ∀ A, P A → Q A) {ops : List (Operator ℂ)} (hs : SpansPart t V x P ops) :
    SpansPart t V x Q ops :=
  ⟨hs.on, hs.norm, hs.independent, fun A hA hw => ⟨(hs.span A hA hw).1, h A (hs.span A hA hw).2⟩⟩

theorem SpansPart.trans {t : OpType} {x : BasisArg ℂ} {P Q : Operator ℂ → Prop} {l ops : List (Operator ℂ)} (h1 : SpansPart t V x P l)
    (h2 : SpansPart t V (.operators l) Q ops) : SpansPart t V x (fun A => P A ∧ Q A) ops :=
  ⟨h2.on, h2.norm, h2.independent, fun A hA hw => by
    obtain ⟨a, b⟩ := h2.span A hA hw
    obtain ⟨c, d⟩ := h1.span A hA a
    exact ⟨c, d, b⟩⟩

theorem BasisArg.coef_single (y : BasisArg ℂ) (i : Fin y.len) (s : OpString) : y.coef i s = ∑ j, (if j = i then 1 else 0) * y.coef j s := by
  rw [Finset.sum_eq_single i]
  · rw [if_pos rfl, one_mul]
  · intro j _ hj
    rw [if_neg hj, zero_mul]
  · intro h; exact absurd (Finset.mem_univ _) h

theorem BasisArg.Independent.vectors {x y : BasisArg ℂ} (hy : y.Independent) {v : Fin y.len → Fin x.len → ℂ} (hv : ∀ j s, y.coef j s = ∑ l, v j l * x.coef l s) :
    LinearIndependent ℂ v := by
  rw [Fintype.linearIndependent_iff]
  intro g hg
  refine fun i => congrFun (hy g (fun s => ?_)) i
  have e2 : ∀ j, g j * y.coef j s = ∑ l, (g j * v j l) * x.coef l s := fun j => by
    rw [hv j, Finset.mul_sum]; exact Finset.sum_congr rfl (fun l _ => by ring)
  simp only [e2]
  rw [Finset.sum_comm]
  refine Finset.sum_eq_zero (fun l _ => ?_)
  rw [← Finset.sum_mul]
  have := congrFun hg l
  simp only [Finset.sum_apply, Pi.smul_apply, smul_eq_mul, Pi.zero_apply] at this
  rw [this, zero_mul]

theorem FewerThan.of_part {t : OpType} {x : BasisArg ℂ} {P : Operator ℂ → Prop} {k : ℕ} (h : FewerThan t V x P k) {ops : List (Operator ℂ)}
    (hs : SpansPart t V x P ops) : ops.length < k := by
  have hone : ∀ i : Fin ops.length, ∃ v, x.Combines v ops[i] ∧ P ops[i] := by
    intro i
    obtain ⟨⟨v, hv⟩, hP⟩ := hs.span ops[i] (hs.on _ (List.getElem_mem _)) ⟨_, (BasisArg.operators ops).coef_single i⟩
    exact ⟨v, hv, hP⟩
  choose v hv hP using hone
  have key : LinearIndependent ℂ v := hs.independent.vectors (fun j s => hv j s)
  have := h (List.ofFn v) ?_ ?_
  · simpa using this
  · have := key.comp (Fin.cast (List.length_ofFn (f := v))) (Fin.cast_injective _)
    unfold IndependentColumns
    convert this using 2
    simp
    rfl
  · intro u hu
    obtain ⟨i, rfl⟩ := (List.mem_ofFn' _ _).mp hu
    exact ⟨ops[i], hs.on _ (List.getElem_mem _), hv i, hP i⟩

/-- an empty step leaves everything correct -/
theorem CumulativeVecsCorrect.skip {den : OpString → 𝔸} {t : OpType} {x : BasisArg ℂ} {done : List SymmetryCall} {p : List (List (Operator ℂ))} {w : Bool}
    (hc : CumulativeVecsCorrect den t V x done p w) (hl : p.getLast? = some []) (inp : SymmetryCall) : CumulativeVecsCorrect den t V x (done ++ [inp]) p w := by
  have hlen := hc.length
  have hget : ∀ (i : ℕ) ops, p[i]? = some ops → (done ++ [inp])[i]? = done[i]? := by
    intro i ops hi
    obtain ⟨hil, -⟩ := List.getElem?_eq_some_iff.mp hi
    exact List.getElem?_append_left (by omega)
  have hmap : (done ++ [inp]).map (·.toSymmetryInput) = done.map (·.toSymmetryInput) ++ [inp.toSymmetryInput] := by simp
  have hsym : ∀ (i : ℕ) ops (A : Operator ℂ), p[i]? = some ops →
      (HasSymmetries den ((done ++ [inp]).map (·.toSymmetryInput)) (i + 1) A ↔ HasSymmetries den (done.map (·.toSymmetryInput)) (i + 1) A) := by
    intro i ops A hi
    obtain ⟨hil, -⟩ := List.getElem?_eq_some_iff.mp hi
    rw [hmap]
    exact hasSymmetries_append (by simp; omega) A
  refine ⟨fun i ops hi => (hc.part i ops hi).mono (fun A h => (hsym i ops A hi).mpr h), by simp; omega, fun _ => hl, ?_, ?_, fun hw => ⟨fun i ops hi => ?_, ?_, fun _ => hl⟩⟩
  · intro i ops inp' k h1 h2
    rw [hget i ops h1] at h2
    exact hc.few i ops inp' k h1 h2
  · rw [hc.warning]
    refine exists_congr fun i => exists_congr fun ops => exists_congr fun inp' => and_congr_right fun h => ?_
    rw [hget i ops h]
  · exact ((hc.all hw).spans i ops hi).congr (fun A => (hsym i ops A hi).symm)
  · simp; omega

/-- a step that is not empty -/
theorem CumulativeVecsCorrect.step {den : OpString → 𝔸} {t : OpType} {x : BasisArg ℂ} {done : List SymmetryCall} {p : List (List (Operator ℂ))} {w w' : Bool}
    (hc : CumulativeVecsCorrect den t V x done p w) (hlen : p.length = done.length) {ops : List (Operator ℂ)} {inp : SymmetryCall}
    (h1 : SpansPart t V x (HasSymmetries den ((done ++ [inp]).map (·.toSymmetryInput)) (done.length + 1)) ops)
    (h2 : w = false → w' = false → SpansSymmetric t V x (HasSymmetries den ((done ++ [inp]).map (·.toSymmetryInput)) (done.length + 1)) ops)
    (h3 : ∀ k, inp.numVecs = some k → ops.length ≤ k) (h4 : w' = true ↔ inp.numVecs = some ops.length) :
    CumulativeVecsCorrect den t V x (done ++ [inp]) (p ++ [ops]) (w || w') := by
  have hmap : (done ++ [inp]).map (·.toSymmetryInput) = done.map (·.toSymmetryInput) ++ [inp.toSymmetryInput] := by simp
  have hcase : ∀ (i : ℕ) ops', (p ++ [ops])[i]? = some ops' → (i < p.length ∧ p[i]? = some ops' ∧ (done ++ [inp])[i]? = done[i]?) ∨
      (i = done.length ∧ ops' = ops ∧ (done ++ [inp])[i]? = some inp) := by
    intro i ops' hi
    by_cases hil : i < p.length
    · rw [List.getElem?_append_left hil] at hi
      exact Or.inl ⟨hil, hi, List.getElem?_append_left (by omega)⟩
    · obtain ⟨hil', e⟩ := List.getElem?_eq_some_iff.mp hi
      rw [List.length_append, List.length_singleton] at hil'
      obtain rfl : i = p.length := by omega
      rw [List.getElem_append_right (le_refl _)] at e
      simp only [Nat.sub_self, List.getElem_cons_zero] at e
      exact Or.inr ⟨hlen, e.symm, by rw [hlen]; simp⟩
  have hsym : ∀ (i : ℕ) (A : Operator ℂ), i < p.length →
      (HasSymmetries den ((done ++ [inp]).map (·.toSymmetryInput)) (i + 1) A ↔ HasSymmetries den (done.map (·.toSymmetryInput)) (i + 1) A) := by
    intro i A hi
    rw [hmap]
    exact hasSymmetries_append (by simp; omega) A
  refine ⟨fun i ops' hi => ?_, by simp [hlen], fun h => by simp [hlen] at h, ?_, ?_, fun hw => ⟨fun i ops' hi => ?_, by simp [hlen], fun h => by simp [hlen] at h⟩⟩
  · rcases hcase i ops' hi with ⟨a, b, -⟩ | ⟨rfl, rfl, -⟩
    · exact (hc.part i ops' b).mono (fun A h => (hsym i A a).mpr h)
    · exact h1
  · intro i ops' inp' k hi hin hk
    rcases hcase i ops' hi with ⟨a, b, e⟩ | ⟨rfl, rfl, e⟩
    · rw [e] at hin
      exact hc.few i ops' inp' k b hin hk
    · rw [e] at hin
      cases hin
      exact h3 k hk
  · rw [Bool.or_eq_true, hc.warning, h4]
    constructor
    · rintro (⟨i, ops', inp', a, b, c⟩ | h)
      · obtain ⟨hil, -⟩ := List.getElem?_eq_some_iff.mp a
        exact ⟨i, ops', inp', by rw [List.getElem?_append_left hil]; exact a, by rw [List.getElem?_append_left (by omega)]; exact b, c⟩
      · exact ⟨done.length, ops, inp, by rw [← hlen]; simp, by simp, h⟩
    · rintro ⟨i, ops', inp', a, b, c⟩
      rcases hcase i ops' a with ⟨-, a, e⟩ | ⟨rfl, rfl, e⟩
      · exact Or.inl ⟨i, ops', inp', a, by rw [← e]; exact b, c⟩
      · rw [e] at b
        cases b
        exact Or.inr c
  · rw [Bool.or_eq_false_iff] at hw
    rcases hcase i ops' hi with ⟨a, b, -⟩ | ⟨rfl, rfl, -⟩
    · exact ((hc.all hw.1).spans i ops' b).congr (fun A => (hsym i A a).symm)
    · exact h2 hw.1 hw.2

theorem generateCumulativeVecs_loop (R : StrAlg ℂ 𝔸) [Nontrivial 𝔸] (hV : ∀ s, V s → R.Str s) {eigh : Eigh} (he : ExactEigh eigh) {eigsh : Eigsh} (hs : ExactEigsh eigsh)
    {pinv : Mat ℂ → Py (Mat ℂ)} (hp : IsPinv pinv) {lu : PermutedLu} (hlu : ExactLu lu) {argsort : List ℕ → List ℕ} (hsort : IsSort argsort) (x : BasisArg ℂ) (s o : Bool) :
    ∀ (rest done : List SymmetryCall) (p : List (List (Operator ℂ))) (w : Bool) (l : List (Operator ℂ)), CumulativeVecsCorrect R.den R.type V x done p w →
      p.getLast? = some l → (∀ inp ∈ rest, inp.Valid R.type V) →
      ((∃ inp ∈ rest, ∃ T, inp.symmetry = .transformation T) → s = false ∨ o = true) →
      (s = false ∨ o = true → (∃ inp ∈ rest, ∃ T, inp.symmetry = .transformation T) ∨ x.Orthonormal R.type V → ∀ ops ∈ p, (BasisArg.operators ops).Orthonormal R.type V) →
      ∃ δ > 0, ((∃ inp ∈ rest, inp.numVecs ≠ none) ∧
          ∃ e, ∀ tol, 0 < tol → tol ≤ δ → generateCumulativeVecs eigh eigsh pinv lu argsort x s o tol rest false p w = .error e) ∨
        ∃ p' w', (∀ tol, 0 < tol → tol ≤ δ → generateCumulativeVecs eigh eigsh pinv lu argsort x s o tol rest false p w = .ok (p', w')) ∧
        CumulativeVecsCorrect R.den R.type V x (done ++ rest) p' w' ∧
        (s = false ∨ o = true → x.Orthonormal R.type V → ∀ ops ∈ p', (BasisArg.operators ops).Orthonormal R.type V)
  | [], done, p, w, l, hc, _, _, _, hort => ⟨1, one_pos, Or.inr ⟨p, w, fun _ _ _ => rfl, by rw [List.append_nil]; exact hc, fun h h' => hort h (Or.inr h')⟩⟩
  | inp :: rest, done, p, w, l, hc, hl, hv, htr, hort => by
    have hb : cumulativeBasis x false p = .ok (.operators l) := by simp [cumulativeBasis, hl]
    have hassoc : done ++ inp :: rest = (done ++ [inp]) ++ rest := by simp
    have hlp : l ∈ p := List.mem_of_getLast? hl
    have hpne : p ≠ [] := List.ne_nil_of_mem hlp
    by_cases hl0 : l = []
    · obtain ⟨δ, hδ, h⟩ := generateCumulativeVecs_loop R hV he hs hp hlu hsort x s o rest (done ++ [inp]) p w l (hc.skip (hl0 ▸ hl) inp) hl
        (fun i hi => hv i (List.mem_cons_of_mem _ hi)) (fun ⟨i, hi, h⟩ => htr ⟨i, List.mem_cons_of_mem _ hi, h⟩)
        (fun a b => hort a (b.imp (fun ⟨i, hi, h⟩ => ⟨i, List.mem_cons_of_mem _ hi, h⟩) id))
      have hstep : ∀ tol, generateCumulativeVecs eigh eigsh pinv lu argsort x s o tol (inp :: rest) false p w =
          generateCumulativeVecs eigh eigsh pinv lu argsort x s o tol rest false p w := fun tol => by
        rw [generateCumulativeVecs, hb]
        simp only [bind, Except.bind]
        rw [if_pos (by simp [BasisArg.isEmpty, hl0])]
      simp only [hstep, hassoc]
      exact ⟨δ, hδ, h.imp (fun ⟨⟨i, hi, hk⟩, h⟩ => ⟨⟨i, List.mem_cons_of_mem _ hi, hk⟩, h⟩) id⟩
    · have hlen : p.length = done.length := by
        by_contra hne
        have := hc.stop (lt_of_le_of_ne hc.length hne)
        rw [hl] at this
        exact hl0 (Option.some.inj this)
      have hlast : p[p.length - 1]? = some l := by rw [← List.getLast?_eq_getElem?]; exact hl
      have hpl : 0 < p.length := List.length_pos_of_ne_nil hpne
      have hsp := hc.part _ l hlast
      rw [show p.length - 1 + 1 = (done.map (·.toSymmetryInput)).length by simp; omega] at hsp
      have hstep : ∀ tol, generateCumulativeVecs eigh eigsh pinv lu argsort x s o tol (inp :: rest) false p w =
          (cumulativeStepVecs eigh eigsh pinv lu argsort (.operators l) inp s o tol >>= fun r =>
            generateCumulativeVecs eigh eigsh pinv lu argsort x s o tol rest false (p ++ [r.1]) (w || r.2)) := fun tol => by
        rw [generateCumulativeVecs, hb]
        simp only [bind, Except.bind]
        rw [if_neg (by simpa [BasisArg.isEmpty] using hl0)]
      have hmap : (done ++ [inp]).map (·.toSymmetryInput) = done.map (·.toSymmetryInput) ++ [inp.toSymmetryInput] := by simp
      obtain ⟨δ1, d1, h1⟩ := cumulativeStepVecs_ok R hV he hs hp hlu hsort (x := .operators l) hsp.on hsp.independent (by simpa using hl0)
        (hv inp (List.mem_cons_self ..)) (fun hT => hort (htr ⟨inp, List.mem_cons_self .., hT⟩) (Or.inl ⟨inp, List.mem_cons_self .., hT⟩) l hlp) s o
      rcases h1 with ⟨⟨k, hk, -⟩, e, h1⟩ | ⟨ops, w', h1, h2, h3, h4, h5, h6⟩
      · refine ⟨δ1, d1, Or.inl ⟨⟨inp, List.mem_cons_self .., by rw [hk]; simp⟩, e, fun tol t1 t2 => ?_⟩⟩
        rw [hstep, h1 tol t1 t2]; rfl
      · have hc' : CumulativeVecsCorrect R.den R.type V x (done ++ [inp]) (p ++ [ops]) (w || w') := by
          have hcat : ∀ A : Operator ℂ, HasSymmetries R.den ((done ++ [inp]).map (·.toSymmetryInput)) (done.length + 1) A ↔
              HasSymmetries R.den (done.map (·.toSymmetryInput)) (done.map (·.toSymmetryInput)).length A ∧ inp.Holds R.den A := fun A => by
            rw [hmap, show done.length + 1 = (done.map (·.toSymmetryInput)).length + 1 by simp]
            exact hasSymmetries_concat A
          refine hc.step hlen ((hsp.trans h2).mono (fun A h => (hcat A).mpr h)) (fun hw hw' => ?_) h5 h6
          have hs := (hc.all hw).spans _ l hlast
          rw [show p.length - 1 + 1 = (done.map (·.toSymmetryInput)).length by simp; omega] at hs
          exact (hs.trans (h3 hw')).congr (fun A => (hcat A).symm)
        obtain ⟨δ2, d2, h7⟩ := generateCumulativeVecs_loop R hV he hs hp hlu hsort x s o rest (done ++ [inp]) (p ++ [ops]) (w || w') ops hc' (by simp)
          (fun i hi => hv i (List.mem_cons_of_mem _ hi)) (fun ⟨i, hi, h⟩ => htr ⟨i, List.mem_cons_of_mem _ hi, h⟩)
          (fun a b ops' hops' => by
            have hp' := hort a (b.imp (fun ⟨i, hi, h⟩ => ⟨i, List.mem_cons_of_mem _ hi, h⟩) id)
            rcases List.mem_append.mp hops' with h | h
            · exact hp' _ h
            · rw [List.mem_singleton.mp h]
              exact h4 a (hp' l hlp))
        rw [hassoc]
        refine ⟨min δ1 δ2, lt_min d1 d2, ?_⟩
        rcases h7 with ⟨⟨i, hi, hk⟩, e, h7⟩ | ⟨p', w'', h7, h8, h9⟩
        · refine Or.inl ⟨⟨i, List.mem_cons_of_mem _ hi, hk⟩, e, fun tol t1 t2 => ?_⟩
          rw [hstep, h1 tol t1 (t2.trans (min_le_left _ _))]
          exact h7 tol t1 (t2.trans (min_le_right _ _))
        · refine Or.inr ⟨p', w'', fun tol t1 t2 => ?_, h8, h9⟩
          rw [hstep, h1 tol t1 (t2.trans (min_le_left _ _))]
          exact h7 tol t1 (t2.trans (min_le_right _ _))

theorem BasisArg.not_empty {x : BasisArg ℂ} (hne : x.len ≠ 0) : x ≠ .operators [] ∧ x.isEmpty = false := by
  refine ⟨by rintro rfl; exact hne rfl, ?_⟩
  cases x with
  | strings b => simp only [BasisArg.isEmpty, List.isEmpty_eq_false_iff]; rintro h; exact hne (by simp [BasisArg.len, h])
  | operators l => simp only [BasisArg.isEmpty, List.isEmpty_eq_false_iff]; rintro h; exact hne (by simp [BasisArg.len, h])

theorem StrAlg.cumulativeVecs (R : StrAlg ℂ 𝔸) [Nontrivial 𝔸] (hV : ∀ s, V s → R.Str s) {eigh : Eigh} (he : ExactEigh eigh) {eigsh : Eigsh} (hs : ExactEigsh eigsh)
    {pinv : Mat ℂ → Py (Mat ℂ)} (hp : IsPinv pinv) {lu : PermutedLu} (hlu : ExactLu lu) {argsort : List ℕ → List ℕ} (hsort : IsSort argsort) {x : BasisArg ℂ}
    (hx : x.On R.type V) (hind : x.Independent) (hne : x.len ≠ 0) {inputs : List SymmetryCall} (hi : ∀ inp ∈ inputs, inp.Valid R.type V)
    (ho : (∃ inp ∈ inputs, ∃ T, inp.symmetry = .transformation T) → x.Orthonormal R.type V) (s o : Bool)
    (htr : (∃ inp ∈ inputs.tail, ∃ T, inp.symmetry = .transformation T) → s = false ∨ o = true) :
    ∃ δ > 0, ((∃ (i : ℕ) (inp : SymmetryCall) (k : ℕ), inputs[i]? = some inp ∧ inp.numVecs = some k ∧
          (0 < i ∨ (∃ T, inp.symmetry = .transformation T) ∨ k = 0 ∨ x.len ≤ k + 1)) ∧
        ∃ e, ∀ tol, 0 < tol → tol ≤ δ → generateCumulativeVecs eigh eigsh pinv lu argsort x s o tol inputs true [] false = .error e) ∨
      ∃ p w, (∀ tol, 0 < tol → tol ≤ δ → generateCumulativeVecs eigh eigsh pinv lu argsort x s o tol inputs true [] false = .ok (p, w)) ∧
      CumulativeVecsCorrect R.den R.type V x inputs p w ∧
      (s = false ∨ o = true → x.Orthonormal R.type V → ∀ ops ∈ p, (BasisArg.operators ops).Orthonormal R.type V) := by
  have hnil : CumulativeVecsCorrect R.den R.type V x [] [] false := ⟨by simp, le_refl _, by simp, by simp, by simp, fun _ => ⟨by simp, le_refl _, by simp⟩⟩
  cases inputs with
  | nil => exact ⟨1, one_pos, Or.inr ⟨[], false, fun _ _ _ => rfl, hnil, by simp⟩⟩
  | cons inp rest =>
    obtain ⟨hxne, hxe⟩ := BasisArg.not_empty hne
    have hstep : ∀ tol, generateCumulativeVecs eigh eigsh pinv lu argsort x s o tol (inp :: rest) true [] false =
        (cumulativeStepVecs eigh eigsh pinv lu argsort x inp s o tol >>= fun r =>
          generateCumulativeVecs eigh eigsh pinv lu argsort x s o tol rest false [r.1] (false || r.2)) := fun tol => by
      rw [generateCumulativeVecs]
      simp only [cumulativeBasis, if_true, bind, Except.bind, hxe, Bool.false_eq_true, if_false]
      rfl
    obtain ⟨δ1, d1, h1⟩ := cumulativeStepVecs_ok R hV he hs hp hlu hsort hx hind hxne (hi inp (List.mem_cons_self ..))
      (fun hT => ho ⟨inp, List.mem_cons_self .., hT⟩) s o
    rcases h1 with ⟨⟨k, hk, hk'⟩, e, h1⟩ | ⟨ops, w', h1, h2, h3, h4, h5, h6⟩
    · refine ⟨δ1, d1, Or.inl ⟨⟨0, inp, k, rfl, hk, Or.inr hk'⟩, e, fun tol t1 t2 => ?_⟩⟩
      rw [hstep, h1 tol t1 t2]; rfl
    · have hone : ∀ A : Operator ℂ, HasSymmetries R.den ((([] : List SymmetryCall) ++ [inp]).map (·.toSymmetryInput)) (([] : List SymmetryCall).length + 1) A ↔ inp.Holds R.den A :=
        fun A => by simp [HasSymmetries]
      have hc := hnil.step (inp := inp) rfl (h2.mono (fun A h => (hone A).mpr h)) (fun _ hw => (h3 hw).congr (fun A => (hone A).symm)) h5 h6
      obtain ⟨δ2, d2, h7⟩ := generateCumulativeVecs_loop R hV he hs hp hlu hsort x s o rest [inp] [ops] (false || w') ops hc rfl
        (fun i h => hi i (List.mem_cons_of_mem _ h)) htr (fun a b ops' hops' => by
          rw [List.mem_singleton.mp hops']
          exact h4 a (b.elim (fun ⟨i, hi', h⟩ => ho ⟨i, List.mem_cons_of_mem _ hi', h⟩) id))
      refine ⟨min δ1 δ2, lt_min d1 d2, ?_⟩
      rcases h7 with ⟨⟨inp', hin, hk⟩, e, h7⟩ | ⟨p', w'', h7, h8, h9⟩
      · obtain ⟨k, hk⟩ := Option.ne_none_iff_exists'.mp hk
        obtain ⟨i, hil, rfl⟩ := List.getElem_of_mem hin
        refine Or.inl ⟨⟨i + 1, rest[i], k, by rw [List.getElem?_cons_succ, List.getElem?_eq_getElem], hk, Or.inl (by omega)⟩, e, fun tol t1 t2 => ?_⟩
        rw [hstep, h1 tol t1 (t2.trans (min_le_left _ _))]
        exact h7 tol t1 (t2.trans (min_le_right _ _))
      · refine Or.inr ⟨p', w'', fun tol t1 t2 => ?_, h8, h9⟩
        rw [hstep, h1 tol t1 (t2.trans (min_le_left _ _))]
        exact h7 tol t1 (t2.trans (min_le_right _ _))

theorem generateCumulativeVecs_none (eigh : Eigh) (eigsh : Eigsh) (pinv : Mat ℂ → Py (Mat ℂ)) (lu : PermutedLu) (argsort : List ℕ → List ℕ) (x : BasisArg ℂ)
    (s o : Bool) (tol : ℝ) : ∀ (inputs : List SymmetryInput) (first : Bool) (p : List (List (Operator ℂ))) (w : Bool),
    generateCumulativeVecs eigh eigsh pinv lu argsort x s o tol (inputs.map (fun inp => ⟨inp, none⟩)) first p w =
      (generateCumulative eigh pinv lu argsort x s o tol inputs first p).map (fun p => (p, w))
  | [], _, _, _ => rfl
  | inp :: inputs, first, p, w => by
    rw [List.map_cons, generateCumulativeVecs, generateCumulative]
    cases cumulativeBasis x first p with
    | error e => rfl
    | ok b =>
      simp only [bind, Except.bind]
      by_cases hb : b.isEmpty = true
      · rw [if_pos hb, if_pos hb]
        exact generateCumulativeVecs_none eigh eigsh pinv lu argsort x s o tol inputs false p w
      · rw [if_neg hb, if_neg hb]
        have e : cumulativeStepVecs eigh eigsh pinv lu argsort b ⟨inp, none⟩ s o tol = (cumulativeStep eigh pinv lu argsort b inp s o tol).map (fun ops => (ops, false)) := by
          unfold cumulativeStepVecs cumulativeStep generateOneVecs
          simp only [bind, Except.bind]
          cases generateOne eigh pinv b inp tol with
          | error e => rfl
          | ok g =>
            simp only [Generated.found]
            cases chosenVectors lu argsort s o g.vecs with
            | error e => rfl
            | ok v =>
              simp only
              cases v.mapM (vectorOperator b tol) <;> rfl
        rw [e]
        cases cumulativeStep eigh pinv lu argsort b inp s o tol with
        | error e => rfl
        | ok ops =>
          simp only [Except.map, Bool.or_false]
          exact generateCumulativeVecs_none eigh eigsh pinv lu argsort x s o tol inputs false (p ++ [ops]) w

end Qosy
