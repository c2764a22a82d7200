import Verif.Lemmas.ManyOps2
import Verif.Lemmas.GeneratorNoncumulative
import Verif.Props.LinAlg
import Verif.Spec.GeneratorOrthogonal

/-! # Lemmas: the orthogonalization in the noncumulative mode -/

namespace Qosy
variable {𝔸 : Type} [Ring 𝔸] [Algebra ℂ 𝔸] {V : OpString → Prop} {N : ℕ}

theorem colSpan_drop_le (q : List (Fin N → ℂ)) (k : ℕ) : colSpan (q.drop k) ≤ colSpan q :=
  Submodule.span_mono fun _ h => List.mem_of_mem_drop h

theorem OrthonormalColumns.ne_zero {q : List (Fin N → ℂ)} (h : OrthonormalColumns q) {v : Fin N → ℂ} (hv : v ∈ q) : v ≠ 0 := by
  rintro rfl
  have := h.unit hv
  rw [vnorm_eq_zero.mpr rfl] at this
  exact zero_ne_one this

theorem orthogonalizeStep_ok {c p : List (Fin N → ℂ)} (hc : OrthonormalColumns c) (hp : OrthonormalColumns p) (h : colSpan c ≤ colSpan p) :
    ∃ q : List (Fin N → ℂ), orthogonalizeStep ⟨N, c⟩ ⟨N, p⟩ = .ok ⟨N, q⟩ ∧ OrthonormalColumns q ∧ colSpan c ≤ colSpan q ∧ colSpan q ≤ colSpan p := by
  have hl : c.length ≤ p.length := by
    rw [← (orthonormal_independent hc).finrank, ← (orthonormal_independent hp).finrank]
    exact Submodule.finrank_mono h
  have hs : colSpan (c ++ p.drop c.length) ≤ colSpan p := by
    rw [colSpan_append]
    exact sup_le h (colSpan_drop_le _ _)
  have hs' : colSpan c ≤ colSpan (c ++ p.drop c.length) := by
    rw [colSpan_append]
    exact le_sup_left
  have key : ∃ q, gramSchmidt (c ++ p.drop c.length) 0 = some q ∧ OrthonormalColumns q ∧ colSpan q = colSpan (c ++ p.drop c.length) := by
    cases e : c ++ p.drop c.length with
    | nil => exact ⟨[], rfl, fun i j hi => by simp at hi, rfl⟩
    | cons a l =>
      refine C27_span l ?_
      have ha : a ∈ c ++ p.drop c.length := by rw [e]; exact List.mem_cons_self ..
      rcases List.mem_append.mp ha with ha | ha
      · exact hc.ne_zero ha
      · exact hp.ne_zero (List.mem_of_mem_drop ha)
  obtain ⟨q, q1, q2, q3⟩ := key
  refine ⟨q, ?_, q2, q3 ▸ hs', q3 ▸ hs⟩
  simp only [orthogonalizeStep, dif_pos, if_pos hl, q1]

theorem orthogonalizeLoop_ok : ∀ (k : ℕ) (Q : List (List (Fin N → ℂ))), k < Q.length → (∀ q ∈ Q, OrthonormalColumns q) →
    (∀ i c d, Q[i]? = some c → Q[i + 1]? = some d → colSpan d ≤ colSpan c) →
    ∃ Q' : List (List (Fin N → ℂ)), orthogonalizeLoop (List.range' 1 k).reverse (Q.map (⟨N, ·⟩)) = .ok (Q'.map (⟨N, ·⟩)) ∧
      Q'.length = Q.length ∧ (∀ q ∈ Q', OrthonormalColumns q) ∧ (∀ i c d, Q'[i]? = some c → Q'[i + 1]? = some d → colSpan d ≤ colSpan c) ∧
      (∀ (i : ℕ) c d, Q'[i]? = some c → Q[i]? = some d → colSpan c ≤ colSpan d) ∧ ∀ i : ℕ, k ≤ i → Q'[i]? = Q[i]? := by
  intro k
  induction k with
  | zero =>
    intro Q _ ho hn
    exact ⟨Q, rfl, rfl, ho, hn, fun i c d h1 h2 => by rw [h1] at h2; cases h2; exact le_rfl, fun _ _ => rfl⟩
  | succ k ih =>
    intro Q hk ho hn
    have e : (List.range' 1 (k + 1)).reverse = (k + 1) :: (List.range' 1 k).reverse := by
      rw [List.range'_concat]; simp [Nat.add_comm]
    obtain ⟨c, hc⟩ : ∃ c, Q[k + 1]? = some c := ⟨_, List.getElem?_eq_getElem hk⟩
    obtain ⟨p, hp⟩ : ∃ p, Q[k]? = some p := ⟨_, List.getElem?_eq_getElem (by omega)⟩
    obtain ⟨q, q1, q2, q3, q4⟩ := orthogonalizeStep_ok (ho c (List.mem_of_getElem? hc)) (ho p (List.mem_of_getElem? hp)) (hn k p c hp hc)
    have hset : ∀ i, (Q.set k q)[i]? = if i = k then some q else Q[i]? := by
      intro i
      rw [List.getElem?_set]
      by_cases hi : k = i
      · subst hi
        rw [if_pos rfl, if_pos rfl, if_pos (by omega)]
      · rw [if_neg hi, if_neg (fun h => hi h.symm)]
    obtain ⟨Q', a1, a2, a3, a4, a5, a6⟩ := ih (Q.set k q) (by rw [List.length_set]; omega)
      (fun r hr => (List.mem_or_eq_of_mem_set hr).elim (ho r) (fun h => h ▸ q2))
      (by
        intro i c' d' h1 h2
        rw [hset] at h1 h2
        split at h1
        · rename_i hi
          subst hi
          rw [if_neg (by omega), hc] at h2
          cases h1; cases h2
          exact q3
        · split at h2
          · rename_i hi
            cases h2
            exact q4.trans (hn i c' p h1 (hi ▸ hp))
          · exact hn i c' d' h1 h2)
    refine ⟨Q', ?_, by rw [a2, List.length_set], a3, a4, ?_, ?_⟩
    · rw [e, orthogonalizeLoop]
      simp only [pyGet, List.getElem?_map, hc, Option.map_some, bind, Except.bind, Nat.add_sub_cancel, hp, q1]
      rw [← a1, List.map_set]
    · intro i c' d' h1 h2
      by_cases hi : i = k
      · subst hi
        rw [hp] at h2
        cases h2
        exact (a5 i c' q h1 (by rw [hset, if_pos rfl])).trans q4
      · exact a5 i c' d' h1 (by rw [hset, if_neg hi]; exact h2)
    · intro i hi
      rw [a6 i (by omega), hset, if_neg (by omega)]

/-- the noncumulative mode with `orthogonalization=True` -/
theorem StrAlg.noncumulative_orthogonal (R : StrAlg ℂ 𝔸) [Nontrivial 𝔸] (hV : ∀ s, V s → R.Str s) {eigh : Eigh} (he : ExactEigh eigh)
    {pinv : Mat ℂ → Py (Mat ℂ)} (hp : IsPinv pinv) {lu : PermutedLu} (hlu : ExactLu lu) {argsort : List ℕ → List ℕ} (hsort : IsSort argsort)
    {x : BasisArg ℂ} (hx : x.On R.type V) (hne : x ≠ .operators []) {inputs : List SymmetryInput} (hi : ∀ inp ∈ inputs, inp.Valid R.type V)
    (ho : (∃ inp ∈ inputs, ∃ T, inp.symmetry = .transformation T) → x.Orthonormal R.type V)
    (hgap : ∀ i inp, 0 < i → inputs[i]? = some inp →
      AngleGap (x.coefficients R.type V (inp.Holds R.den)) (x.coefficients R.type V (HasSymmetries R.den inputs i)) (1 / 10 ^ 10)) (s : Bool) :
    ∃ δ > 0, ∀ tol, 0 < tol → tol ≤ δ → ∃ st, generateNoncumulative eigh pinv lu argsort x inputs {} s true tol = .ok st ∧
      st.Nested R.den R.type V x inputs := by
  have htype : ∀ s, V s → s.opType = R.type := fun s hs => R.str_type s (hV s hs)
  obtain ⟨δ, hδ, h⟩ := R.noncumulative hV he hp hlu hsort hx hne hi ho hgap s
  refine ⟨δ, hδ, fun tol t1 t2 => ?_⟩
  obtain ⟨st, h1, h2⟩ := h tol t1 t2
  -- the columns before the orthogonalization
  have hcols : ∃ Q : List (List (Fin x.len → ℂ)), st.projected = Q.map (⟨x.len, ·⟩) := by
    have : ∀ l : List Columns, (∀ c ∈ l, ∃ q : List (Fin x.len → ℂ), c = ⟨x.len, q⟩) → ∃ Q : List (List (Fin x.len → ℂ)), l = Q.map (⟨x.len, ·⟩) := by
      intro l
      induction l with
      | nil => exact fun _ => ⟨[], rfl⟩
      | cons c l ih =>
        intro hl
        obtain ⟨Q, rfl⟩ := ih fun d hd => hl d (List.mem_cons_of_mem _ hd)
        obtain ⟨q, rfl⟩ := hl c (List.mem_cons_self ..)
        exact ⟨q :: Q, rfl⟩
    refine this _ fun c hc => ?_
    obtain ⟨i, hi⟩ := List.getElem?_of_mem hc
    obtain ⟨q, e, -⟩ := h2.projected i c hi
    exact ⟨q, e⟩
  obtain ⟨Q, hQ⟩ := hcols
  have hbasis : ∀ i q, Q[i]? = some q → OrthonormalColumns q ∧
      ∀ (v : Fin x.len → ℂ) (A : Operator ℂ), A.On R.type V → x.Combines v A → (v ∈ colSpan q ↔ HasSymmetries R.den inputs (i + 1) A) := by
    intro i q hq
    obtain ⟨q', e, b1, b2⟩ := h2.projected i ⟨x.len, q⟩ (by rw [hQ, List.getElem?_map, hq]; rfl)
    cases e
    exact ⟨b1, b2⟩
  have hlen : Q.length = inputs.length := by rw [← h2.length, hQ, List.length_map]
  have hstep : ∃ Q' : List (List (Fin x.len → ℂ)), orthogonalizeLoop (List.range' 1 (inputs.length - 1)).reverse (Q.map (⟨x.len, ·⟩)) = .ok (Q'.map (⟨x.len, ·⟩)) ∧
      Q'.length = Q.length ∧ (∀ q ∈ Q', OrthonormalColumns q) ∧ (∀ i c d, Q'[i]? = some c → Q'[i + 1]? = some d → colSpan d ≤ colSpan c) ∧
      (∀ (i : ℕ) c d, Q'[i]? = some c → Q[i]? = some d → colSpan c ≤ colSpan d) ∧ ∀ i : ℕ, inputs.length - 1 ≤ i → Q'[i]? = Q[i]? := by
    have ho' : ∀ q ∈ Q, OrthonormalColumns q := fun q hq => by
      obtain ⟨i, hi⟩ := List.getElem?_of_mem hq
      exact (hbasis i q hi).1
    have hn' : ∀ i c d, Q[i]? = some c → Q[i + 1]? = some d → colSpan d ≤ colSpan c := by
      intro i c d hc hd v hv
      obtain ⟨A, a, b⟩ := hx.exists htype v
      refine ((hbasis i c hc).2 v A a b).mpr ?_
      have := ((hbasis (i + 1) d hd).2 v A a b).mp hv
      exact fun inp hin => this inp (List.take_subset_take_left _ (by omega) hin)
    by_cases h0 : inputs.length = 0
    · have : Q = [] := List.length_eq_zero_iff.mp (hlen.trans h0)
      subst this
      exact ⟨[], by rw [h0]; rfl, rfl, ho', hn', fun i c d h => by simp at h, fun _ _ => rfl⟩
    · exact orthogonalizeLoop_ok _ Q (by omega) ho' hn'
  obtain ⟨Q', a1, a2, a3, a4, a5, a6⟩ := hstep
  refine ⟨⟨st.outputs, Q'.map (⟨x.len, ·⟩)⟩, ?_, h2.outputs, ?_, ?_, ?_, ?_⟩
  · unfold generateNoncumulative at h1 ⊢
    obtain ⟨new, e1, h1⟩ := py_bind_ok h1
    obtain ⟨p1, e2, h1⟩ := py_bind_ok h1
    simp only [e1, e2, bind, Except.bind, if_true]
    cases s with
    | false =>
      simp only [Bool.false_eq_true, if_false, bind, Except.bind, Except.ok.injEq] at h1 ⊢
      subst h1
      have hQ : p1 = _ := hQ
      rw [hQ, a1]
    | true =>
      simp only [Bool.false_eq_true, if_true, if_false, bind, Except.bind] at h1 ⊢
      cases e3 : sparsifyLoop lu argsort (List.range inputs.length) p1 with
      | error e => rw [e3] at h1; simp at h1
      | ok p2 =>
        rw [e3] at h1
        simp only [Except.ok.injEq] at h1
        subst h1
        have hQ : p2 = _ := hQ
        simp only
        rw [hQ, a1]
  · rw [List.length_map, a2, hlen]
  · intro i c hc
    obtain ⟨q, hq, rfl⟩ : ∃ q, Q'[i]? = some q ∧ (⟨x.len, q⟩ : Columns) = c := by
      simpa [List.getElem?_map, Option.map_eq_some_iff] using hc
    obtain ⟨d, hd⟩ : ∃ d, Q[i]? = some d := by
      obtain ⟨hil, -⟩ := List.getElem?_eq_some_iff.mp hq
      exact ⟨_, List.getElem?_eq_getElem (a2 ▸ hil)⟩
    exact ⟨q, rfl, a3 q (List.mem_of_getElem? hq), fun v A a b hv => ((hbasis i d hd).2 v A a b).mp (a5 i q d hq hd hv)⟩
  · intro i c d hc hd
    obtain ⟨p, hp, rfl⟩ : ∃ q, Q'[i]? = some q ∧ (⟨x.len, q⟩ : Columns) = c := by
      simpa [List.getElem?_map, Option.map_eq_some_iff] using hc
    obtain ⟨q, hq, rfl⟩ : ∃ q, Q'[i + 1]? = some q ∧ (⟨x.len, q⟩ : Columns) = d := by
      simpa [List.getElem?_map, Option.map_eq_some_iff] using hd
    exact ⟨x.len, q, p, rfl, rfl, a4 i p q hp hq⟩
  · intro c hc
    rw [List.getLast?_eq_getElem?, List.length_map, a2, hlen] at hc
    obtain ⟨q, hq, rfl⟩ : ∃ q, Q'[inputs.length - 1]? = some q ∧ (⟨x.len, q⟩ : Columns) = c := by
      simpa [List.getElem?_map, Option.map_eq_some_iff] using hc
    rw [a6 _ le_rfl] at hq
    obtain ⟨b1, b2⟩ := hbasis _ q hq
    refine ⟨q, rfl, b1, ?_⟩
    have : inputs.length - 1 + 1 = inputs.length := by
      obtain ⟨hil, -⟩ := List.getElem?_eq_some_iff.mp hq
      omega
    rwa [this] at b2

end Qosy
