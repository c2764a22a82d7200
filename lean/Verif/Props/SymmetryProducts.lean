import Verif.Lemmas.GeneratorOne
import Verif.Props.Core
import Verif.Props.Transformation

/-! # C119: symmetries found separately hold for their products -/

namespace Qosy

section
variable {t : OpType} {V : OpString → Prop} {T U : Transformation ℂ} {ε ε' : OpString → ℂ} {f f' : OpString → OpString}

private theorem image_sum (hT : SignRule T t V ε f) (hinj : Set.InjOn f {s | V s}) : ∀ ts : List (ℂ × OpString), (∀ x ∈ ts, V x.2) →
    (∀ s, V s → (ts.map (fun x => x.1 * T.entry (f s) x.2)).sum = ε s * coefT ts s) ∧
      ∀ s', (∀ s, V s → f s ≠ s') → (ts.map (fun x => x.1 * T.entry s' x.2)).sum = 0
  | [], _ => by simp
  | x :: ts, h => by
    obtain ⟨h1, h2⟩ := image_sum hT hinj ts (fun y hy => h y (List.mem_cons_of_mem _ hy))
    have hx := h x List.mem_cons_self
    refine ⟨fun s hs => ?_, fun s' hs' => ?_⟩
    · rw [List.map_cons, List.sum_cons, h1 s hs, coefT_cons, Sends.entry (hT.sends _ hx)]
      by_cases e : x.2 = s
      · subst e; simp; ring
      · rw [if_neg e, if_neg (fun e' => e (hinj hx hs e'))]; ring
    · rw [List.map_cons, List.sum_cons, h2 s' hs', Sends.entry (hT.sends _ hx), if_neg (hs' _ hx)]; simp

private theorem image_coef (hT : SignRule T t V ε f) (hinj : Set.InjOn f {s | V s}) {A B : Operator ℂ} (hA : A.On t V) (hB : T.apply A = .ok B) :
    (∀ s, V s → B.coef (f s) = ε s * A.coef s) ∧ ∀ s', (∀ s, V s → f s ≠ s') → B.coef s' = 0 := by
  obtain ⟨C, c1, -, c2⟩ := apply_ok hT.maps hA
  rw [hB] at c1
  obtain rfl : B = C := Except.ok.inj c1
  obtain ⟨h1, h2⟩ := image_sum hT hinj A.terms (fun x hx => hA.mem _ (mem_terms hx))
  exact ⟨fun s hs => by rw [c2, h1 s hs]; rfl, fun s' hs' => by rw [c2, h2 s' hs']⟩

/-- a Transformation by signs respects and reflects multiples -/
private theorem image_multiple (hT : SignRule T t V ε f) (hinj : Set.InjOn f {s | V s}) {A A' B B' : Operator ℂ} (hA : A.On t V) (hB : B.On t V)
    (hA' : T.apply A = .ok A') (hB' : T.apply B = .ok B') (σ : ℂ) : (∀ s, B'.coef s = σ * A'.coef s) ↔ ∀ s, B.coef s = σ * A.coef s := by
  obtain ⟨a1, a2⟩ := image_coef hT hinj hA hA'
  obtain ⟨b1, b2⟩ := image_coef hT hinj hB hB'
  constructor
  · intro h s
    by_cases hs : V s
    · have := h (f s)
      rw [a1 s hs, b1 s hs] at this
      rcases hT.sign s hs with e | e <;> rw [e] at this
      · simpa using this
      · linear_combination -this
    · rw [coef_eq_zero (fun h => hs (hA.mem s h)), coef_eq_zero (fun h => hs (hB.mem s h)), mul_zero]
  · intro h s'
    by_cases hs : ∃ s, V s ∧ f s = s'
    · obtain ⟨s, hs, rfl⟩ := hs
      rw [a1 s hs, b1 s hs, h s]; ring
    · push Not at hs
      rw [a2 s' hs, b2 s' hs, mul_zero]

/-- the image of `A` is `σ A` -/
private def Multiple (T : Transformation ℂ) (σ : ℂ) (A : Operator ℂ) : Prop := ∀ B, T.apply A = .ok B → ∀ s, B.coef s = σ * A.coef s

private theorem multiple_iff {A B : Operator ℂ} (hB : T.apply A = .ok B) (σ : ℂ) : Multiple T σ A ↔ ∀ s, B.coef s = σ * A.coef s := by
  refine ⟨fun h => h B hB, fun h C hC => ?_⟩
  rw [hB] at hC
  obtain rfl : B = C := Except.ok.inj hC
  exact h

private theorem multiple_mul (hT : SignRule T t V ε f) (hi : Set.InjOn f {s | V s}) (hU : SignRule U t V ε' f') {A : Operator ℂ} (hA : A.On t V)
    {σ₁ σ₂ : ℂ} (h1 : σ₁ ≠ 0) (h2 : σ₂ ≠ 0) :
    (Multiple T σ₁ A → (Multiple U σ₂ A ↔ Multiple (T.mul U) (σ₁ * σ₂) A)) ∧ (Multiple U σ₂ A → (Multiple T σ₁ A ↔ Multiple (T.mul U) (σ₁ * σ₂) A)) := by
  obtain ⟨B, b1, b2, -⟩ := apply_ok hU.maps hA
  obtain ⟨B', C, D, e1, c1, d1, hCD⟩ := C40_mul hT.maps hU.maps (hT.noDrop hU) hA
  rw [b1] at e1
  obtain rfl : B = B' := Except.ok.inj e1
  obtain ⟨A', a1, -, -⟩ := apply_ok hT.maps hA
  have key := image_multiple hT hi hA b2 a1 d1 σ₂
  rw [multiple_iff a1, multiple_iff b1, multiple_iff c1]
  simp only [hCD]
  constructor
  · intro h
    rw [← key]
    exact forall_congr' fun s => by rw [h s, ← mul_assoc, mul_comm σ₁]
  · intro h
    have e := key.mpr h
    refine forall_congr' fun s => ?_
    rw [e s, show σ₁ * σ₂ * A.coef s = σ₂ * (σ₁ * A.coef s) by ring]
    exact (mul_right_injective₀ h2).eq_iff.symm

private theorem powLoop_rule (hT : SignRule T t V ε f) (hi : Set.InjOn f {s | V s}) {σ : ℂ} (h0 : σ ≠ 0) {A : Operator ℂ} (hA : A.On t V) (h : Multiple T σ A) :
    ∀ (m k : ℕ) {P : Transformation ℂ} {ε' : OpString → ℂ} {f' : OpString → OpString}, SignRule P t V ε' f' → Set.InjOn f' {s | V s} → Multiple P (σ ^ k) A →
      Multiple (powLoop T m P) (σ ^ (k + m)) A
  | 0, k, P, _, _, _, _, hm => by simpa [powLoop] using hm
  | m + 1, k, P, _, f', hP, hi', hm => by
    have := powLoop_rule hT hi h0 hA h m (k + 1) (P := P.mul T) (hP.mul hT) (fun s hs s' hs' e => hi hs hs' (hi' (hT.mem s hs) (hT.mem s' hs') e))
      (by rw [pow_succ]; exact (((multiple_mul hP hi' hT hA (pow_ne_zero k h0) h0).1 hm).mp h))
    rw [show k + 1 + m = k + (m + 1) by omega] at this
    exact this

private theorem powLoop_signRule (hT : SignRule T t V ε f) (hi : Set.InjOn f {s | V s}) :
    ∀ (m : ℕ) {P : Transformation ℂ} {ε' : OpString → ℂ} {f' : OpString → OpString}, SignRule P t V ε' f' → Set.InjOn f' {s | V s} →
      ∃ ε'' f'', SignRule (powLoop T m P) t V ε'' f'' ∧ Set.InjOn f'' {s | V s}
  | 0, _, _, _, hP, hi' => ⟨_, _, hP, hi'⟩
  | m + 1, _, _, _, hP, hi' => powLoop_signRule hT hi m (hP.mul hT) (fun s hs s' hs' e => hi hs hs' (hi' (hT.mem s hs) (hT.mem s' hs') e))

private theorem orthonormal_on {x : BasisArg ℂ} (h : x.Orthonormal t V) : x.On t V := by
  cases x with
  | strings b => exact h
  | operators l => exact h.1

private theorem sign_ne_zero {mode : String} {sign : ℤ} (h : symmetrySign mode = .ok sign) : (sign : ℂ) ≠ 0 := by
  unfold symmetrySign at h
  split at h
  · cases h; simp
  · split at h
    · cases h; simp
    · cases h

private theorem found (hT : SignRule T t V ε f) (hi : Set.InjOn f {s | V s}) {pinv : Mat ℂ → Py (Mat ℂ)} (hp : IsPinv pinv) {x : BasisArg ℂ}
    (hx : x.Orthonormal t V) (hne : x ≠ .operators []) {eigh : Eigh} (he : ExactEigh eigh) {mode : String} {sign : ℤ} (hs : symmetrySign mode = .ok sign) :
    ∃ δ > 0, ∀ tol, 0 < tol → tol ≤ δ → ∃ (vecs : List (Fin x.len → ℂ)) (M : _) (evals : _) (evecs : _),
      invariantOperators eigh pinv x T mode tol = .ok ⟨x.len, vecs, M, evals, evecs⟩ ∧
      ∀ (v : Fin x.len → ℂ) (A : Operator ℂ), A.On t V → (∀ s, A.coef s = ∑ j, v j * x.coef j s) → (v ∈ colSpan vecs ↔ Multiple T sign A) := by
  obtain ⟨δ, h0, h⟩ := C50_exact hT hi hp hx hne he hs
  refine ⟨δ, h0, fun tol t1 t2 => ?_⟩
  obtain ⟨vecs, M, evals, evecs, h1, -, h2⟩ := h tol t1 t2
  refine ⟨vecs, M, evals, evecs, h1, fun v A hA hv => ?_⟩
  obtain ⟨B, b1, -⟩ := apply_ok hT.maps hA
  rw [h2 v A B hA hv b1, multiple_iff b1]

/-- **C119** (products): let `T` and `U` be Transformations that map strings to strings up to a sign, one to one.  Search the same Basis or list of
Operators for `T`, for `U` and for `T * U`, where the last mode is `symmetry` if the first two modes agree, and `antisymmetry` otherwise.  Then an operator
that two of the three searches find is found by the third one too, for all tolerances below a positive bound. -/
theorem C119_product (hT : SignRule T t V ε f) (hi : Set.InjOn f {s | V s}) (hU : SignRule U t V ε' f') (hi' : Set.InjOn f' {s | V s})
    {pinv : Mat ℂ → Py (Mat ℂ)} (hp : IsPinv pinv) {x : BasisArg ℂ} (hx : x.Orthonormal t V) (hne : x ≠ .operators []) {eigh : Eigh} (he : ExactEigh eigh)
    {mode₁ mode₂ mode : String} {σ₁ σ₂ : ℤ} (h₁ : symmetrySign mode₁ = .ok σ₁) (h₂ : symmetrySign mode₂ = .ok σ₂) (h : symmetrySign mode = .ok (σ₁ * σ₂)) :
    ∃ δ > 0, ∀ tol, 0 < tol → tol ≤ δ → ∃ (V₁ V₂ V₁₂ : List (Fin x.len → ℂ)) (M₁ M₂ M₁₂ : _) (e₁ e₂ e₁₂ : _) (w₁ w₂ w₁₂ : _),
      invariantOperators eigh pinv x T mode₁ tol = .ok ⟨x.len, V₁, M₁, e₁, w₁⟩ ∧ invariantOperators eigh pinv x U mode₂ tol = .ok ⟨x.len, V₂, M₂, e₂, w₂⟩ ∧
      invariantOperators eigh pinv x (T.mul U) mode tol = .ok ⟨x.len, V₁₂, M₁₂, e₁₂, w₁₂⟩ ∧
      ∀ v : Fin x.len → ℂ, (v ∈ colSpan V₁ → v ∈ colSpan V₂ → v ∈ colSpan V₁₂) ∧ (v ∈ colSpan V₁ → v ∈ colSpan V₁₂ → v ∈ colSpan V₂) ∧
        (v ∈ colSpan V₂ → v ∈ colSpan V₁₂ → v ∈ colSpan V₁) := by
  obtain ⟨δ₁, p₁, q₁⟩ := found hT hi hp hx hne he h₁
  obtain ⟨δ₂, p₂, q₂⟩ := found hU hi' hp hx hne he h₂
  obtain ⟨δ, p, q⟩ := found (hT.mul hU) (fun s hs s' hs' e => hi' hs hs' (hi (hU.mem s hs) (hU.mem s' hs') e)) hp hx hne he h
  refine ⟨min δ (min δ₁ δ₂), lt_min p (lt_min p₁ p₂), fun tol t0 t1 => ?_⟩
  obtain ⟨V₁, M₁, e₁, w₁, a1, a2⟩ := q₁ tol t0 (t1.trans ((min_le_right _ _).trans (min_le_left _ _)))
  obtain ⟨V₂, M₂, e₂, w₂, b1, b2⟩ := q₂ tol t0 (t1.trans ((min_le_right _ _).trans (min_le_right _ _)))
  obtain ⟨V₁₂, M, e, w, c1, c2⟩ := q tol t0 (t1.trans (min_le_left _ _))
  refine ⟨V₁, V₂, V₁₂, M₁, M₂, M, e₁, e₂, e, w₁, w₂, w, a1, b1, c1, fun v => ?_⟩
  obtain ⟨A, hA, hv⟩ := (orthonormal_on hx).exists hT.type v
  rw [a2 v A hA hv, b2 v A hA hv, c2 v A hA hv]
  obtain ⟨m1, m2⟩ := multiple_mul hT hi hU hA (sign_ne_zero h₁) (sign_ne_zero h₂)
  rw [Int.cast_mul]
  exact ⟨fun r s => (m1 r).mp s, fun r s => (m1 r).mpr s, fun r s => (m2 r).mpr s⟩

/-- **C119** (powers): an operator with a symmetry or antisymmetry `T` has the symmetry `T ** n`, or for odd `n` the antisymmetry, and is found for it. -/
theorem C119_power (hT : SignRule T t V ε f) (hi : Set.InjOn f {s | V s}) {pinv : Mat ℂ → Py (Mat ℂ)} (hp : IsPinv pinv) {x : BasisArg ℂ}
    (hx : x.Orthonormal t V) (hne : x ≠ .operators []) {eigh : Eigh} (he : ExactEigh eigh) {n : ℕ} (hn : 0 < n)
    {mode mode' : String} {σ : ℤ} (h : symmetrySign mode = .ok σ) (h' : symmetrySign mode' = .ok (σ ^ n)) :
    ∃ P, T.pow n = .ok P ∧ ∃ δ > 0, ∀ tol, 0 < tol → tol ≤ δ → ∃ (W W' : List (Fin x.len → ℂ)) (M M' : _) (e e' : _) (w w' : _),
      invariantOperators eigh pinv x T mode tol = .ok ⟨x.len, W, M, e, w⟩ ∧ invariantOperators eigh pinv x P mode' tol = .ok ⟨x.len, W', M', e', w'⟩ ∧
      ∀ v ∈ colSpan W, v ∈ colSpan W' := by
  obtain ⟨m, rfl⟩ : ∃ m, n = m + 1 := ⟨n - 1, by omega⟩
  refine ⟨powLoop T m T, by unfold Transformation.pow; rw [if_neg (by omega)]; congr 2, ?_⟩
  obtain ⟨ε'', f'', k1, k2⟩ := powLoop_signRule hT hi m hT hi
  obtain ⟨δ₁, p₁, q₁⟩ := found hT hi hp hx hne he h
  obtain ⟨δ₂, p₂, q₂⟩ := found k1 k2 hp hx hne he h'
  refine ⟨min δ₁ δ₂, lt_min p₁ p₂, fun tol t0 t1 => ?_⟩
  obtain ⟨W, M, e, w, a1, a2⟩ := q₁ tol t0 (t1.trans (min_le_left _ _))
  obtain ⟨W', M', e', w', b1, b2⟩ := q₂ tol t0 (t1.trans (min_le_right _ _))
  refine ⟨W, W', M, M', e, e', w, w', a1, b1, fun v hv => ?_⟩
  obtain ⟨A, hA, hvA⟩ := (orthonormal_on hx).exists hT.type v
  rw [a2 v A hA hvA] at hv
  rw [b2 v A hA hvA, Int.cast_pow, show m + 1 = 1 + m by omega]
  exact powLoop_rule hT hi (sign_ne_zero h) hA hv m 1 hT hi (by rwa [pow_one])

end

/-! ### non-vacuity -/

private def xzBasis : Basis := Basis.ofList [⟨[.X], [0], .pauli, .float1⟩, ⟨[.X], [1], .pauli, .float1⟩, ⟨[.Y], [0], .pauli, .float1⟩, ⟨[.Z], [1], .pauli, .float1⟩]

private theorem xz_valid : ∀ s ∈ xzBasis.strs, CanonicalOn .pauli 2 s := by
  intro s hs
  simp only [xzBasis, Basis.ofList, List.mem_cons, List.not_mem_nil, or_false] at hs
  rcases hs with rfl | rfl | rfl | rfl <;>
    exact ⟨Or.inl ⟨rfl, ⟨rfl, by decide, rfl, by decide, by unfold siteLabels; decide, by decide⟩⟩, by decide, by decide⟩

/-- the operators that change sign under the exchange of two sites are invariant when the exchange is repeated -/
example (eigh : Eigh) (he : ExactEigh eigh) (pinv : Mat ℂ → Py (Mat ℂ)) (hp : IsPinv pinv) :
    ∃ P, (labelPermutation (labelsOf (permArray (Equiv.swap (0 : Fin 2) 1))) : Transformation ℂ).pow 2 = .ok P ∧
    ∃ δ > 0, ∀ tol, 0 < tol → tol ≤ δ → ∃ (W W' : List (Fin xzBasis.strs.length → ℂ)) (M M' : _) (e e' : _) (w w' : _),
      invariantOperators eigh pinv (.strings xzBasis) (labelPermutation (labelsOf (permArray (Equiv.swap (0 : Fin 2) 1)))) "antisymmetry" tol =
        .ok ⟨xzBasis.strs.length, W, M, e, w⟩ ∧
      invariantOperators eigh pinv (.strings xzBasis) P "symmetry" tol = .ok ⟨xzBasis.strs.length, W', M', e', w'⟩ ∧ ∀ v ∈ colSpan W, v ∈ colSpan W' :=
  C119_power (n := 2) (act_signRule (K := ℂ) (t := .pauli) (Equiv.swap (0 : Fin 2) 1))
    (fun s hs s' hs' h => by rw [← (act_inv hs (Equiv.swap (0 : Fin 2) 1)).1, h, (act_inv hs' (Equiv.swap (0 : Fin 2) 1)).1]) hp
    (x := .strings xzBasis) ⟨Basis.Inv.ofList (by decide), xz_valid⟩ (by simp) he (by norm_num) (σ := -1)
    ((C50_sign "antisymmetry").2.2 (by simp)) (by rw [show ((-1 : ℤ) ^ 2) = 1 by norm_num]; exact (C50_sign "symmetry").1.2 (by simp))

/-- the exchange of two sites, time reversal and their product -/
example (eigh : Eigh) (he : ExactEigh eigh) (pinv : Mat ℂ → Py (Mat ℂ)) (hp : IsPinv pinv) :
    ∃ δ > 0, ∀ tol, 0 < tol → tol ≤ δ → ∃ (V₁ V₂ V₁₂ : List (Fin xzBasis.strs.length → ℂ)) (M₁ M₂ M₁₂ : _) (e₁ e₂ e₁₂ : _) (w₁ w₂ w₁₂ : _),
      invariantOperators eigh pinv (.strings xzBasis) (labelPermutation (labelsOf (permArray (Equiv.swap (0 : Fin 2) 1)))) "symmetry" tol =
        .ok ⟨xzBasis.strs.length, V₁, M₁, e₁, w₁⟩ ∧
      invariantOperators eigh pinv (.strings xzBasis) timeReversal "antisymmetry" tol = .ok ⟨xzBasis.strs.length, V₂, M₂, e₂, w₂⟩ ∧
      invariantOperators eigh pinv (.strings xzBasis) ((labelPermutation (labelsOf (permArray (Equiv.swap (0 : Fin 2) 1)))).mul timeReversal) "antisymmetry" tol =
        .ok ⟨xzBasis.strs.length, V₁₂, M₁₂, e₁₂, w₁₂⟩ ∧
      ∀ v : Fin xzBasis.strs.length → ℂ, (v ∈ colSpan V₁ → v ∈ colSpan V₂ → v ∈ colSpan V₁₂) ∧ (v ∈ colSpan V₁ → v ∈ colSpan V₁₂ → v ∈ colSpan V₂) ∧
        (v ∈ colSpan V₂ → v ∈ colSpan V₁₂ → v ∈ colSpan V₁) := by
  have h := timeReversal_signRule (K := ℂ) .pauli (siteLabels 2)
  exact C119_product (act_signRule (K := ℂ) (t := .pauli) (Equiv.swap (0 : Fin 2) 1))
    (fun s hs s' hs' h => by rw [← (act_inv hs (Equiv.swap (0 : Fin 2) 1)).1, h, (act_inv hs' (Equiv.swap (0 : Fin 2) 1)).1])
    (U := timeReversal) (ε' := trSign ℂ) (f' := id)
    ⟨fun s hs => h.type s hs.1, fun s hs => h.sends s hs.1, fun s hs => h.sign s hs.1, fun s hs => hs⟩ (Set.injOn_id _) hp
    (x := .strings xzBasis) ⟨Basis.Inv.ofList (by decide), xz_valid⟩ (by simp) he (σ₁ := 1) (σ₂ := -1) ((C50_sign "symmetry").1.2 (by simp))
    ((C50_sign "antisymmetry").2.2 (by simp)) (by rw [show (1 * -1 : ℤ) = -1 by norm_num]; exact (C50_sign "antisymmetry").2.2 (by simp))

end Qosy
