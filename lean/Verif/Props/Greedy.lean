import Verif.Lemmas.GreedyLoop
import Verif.Lemmas.GreedyStop
import Verif.Lemmas.GreedyNumerics
import Verif.Lemmas.GreedyPenalty
import Verif.Lemmas.DiagNumerics
import Verif.Props.Algorithms

/-!
# Properties C58 – C62: `selected_ci_greedy`

`GreedyOK` describes the arguments: one operator `H` in `com_ops` and no transformations.  `IsNumerics` is the contract of the numerical routines
(`argsort`, `eigh`, `eigsh`, `sqrt`), which the real and complex numbers fulfil (`exists_numerics`).
-/

namespace Qosy
open Coef
variable {K : Type} [Field K] [StarRing K] [Coef K] [RealCoef K]
variable {𝔸 : Type} [Ring 𝔸] [Algebra K 𝔸] {S : Set ℤ}

theorem GreedyRec.isGreedyRecord {R : StrAlg K 𝔸} {H : Operator K} {least : Prop} {O : Operator K} {c : K} (h : GreedyRec R H least O c) :
    IsGreedyRecord R.Str R.den (H.den R.den) O c :=
  ⟨⟨h.basis.1, h.len, fun s hs => (R.str_type s (h.basis.2 s hs)).trans h.type.symm⟩, h.basis.2, h.real, h.unit, h.norm⟩

theorem selectedCiGreedy_done (R : StrAlg K 𝔸) {num : Numerics K} (hnum : IsNumerics num) {H : Operator K} {args : GreedyArgs K}
    (ha : GreedyOK R.Str H args) (he : args.explored = Explored.empty) {fuel : ℕ} {best : Operator K} {c : Option K} {ops : List (Operator K)} {norms : List K}
    (h : selectedCiGreedy num args fuel = .ok (some (best, c, ops, norms))) :
    List.Forall₂ (GreedyRec R H args.least) ops norms ∧ IsBest args.initialOperator ops norms best c ∧ norms.length ≤ args.numSteps := by
  unfold selectedCiGreedy at h
  rw [ha.com] at h
  simp only at h
  split at h
  · simp at h
  · cases hl : greedyLoop num args fuel fuel (greedyInit args) with
    | error e => simp [hl, bind, Except.bind] at h
    | ok r =>
      cases r with
      | none => simp [hl, bind, Except.bind] at h
      | some s =>
        simp only [hl, bind, Except.bind, Option.map_some, Except.ok.injEq, Option.some.injEq, Prod.mk.injEq] at h
        obtain ⟨rfl, rfl, rfl, rfl⟩ := h
        obtain ⟨h1, h2⟩ := greedyLoop_inv R hnum ha fuel fuel (greedyInit_inv ha (by rw [he]; exact Explored.empty_coherent _ _)) (Nat.zero_le _) hl
        exact ⟨h1.records, h1.best, h2⟩

/-! ### C58 -/

/-- **C58** (Pauli strings): every operator that `selected_ci_greedy` reports is normalised and real, the number reported with it is its squared commutator
norm with `H`, and the best operator is the one of the smallest reported norm. -/
theorem C58_pauli_partial (R : PauliRep K 𝔸 S) {num : Numerics K} (hnum : IsNumerics num) {H : Operator K} {args : GreedyArgs K}
    (ha : GreedyOK (PauliString S) H args) (he : args.explored = Explored.empty) {fuel : ℕ} {best : Operator K} {c : Option K} {ops : List (Operator K)} {norms : List K}
    (h : selectedCiGreedy num args fuel = .ok (some (best, c, ops, norms))) :
    List.Forall₂ (IsGreedyRecord (PauliString S) R.den (H.den R.den)) ops norms ∧ IsBest args.initialOperator ops norms best c ∧
      norms.length ≤ args.numSteps := by
  obtain ⟨h1, h2, h3⟩ := selectedCiGreedy_done R.strAlg hnum ha he h
  exact ⟨h1.imp fun _ _ h => h.isGreedyRecord, h2, h3⟩

/-- **C58** (Majorana strings) -/
theorem C58_majorana_partial (R : MajoranaRep K 𝔸 S) {num : Numerics K} (hnum : IsNumerics num) {H : Operator K} {args : GreedyArgs K}
    (ha : GreedyOK (MajoranaString S) H args) (he : args.explored = Explored.empty) {fuel : ℕ} {best : Operator K} {c : Option K} {ops : List (Operator K)} {norms : List K}
    (h : selectedCiGreedy num args fuel = .ok (some (best, c, ops, norms))) :
    List.Forall₂ (IsGreedyRecord (MajoranaString S) R.den (H.den R.den)) ops norms ∧ IsBest args.initialOperator ops norms best c ∧
      norms.length ≤ args.numSteps := by
  obtain ⟨h1, h2, h3⟩ := selectedCiGreedy_done R.strAlg hnum ha he h
  exact ⟨h1.imp fun _ _ h => h.isGreedyRecord, h2, h3⟩

/-- **C58**: the squared commutator norm is a property of the operators: there is only one number that `IsComNorm` describes -/
theorem C58_norm_unique [Nontrivial 𝔸] (R : PauliRep K 𝔸 S) {O H : 𝔸} {c c' : K} (h : IsComNorm (fun s => PauliString S s ∧ s.Canonical) R.den O H c)
    (h' : IsComNorm (fun s => PauliString S s ∧ s.Canonical) R.den O H c') : c = c' := IsComNorm.unique R.strAlg h h'

/-- it is zero for commuting operators only -/
theorem C58_norm_zero (R : PauliRep K 𝔸 S) {O H : 𝔸} (h : IsComNorm (fun s => PauliString S s ∧ s.Canonical) R.den O H (0 : K)) : O * H = H * O := by
  obtain ⟨strs, w, _, _, h3, h4⟩ := h
  have hz : ∀ i : Fin strs.length, w i = 0 := by
    have h5 := congrArg (fun x => (toC x).re) h4
    simp only [map_zero, Complex.zero_re, map_sum, Complex.re_sum] at h5
    have h6 := (Finset.sum_eq_zero_iff_of_nonneg (fun i _ => by
      rw [map_mul, toC_star]
      simp only [RCLike.star_def, ← Complex.normSq_eq_conj_mul_self, Complex.ofReal_re]
      exact Complex.normSq_nonneg _)).mp h5.symm
    intro i
    have := h6 i (Finset.mem_univ _)
    rw [map_mul, toC_star] at this
    simp only [RCLike.star_def, ← Complex.normSq_eq_conj_mul_self, Complex.ofReal_re] at this
    exact toC_inj (by rw [Complex.normSq_eq_zero.mp this, map_zero])
  have : linComb R.den strs w = 0 := Finset.sum_eq_zero fun i _ => by rw [hz i, zero_smul]
  rw [this] at h3
  exact sub_eq_zero.mp h3

theorem selectedCiGreedy_total (R : StrAlg K 𝔸) {num : Numerics K} (hnum : IsNumerics num) {H : Operator K} {args : GreedyArgs K}
    (ha : GreedyOK R.Str H args) (he : args.explored = Explored.empty) (hH : ∃ s ∈ H.basis.strs, s.labels ≠ []) (ht : args.targetOperator = none)
    (h1 : args.numSteps ≤ args.numHTerms.length) (h2 : args.numSteps ≤ args.maxSizes.length) {size terms : ℕ} (h3 : args.initialOperator.basis.len ≤ size)
    (h4 : ∀ z ∈ args.maxSizes, z ≤ size) (h5 : ∀ t ∈ args.numHTerms, t ≤ terms) {fuel : ℕ} (hf : args.numSteps ≤ fuel) :
    (∃ r, selectedCiGreedy num args fuel = .ok (some r)) ∨
      (selectedCiGreedy num args fuel = .error .valueError ∧ ((∃ z ∈ args.maxSizes, z = 0) ∨
        (0 < args.threshold ∧ 1 ≤ ((size + terms + 2 * args.numOTerms : ℕ) : ℚ) * args.threshold ^ 2))) := by
  have hl : (H.basis.strs.all fun s => s.labels.isEmpty) = false := by
    obtain ⟨s, hs, hn⟩ := hH
    rw [List.all_eq_false]
    exact ⟨s, hs, by simpa using hn⟩
  unfold selectedCiGreedy
  rw [ha.com]
  simp only [hl, Bool.false_eq_true, if_false]
  have hi := greedyInit_inv ha (R := R) (by rw [he]; exact Explored.empty_coherent _ _)
  rcases greedyLoop_total R hnum ha ht h1 h2 h4 h5 fuel fuel hi (by rw [hi.first rfl]; exact h3) (by omega) with ⟨s, h⟩ | ⟨h, h'⟩
  · left; simp only [h, bind, Except.bind]; exact ⟨_, rfl⟩
  · right; exact ⟨by simp only [h, bind, Except.bind], h'⟩

/-- `X_1` with complex coefficients -/
noncomputable def cX : Operator ℂ := ⟨[1], Basis.ofList [siteX], .pauli⟩

/-- three steps starting from `Z_1 + 2 Y_1` -/
noncomputable def cArgs : GreedyArgs ℂ :=
  { initialOperator := ⟨[1, 2], Basis.ofList [siteZ, siteY], .pauli⟩, comOps := [cX], numSteps := 3, numHTerms := [1, 2, 1], threshold := 0, maxSizes := [5, 1, 4] }

theorem cArgs_ok : GreedyOK (PauliString Set.univ) cX cArgs where
  com := rfl
  str := by intro s hs; simp [cX] at hs; subst hs; exact site_valid.1
  nodup := by simp [cX]
  transformations := rfl
  initial := ⟨Basis.Inv.ofList (by decide), rfl, by intro s hs; simp [cArgs] at hs; rcases hs with rfl | rfl <;> rfl⟩
  initialStr := by intro s hs; simp [cArgs] at hs; rcases hs with rfl | rfl; exacts [site_valid.2.2, site_valid.2.1]
  nonempty := by simp [cArgs]
  vecs := le_rfl
  target := by intro T hT; simp [cArgs] at hT

/-- non-vacuity: numerical routines as specified exist, and with them the search of `cArgs` ends with a result that the theorem describes. -/
example : ∃ (num : Numerics ℂ) (best : Operator ℂ) (c : Option ℂ) (ops : List (Operator ℂ)) (norms : List ℂ), IsNumerics num ∧
    selectedCiGreedy num cArgs 3 = .ok (some (best, c, ops, norms)) ∧ IsBest cArgs.initialOperator ops norms best c ∧ norms.length ≤ 3 := by
  obtain ⟨num, hnum⟩ := exists_numerics
  rcases selectedCiGreedy_total (waveRep ℂ).strAlg hnum cArgs_ok rfl ⟨siteX, by simp [cX], by decide⟩ rfl (le_refl 3) (le_refl 3) (size := 5) (terms := 2) (by simp [cArgs, Basis.len])
    (by simp [cArgs]) (by simp [cArgs]) (le_refl 3) with ⟨⟨b, c, ops, norms⟩, h⟩ | ⟨_, h⟩
  · exact ⟨num, b, c, ops, norms, hnum, h, (C58_pauli_partial (waveRep ℂ) hnum cArgs_ok rfl h).2⟩
  · rcases h with ⟨z, hz, rfl⟩ | h
    · simp [cArgs] at hz
    · simp [cArgs] at h

/-! ### C59 -/

/-- **C59** (Pauli strings): without a target and `orth_ops`, each reported operator minimises the commutator norm among all normalised real combinations of its
strings. -/
theorem C59_pauli_partial [Nontrivial 𝔸] (R : PauliRep K 𝔸 S) {num : Numerics K} (hnum : IsNumerics num) {H : Operator K} {args : GreedyArgs K}
    (ha : GreedyOK (PauliString S) H args) (hl : args.least) (he : args.explored = Explored.empty) {fuel : ℕ} {best : Operator K} {c : Option K} {ops : List (Operator K)} {norms : List K}
    (h : selectedCiGreedy num args fuel = .ok (some (best, c, ops, norms))) :
    List.Forall₂ (fun O c => IsLeastComNorm (fun s => PauliString S s ∧ s.Canonical) R.den O (H.den R.den) c) ops norms :=
  (selectedCiGreedy_done R.strAlg hnum ha he h).1.imp fun _ _ h => h.least hl inferInstance

/-- **C59** (Majorana strings) -/
theorem C59_majorana_partial [Nontrivial 𝔸] (R : MajoranaRep K 𝔸 S) {num : Numerics K} (hnum : IsNumerics num) {H : Operator K} {args : GreedyArgs K}
    (ha : GreedyOK (MajoranaString S) H args) (hl : args.least) (he : args.explored = Explored.empty) {fuel : ℕ} {best : Operator K} {c : Option K} {ops : List (Operator K)} {norms : List K}
    (h : selectedCiGreedy num args fuel = .ok (some (best, c, ops, norms))) :
    List.Forall₂ (fun O c => IsLeastComNorm (fun s => MajoranaString S s ∧ s.Canonical) R.den O (H.den R.den) c) ops norms :=
  (selectedCiGreedy_done R.strAlg hnum ha he h).1.imp fun _ _ h => h.least hl inferInstance

/-! ### C60 -/

/-- **C60**: in each step the next basis is the truncation of the operator just found, and the next operator has this basis, but its coefficients are the
first ones of the operator just found, whatever strings they belong to. -/
theorem C60_partial (R : PauliRep K 𝔸 S) {num : Numerics K} (hnum : IsNumerics num) {H : Operator K} {args : GreedyArgs K}
    (ha : GreedyOK (PauliString S) H args) (he : args.explored = Explored.empty) (ht : args.targetOperator = none) {fuel : ℕ} {s s' : GreedyState K} {stop : Bool}
    (hs : GreedyReach num args fuel s) (h : greedyStep num args fuel s = .ok (some (s', stop))) :
    ∃ O size, s'.operators.getLast? = some O ∧ args.maxSizes[s.step]? = some size ∧ IsTruncation O.basis O.coeffs s'.threshold size s'.basis ∧
      s'.operator.basis = s'.basis ∧ s'.operator.coeffs = O.coeffs.take s'.basis.len :=
  let ⟨O, size, h1, h2, h3, _⟩ := greedyStep_truncation R.strAlg hnum ha ht (greedyReach_inv R.strAlg hnum ha (by rw [he]; exact Explored.empty_coherent _ _) hs) h
  ⟨O, size, h1, h2, h3⟩

/-! ### C61 -/

/-- **C61**: the penalised matrix for `orth_ops` adds 10¹⁰ times the squared overlaps to the commutator norm, so that a minimiser of it is almost orthogonal to
the `orth_ops`, if some combination of the strings is orthogonal to them: the sum of its squared overlaps is at most 10⁻¹⁰ times the commutator norm of that one. -/
theorem C61_partial {com : Mat K} {b : Basis} (hb : b.Inv) (hc : com.IsHermitian b.len) (hn : ∀ u : ℕ → K, 0 ≤ toR (com.form b.len u)) (ops : List (Operator K)) :
    ∃ M, orthogonalizeComMatrix com b ops = .ok M ∧ M.IsHermitian b.len ∧
      (∀ u : ℕ → K, (∀ j, IsReal (u j)) →
        M.form b.len u = com.form b.len u + 10 ^ 10 * (ops.map (fun A => star (overlapWith b A u) * overlapWith b A u)).sum) ∧
      ∀ v w : ℕ → K, (∀ j, IsReal (v j)) → (∀ j, IsReal (w j)) → toR (M.form b.len v) ≤ toR (M.form b.len w) → (∀ A ∈ ops, overlapWith b A w = 0) →
        10 ^ 10 * (ops.map (fun A => ‖toC (overlapWith b A v)‖ ^ 2)).sum ≤ toR (com.form b.len w) := by
  obtain ⟨M, h1, h2, _, h4⟩ := orthogonalize_form hb hc ops
  have key : ∀ l : List (Operator K), ∀ u : ℕ → K, toC ((l.map (fun A => star (overlapWith b A u) * overlapWith b A u)).sum) =
      (((l.map (fun A => ‖toC (overlapWith b A u)‖ ^ 2)).sum : ℝ) : ℂ) := by
    intro l u
    induction l with
    | nil => simp
    | cons A l ih =>
      rw [List.map_cons, List.sum_cons, List.map_cons, List.sum_cons, map_add, ih, map_mul, toC_star, Complex.ofReal_add]
      congr 1
      rw [RCLike.star_def, ← Complex.normSq_eq_conj_mul_self, Complex.normSq_eq_norm_sq]
  refine ⟨M, h1, h2, fun u hu => h4 u (fun j _ => hu j), fun v w hv hw hle hort => ?_⟩
  rw [h4 v (fun j _ => hv j), h4 w (fun j _ => hw j)] at hle
  have e : (ops.map (fun A => star (overlapWith b A w) * overlapWith b A w)).sum = 0 :=
    List.sum_eq_zero (by
      intro x hx
      obtain ⟨A, hA, rfl⟩ := List.mem_map.mp hx
      rw [hort A hA, mul_zero])
  rw [e, mul_zero, add_zero] at hle
  refine le_trans ?_ hle
  have := hn v
  unfold toR at this ⊢
  rw [map_add, map_mul, key, map_pow, map_ofNat, Complex.add_re, ← Complex.ofReal_ofNat, ← Complex.ofReal_pow, ← Complex.ofReal_mul, Complex.ofReal_re]
  linarith

/-! ### C62 -/

/-- **C62** (Pauli strings): without a target the search ends after at most `num_steps` steps, if the lists of arguments are long enough; the only exception is
ValueError, which needs a zero maximal size or a threshold of at least `1 / √n`, where `n` bounds the number of strings of a basis: that of the initial operator or
a maximal size, plus the strings a step adds.  With the default arguments there is no exception up to `10¹²` strings. -/
theorem C62_pauli_partial (R : PauliRep K 𝔸 S) {num : Numerics K} (hnum : IsNumerics num) {H : Operator K} {args : GreedyArgs K}
    (ha : GreedyOK (PauliString S) H args) (he : args.explored = Explored.empty) (hH : ∃ s ∈ H.basis.strs, s.labels ≠ []) (ht : args.targetOperator = none)
    (h1 : args.numSteps ≤ args.numHTerms.length) (h2 : args.numSteps ≤ args.maxSizes.length) {size terms : ℕ} (h3 : args.initialOperator.basis.len ≤ size)
    (h4 : ∀ z ∈ args.maxSizes, z ≤ size) (h5 : ∀ t ∈ args.numHTerms, t ≤ terms) {fuel : ℕ} (hf : args.numSteps ≤ fuel) :
    (∃ r, selectedCiGreedy num args fuel = .ok (some r)) ∨
      (selectedCiGreedy num args fuel = .error .valueError ∧ ((∃ z ∈ args.maxSizes, z = 0) ∨
        (0 < args.threshold ∧ 1 ≤ ((size + terms + 2 * args.numOTerms : ℕ) : ℚ) * args.threshold ^ 2))) :=
  selectedCiGreedy_total R.strAlg hnum ha he hH ht h1 h2 h3 h4 h5 hf

/-- **C62** (Majorana strings) -/
theorem C62_majorana_partial (R : MajoranaRep K 𝔸 S) {num : Numerics K} (hnum : IsNumerics num) {H : Operator K} {args : GreedyArgs K}
    (ha : GreedyOK (MajoranaString S) H args) (he : args.explored = Explored.empty) (hH : ∃ s ∈ H.basis.strs, s.labels ≠ []) (ht : args.targetOperator = none)
    (h1 : args.numSteps ≤ args.numHTerms.length) (h2 : args.numSteps ≤ args.maxSizes.length) {size terms : ℕ} (h3 : args.initialOperator.basis.len ≤ size)
    (h4 : ∀ z ∈ args.maxSizes, z ≤ size) (h5 : ∀ t ∈ args.numHTerms, t ≤ terms) {fuel : ℕ} (hf : args.numSteps ≤ fuel) :
    (∃ r, selectedCiGreedy num args fuel = .ok (some r)) ∨
      (selectedCiGreedy num args fuel = .error .valueError ∧ ((∃ z ∈ args.maxSizes, z = 0) ∨
        (0 < args.threshold ∧ 1 ≤ ((size + terms + 2 * args.numOTerms : ℕ) : ℚ) * args.threshold ^ 2))) :=
  selectedCiGreedy_total R.strAlg hnum ha he hH ht h1 h2 h3 h4 h5 hf

/-- non-vacuity: with the default threshold `10⁻⁶` the search of `cArgs` raises no exception. -/
example : ∃ (num : Numerics ℂ) (r : _), IsNumerics num ∧ selectedCiGreedy num { cArgs with threshold := 1 / 10 ^ 6 } 3 = .ok (some r) := by
  obtain ⟨num, hnum⟩ := exists_numerics
  rcases C62_pauli_partial (waveRep ℂ) hnum (args := { cArgs with threshold := 1 / 10 ^ 6 }) ⟨rfl, cArgs_ok.str, cArgs_ok.nodup, rfl, cArgs_ok.initial, cArgs_ok.initialStr, cArgs_ok.nonempty, le_rfl, cArgs_ok.target⟩
    rfl ⟨siteX, by simp [cX], by decide⟩ rfl (le_refl 3) (le_refl 3) (size := 5) (terms := 2) (by simp [cArgs, Basis.len]) (by simp [cArgs]) (by simp [cArgs]) (le_refl 3) with ⟨r, h⟩ | ⟨_, h⟩
  · exact ⟨num, r, hnum, h⟩
  · rcases h with ⟨z, hz, rfl⟩ | ⟨_, h⟩
    · simp [cArgs] at hz
    · simp [cArgs] at h
      norm_num at h

/-! ### C63 -/

/-- **C63** (Pauli strings): the operator found in a step is a combination of the strings of the step's basis and of at most `num_H_terms + 2 num_O_terms` more; the
next basis has at most `max_basis_size` strings. -/
theorem C63_pauli_partial (R : PauliRep K 𝔸 S) {num : Numerics K} (hnum : IsNumerics num) {H : Operator K} {args : GreedyArgs K}
    (ha : GreedyOK (PauliString S) H args) (he : args.explored = Explored.empty) (ht : args.targetOperator = none) {fuel : ℕ} {s s' : GreedyState K} {stop : Bool}
    (hs : GreedyReach num args fuel s) (h : greedyStep num args fuel s = .ok (some (s', stop))) :
    ∃ O numH size, s'.operators.getLast? = some O ∧ args.numHTerms[s.step]? = some numH ∧ args.maxSizes[s.step]? = some size ∧
      s.basis.strs ⊆ O.basis.strs ∧ O.basis.strs.length ≤ s.basis.strs.length + numH + 2 * args.numOTerms ∧ s'.basis.strs.length ≤ size :=
  let ⟨O, size, h1, h2, h3, numH, h4, h5, h6⟩ := greedyStep_truncation R.strAlg hnum ha ht (greedyReach_inv R.strAlg hnum ha (by rw [he]; exact Explored.empty_coherent _ _) hs) h
  ⟨O, numH, size, h1, h4, h2, h5, h6, h3.1.size⟩

/-- **C63** (Majorana strings) -/
theorem C63_majorana_partial (R : MajoranaRep K 𝔸 S) {num : Numerics K} (hnum : IsNumerics num) {H : Operator K} {args : GreedyArgs K}
    (ha : GreedyOK (MajoranaString S) H args) (he : args.explored = Explored.empty) (ht : args.targetOperator = none) {fuel : ℕ} {s s' : GreedyState K} {stop : Bool}
    (hs : GreedyReach num args fuel s) (h : greedyStep num args fuel s = .ok (some (s', stop))) :
    ∃ O numH size, s'.operators.getLast? = some O ∧ args.numHTerms[s.step]? = some numH ∧ args.maxSizes[s.step]? = some size ∧
      s.basis.strs ⊆ O.basis.strs ∧ O.basis.strs.length ≤ s.basis.strs.length + numH + 2 * args.numOTerms ∧ s'.basis.strs.length ≤ size :=
  let ⟨O, size, h1, h2, h3, numH, h4, h5, h6⟩ := greedyStep_truncation R.strAlg hnum ha ht (greedyReach_inv R.strAlg hnum ha (by rw [he]; exact Explored.empty_coherent _ _) hs) h
  ⟨O, numH, size, h1, h4, h2, h5, h6, h3.1.size⟩

/-! ### C64 -/

/-- **C64** (Pauli strings): without a target operator the search ends as soon as `target_com_norm` or `min_relative_change` asks for it, and not earlier. -/
theorem C64_pauli_partial (R : PauliRep K 𝔸 S) {num : Numerics K} (hnum : IsNumerics num) {H : Operator K} {args : GreedyArgs K}
    (ha : GreedyOK (PauliString S) H args) (he : args.explored = Explored.empty) (ht : args.targetOperator = none) {fuel : ℕ} {best : Operator K} {c : Option K}
    {ops : List (Operator K)} {norms : List K} (h : selectedCiGreedy num args fuel = .ok (some (best, c, ops, norms))) :
    (∀ l, l <+: norms → l ≠ norms → ¬ StopsAfter args.targetComNorm args.minRelativeChange l) ∧
      (norms.length = args.numSteps ∨ StopsAfter args.targetComNorm args.minRelativeChange norms) :=
  selectedCiGreedy_stop R.strAlg hnum ha he ht h

/-- **C64** (Majorana strings) -/
theorem C64_majorana_partial (R : MajoranaRep K 𝔸 S) {num : Numerics K} (hnum : IsNumerics num) {H : Operator K} {args : GreedyArgs K}
    (ha : GreedyOK (MajoranaString S) H args) (he : args.explored = Explored.empty) (ht : args.targetOperator = none) {fuel : ℕ} {best : Operator K} {c : Option K}
    {ops : List (Operator K)} {norms : List K} (h : selectedCiGreedy num args fuel = .ok (some (best, c, ops, norms))) :
    (∀ l, l <+: norms → l ≠ norms → ¬ StopsAfter args.targetComNorm args.minRelativeChange l) ∧
      (norms.length = args.numSteps ∨ StopsAfter args.targetComNorm args.minRelativeChange norms) :=
  selectedCiGreedy_stop R.strAlg hnum ha he ht h

/-- non-vacuity: the search of `cArgs`, which has no reason to stop, makes all three steps; its first step inserts at most one string. -/
example : ∃ (num : Numerics ℂ) (best : Operator ℂ) (c : Option ℂ) (ops : List (Operator ℂ)) (norms : List ℂ), IsNumerics num ∧
    selectedCiGreedy num cArgs 3 = .ok (some (best, c, ops, norms)) ∧ norms.length = 3 := by
  obtain ⟨num, hnum⟩ := exists_numerics
  rcases selectedCiGreedy_total (waveRep ℂ).strAlg hnum cArgs_ok rfl ⟨siteX, by simp [cX], by decide⟩ rfl (le_refl 3) (le_refl 3) (size := 5) (terms := 2) (by simp [cArgs, Basis.len])
    (by simp [cArgs]) (by simp [cArgs]) (le_refl 3) with ⟨⟨b, c, ops, norms⟩, h⟩ | ⟨_, h⟩
  · refine ⟨num, b, c, ops, norms, hnum, h, (C64_pauli_partial (waveRep ℂ) hnum cArgs_ok rfl rfl h).2.resolve_right ?_⟩
    rintro (⟨_, _, h, _⟩ | ⟨_, _, _, _, h, _⟩) <;> simp [cArgs] at h
  · rcases h with ⟨z, hz, rfl⟩ | h
    · simp [cArgs] at hz
    · simp [cArgs] at h

/-! ### Counterexamples

They use `diagNumerics`, which fulfils the contract of the numerical routines for diagonal matrices and returns no eigenvectors for others. -/

deriving instance DecidableEq for Explored
deriving instance DecidableEq for GreedyState

instance : DecidableEq (Operator QI × Option QI × List (Operator QI) × List QI) := inferInstance

def opZ : Operator QI := ⟨[1], Basis.ofList [siteZ], .pauli⟩
def opXZ : Operator QI := ⟨[3 / 5, 4 / 5], Basis.ofList [siteX, siteZ], .pauli⟩
def opTwoX : Operator QI := ⟨[2], Basis.ofList [siteX], .pauli⟩

theorem comNorm_strings (R : PauliRep K 𝔸 S) {A B : OpString} (hA : PauliString S A) (hB : PauliString S B) {C : OpString} (hC : C.Canonical) {c : K} (d : K)
    (h : operationOpString .commutator A B = .ok (c, some C)) :
    IsComNorm (fun s => PauliString S s ∧ s.Canonical) R.den (R.den A) (d • R.den B) (star (d * c) * (d * c)) := by
  rcases R.strAlg.op_string .commutator hA hB with ⟨h1, _⟩ | ⟨c', C', h1, h2, h3, _⟩
  · rw [h1] at h; simp at h
  · rw [h1] at h
    simp only [Except.ok.injEq, Prod.mk.injEq, Option.some.injEq] at h
    obtain ⟨rfl, rfl⟩ := h
    refine ⟨[C'], fun _ => d * c', by simp, by simpa using ⟨h2, hC⟩, ?_, by simp⟩
    have h4 : bracketOf .commutator (R.den A) (R.den B) = c' • R.den C' := h3
    simp only [bracketOf, mul_smul_comm, smul_mul_assoc, ← smul_sub] at h4 ⊢
    simp [linComb, h4, smul_smul]

theorem comNorm_commute (R : PauliRep K 𝔸 S) {a b : 𝔸} (h : a * b = b * a) : IsComNorm (fun s => PauliString S s ∧ s.Canonical) R.den a b (0 : K) :=
  ⟨[], fun _ => 0, by simp, by simp, by simp [bracketOf, h, linComb], by simp⟩

/-- three steps from `3/5 X_1 + 4/5 Z_1` with the operator `Z_1` and `target_com_norm = 1` -/
def targetArgs : GreedyArgs QI :=
  { initialOperator := opXZ, comOps := [opZ], numSteps := 3, numHTerms := [1, 1, 1], maxSizes := [5, 5, 5], targetComNorm := some 1 }

/-- three steps from `X_1` with the operator `Z_1` and `min_relative_change = 1/10`, without new strings -/
def changeArgs : GreedyArgs QI :=
  { initialOperator := opX, comOps := [opZ], numSteps := 3, numHTerms := [0, 0, 0], maxSizes := [5, 5, 5], minRelativeChange := some (1 / 10) }

/-- the first search ends after one step, the second after two -/
example : (∃ best c ops, selectedCiGreedy diagNumerics targetArgs 10 = .ok (some (best, c, ops, [0]))) ∧
    ∃ best c ops, selectedCiGreedy diagNumerics changeArgs 10 = .ok (some (best, c, ops, [4, 4])) :=
  ⟨⟨⟨[0, 1], Basis.ofList [siteX, siteZ], .pauli⟩, some 0, [⟨[0, 1], Basis.ofList [siteX, siteZ], .pauli⟩], by decide +kernel⟩,
   ⟨⟨[1], Basis.ofList [siteX], .pauli⟩, some 4, [⟨[1], Basis.ofList [siteX], .pauli⟩, ⟨[1], Basis.ofList [siteX], .pauli⟩], by decide +kernel⟩⟩

/-- **C58 refuted** with `transformations`: for the initial operator `Z_1`, the operator `Z_1` and time reversal, the reported commutator norm of `Z_1` is
2·10¹⁰, though `Z_1` commutes with itself. -/
theorem C58_refuted [Algebra QI 𝔸] (R : PauliRep QI 𝔸 Set.univ) : ∃ args best c ops norms,
    IsNumericsOnDiagonal diagNumerics ∧ args.comOps = [opZ] ∧ args.transformations = some [timeReversal] ∧
    selectedCiGreedy diagNumerics args 10 = .ok (some (best, some c, ops, norms)) ∧ c = ⟨20000000000, 0⟩ ∧
    IsComNorm (fun s => PauliString Set.univ s ∧ s.Canonical) R.den (best.den R.den) (opZ.den R.den) (0 : QI) := by
  refine ⟨{ initialOperator := opZ, comOps := [opZ], numSteps := 1, numHTerms := [1], maxSizes := [5], transformations := some [timeReversal] },
    opZ, ⟨20000000000, 0⟩, [opZ], [⟨20000000000, 0⟩], diagNumerics_ok, rfl, rfl, by decide +kernel, rfl, comNorm_commute R rfl⟩

/-- **C59 refuted** for two operators `com_ops`: for `Z_1` and `2 X_1` the result is `Z_1`, whose squared commutator norms sum up to 16, though those of `X_1` sum up
to 4. -/
theorem C59_refuted [Algebra QI 𝔸] (R : PauliRep QI 𝔸 Set.univ) : ∃ args best c ops norms,
    IsNumericsOnDiagonal diagNumerics ∧ args.comOps = [opZ, opTwoX] ∧ args.least ∧
    selectedCiGreedy diagNumerics args 10 = .ok (some (best, c, ops, norms)) ∧ best.basis.strs = [siteX, siteZ] ∧ best.coeffs = [0, 1] ∧
    IsComNorm (fun s => PauliString Set.univ s ∧ s.Canonical) R.den (R.den siteZ) (opZ.den R.den) (0 : QI) ∧
    IsComNorm (fun s => PauliString Set.univ s ∧ s.Canonical) R.den (R.den siteZ) (opTwoX.den R.den) (16 : QI) ∧
    IsComNorm (fun s => PauliString Set.univ s ∧ s.Canonical) R.den (R.den siteX) (opZ.den R.den) (4 : QI) ∧
    IsComNorm (fun s => PauliString Set.univ s ∧ s.Canonical) R.den (R.den siteX) (opTwoX.den R.den) (0 : QI) := by
  have e1 : opZ.den R.den = (1 : QI) • R.den siteZ := by simp [opZ, Operator.den, denT, Operator.terms]
  have e2 : opTwoX.den R.den = (2 : QI) • R.den siteX := by simp [opTwoX, Operator.den, denT, Operator.terms]
  refine ⟨{ initialOperator := opXZ, comOps := [opZ, opTwoX], numSteps := 1, numHTerms := [1], maxSizes := [5] },
    ⟨[0, 1], Basis.ofList [siteX, siteZ], .pauli⟩, some 0, [⟨[0, 1], Basis.ofList [siteX, siteZ], .pauli⟩], [0], diagNumerics_ok, rfl, ⟨rfl, rfl⟩,
    by decide +kernel, rfl, rfl, ?_, ?_, ?_, ?_⟩
  · rw [e1, one_smul]; exact comNorm_commute R rfl
  · rw [e2]
    have := comNorm_strings R site_valid.2.2 site_valid.1 (C := siteY) (c := (⟨0, 2⟩ : QI)) ⟨by decide, by decide⟩ 2 (by decide +kernel)
    rwa [show star ((2 : QI) * ⟨0, 2⟩) * (2 * ⟨0, 2⟩) = 16 by decide +kernel] at this
  · rw [e1]
    have := comNorm_strings R site_valid.1 site_valid.2.2 (C := siteY) (c := (⟨0, -2⟩ : QI)) ⟨by decide, by decide⟩ 1 (by decide +kernel)
    rwa [show star ((1 : QI) * ⟨0, -2⟩) * (1 * ⟨0, -2⟩) = 4 by decide +kernel] at this
  · rw [e2]; exact comNorm_commute R (by rw [mul_smul_comm, smul_mul_assoc])

/-- **C60 refuted**: the first step from `3/5 X_1 + 4/5 Z_1` with the operator `Z_1` finds `Z_1`, but the operator carried over to the next step is `0 Z_1`, while
the coefficient of `Z_1` in the truncated operator is 1. -/
theorem C60_refuted : ∃ args s' O, IsNumericsOnDiagonal diagNumerics ∧ args.comOps = [opZ] ∧ args.least ∧ args.transformations = none ∧
    greedyStep diagNumerics args 10 (greedyInit args) = .ok (some (s', false)) ∧ s'.operators = [O] ∧ O.coef siteZ = 1 ∧
    s'.operator.basis.strs = [siteZ] ∧ s'.operator.coef siteZ = 0 := by
  let args : GreedyArgs QI := { initialOperator := opXZ, comOps := [opZ], numSteps := 3, numHTerms := [1, 1, 1], maxSizes := [5, 5, 5] }
  have h : ∃ s' ∈ ((greedyStep diagNumerics args 10 (greedyInit args)).toOption.getD none).map (fun r => if r.2 then none else some r.1), ∃ s ∈ s',
      s.operators = [⟨[0, 1], Basis.ofList [siteX, siteZ], .pauli⟩] ∧ s.operator = ⟨[0], Basis.ofList [siteZ], .pauli⟩ := by
    decide +kernel
  obtain ⟨s', h1, s, h2, h3, h4⟩ := h
  refine ⟨args, s, ⟨[0, 1], Basis.ofList [siteX, siteZ], .pauli⟩, diagNumerics_ok, rfl, ⟨rfl, rfl⟩, rfl, ?_, h3, by decide +kernel, by rw [h4]; rfl, by rw [h4]; decide +kernel⟩
  cases hr : greedyStep diagNumerics args 10 (greedyInit args) with
  | error e => rw [hr] at h1; simp [Except.toOption] at h1
  | ok r =>
    rw [hr] at h1
    cases r with
    | none => simp [Except.toOption] at h1
    | some p =>
      obtain ⟨q, stop⟩ := p
      cases stop <;> simp [Except.toOption] at h1 <;> subst h1 <;> simp at h2
      subst h2; rfl

/-- **C61 refuted**: with `orth_ops = [Z_1]` the result is `Z_1`, although `X_1` is a combination of the strings that is orthogonal to `Z_1`. -/
theorem C61_refuted : ∃ args best c ops norms, IsNumericsOnDiagonal diagNumerics ∧ args.comOps = [opZ] ∧ args.orthOps = some [opZ] ∧ args.transformations = none ∧
    args.targetOperator = none ∧ selectedCiGreedy diagNumerics args 10 = .ok (some (best, c, ops, norms)) ∧ best.basis.strs = [siteX, siteZ] ∧
    best.coef siteX = 0 ∧ best.coef siteZ = 1 := by
  refine ⟨{ initialOperator := opXZ, comOps := [opZ], numSteps := 1, numHTerms := [1], maxSizes := [5], orthOps := some [opZ] },
    ⟨[0, 1], Basis.ofList [siteX, siteZ], .pauli⟩, some 0, [⟨[0, 1], Basis.ofList [siteX, siteZ], .pauli⟩], [0], diagNumerics_ok, rfl, rfl, rfl, rfl,
    by decide +kernel, rfl, by decide +kernel, by decide +kernel⟩

/-- a search with a target operator and fidelity -/
def stuckArgs : GreedyArgs QI :=
  { initialOperator := opXZ, comOps := [opZ], numSteps := 3, numHTerms := [1, 1, 1], maxSizes := [5, 5, 5], targetOperator := some opXZ, targetFidelity := some (9 / 10) }

/-- the state after the first step -/
def stuckState : GreedyState QI := match greedyStep diagNumerics stuckArgs 0 (greedyInit stuckArgs) with
  | .ok (some (s, _)) => s
  | _ => greedyInit stuckArgs

theorem stuck_first (fuel : ℕ) : greedyStep diagNumerics stuckArgs fuel (greedyInit stuckArgs) = .ok (some (stuckState, false)) := by
  show greedyStep diagNumerics stuckArgs 0 (greedyInit stuckArgs) = _
  decide +kernel

theorem stuck_again (m fuel : ℕ) : greedyStep diagNumerics stuckArgs fuel { stuckState with numVecs := m } = .ok (some ({ stuckState with numVecs := m + 1 }, false)) := by
  have h0 : stuckState.step = 1 := by decide +kernel
  have h1 : pyGet stuckArgs.numHTerms stuckState.step = .ok 1 := by rw [h0]; rfl
  have h2 : greedyExpandH diagNumerics stuckArgs.comOps 1 stuckState.basis stuckState.operator stuckState.explored = .ok (stuckState.basis, stuckState.explored) := by
    decide +kernel
  have h3 : greedyExpandO diagNumerics stuckArgs.numOTerms stuckState.operator stuckState.basis = .ok stuckState.basis := by decide +kernel
  have h4 : greedyComMatrices stuckState.basis stuckArgs.comOps stuckState.explored = .ok (Mat.zero 1 1, Mat.zero 1 1, stuckState.explored) := by decide +kernel
  have h5 : greedyEig diagNumerics (Mat.zero 1 1) stuckState.basis.len m = .ok ([0], [[1]]) := by
    have e : stuckState.basis.len = 1 := by decide +kernel
    unfold greedyEig
    rw [e, if_pos (Or.inl (by decide))]
    decide +kernel
  have h6 : greedySolve diagNumerics stuckArgs stuckState.basis m stuckState.explored = .ok (([0], [[1]]), stuckState.explored) := by
    unfold greedySolve
    simp only [h4, bind, Except.bind, show stuckArgs.orthOps = none from rfl, show stuckArgs.transformations = none from rfl, h5, show stuckArgs.comOps.length = 1 from rfl]
    simp
  have h7 : greedyChoose diagNumerics stuckArgs { stuckState with numVecs := m } stuckState.basis [0] [[1]] = greedyChoose diagNumerics stuckArgs stuckState stuckState.basis [0] [[1]] := rfl
  have h8 : (greedyChoose diagNumerics stuckArgs stuckState stuckState.basis [0] [[1]]).toOption.map (fun r => lowFidelity stuckArgs r.2.2) = some true := by decide +kernel
  have h9 : stuckState.previousBasis = stuckState.basis := by decide +kernel
  have h10 : stuckState.step ≠ 0 := by rw [h0]; exact one_ne_zero
  suffices h : greedyAccept diagNumerics stuckArgs { stuckState with numVecs := m } stuckState.operator stuckState.basis stuckState.explored [0] [[1]] =
      .ok ({ stuckState with numVecs := m + 1 }, false) by
    unfold greedyStep
    simp only [h1, h2, h3, h6, bind, Except.bind, if_neg h10, show stuckArgs.transformations = none from rfl, h]
  unfold greedyAccept
  rw [h7]
  cases hc : greedyChoose diagNumerics stuckArgs stuckState stuckState.basis [0] [[1]] with
  | error e => rw [hc] at h8; simp [Except.toOption] at h8
  | ok r =>
    rw [hc] at h8
    simp only [Except.toOption, Option.map_some, Option.some.injEq] at h8
    simp only [bind, Except.bind, h8, h0, h9]
    simp

/-- **C62 refuted** with a target fidelity: for the initial and target operator `3/5 X_1 + 4/5 Z_1`, the operator `Z_1` and the target fidelity 0.9 the search
never ends: from the second step on, the best fidelity is 0.8 and each step is repeated with one more eigenvector, though there are no more. -/
theorem C62_refuted : IsNumericsOnDiagonal diagNumerics ∧ ∀ fuel, selectedCiGreedy diagNumerics stuckArgs fuel = .ok none := by
  refine ⟨diagNumerics_ok, fun fuel => ?_⟩
  have hcond : stuckState.step < stuckArgs.numSteps ∧ stuckState.endEarly = false := by decide +kernel
  have key : ∀ n m, greedyLoop diagNumerics stuckArgs fuel n { stuckState with numVecs := m } = .ok none := by
    intro n
    induction n with
    | zero =>
      intro m
      unfold greedyLoop
      rw [if_pos hcond]
    | succ n ih =>
      intro m
      unfold greedyLoop
      rw [if_pos hcond]
      simp only [stuck_again, bind, Except.bind]
      simpa using ih (m + 1)
  have h : greedyLoop diagNumerics stuckArgs fuel fuel (greedyInit stuckArgs) = .ok none := by
    cases hf : fuel with
    | zero => rfl
    | succ n =>
      rw [← hf]
      unfold greedyLoop
      rw [if_pos ⟨by decide, rfl⟩]
      subst hf
      simp only [stuck_first, bind, Except.bind]
      simpa using key n stuckState.numVecs
  unfold selectedCiGreedy
  have hl : (opZ.basis.strs.all fun s => s.labels.isEmpty) = false := by decide +kernel
  simp only [show stuckArgs.comOps = [opZ] from rfl, hl, h, bind, Except.bind]
  rfl

end Qosy
