import Verif.Lemmas.JordanWigner
import Verif.Lemmas.Conversion
import Verif.Lemmas.Heap
import Verif.Props.Cluster
import Verif.Spec.Matrix

/-!
# Properties C29-C32: conversions between Pauli, Majorana and Fermion strings

`jwLabels S` are the labels `j` such that all of `0, …, j` belong to `S`; for the labels `0, …, n-1`, or for all non-negative
labels, these are all of them.  `R.jordanWigner` are the Majorana operators `a_j = Z_0 ⋯ Z_{j-1} X_j`,
`b_j = Z_0 ⋯ Z_{j-1} Y_j` of a spin system `R` (Spec/JordanWigner).
-/

namespace Qosy
open Coef
variable {K : Type} [Field K] [StarRing K] [Coef K] {S : Set ℤ}

/-- **C29** (Pauli to Majorana): `convert(P, 'Majorana')` is a single Majorana string with coefficient `1` or `-1`, and it
denotes the same operator as `P` in every representation. -/
theorem C29_pauli_to_majorana {P : OpString} (h : PauliString (jwLabels S) P) (incl : Bool) :
    ∃ (O : Operator K) (c : K) (M : OpString), convertString P .majorana incl = .ok O ∧ O.terms = [(c, M)] ∧ O.opType = .majorana ∧
      MajoranaString (jwLabels S) M ∧ M.Canonical ∧ (c = 1 ∨ c = -1) ∧
      ∀ {𝔸 : Type} [Ring 𝔸] [Algebra K 𝔸] (R : PauliRep K 𝔸 S), R.den P = c • R.jordanWigner.den M := by
  obtain ⟨c, M, h1, h2, h3, -, h4⟩ := jordanWigner_pauli (waveOn K S) h
  refine ⟨⟨[c], Basis.ofList [M], .majorana⟩, c, M, ?_, rfl, rfl, h2, h3, ?_, ?_⟩
  · simp only [convertString, h.type, h1, bind, Except.bind]
    exact mkOperator_ok (by simp) (by simp [h2.type])
  · exact sq_eq_one_of (C05_pauli_square (waveOn K S) ⟨h.type, h.ops, h.len, h.nodup, fun l hl => jwLabels_mem (h.mem l hl), h.pref⟩)
      (C05_majorana_square _ h2) h4
  · intro 𝔸 _ _ R
    obtain ⟨c', M', k1, -, -, -, k4⟩ := jordanWigner_pauli R h
    rw [h1] at k1
    simp only [Except.ok.injEq, Prod.mk.injEq] at k1
    rw [k4, k1.1, k1.2]

/-- **C29** (Majorana to Pauli) -/
theorem C29_majorana_to_pauli {M : OpString} (h : MajoranaString (jwLabels S) M) (incl : Bool) :
    ∃ (O : Operator K) (c : K) (P : OpString), convertString M .pauli incl = .ok O ∧ O.terms = [(c, P)] ∧ O.opType = .pauli ∧
      PauliString S P ∧ P.Canonical ∧ (c = 1 ∨ c = -1) ∧
      ∀ {𝔸 : Type} [Ring 𝔸] [Algebra K 𝔸] (R : PauliRep K 𝔸 S), R.jordanWigner.den M = c • R.den P := by
  obtain ⟨c, P, h1, h2, h3, -, h4⟩ := jordanWigner_majorana (waveOn K S) h
  refine ⟨⟨[c], Basis.ofList [P], .pauli⟩, c, P, ?_, rfl, rfl, h2, h3, ?_, ?_⟩
  · simp only [convertString, h.type, h1, bind, Except.bind]
    exact mkOperator_ok (by simp) (by simp [h2.type])
  · exact sq_eq_one_of (C05_majorana_square _ h) (C05_pauli_square (waveOn K S) h2) h4
  · intro 𝔸 _ _ R
    obtain ⟨c', P', k1, -, -, -, k4⟩ := jordanWigner_majorana R h
    rw [h1] at k1
    simp only [Except.ok.injEq, Prod.mk.injEq] at k1
    rw [k4, k1.1, k1.2]

/-- **C29** (round trip from Pauli strings): converting a Pauli string in normal form to Majorana strings and the result back
gives the same string, and the two coefficients cancel. -/
theorem C29_pauli_roundtrip {P : OpString} (h : PauliString (jwLabels S) P) (hs : P.labels.Pairwise (· < ·)) (incl incl' : Bool) :
    ∃ (O O' : Operator K) (c c' : K) (M P' : OpString), convertString P .majorana incl = .ok O ∧ O.terms = [(c, M)] ∧
      convertString M .pauli incl' = .ok O' ∧ O'.terms = [(c', P')] ∧
      P'.ops = P.ops ∧ P'.labels = P.labels ∧ P'.opType = P.opType ∧ P'.pref = .float1 ∧ c * c' = 1 := by
  obtain ⟨O, c, M, h1, h2, -, h3, h4, -, h5⟩ := C29_pauli_to_majorana (K := K) h incl
  obtain ⟨O', c', P', k1, k2, -, k3, k4, -, k5⟩ := C29_majorana_to_pauli (K := K) h3 incl'
  have hP : PauliString S ⟨P.ops, P.labels, .pauli, .float1⟩ :=
    ⟨rfl, h.ops, h.len, h.nodup, fun l hl => jwLabels_mem (h.mem l hl), by simp⟩
  have e : (waveOn K S).den P = (waveOn K S).den ⟨P.ops, P.labels, .pauli, .float1⟩ := by
    unfold PauliRep.den
    rw [h.val]; simp [Pref.val]
  have := (waveOn K S).strAlg.same_string hP k3 ⟨hs, Or.inr rfl⟩ k4 (c := c * c') (by
    show (waveOn K S).den _ = _ • (waveOn K S).den P'
    rw [← e, h5 (waveOn K S), k5 (waveOn K S), smul_smul])
  refine ⟨O, O', c, c', M, P', h1, h2, k1, k2, ?_, ?_, ?_, ?_, this.2⟩ <;> simp [← this.1, h.type]

/-- **C29** (round trip from Majorana strings) -/
theorem C29_majorana_roundtrip {M : OpString} (h : MajoranaString (jwLabels (jwLabels S)) M) (hs : M.labels.Pairwise (· < ·))
    (incl incl' : Bool) :
    ∃ (O O' : Operator K) (c c' : K) (P M' : OpString), convertString M .pauli incl = .ok O ∧ O.terms = [(c, P)] ∧
      convertString P .majorana incl' = .ok O' ∧ O'.terms = [(c', M')] ∧
      M'.ops = M.ops ∧ M'.labels = M.labels ∧ M'.opType = M.opType ∧ (M'.pref.val : K) = M.pref.val ∧ c * c' = 1 := by
  obtain ⟨O, c, P, h1, h2, -, h3, h4, -, h5⟩ := C29_majorana_to_pauli (K := K) h incl
  obtain ⟨O', c', M', k1, k2, -, k3, k4, -, k5⟩ := C29_pauli_to_majorana (K := K) (S := S) h3 incl'
  have hmem : ∀ l ∈ M.labels, l ∈ jwLabels S := fun l hl => jwLabels_mem (h.mem l hl)
  have hM : MajoranaString (jwLabels S) ⟨M.ops, M.labels, .majorana, if M.pref = .imag then .imag else .float1⟩ := by
    refine ⟨rfl, h.ops, h.len, h.nodup, hmem, ?_⟩
    rw [← h.pref]
    by_cases hp : M.pref = .imag <;> simp [hp]
  have hv : ((if M.pref = .imag then Pref.imag else Pref.float1).val : K) = M.pref.val := by
    cases M.pref <;> simp [Pref.val]
  have e : (waveOn K S).jordanWigner.den M = (waveOn K S).jordanWigner.den
      ⟨M.ops, M.labels, .majorana, if M.pref = .imag then .imag else .float1⟩ := by
    simp only [MajoranaRep.den, hv]
  have e2 : (waveOn K (jwLabels S)).jordanWigner.den M = (waveOn K S).jordanWigner.den M := rfl
  have e3 : (waveOn K (jwLabels S)).den P = (waveOn K S).den P := rfl
  have hd : (waveOn K S).jordanWigner.den ⟨M.ops, M.labels, .majorana, if M.pref = .imag then .imag else .float1⟩ =
      (c * c') • (waveOn K S).jordanWigner.den M' := by
    rw [← e, ← e2, h5 (waveOn K (jwLabels S)), e3, k5 (waveOn K S), smul_smul]
  have := (waveOn K S).jordanWigner.strAlg.same_string hM k3 ⟨hs, by by_cases hp : M.pref = .imag <;> simp [hp]⟩ k4 (c := c * c') hd
  refine ⟨O, O', c, c', P, M', h1, h2, k1, k2, ?_, ?_, ?_, ?_, this.2⟩ <;> simp [← this.1, h.type]
  exact hv

/-- for all non-negative labels, `jwLabels` is no restriction -/
theorem jwLabels_nonneg : jwLabels {l : ℤ | 0 ≤ l} = {l : ℤ | 0 ≤ l} := by
  ext j; exact ⟨fun h => h.1, fun h => ⟨h, fun _ hk _ => hk⟩⟩

/-- **C29**, the boundary: a Pauli operator on a negative label is silently dropped (`['D']*orb_label` and `np.arange` are
empty there and the constructor does not notice the missing label): `convert(X_{-1}, 'Majorana')` is the identity,
although `X_{-1}` is a valid Pauli string. -/
theorem C29_negative_labels : jordanWigner ⟨[.X], [-1], .pauli, .float1⟩ = .ok ((1 : QI), ⟨[], [], .majorana, .float1⟩) ∧
    PauliString Set.univ ⟨[.X], [-1], .pauli, .float1⟩ :=
  ⟨by decide +kernel, ⟨rfl, by simp, rfl, by simp, by simp, by simp⟩⟩

-- the hypotheses of C29 are met by a non-trivial string, whose conversion has a string of `D`s: Y_0 X_2 = i A_0 D_1 A_2
example : PauliString (jwLabels {l : ℤ | 0 ≤ l}) ⟨[.Y, .X], [0, 2], .pauli, .float1⟩ := by
  rw [jwLabels_nonneg]
  exact ⟨rfl, by simp, rfl, by simp, by simp, by simp⟩
example : jordanWigner ⟨[.Y, .X], [0, 2], .pauli, .float1⟩ = .ok ((1 : QI), ⟨[.A, .D, .A], [0, 1, 2], .majorana, .imag⟩) := by
  decide +kernel

/-! ### C30: Fermion to Majorana -/

/-- **C30**: `convert(F, 'Majorana', include_identity)` of a normal-ordered Fermion string is a combination of distinct valid
Majorana strings which, in every representation by Hermitian operators, equals the operator `F` denotes (the product, or the
product plus its Hermitian conjugate); without `include_identity` it differs from it by a multiple of the identity and does not
contain the identity string.  Hypotheses: see `FermionConvertible`. -/
theorem C30_fermion_to_majorana {F : OpString} (h : FermionString S F) (incl : Bool) (hc : FermionConvertible F incl) :
    ∃ (O : Operator K) (k : K), convertString F .majorana incl = .ok O ∧ O.opType = .majorana ∧ O.WF ∧
      (∀ M ∈ O.basis.strs, MajoranaString S M ∧ M.Canonical ∧ (incl = false → M.ops ≠ [])) ∧ (incl = true → k = 0) ∧
      ∀ {𝔸 : Type} [Ring 𝔸] [Algebra K 𝔸] [StarRing 𝔸] [StarModule K 𝔸] (R : MajoranaRep K 𝔸 S)
        (_ : ∀ i ∈ S, star (R.a i) = R.a i ∧ star (R.b i) = R.b i), R.fden F = O.den R.den + k • 1 := by
  obtain ⟨O, k, h1, h2, h3, h4, -, h5, h6⟩ := convertFermionString_ok (K := K) h incl hc.1 hc.2.1 hc.2.2
  refine ⟨O, k, ?_, h2, h3, h4, h5, h6⟩
  unfold convertString
  rw [if_neg (by rw [h.type]; simp)]
  simp only [h.type]
  exact h1

/-- **C30**, the boundary: the conversion of the identity string without `include_identity` raises ValueError (an `Operator` is
constructed from empty lists without a type), although the result should be the zero operator ... -/
theorem C30_identity_fails : convertString (identityString .fermion) .majorana false = (.error .valueError : Py (Operator QI)) ∧
    FermionString Set.univ (identityString .fermion) :=
  ⟨by decide +kernel, ⟨rfl, rfl, rfl, by decide, by decide, by simp⟩⟩

/-- ... and so does the conversion of `i c†_1 c†_2 c_1 c_2`, which together with its Hermitian conjugate is zero. -/
theorem C30_zero_fails : convertString ⟨[.CDag, .CDag, .C, .C], [1, 2, 1, 2], .fermion, .imag⟩ .majorana true =
      (.error .valueError : Py (Operator QI)) ∧
    FermionString Set.univ ⟨[.CDag, .CDag, .C, .C], [1, 2, 1, 2], .fermion, .imag⟩ :=
  ⟨by decide +kernel, ⟨rfl, rfl, rfl, by decide, by decide, by simp⟩⟩

-- i c†_1 c†_5 c_5 c_2 meets the hypotheses; so does the number operator c†_3 c_3 without the identity
example : FermionString Set.univ ⟨[.CDag, .CDag, .C, .C], [1, 5, 5, 2], .fermion, .imag⟩ ∧
    FermionConvertible ⟨[.CDag, .CDag, .C, .C], [1, 5, 5, 2], .fermion, .imag⟩ false :=
  ⟨⟨rfl, rfl, rfl, by decide, by decide, by simp⟩, by decide, Or.inl (by simp), Or.inr (Or.inr ⟨1, by decide⟩)⟩
example : FermionString Set.univ ⟨[.CDag, .C], [3, 3], .fermion, .float1⟩ ∧ FermionConvertible ⟨[.CDag, .C], [3, 3], .fermion, .float1⟩ false :=
  ⟨⟨rfl, rfl, rfl, by decide, by decide, by simp⟩, by decide, Or.inl (by simp), Or.inl (by decide)⟩
-- c†_1 c_2 + h.c. = (i a_1 b_2 - i b_1 a_2)/2
example : (convertString ⟨[.CDag, .C], [1, 2], .fermion, .float1⟩ .majorana false : Py (Operator QI)) =
    .ok ⟨[1 / 2, -(1 / 2)], Basis.ofList [⟨[.A, .B], [1, 2], .majorana, .imag⟩, ⟨[.B, .A], [1, 2], .majorana, .imag⟩], .majorana⟩ := by
  decide +kernel

/-! ### C31: Majorana to Fermion -/

/-- **C31**: `convert(M, 'Fermion', include_identity)` of a valid Majorana string is a combination of distinct normal-ordered
Fermion strings (creation labels increasing, annihilation labels decreasing) which, in every representation by Hermitian
operators, equals the operator `M` denotes, reading each Fermion string as itself plus its Hermitian conjugate unless it is its own
conjugate; without `include_identity` the difference is a multiple of the identity and the identity string does not occur. -/
theorem C31_majorana_to_fermion {M : OpString} (h : MajoranaString S M) (incl : Bool) :
    ∃ (O : Operator K) (k : K), convertString M .fermion incl = .ok O ∧ O.opType = .fermion ∧ O.WF ∧
      (∀ F ∈ O.basis.strs, FermionString S F ∧ F.cdagLabels.Pairwise (· < ·) ∧ F.cLabels.Pairwise (· > ·) ∧ (incl = false → F.ops ≠ [])) ∧
      (incl = true → k = 0) ∧
      ∀ {𝔸 : Type} [Ring 𝔸] [Algebra K 𝔸] [StarRing 𝔸] [StarModule K 𝔸] (R : MajoranaRep K 𝔸 S)
        (_ : ∀ i ∈ S, star (R.a i) = R.a i ∧ star (R.b i) = R.b i), R.den M = O.den R.fden + k • 1 := by
  obtain ⟨O, k, h1, h2, h3, h4, -, h5, h6⟩ := convertMajoranaString_ok (K := K) h incl
  refine ⟨O, k, ?_, h2, h3, h4, h5, h6⟩
  unfold convertString
  rw [if_neg (by rw [h.type]; simp)]
  simp only [h.type]
  exact h1

example : MajoranaString Set.univ ⟨[.A, .D, .B], [4, 2, 7], .majorana, .imag⟩ := ⟨rfl, by simp, rfl, by decide, by simp, by decide⟩
-- D_3 = 1 - 2 c†_3 c_3
example : (convertString ⟨[.D], [3], .majorana, .float1⟩ .fermion true : Py (Operator QI)) =
    .ok ⟨[-2, 1], Basis.ofList [⟨[.CDag, .C], [3, 3], .fermion, .float1⟩, identityString .fermion], .fermion⟩ := by decide +kernel
-- representations as in C30 and C31 exist (three spins)
example : ∀ i ∈ jwLabels (siteLabels 3), star ((matRep QI 3).jordanWigner.a i) = (matRep QI 3).jordanWigner.a i ∧
    star ((matRep QI 3).jordanWigner.b i) = (matRep QI 3).jordanWigner.b i := jordanWigner_star _ (matRep_star QI 3)

/-! ### C32: all types, operators and conversion matrices -/

/-- **C32** (strings): `convert` between any two of the three types preserves the denoted operator, up to a multiple of the
identity if `include_identity` is False. -/
theorem C32_string {s : OpString} (hs : ValidString (jwLabels S) s) {tgt : OpType}
    (htgt : tgt = .pauli ∨ tgt = .majorana ∨ tgt = .fermion) (incl : Bool)
    (hf : s.opType = .fermion → tgt ≠ .fermion → FermionConvertible s incl) :
    ∃ (O : Operator K) (k : K), convertString s tgt incl = .ok O ∧ O.opType = tgt ∧ O.WF ∧ (∀ M ∈ O.basis.strs, ValidString S M) ∧
      (incl = true → k = 0) ∧
      ∀ {𝔸 : Type} [Ring 𝔸] [Algebra K 𝔸] [StarRing 𝔸] [StarModule K 𝔸] (R : PauliRep K 𝔸 S), R.Hermitian →
        R.anyDen s = O.den R.anyDen + k • 1 := by
  obtain ⟨O, k, h1, h2, h3, h4, -, h5, h6⟩ := convertString_any (K := K) hs htgt incl hf
  exact ⟨O, k, h1, h2, h3, h4, h5, h6⟩

/-- **C32** (operators): `convert(O, type)` of an `Operator` preserves the denoted operator, up to a multiple of the identity if
`include_identity` is False. -/
theorem C32_operator {A : Operator K} (hA : A.WF) (hs : ∀ s ∈ A.basis.strs, ValidString (jwLabels S) s) {tgt : OpType}
    (htgt : tgt = .pauli ∨ tgt = .majorana ∨ tgt = .fermion) (incl : Bool)
    (hf : ∀ s ∈ A.basis.strs, s.opType = .fermion → tgt ≠ .fermion → FermionConvertible s incl) :
    ∃ (C : Operator K) (k : K), convertOperator A tgt incl = .ok C ∧ C.opType = tgt ∧ C.WF ∧ (∀ M ∈ C.basis.strs, ValidString S M) ∧
      (incl = true → k = 0) ∧
      ∀ {𝔸 : Type} [Ring 𝔸] [Algebra K 𝔸] [StarRing 𝔸] [StarModule K 𝔸] (R : PauliRep K 𝔸 S), R.Hermitian →
        A.den R.anyDen = C.den R.anyDen + k • 1 := by
  have hex : ∀ s : OpString, ∃ (O : Operator K) (k : K), s ∈ A.basis.strs → (convertString s tgt incl = .ok O ∧ O.opType = tgt ∧ O.WF ∧
      (∀ M ∈ O.basis.strs, ValidString S M) ∧ (incl = true → k = 0) ∧
      ∀ {𝔸 : Type} [Ring 𝔸] [Algebra K 𝔸] [StarRing 𝔸] [StarModule K 𝔸] (R : PauliRep K 𝔸 S), R.Hermitian →
        R.anyDen s = O.den R.anyDen + k • 1) := by
    intro s
    by_cases h : s ∈ A.basis.strs
    · obtain ⟨O, k, hO⟩ := C32_string (K := K) (hs s h) htgt incl (hf s h)
      exact ⟨O, k, fun _ => hO⟩
    · exact ⟨⟨[], Basis.ofList [], tgt⟩, 0, fun h' => absurd h' h⟩
  choose f κ hfk using hex
  obtain ⟨C, h1, h2, h3, h4, h5⟩ := convertOperator_ok hA f (fun s hs' => ⟨(hfk s hs').1, (hfk s hs').2.2.1, (hfk s hs').2.1⟩)
  refine ⟨C, (A.terms.map (fun t => t.1 * κ t.2)).sum, h1, h3, h2, ?_, ?_, ?_⟩
  · intro M hM
    obtain ⟨t, ht, hM⟩ := h4 M hM
    exact (hfk t ht).2.2.2.1 M hM
  · intro hi
    rw [List.map_congr_left (g := fun _ => (0 : K)) (fun t ht => by rw [(hfk t.2 (List.of_mem_zip ht).2).2.2.2.2.1 hi, mul_zero])]
    simp
  · intro 𝔸 _ _ _ _ R hR
    have e : C.den R.anyDen = (A.terms.map (fun t => t.1 • (f t.2).den R.anyDen)).sum := by
      have key : ∀ ts : List (K × OpString), ∃ L : List (K × OpString), (∀ s, coefT L s = (ts.map (fun t => t.1 * (f t.2).coef s)).sum) ∧
          denT R.anyDen L = (ts.map (fun t => t.1 • (f t.2).den R.anyDen)).sum := by
        intro ts
        induction ts with
        | nil => exact ⟨[], by simp, by simp⟩
        | cons t ts ih =>
          obtain ⟨L, l1, l2⟩ := ih
          refine ⟨(f t.2).terms.map (fun u => (t.1 * u.1, u.2)) ++ L, ?_, ?_⟩
          · intro s
            rw [coefT_append, l1, List.map_cons, List.sum_cons]
            congr 1
            rw [Operator.coef, coefT, coefT, List.map_map, ← List.sum_map_mul_left]
            congr 1
            apply List.map_congr_left
            intro u _
            simp only [Function.comp_apply]
            split <;> simp
          · rw [denT_append, l2, List.map_cons, List.sum_cons]
            congr 1
            rw [Operator.den]
            apply denT_smul
            intro s
            rw [coefT, coefT, List.map_map, ← List.sum_map_mul_left]
            congr 1
            apply List.map_congr_left
            intro u _
            simp only [Function.comp_apply]
            split <;> simp
      obtain ⟨L, l1, l2⟩ := key A.terms
      rw [← l2]
      exact denT_congr _ (fun s => by rw [l1, ← h5]; rfl)
    rw [e, Operator.den, denT]
    have : ∀ ts : List (K × OpString), (∀ t ∈ ts, t.2 ∈ A.basis.strs) → (ts.map (fun t => t.1 • R.anyDen t.2)).sum =
        (ts.map (fun t => t.1 • (f t.2).den R.anyDen)).sum + (ts.map (fun t => t.1 * κ t.2)).sum • (1 : 𝔸) := by
      intro ts
      induction ts with
      | nil => simp
      | cons t ts ih =>
        intro h
        simp only [List.map_cons, List.sum_cons]
        rw [ih (fun x hx => h x (List.mem_cons_of_mem _ hx)), (hfk t.2 (h t (List.mem_cons_self ..))).2.2.2.2.2 R hR, smul_add, smul_smul, add_smul]
        abel
    exact this A.terms (fun t ht => (List.of_mem_zip ht).2)

/-- **C32** (`conversion_matrix`): if the target basis contains all strings that occur in the converted strings of the source
basis, `conversion_matrix` succeeds, has the right shape, and maps the coefficients of an operator over the source basis to
the coefficients of the converted operator over the target basis. -/
theorem C32_matrix {fr tgt : Basis} (hfi : fr.Inv) (hti : tgt.Inv) (hfr : fr.strs ≠ []) (htgt : tgt.strs ≠ []) {T T' : OpType}
    (hT : ∀ s ∈ tgt.strs, s.opType = T) (hT' : ∀ s ∈ fr.strs, s.opType = T') (hk : T = .pauli ∨ T = .majorana ∨ T = .fermion)
    (hs : ∀ s ∈ fr.strs, ValidString (jwLabels S) s)
    (hf : ∀ s ∈ fr.strs, s.opType = .fermion → T ≠ .fermion → FermionConvertible s false)
    (hmem : ∀ s ∈ fr.strs, ∀ O : Operator K, convertString s T false = .ok O → ∀ t ∈ O.basis.strs, t ∈ tgt.strs) :
    ∃ M : Mat K, conversionMatrix fr tgt = .ok M ∧ M.nrows = tgt.len ∧ M.ncols = fr.len ∧
      ∀ g : List K, g.length = fr.len → ∃ C, convertOperator ⟨g, fr, T'⟩ T false = .ok C ∧ (∀ s ∈ C.basis.strs, s ∈ tgt.strs) ∧
        ∀ i (hi : i < tgt.strs.length), C.coef tgt.strs[i] = M.mulVec (fun j => g.getD j 0) i := by
  have hex : ∀ s : OpString, ∃ (O : Operator K), s ∈ fr.strs → (convertString s T false = .ok O ∧ O.opType = T ∧ O.WF ∧
      (∀ c ∈ O.coeffs, (1 / 10 ^ 16 : ℝ) < ‖toC c‖)) := by
    intro s
    by_cases h : s ∈ fr.strs
    · obtain ⟨O, k, h1, h2, h3, h4, h5, -⟩ := convertString_any (K := K) (hs s h) hk false (hf s h)
      exact ⟨O, fun _ => ⟨h1, h2, h3, h5⟩⟩
    · exact ⟨⟨[], Basis.ofList [], T⟩, fun h' => absurd h' h⟩
  choose f hfk using hex
  obtain ⟨M, m1, m2, m3, m4⟩ := conversionMatrix_ok hti hfr htgt hT (tol := 1 / 10 ^ 16) f (fun s h => ⟨(hfk s h).1, fun t ht => ⟨by
    rw [absGt_iff]
    have := (hfk s h).2.2.2 t.1 (List.of_mem_zip ht).1
    push_cast; exact this, hmem s h _ (hfk s h).1 t.2 (List.of_mem_zip ht).2⟩⟩)
  refine ⟨M, m1, m2, m3, ?_⟩
  intro g hg
  have hA : (⟨g, fr, T'⟩ : Operator K).WF := ⟨hfi, hg, hT'⟩
  obtain ⟨C, h1, h2, h3, h4, h5⟩ := convertOperator_ok hA f (fun s hs' => ⟨(hfk s hs').1, (hfk s hs').2.2.1, (hfk s hs').2.1⟩)
  refine ⟨C, h1, ?_, ?_⟩
  · intro s hs'
    obtain ⟨t, ht, h⟩ := h4 s hs'
    exact hmem t ht _ (hfk t ht).1 s h
  · intro i hi
    rw [h5, Mat.mulVec, m3]
    have key : ∀ (n : ℕ) (l : List OpString) (g : List K) (F : OpString → K), g.length = l.length → l.length = n →
        ((g.zip l).map (fun t => t.1 * F t.2)).sum = ∑ j : Fin n, (if h : (j : ℕ) < l.length then F l[j] else 0) * g.getD j 0 := by
      intro n
      induction n with
      | zero => intro l g F h1 h2; rw [List.length_eq_zero_iff] at h2; subst h2; simp
      | succ n ih =>
        intro l g F h1 h2
        match l, g with
        | [], _ => simp at h2
        | x :: l, [] => simp at h1
        | x :: l, y :: g =>
          rw [List.zip_cons_cons, List.map_cons, List.sum_cons, ih l g F (by simpa using h1) (by simpa using h2), Fin.sum_univ_succ]
          simp [mul_comm]
    have := key fr.len fr.strs g (fun s => (f s).coef tgt.strs[i]) hg rfl
    simp only [Operator.terms]
    rw [this]
    apply Finset.sum_congr rfl
    intro j _
    have hj : (j : ℕ) < fr.strs.length := j.2
    rw [dif_pos hj, m4 i j hi hj]
    rfl

/-- **C32** (missing strings): otherwise `conversion_matrix` raises KeyError. -/
theorem C32_missing {fr tgt : Basis} (hti : tgt.Inv) (htgt : tgt.strs ≠ []) {T : OpType}
    (hT : ∀ s ∈ tgt.strs, s.opType = T) (hk : T = .pauli ∨ T = .majorana ∨ T = .fermion)
    (hs : ∀ s ∈ fr.strs, ValidString (jwLabels S) s)
    (hf : ∀ s ∈ fr.strs, s.opType = .fermion → T ≠ .fermion → FermionConvertible s false)
    (hmiss : ∃ s ∈ fr.strs, ∃ O : Operator K, convertString s T false = .ok O ∧ ∃ t ∈ O.basis.strs, t ∉ tgt.strs) :
    conversionMatrix fr tgt = (.error .keyError : Py (Mat K)) := by
  have hex : ∀ s : OpString, ∃ (O : Operator K), s ∈ fr.strs → (convertString s T false = .ok O ∧ O.WF ∧
      (∀ c ∈ O.coeffs, (1 / 10 ^ 16 : ℝ) < ‖toC c‖)) := by
    intro s
    by_cases h : s ∈ fr.strs
    · obtain ⟨O, k, h1, h2, h3, h4, h5, -⟩ := convertString_any (K := K) (hs s h) hk false (hf s h)
      exact ⟨O, fun _ => ⟨h1, h3, h5⟩⟩
    · exact ⟨⟨[], Basis.ofList [], T⟩, fun h' => absurd h' h⟩
  choose f hfk using hex
  apply conversionMatrix_err hti htgt hT f (fun s h => (hfk s h).1)
  obtain ⟨s, hs', O, hO, t, ht, hn⟩ := hmiss
  have : O = f s := by
    have := (hfk s hs').1
    rw [hO] at this
    exact Except.ok.inj this
  subst this
  rw [← (hfk s hs').2.1.terms_snd] at ht
  obtain ⟨u, hu, rfl⟩ := List.mem_map.mp ht
  refine ⟨s, hs', u, hu, ?_, hn⟩
  rw [absGt_iff]
  have := (hfk s hs').2.2 u.1 (List.of_mem_zip hu).1
  push_cast; exact this

/-- a string that converts to the identity is the identity -/
private theorem pauli_nonempty {P : OpString} (h : PauliString (jwLabels S) P) (hs : P.labels.Pairwise (· < ·)) {O : Operator K} {c : K} {M : OpString}
    (hO : convertString P .majorana false = .ok O) (ht : O.terms = [(c, M)]) (hM : M.opType = .majorana) (h0 : M.ops = []) : P.ops = [] := by
  obtain ⟨O₁, O', c₁, c', M₁, P', h1, h2, h3, h4, h5, -⟩ := C29_pauli_roundtrip (K := K) h hs false false
  rw [hO] at h1
  obtain rfl := Except.ok.inj h1
  rw [ht] at h2
  obtain ⟨rfl, rfl⟩ : c = c₁ ∧ M = M₁ := by simpa using h2
  have e1 : mkOpString [] [] .pauli = .ok ⟨[], [], .pauli, .float1⟩ := rfl
  simp only [convertString, jordanWigner, hM, h0, jwLoop, e1, bind, Except.bind, reduceCtorEq, if_false] at h3
  rw [mkOperator_ok (by simp) (by simp)] at h3
  obtain rfl := Except.ok.inj h3
  rw [← h5]
  simp only [Operator.terms, Basis.ofList_strs, List.zip_cons_cons, List.zip_nil_right, List.cons.injEq, Prod.mk.injEq, and_true] at h4
  rw [← h4.2]

private theorem majorana_nonempty {M : OpString} (h : MajoranaString (jwLabels (jwLabels S)) M) (hs : M.labels.Pairwise (· < ·)) {O : Operator K} {c : K} {P : OpString}
    (hO : convertString M .pauli false = .ok O) (ht : O.terms = [(c, P)]) (hM : P.opType = .pauli) (h0 : P.ops = []) : M.ops = [] := by
  obtain ⟨O₁, O', c₁, c', P₁, M', h1, h2, h3, h4, h5, -⟩ := C29_majorana_roundtrip (K := K) h hs false false
  rw [hO] at h1
  obtain rfl := Except.ok.inj h1
  rw [ht] at h2
  obtain ⟨rfl, rfl⟩ : c = c₁ ∧ P = P₁ := by simpa using h2
  have e1 : mkOpString [] [] .majorana = .ok ⟨[], [], .majorana, .float1⟩ := rfl
  simp only [convertString, jordanWigner, hM, h0, jwLoop, e1, bind, Except.bind, reduceCtorEq, if_false] at h3
  rw [mkOperator_ok (by simp) (by simp)] at h3
  obtain rfl := Except.ok.inj h3
  rw [← h5]
  simp only [Operator.terms, Basis.ofList_strs, List.zip_cons_cons, List.zip_nil_right, List.cons.injEq, Prod.mk.injEq, and_true] at h4
  rw [← h4.2]

private theorem single_term {O : Operator K} {c : K} {s' : OpString} (hw : O.WF) (ht : O.terms = [(c, s')]) {t : OpString} (hmem : t ∈ O.basis.strs) : t = s' := by
  have : O.terms.map Prod.snd = O.basis.strs := by
    rw [Operator.terms, List.map_snd_zip]; exact hw.len.ge
  rw [ht] at this
  rw [← this] at hmem; simpa using hmem

/-- **C32** (complete cluster bases, Pauli to Majorana): for the labels `0, ..., n-1`, in any order, the matrix from the Pauli strings
on up to all these orbitals to the Majorana strings on up to all these orbitals exists; every string is converted to one string
with the coefficient 1 or -1, so that every column has one entry, 1 or -1. -/
theorem C32_cluster_pauli_majorana {labels : List ℤ} (hl : labels.Nodup) (hpos : ∀ l ∈ labels, 0 ≤ l ∧ ∀ m, 0 ≤ m → m ≤ l → m ∈ labels) {k : KArg}
    (hkO : k.Ok) (hall : ∀ n, 0 < n → n ≤ labels.length → k.allows n) (hne : labels ≠ []) :
    ∃ (fr tgt : Basis) (M : Mat K), clusterBasis k labels .pauli = .ok fr ∧ clusterBasis k labels .majorana = .ok tgt ∧
      conversionMatrix fr tgt = .ok M ∧ fr.len = tgt.len ∧ M.nrows = tgt.len ∧ M.ncols = fr.len ∧
      (∀ s ∈ fr.strs, ∃ (O : Operator K) (c : K), ∃ s' ∈ tgt.strs, convertString s .majorana false = .ok O ∧ O.terms = [(c, s')] ∧ (c = 1 ∨ c = -1)) ∧
      ∀ g : List K, g.length = fr.len → ∃ C, convertOperator ⟨g, fr, .pauli⟩ .majorana false = .ok C ∧ (∀ s ∈ C.basis.strs, s ∈ tgt.strs) ∧
        ∀ i (hi : i < tgt.strs.length), C.coef tgt.strs[i] = M.mulVec (fun j => g.getD j 0) i := by
  have hjw : ∀ l ∈ labels, l ∈ jwLabels {x | x ∈ labels} := hpos
  have hjj : ∀ l ∈ labels, l ∈ jwLabels (jwLabels {x | x ∈ labels}) := fun l hl' =>
    ⟨(hpos l hl').1, fun m m0 ml => hjw m ((hpos l hl').2 m m0 ml)⟩
  obtain ⟨allowed, h1, h2, h3⟩ := KArg.allowedList_ok hkO
  obtain ⟨strs, k1, k2, -⟩ := spin_cluster (t := .pauli) (Or.inl rfl) rfl (mk := fun o l => ⟨o, l, .pauli, .float1⟩)
    (fun o l _ => mkOpString_pauli o l) (fun _ _ => ⟨rfl, rfl⟩) rfl h1 h2 hl false
  obtain ⟨strs', l1, l2, -⟩ := spin_cluster (t := .majorana) (Or.inr rfl) rfl
    (mk := fun o l => ⟨o, l, .majorana, if (numAB o).choose 2 % 2 = 1 then .imag else .float1⟩)
    (fun o l h => mkOpString_majorana h) (fun _ _ => ⟨rfl, rfl⟩) rfl h1 h2 hl false
  obtain ⟨bp, hp1, -, hp2, hp3⟩ := C18_pauli hkO hl false
  obtain ⟨bm, hm1, -, hm2, hm3⟩ := C18_majorana hkO hl false
  have hip : bp.Inv := by
    obtain rfl : bp = Basis.ofList strs := by rw [k1] at hp1; exact (Except.ok.inj hp1).symm
    exact Basis.Inv.ofList k2
  have him : bm.Inv := by
    obtain rfl : bm = Basis.ofList strs' := by rw [l1] at hm1; exact (Except.ok.inj hm1).symm
    exact Basis.Inv.ofList l2
  simp only [Bool.false_eq_true, false_and, false_or] at hp3 hm3
  obtain ⟨l0, ls, hlabs⟩ := List.exists_cons_of_ne_nil hne
  have hl0 : l0 ∈ labels := by rw [hlabs]; exact List.mem_cons_self ..
  have hall1 : k.allows 1 := hall 1 (by omega) (by rw [hlabs]; simp)
  have hpne : bp.strs ≠ [] := by
    intro h0
    have : (⟨[.X], [l0], .pauli, .float1⟩ : OpString) ∈ bp.strs := (hp3 _).mpr ⟨by simp, by simpa using hall1,
      ⟨rfl, by simp, rfl, by simp, by simpa using hl0, by simp⟩, by simp [OpString.Canonical]⟩
    rw [h0] at this; simp at this
  have hmne : bm.strs ≠ [] := by
    intro h0
    have : (⟨[.D], [l0], .majorana, .float1⟩ : OpString) ∈ bm.strs := (hm3 _).mpr ⟨by simp, by simpa using hall1,
      ⟨rfl, by simp, rfl, by simp, by simpa using hl0, by simp⟩, by simp [OpString.Canonical]⟩
    rw [h0] at this; simp at this
  have key : ∀ s ∈ bp.strs, ∃ (O : Operator K) (c : K), ∃ s' ∈ bm.strs, convertString s .majorana false = .ok O ∧ O.terms = [(c, s')] ∧ (c = 1 ∨ c = -1) := by
    intro s hs
    obtain ⟨s1, s2, s3, s4⟩ := (hp3 s).mp hs
    obtain ⟨O, c, M, o1, o2, -, o3, o4, o5, -⟩ := C29_pauli_to_majorana (K := K) (S := {x | x ∈ labels}) (P := s)
      ⟨s3.type, s3.ops, s3.len, s3.nodup, fun l hl' => hjw l (s3.mem l hl'), s3.pref⟩ false
    have hM : M.labels ≠ [] := by
      intro h0
      have e := pauli_nonempty (K := K) (S := {x | x ∈ labels}) ⟨s3.type, s3.ops, s3.len, s3.nodup, fun l hl' => hjw l (s3.mem l hl'), s3.pref⟩ s4.1 o1 o2
        o3.type (List.length_eq_zero_iff.mp (by rw [o3.len, h0]; rfl))
      exact s1 (List.length_eq_zero_iff.mp (by rw [← s3.len, e]; rfl))
    have hMs : MajoranaString {x | x ∈ labels} M := ⟨o3.type, o3.ops, o3.len, o3.nodup, fun l hl' => jwLabels_mem (o3.mem l hl'), o3.pref⟩
    exact ⟨O, c, M, (hm3 M).mpr ⟨hM, hall _ (List.length_pos_of_ne_nil hM) (List.subperm_of_subset hMs.nodup (fun x hx => hMs.mem x hx)).length_le, hMs, o4⟩,
      o1, o2, o5⟩
  obtain ⟨M, m1, m2, m3, m4⟩ := C32_matrix (K := K) (S := {x | x ∈ labels}) (T := .majorana) (T' := .pauli) hip him hpne hmne
    (fun s hs => ((hm3 s).mp hs).2.2.1.type) (fun s hs => ((hp3 s).mp hs).2.2.1.type) (Or.inr (Or.inl rfl))
    (fun s hs => Or.inl (by have s3 := ((hp3 s).mp hs).2.2.1; exact ⟨s3.type, s3.ops, s3.len, s3.nodup, fun l hl' => hjw l (s3.mem l hl'), s3.pref⟩))
    (fun s hs hf => by have s3 := ((hp3 s).mp hs).2.2.1; rw [s3.type] at hf; cases hf) (by
      intro s hs O hO t ht
      obtain ⟨O', c, s', h4, h5, h6, -⟩ := key s hs
      rw [hO] at h5
      obtain rfl := Except.ok.inj h5
      have s3 := ((hp3 s).mp hs).2.2.1
      have hw : O.WF := by
        obtain ⟨O'', _, e, -, w, -⟩ := C32_string (K := K) (S := {x | x ∈ labels}) (s := s)
          (Or.inl ⟨s3.type, s3.ops, s3.len, s3.nodup, fun l hl' => hjw l (s3.mem l hl'), s3.pref⟩) (tgt := .majorana) (by simp) false
          (fun hf => by rw [s3.type] at hf; cases hf)
        rw [hO] at e
        rw [Except.ok.inj e]; exact w
      rw [single_term hw h6 ht]; exact h4)
  exact ⟨bp, bm, M, hp1, hm1, m1, by rw [Basis.len, Basis.len, hp2, hm2], m2, m3, key, m4⟩

/-- **C32** (complete cluster bases, Majorana to Pauli): for the labels `0, ..., n-1`, in any order, the matrix from the Majorana strings
on up to all these orbitals to the Pauli strings on up to all these orbitals exists; every string is converted to one string
with the coefficient 1 or -1, so that every column has one entry, 1 or -1. -/
theorem C32_cluster_majorana_pauli {labels : List ℤ} (hl : labels.Nodup) (hpos : ∀ l ∈ labels, 0 ≤ l ∧ ∀ m, 0 ≤ m → m ≤ l → m ∈ labels) {k : KArg}
    (hkO : k.Ok) (hall : ∀ n, 0 < n → n ≤ labels.length → k.allows n) (hne : labels ≠ []) :
    ∃ (fr tgt : Basis) (M : Mat K), clusterBasis k labels .majorana = .ok fr ∧ clusterBasis k labels .pauli = .ok tgt ∧
      conversionMatrix fr tgt = .ok M ∧ fr.len = tgt.len ∧ M.nrows = tgt.len ∧ M.ncols = fr.len ∧
      (∀ s ∈ fr.strs, ∃ (O : Operator K) (c : K), ∃ s' ∈ tgt.strs, convertString s .pauli false = .ok O ∧ O.terms = [(c, s')] ∧ (c = 1 ∨ c = -1)) ∧
      ∀ g : List K, g.length = fr.len → ∃ C, convertOperator ⟨g, fr, .majorana⟩ .pauli false = .ok C ∧ (∀ s ∈ C.basis.strs, s ∈ tgt.strs) ∧
        ∀ i (hi : i < tgt.strs.length), C.coef tgt.strs[i] = M.mulVec (fun j => g.getD j 0) i := by
  have hjw : ∀ l ∈ labels, l ∈ jwLabels {x | x ∈ labels} := hpos
  have hjj : ∀ l ∈ labels, l ∈ jwLabels (jwLabels {x | x ∈ labels}) := fun l hl' =>
    ⟨(hpos l hl').1, fun m m0 ml => hjw m ((hpos l hl').2 m m0 ml)⟩
  obtain ⟨allowed, h1, h2, h3⟩ := KArg.allowedList_ok hkO
  obtain ⟨strs, k1, k2, -⟩ := spin_cluster (t := .pauli) (Or.inl rfl) rfl (mk := fun o l => ⟨o, l, .pauli, .float1⟩)
    (fun o l _ => mkOpString_pauli o l) (fun _ _ => ⟨rfl, rfl⟩) rfl h1 h2 hl false
  obtain ⟨strs', l1, l2, -⟩ := spin_cluster (t := .majorana) (Or.inr rfl) rfl
    (mk := fun o l => ⟨o, l, .majorana, if (numAB o).choose 2 % 2 = 1 then .imag else .float1⟩)
    (fun o l h => mkOpString_majorana h) (fun _ _ => ⟨rfl, rfl⟩) rfl h1 h2 hl false
  obtain ⟨bp, hp1, -, hp2, hp3⟩ := C18_pauli hkO hl false
  obtain ⟨bm, hm1, -, hm2, hm3⟩ := C18_majorana hkO hl false
  have hip : bp.Inv := by
    obtain rfl : bp = Basis.ofList strs := by rw [k1] at hp1; exact (Except.ok.inj hp1).symm
    exact Basis.Inv.ofList k2
  have him : bm.Inv := by
    obtain rfl : bm = Basis.ofList strs' := by rw [l1] at hm1; exact (Except.ok.inj hm1).symm
    exact Basis.Inv.ofList l2
  simp only [Bool.false_eq_true, false_and, false_or] at hp3 hm3
  obtain ⟨l0, ls, hlabs⟩ := List.exists_cons_of_ne_nil hne
  have hl0 : l0 ∈ labels := by rw [hlabs]; exact List.mem_cons_self ..
  have hall1 : k.allows 1 := hall 1 (by omega) (by rw [hlabs]; simp)
  have hpne : bp.strs ≠ [] := by
    intro h0
    have : (⟨[.X], [l0], .pauli, .float1⟩ : OpString) ∈ bp.strs := (hp3 _).mpr ⟨by simp, by simpa using hall1,
      ⟨rfl, by simp, rfl, by simp, by simpa using hl0, by simp⟩, by simp [OpString.Canonical]⟩
    rw [h0] at this; simp at this
  have hmne : bm.strs ≠ [] := by
    intro h0
    have : (⟨[.D], [l0], .majorana, .float1⟩ : OpString) ∈ bm.strs := (hm3 _).mpr ⟨by simp, by simpa using hall1,
      ⟨rfl, by simp, rfl, by simp, by simpa using hl0, by simp⟩, by simp [OpString.Canonical]⟩
    rw [h0] at this; simp at this
  have key : ∀ s ∈ bm.strs, ∃ (O : Operator K) (c : K), ∃ s' ∈ bp.strs, convertString s .pauli false = .ok O ∧ O.terms = [(c, s')] ∧ (c = 1 ∨ c = -1) := by
    intro s hs
    obtain ⟨s1, s2, s3, s4⟩ := (hm3 s).mp hs
    have s5 : MajoranaString (jwLabels (jwLabels {x | x ∈ labels})) s := ⟨s3.type, s3.ops, s3.len, s3.nodup, fun l hl' => hjj l (s3.mem l hl'), s3.pref⟩
    obtain ⟨O, c, P, o1, o2, -, o3, o4, o5, -⟩ := C29_majorana_to_pauli (K := K) (S := {x | x ∈ labels}) (M := s)
      ⟨s3.type, s3.ops, s3.len, s3.nodup, fun l hl' => hjw l (s3.mem l hl'), s3.pref⟩ false
    have hP : P.labels ≠ [] := by
      intro h0
      have e := majorana_nonempty (K := K) (S := {x | x ∈ labels}) s5 s4.1 o1 o2
        o3.type (List.length_eq_zero_iff.mp (by rw [o3.len, h0]; rfl))
      exact s1 (List.length_eq_zero_iff.mp (by rw [← s3.len, e]; rfl))
    exact ⟨O, c, P, (hp3 P).mpr ⟨hP, hall _ (List.length_pos_of_ne_nil hP) (List.subperm_of_subset o3.nodup (fun x hx => o3.mem x hx)).length_le, o3, o4⟩,
      o1, o2, o5⟩
  obtain ⟨M, m1, m2, m3, m4⟩ := C32_matrix (K := K) (S := {x | x ∈ labels}) (T := .pauli) (T' := .majorana) him hip hmne hpne
    (fun s hs => ((hp3 s).mp hs).2.2.1.type) (fun s hs => ((hm3 s).mp hs).2.2.1.type) (Or.inl rfl)
    (fun s hs => Or.inr (Or.inl (by have s3 := ((hm3 s).mp hs).2.2.1; exact ⟨s3.type, s3.ops, s3.len, s3.nodup, fun l hl' => hjw l (s3.mem l hl'), s3.pref⟩)))
    (fun s hs hf => by have s3 := ((hm3 s).mp hs).2.2.1; rw [s3.type] at hf; cases hf) (by
      intro s hs O hO t ht
      obtain ⟨O', c, s', h4, h5, h6, -⟩ := key s hs
      rw [hO] at h5
      obtain rfl := Except.ok.inj h5
      have s3 := ((hm3 s).mp hs).2.2.1
      have hw : O.WF := by
        obtain ⟨O'', _, e, -, w, -⟩ := C32_string (K := K) (S := {x | x ∈ labels}) (s := s)
          (Or.inr <| Or.inl ⟨s3.type, s3.ops, s3.len, s3.nodup, fun l hl' => hjw l (s3.mem l hl'), s3.pref⟩) (tgt := .pauli) (by simp) false
          (fun hf => by rw [s3.type] at hf; cases hf)
        rw [hO] at e
        rw [Except.ok.inj e]; exact w
      rw [single_term hw h6 ht]; exact h4)
  exact ⟨bm, bp, M, hm1, hp1, m1, by rw [Basis.len, Basis.len, hp2, hm2], m2, m3, key, m4⟩

/-- the strings of a complete Fermion cluster basis can be converted -/
private theorem fermion_cluster_strings {labels : List ℤ} (hl : labels.Nodup) (hlen : labels.length < 52) {k : KArg} (hkO : k.Ok) {b : Basis}
    (hb1 : clusterBasis k labels .fermion = .ok b) :
    b.Inv ∧ ∀ s ∈ b.strs, s.labels ≠ [] ∧ FermionString {x | x ∈ labels} s ∧ FermionConvertible s false := by
  obtain ⟨allowed, h1, h2, h3⟩ := KArg.allowedList_ok hkO
  obtain ⟨strs, k1, k2, k3⟩ := fermion_cluster h1 h2 hl false
  obtain ⟨b', hb1', -, hb3⟩ := C18_fermion hkO hl false
  obtain rfl : b = b' := by rw [hb1] at hb1'; exact Except.ok.inj hb1'
  refine ⟨?_, ?_⟩
  · obtain rfl : b = Basis.ofList strs := by rw [k1] at hb1; exact (Except.ok.inj hb1).symm
    exact Basis.Inv.ofList k2
  · intro s hs
    rcases (hb3 s).mp hs with ⟨h, _⟩ | ⟨F, f1, f2, f3, f4, hcase⟩
    · simp at h
    have hform : ∃ (B : List ℤ) (p : Pref), B.Nodup ∧ (∀ x ∈ B, x ∈ labels) ∧ s = hopString F B p ∧
        ((hopString F B p).OwnConjugate ∨ p ≠ .imag ∨ ∃ l, ¬ (l ∈ F ↔ l ∈ B)) := by
      rcases hcase with rfl | ⟨B, p, b1, b2, b3, b4, rfl⟩
      · exact ⟨F.reverse, .float1, List.nodup_reverse.mpr (f3.imp ne_of_lt), by simpa using f4, rfl, Or.inr (Or.inl (by simp))⟩
      · refine ⟨B, p, b1.imp ne_of_lt, b2, rfl, Or.inr (Or.inr ?_)⟩
        by_contra hc
        push Not at hc
        have hperm : F.Perm B := (List.perm_ext_iff_of_nodup (f3.imp ne_of_lt) (b1.imp ne_of_lt)).mpr hc
        have : F = B := hperm.eq_of_pairwise (le := fun a b => a < b) (fun a b _ _ h1 h2 => absurd h1 (asymm h2)) f3 b1
        subst this
        rcases b3 with b3 | b3
        · omega
        · exact absurd b3.2 (lt_irrefl _)
    obtain ⟨B, p, b1, b2, rfl, b3⟩ := hform
    have hlab := normalString_labels F B .fermion p
    have hmemL : ∀ l ∈ F ++ B, l ∈ labels := fun l hl' => (List.mem_append.mp hl').elim (f4 l) (b2 l)
    refine ⟨by simp [hopString, f1], ⟨rfl, by simp [hopString], ?_, ?_, ?_, hmemL⟩, ?_, Or.inl (by simp [hopString, f1]), ?_⟩
    · unfold hopString; rw [hlab.1, hlab.2]
    · unfold hopString; rw [hlab.1]; exact f3.imp ne_of_lt
    · unfold hopString; rw [hlab.2]; exact b1
    · have : (F ++ B).toFinset ⊆ labels.toFinset := by
        intro x hx; rw [List.mem_toFinset] at hx ⊢; exact hmemL x hx
      have h1 := Finset.card_le_card this
      have h2 := List.toFinset_card_le labels
      exact lt_of_le_of_lt (h1.trans h2) hlen
    · rcases b3 with h | h | h
      · exact Or.inl h
      · exact Or.inr (Or.inl h)
      · unfold hopString; rw [hlab.1, hlab.2]; exact Or.inr (Or.inr h)

/-- **C32** (complete cluster bases, Fermion to Majorana): for any cluster of fewer than 52 non-negative labels, the matrix from the
Fermion strings on up to all its orbitals to the Majorana strings on up to all its orbitals exists. -/
theorem C32_cluster_fermion_majorana {labels : List ℤ} (hl : labels.Nodup) (hpos : ∀ l ∈ labels, 0 ≤ l) (hlen : labels.length < 52) {k : KArg} (hkO : k.Ok)
    (hall : ∀ n, 0 < n → n ≤ labels.length → k.allows n) (hne : labels ≠ []) :
    ∃ (fr tgt : Basis) (M : Mat K), clusterBasis k labels .fermion = .ok fr ∧ clusterBasis k labels .majorana = .ok tgt ∧
      conversionMatrix fr tgt = .ok M ∧ M.nrows = tgt.len ∧ M.ncols = fr.len ∧
      ∀ g : List K, g.length = fr.len → ∃ C, convertOperator ⟨g, fr, .fermion⟩ .majorana false = .ok C ∧ (∀ s ∈ C.basis.strs, s ∈ tgt.strs) ∧
        ∀ i (hi : i < tgt.strs.length), C.coef tgt.strs[i] = M.mulVec (fun j => g.getD j 0) i := by
  obtain ⟨allowed, h1, h2, h3⟩ := KArg.allowedList_ok hkO
  obtain ⟨strs, k1, k2, k3⟩ := fermion_cluster h1 h2 hl false
  obtain ⟨strs', l1, l2, l3, -⟩ := spin_cluster (t := .majorana) (Or.inr rfl) rfl
    (mk := fun o l => ⟨o, l, .majorana, if (numAB o).choose 2 % 2 = 1 then .imag else .float1⟩)
    (fun o l h => mkOpString_majorana h) (fun _ _ => ⟨rfl, rfl⟩) rfl h1 h2 hl false
  obtain ⟨b, hb1, -, hb3⟩ := C18_fermion hkO hl false
  obtain ⟨b', hb1', -, -, hb3'⟩ := C18_majorana hkO hl false
  have eb : b = Basis.ofList strs := by rw [k1] at hb1; exact (Except.ok.inj hb1).symm
  have eb' : b' = Basis.ofList strs' := by rw [l1] at hb1'; exact (Except.ok.inj hb1').symm
  have hinv : b.Inv := by rw [eb]; exact Basis.Inv.ofList k2
  have hinv' : b'.Inv := by rw [eb']; exact Basis.Inv.ofList l2
  have hstr := (fermion_cluster_strings hl hlen hkO hb1).2
  obtain ⟨l0, ls, hlabs⟩ := List.exists_cons_of_ne_nil hne
  have hl0 : l0 ∈ labels := by rw [hlabs]; exact List.mem_cons_self ..
  have hall1 : k.allows 1 := hall 1 (by omega) (by rw [hlabs]; simp)
  have hfrne : b.strs ≠ [] := by
    intro h0
    have : hopString [l0] [l0].reverse .float1 ∈ b.strs := (hb3 _).mpr (Or.inr ⟨[l0], by simp, by simpa using hall1, by simp, by simpa using hl0, Or.inl rfl⟩)
    rw [h0] at this; simp at this
  have htgtne : b'.strs ≠ [] := by
    intro h0
    have : (⟨[.D], [l0], .majorana, .float1⟩ : OpString) ∈ b'.strs := (hb3' _).mpr (Or.inr ⟨by simp, by simpa using hall1,
      ⟨rfl, by simp, rfl, by simp, by simpa using hl0, by simp⟩, by simp [OpString.Canonical]⟩)
    rw [h0] at this; simp at this
  obtain ⟨M, m1, m2, m3, m4⟩ := C32_matrix (K := K) (S := {l : ℤ | 0 ≤ l}) (T := .majorana) (T' := .fermion) hinv hinv' hfrne htgtne
    (by
      intro s hs
      rcases (hb3' s).mp hs with ⟨h, _⟩ | ⟨_, _, h, _⟩
      · simp at h
      · exact h.type)
    (fun s hs => (hstr s hs).2.1.type) (Or.inr (Or.inl rfl))
    (fun s hs => Or.inr (Or.inr ((hstr s hs).2.1.mono (by rw [jwLabels_nonneg]; exact fun l hl => hpos l hl))))
    (fun s hs _ _ => (hstr s hs).2.2) (by
      intro s hs O hO t ht
      obtain ⟨h4, h5, h6⟩ := hstr s hs
      obtain ⟨O', k', o1, o2, o3, o4, -⟩ := C30_fermion_to_majorana (K := K) h5 false h6
      rw [hO] at o1
      obtain rfl := Except.ok.inj o1
      obtain ⟨t1, t2, t3⟩ := o4 t ht
      have tl : t.labels ≠ [] := by
        intro h0
        have := t1.len; rw [h0] at this
        exact t3 rfl (List.length_eq_zero_iff.mp this)
      refine (hb3' t).mpr (Or.inr ⟨tl, hall _ (List.length_pos_of_ne_nil tl) ?_, t1, t2⟩)
      exact (List.subperm_of_subset t1.nodup (fun x hx => t1.mem x hx)).length_le)
  exact ⟨b, b', M, hb1, hb1', m1, m2, m3, m4⟩

private theorem mkOperator_parts {cs : List K} {l : List OpString} {t : Option OpType} {A : Operator K} (h : mkOperator cs l t = .ok A) :
    A.coeffs = cs ∧ A.basis.strs = l := by
  rw [mkOperator] at h
  cases hb : mkBasis l with
  | error e => rw [hb] at h; cases h
  | ok B =>
    rw [hb] at h
    simp only [bind, Except.bind] at h
    rw [(mkOperatorB_basis h).1, (mkOperatorB_basis h).2, (mkBasis_inv hb).2]
    exact ⟨rfl, rfl⟩

private theorem mem_of_mapM {α β : Type} {f : α → Py β} : ∀ {l : List α} {r : List β}, l.mapM f = .ok r → ∀ y ∈ r, ∃ x ∈ l, f x = .ok y := by
  intro l
  induction l with
  | nil => intro r h y hy; rw [List.mapM_nil] at h; cases h; simp at hy
  | cons x l ih =>
    intro r h y hy
    rw [List.mapM_cons] at h
    cases hx : f x with
    | error e => rw [hx] at h; cases h
    | ok z =>
      cases hr : l.mapM f with
      | error e => rw [hx, hr] at h; cases h
      | ok r' =>
        rw [hx, hr] at h
        cases h
        rcases List.mem_cons.mp hy with rfl | hy
        · exact ⟨x, List.mem_cons_self .., hx⟩
        · obtain ⟨x', h1, h2⟩ := ih hr y hy
          exact ⟨x', List.mem_cons_of_mem _ h1, h2⟩

/-- **C32** (complete cluster bases, Fermion to Pauli): for the labels `0, ..., n-1` with `n < 52`, in any order, the matrix from the
Fermion strings on up to all these orbitals to the Pauli strings on up to all these orbitals exists. -/
theorem C32_cluster_fermion_pauli {labels : List ℤ} (hl : labels.Nodup) (hpos : ∀ l ∈ labels, 0 ≤ l ∧ ∀ m, 0 ≤ m → m ≤ l → m ∈ labels)
    (hlen : labels.length < 52) {k : KArg} (hkO : k.Ok) (hall : ∀ n, 0 < n → n ≤ labels.length → k.allows n) (hne : labels ≠ []) :
    ∃ (fr tgt : Basis) (M : Mat K), clusterBasis k labels .fermion = .ok fr ∧ clusterBasis k labels .pauli = .ok tgt ∧
      conversionMatrix fr tgt = .ok M ∧ M.nrows = tgt.len ∧ M.ncols = fr.len ∧
      ∀ g : List K, g.length = fr.len → ∃ C, convertOperator ⟨g, fr, .fermion⟩ .pauli false = .ok C ∧ (∀ s ∈ C.basis.strs, s ∈ tgt.strs) ∧
        ∀ i (hi : i < tgt.strs.length), C.coef tgt.strs[i] = M.mulVec (fun j => g.getD j 0) i := by
  have hjw : ∀ l ∈ labels, l ∈ jwLabels {x | x ∈ labels} := hpos
  obtain ⟨bf, bm, -, hf1, hm1, -, -, -, -⟩ := C32_cluster_fermion_majorana (K := K) hl (fun l hl' => (hpos l hl').1) hlen hkO hall hne
  obtain ⟨bm', bp, -, hm1', hp1, -, -, -, -, key, -⟩ := C32_cluster_majorana_pauli (K := K) hl hpos hkO hall hne
  obtain rfl : bm = bm' := by rw [hm1] at hm1'; exact Except.ok.inj hm1'
  obtain ⟨bp', bm', -, hp1', -, -, -, -, -, keyp, -⟩ := C32_cluster_pauli_majorana (K := K) hl hpos hkO hall hne
  obtain rfl : bp = bp' := by rw [hp1] at hp1'; exact Except.ok.inj hp1'
  obtain ⟨hif, hstr⟩ := fermion_cluster_strings hl hlen hkO hf1
  obtain ⟨allowed, h1, h2, h3⟩ := KArg.allowedList_ok hkO
  obtain ⟨strs, k1, k2, -⟩ := spin_cluster (t := .pauli) (Or.inl rfl) rfl (mk := fun o l => ⟨o, l, .pauli, .float1⟩)
    (fun o l _ => mkOpString_pauli o l) (fun _ _ => ⟨rfl, rfl⟩) rfl h1 h2 hl false
  have hip : bp.Inv := by
    obtain rfl : bp = Basis.ofList strs := by rw [k1] at hp1; exact (Except.ok.inj hp1).symm
    exact Basis.Inv.ofList k2
  obtain ⟨bf', hf1', -, hf3⟩ := C18_fermion hkO hl false
  obtain rfl : bf = bf' := by rw [hf1] at hf1'; exact Except.ok.inj hf1'
  obtain ⟨bp', hp1', -, -, hp3⟩ := C18_pauli hkO hl false
  obtain rfl : bp = bp' := by rw [hp1] at hp1'; exact Except.ok.inj hp1'
  obtain ⟨bm', hm1', -, -, hm3⟩ := C18_majorana hkO hl false
  obtain rfl : bm = bm' := by rw [hm1] at hm1'; exact Except.ok.inj hm1'
  simp only [Bool.false_eq_true, false_and, false_or] at hp3 hm3
  obtain ⟨l0, ls, hlabs⟩ := List.exists_cons_of_ne_nil hne
  have hl0 : l0 ∈ labels := by rw [hlabs]; exact List.mem_cons_self ..
  have hall1 : k.allows 1 := hall 1 (by omega) (by rw [hlabs]; simp)
  have hfne : bf.strs ≠ [] := by
    intro h0
    have : hopString [l0] [l0].reverse .float1 ∈ bf.strs := (hf3 _).mpr (Or.inr ⟨[l0], by simp, by simpa using hall1, by simp, by simpa using hl0, Or.inl rfl⟩)
    rw [h0] at this; simp at this
  have hpne : bp.strs ≠ [] := by
    intro h0
    have : (⟨[.X], [l0], .pauli, .float1⟩ : OpString) ∈ bp.strs := (hp3 _).mpr ⟨by simp, by simpa using hall1,
      ⟨rfl, by simp, rfl, by simp, by simpa using hl0, by simp⟩, by simp [OpString.Canonical]⟩
    rw [h0] at this; simp at this
  obtain ⟨M, m1, m2, m3, m4⟩ := C32_matrix (K := K) (S := {x | x ∈ labels}) (T := .pauli) (T' := .fermion) hif hip hfne hpne
    (fun s hs => ((hp3 s).mp hs).2.2.1.type) (fun s hs => (hstr s hs).2.1.type) (Or.inl rfl)
    (fun s hs => Or.inr (Or.inr ((hstr s hs).2.1.mono hjw))) (fun s hs _ _ => (hstr s hs).2.2) (by
      intro s hs O hO t ht
      obtain ⟨h4, h5, h6⟩ := hstr s hs
      obtain ⟨O', k', o1, o2, o3, o4, -⟩ := C30_fermion_to_majorana (K := K) h5 false h6
      have o1' : convertFermionString s false = .ok O' := by
        simpa [convertString, h5.type] using o1
      simp only [convertString, h5.type, o1', bind, Except.bind, reduceCtorEq, if_false] at hO
      cases hj : jwTerms O'.terms with
      | error e => rw [hj] at hO; cases hO
      | ok terms =>
        rw [hj] at hO
        have hmem : ∀ x ∈ terms, x.2 ∈ bp.strs := by
          intro x hx
          obtain ⟨y, y1, y2⟩ := mem_of_mapM hj x hx
          obtain ⟨t1, t2, t3⟩ := o4 y.2 (List.of_mem_zip y1).2
          have tl : y.2.labels ≠ [] := by
            intro h0
            have := t1.len; rw [h0] at this
            exact t3 rfl (List.length_eq_zero_iff.mp this)
          obtain ⟨O₁, c, s', q1, q2, q3, -⟩ := key y.2 ((hm3 y.2).mpr ⟨tl, hall _ (List.length_pos_of_ne_nil tl)
            (List.subperm_of_subset t1.nodup (fun x hx => t1.mem x hx)).length_le, t1, t2⟩)
          simp only [convertString, t1.type, bind, Except.bind, reduceCtorEq, if_false] at q2
          simp only [bind, Except.bind] at y2
          cases hjj : (jordanWigner y.2 : Py (K × OpString)) with
          | error e => rw [hjj] at q2; cases q2
          | ok r =>
            rw [hjj] at q2 y2
            obtain rfl := Except.ok.inj y2
            obtain ⟨e1, e2⟩ := mkOperator_parts q2
            rw [Operator.terms, e1, e2] at q3
            simp only [List.zip_cons_cons, List.zip_nil_right, List.cons.injEq, Prod.mk.injEq, and_true] at q3
            rw [q3.2]; exact q1
        rw [(mkOperator_parts hO).2] at ht
        obtain ⟨x, hx, rfl⟩ := List.mem_map.mp ht
        exact hmem x hx)
  exact ⟨bf, bp, M, hf1, hp1, m1, m2, m3, m4⟩

/-- **C32**, the negation for labels with a gap: on the labels 0 and 2 alone, X_2 becomes a string on 0, 1 and 2, which the complete
cluster basis lacks, so that `conversion_matrix` raises KeyError. -/
theorem C32_cluster_gap_refuted : ((do
    let a ← clusterBasis (.int 2) [0, 2] .pauli
    let b ← clusterBasis (.int 2) [0, 2] .majorana
    conversionMatrix a b) : Py (Mat QI)) = .error .keyError := by decide +kernel

/-- **C32**, the negation: in the other direction the documented complete cluster bases are *not* sufficient.  For three
orbitals the strings of `cluster_basis(3, [1,2,3], 'Fermion')` have their annihilation operators in increasing order, while
`convert` orders them decreasingly, so `conversion_matrix` raises KeyError. -/
theorem C32_cluster_refuted : ((do
    let a ← clusterBasis (.int 3) [1, 2, 3] .majorana
    let b ← clusterBasis (.int 3) [1, 2, 3] .fermion
    conversionMatrix a b) : Py (Mat QI)) = .error .keyError := by decide +kernel

-- for two orbitals (the example of the documentation) both directions exist, and `C32_matrix` applies
example : ((do
    let a ← clusterBasis (.int 2) [1, 2] .majorana
    let b ← clusterBasis (.int 2) [1, 2] .fermion
    let M : Mat QI ← conversionMatrix a b
    let N : Mat QI ← conversionMatrix b a
    .ok (M.nrows, N.nrows)) : Py (ℕ × ℕ)) = .ok (15, 15) := by decide +kernel
example : ∃ (fr tgt : Basis) (M : Mat QI), clusterBasis (.int 3) [1, 2, 3] .fermion = .ok fr ∧ clusterBasis (.int 3) [1, 2, 3] .majorana = .ok tgt ∧
    conversionMatrix fr tgt = .ok M := by
  obtain ⟨fr, tgt, M, h1, h2, h3, -⟩ := C32_cluster_fermion_majorana (K := QI) (labels := [1, 2, 3]) (k := .int 3) (by decide) (by simp) (by decide)
    (by simp [KArg.Ok]) (by intro n h1 h2; simp only [KArg.allows]; simp at h2; omega) (by simp)
  exact ⟨fr, tgt, M, h1, h2, h3⟩
example : ∃ (fr tgt : Basis) (M N : Mat QI), clusterBasis (.int 3) [1, 0, 2] .pauli = .ok fr ∧ clusterBasis (.int 3) [1, 0, 2] .majorana = .ok tgt ∧
    conversionMatrix fr tgt = .ok M ∧ conversionMatrix tgt fr = .ok N := by
  have hp : ∀ l ∈ [1, 0, (2 : ℤ)], 0 ≤ l ∧ ∀ m, 0 ≤ m → m ≤ l → m ∈ [1, 0, (2 : ℤ)] := by
    intro l hl
    simp at hl
    refine ⟨by omega, fun m h1 h2 => ?_⟩
    simp; omega
  obtain ⟨fr, tgt, M, h1, h2, h3, -⟩ := C32_cluster_pauli_majorana (K := QI) (labels := [1, 0, 2]) (k := .int 3) (by decide) hp
    (by simp [KArg.Ok]) (by intro n h1 h2; simp only [KArg.allows]; simp at h2; omega) (by simp)
  obtain ⟨fr', tgt', M', h1', h2', h3', -⟩ := C32_cluster_majorana_pauli (K := QI) (labels := [1, 0, 2]) (k := .int 3) (by decide) hp
    (by simp [KArg.Ok]) (by intro n h1 h2; simp only [KArg.allows]; simp at h2; omega) (by simp)
  rw [h2] at h1'
  rw [h1] at h2'
  cases h1'; cases h2'
  exact ⟨fr, tgt, M, M', h1, h2, h3, h3'⟩
example : ∃ (fr tgt : Basis) (M : Mat QI), clusterBasis (.int 2) [1, 0] .fermion = .ok fr ∧ clusterBasis (.int 2) [1, 0] .pauli = .ok tgt ∧
    conversionMatrix fr tgt = .ok M := by
  obtain ⟨fr, tgt, M, h1, h2, h3, -⟩ := C32_cluster_fermion_pauli (K := QI) (labels := [1, 0]) (k := .int 2) (by decide)
    (by
      intro l hl
      simp at hl
      refine ⟨by omega, fun m h1 h2 => ?_⟩
      simp; omega) (by decide) (by simp [KArg.Ok]) (by intro n h1 h2; simp only [KArg.allows]; simp at h2; omega) (by simp)
  exact ⟨fr, tgt, M, h1, h2, h3⟩
example : (matRep QI 3).Hermitian := matRep_star QI 3

end Qosy
