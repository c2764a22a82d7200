import Verif.Lemmas.Hermitian
import Verif.Spec.Concrete

/-!
# Properties C01-C05: products and brackets of operator strings

All theorems hold for *every* algebra `𝔸` over the coefficients `K` whose site operators satisfy the relations of
`Spec/Rep.lean` on a set `S` of labels.  `R.den s` is the operator a string denotes.
-/

namespace Qosy
open Coef

variable {K : Type} [Field K] [StarRing K] [Coef K]
variable {𝔸 : Type} [Ring 𝔸] [Algebra K 𝔸] {S : Set ℤ}

/-- **C01**: `product(A, B) = (c, C)` with `A * B = c * C`, Pauli strings. -/
theorem C01_pauli_product (R : PauliRep K 𝔸 S) {A B : OpString} (hA : PauliString S A) (hB : PauliString S B) :
    ∃ (c : K) (C : OpString), productS A B = .ok (c, some C) ∧ R.den A * R.den B = c • R.den C := by
  obtain ⟨c, _, C, h⟩ := pauli_core R hA hB
  exact ⟨c, C, h.prod, h.ab⟩

/-- **C02**: `product(A, B) = (c, C)` with `A * B = c * C`, Majorana strings. -/
theorem C02_majorana_product (R : MajoranaRep K 𝔸 S) {A B : OpString} (hA : MajoranaString S A)
    (hB : MajoranaString S B) :
    ∃ (c : K) (C : OpString), productS A B = .ok (c, some C) ∧ R.den A * R.den B = c • R.den C := by
  obtain ⟨c, _, C, h⟩ := majorana_core R hA hB
  exact ⟨c, C, h.prod, h.ab⟩

/-- A (anti)commutator result is right: either an explicit non-zero multiple of a string, or the explicit zero. -/
def BracketExact (den : OpString → 𝔸) (bracket : 𝔸) (result : Py (K × Option OpString)) : Prop :=
  (∃ (c : K) (C : OpString), result = .ok (c, some C) ∧ c ≠ 0 ∧ bracket = c • den C ∧ bracket ≠ 0) ∨
  (result = .ok (0, none) ∧ bracket = 0)

theorem OpResult.exact [Nontrivial 𝔸] {den : OpString → 𝔸} {Str : OpString → Prop} {A B : OpString} {c c' : K}
    {C : OpString} (h : OpResult den Str A B c c' C) (hC : den C * den C = 1) :
    BracketExact den (den A * den B - den B * den A) (commutatorS A B : Py (K × Option OpString)) ∧
    BracketExact den (den A * den B + den B * den A) (anticommutatorS A B : Py (K × Option OpString)) := by
  have h2 : c * 2 ≠ 0 := mul_ne_zero h.phase.ne_zero two_ne_zero'
  have hne : (c * 2) • den C ≠ 0 := by
    intro h0
    have h1 : ((c * 2) • den C) * den C = 0 := by rw [h0, zero_mul]
    rw [smul_mul_assoc, hC] at h1
    have h3 := congrArg (fun x => (c * 2)⁻¹ • x) h1
    simp only [smul_smul, inv_mul_cancel₀ h2, one_smul, smul_zero] at h3
    exact one_ne_zero h3
  have e1 : c • den C + c • den C = (c * 2) • den C := by rw [← add_smul]; congr 1; ring
  rcases h.brackets with ⟨rfl, h3, h4⟩ | ⟨rfl, h3, h4⟩
  · refine ⟨Or.inr ⟨h3, by rw [h.ab, h.ba, sub_self]⟩, Or.inl ⟨_, C, h4, h2, ?_, ?_⟩⟩
    · rw [h.ab, h.ba, e1]
    · rw [h.ab, h.ba, e1]; exact hne
  · refine ⟨Or.inl ⟨_, C, h3, h2, ?_, ?_⟩, Or.inr ⟨h4, by rw [h.ab, h.ba, neg_smul, add_neg_cancel]⟩⟩
    · rw [h.ab, h.ba, neg_smul, sub_neg_eq_add, e1]
    · rw [h.ab, h.ba, neg_smul, sub_neg_eq_add, e1]; exact hne

/-- **C05** (third part): `product(S, S)` is exactly `(1, identity)`. -/
theorem C05_product_self {s : OpString} (h : s.opType = .pauli ∨ s.opType = .majorana) :
    productS s s = .ok ((1 : K), some (identityString s.opType)) := by
  unfold productS operationOpString
  rw [if_neg (not_not.mpr h), if_pos ⟨rfl, pyEq_iff.mpr ⟨rfl, rfl, rfl⟩⟩]
  rcases h with h | h <;> rw [h]
  · rw [mkOpString_pauli]; rfl
  · rw [mkOpString_majorana rfl]; rfl

/-- **C05** (second part, Pauli): every Pauli string squares to one. -/
theorem C05_pauli_square (R : PauliRep K 𝔸 S) {s : OpString} (h : PauliString S s) : R.den s * R.den s = 1 := by
  obtain ⟨c, C, h1, h2⟩ := C01_pauli_product R h h
  rw [C05_product_self (Or.inl h.type)] at h1
  simp only [Except.ok.injEq, Prod.mk.injEq, Option.some.injEq] at h1
  rw [h2, ← h1.1, ← h1.2]
  simp [PauliRep.den, identityString, wordProd, Pref.val]

/-- **C05** (second part, Majorana): every Majorana string squares to one. -/
theorem C05_majorana_square (R : MajoranaRep K 𝔸 S) {s : OpString} (h : MajoranaString S s) :
    R.den s * R.den s = 1 := by
  obtain ⟨c, C, h1, h2⟩ := C02_majorana_product R h h
  rw [C05_product_self (Or.inr h.type)] at h1
  simp only [Except.ok.injEq, Prod.mk.injEq, Option.some.injEq] at h1
  rw [h2, ← h1.1, ← h1.2]
  simp [MajoranaRep.den, identityString, wordProd, Pref.val]

/-- **C05** (first part, Pauli): a string built by the constructor denotes a Hermitian operator in every
*-representation. -/
theorem C05_pauli_hermitian [StarRing 𝔸] [StarModule K 𝔸] (R : PauliRep K 𝔸 S)
    (hs : ∀ i ∈ S, star (R.X i) = R.X i ∧ star (R.Y i) = R.Y i ∧ star (R.Z i) = R.Z i)
    {ops : List Op} {labels : List ℤ} (hops : ∀ op ∈ ops, op = .X ∨ op = .Y ∨ op = .Z)
    (hlen : ops.length = labels.length) (hnd : labels.Nodup) (hS : ∀ l ∈ labels, l ∈ S) :
    ∃ s, mkOpString ops labels .pauli = .ok s ∧ s.ops = ops ∧ s.labels = labels ∧ PauliString S s ∧
      star (R.den s) = R.den s ∧ R.den s * R.den s = 1 := by
  have h : PauliString S ⟨ops, labels, .pauli, .float1⟩ := ⟨rfl, hops, hlen, hnd, hS, by simp⟩
  exact ⟨_, mkOpString_pauli ops labels, rfl, rfl, h, R.star_den hs h, C05_pauli_square R h⟩

/-- **C05** (first part, Majorana): a string built by the constructor without an explicit prefactor gets the
prefactor that makes it Hermitian. -/
theorem C05_majorana_hermitian [StarRing 𝔸] [StarModule K 𝔸] (R : MajoranaRep K 𝔸 S)
    (hs : ∀ i ∈ S, star (R.a i) = R.a i ∧ star (R.b i) = R.b i)
    {ops : List Op} {labels : List ℤ} (hops : ∀ op ∈ ops, op = .A ∨ op = .B ∨ op = .D)
    (hlen : ops.length = labels.length) (hnd : labels.Nodup) (hS : ∀ l ∈ labels, l ∈ S) :
    ∃ s, mkOpString ops labels .majorana = .ok s ∧ s.ops = ops ∧ s.labels = labels ∧ MajoranaString S s ∧
      star (R.den s) = R.den s ∧ R.den s * R.den s = 1 := by
  have h : MajoranaString S ⟨ops, labels, .majorana,
      if (numAB ops).choose 2 % 2 = 1 then .imag else .float1⟩ := by
    refine ⟨rfl, hops, hlen, hnd, hS, ?_⟩
    show _ ↔ (numAB ops).choose 2 % 2 = 1
    by_cases h : (numAB ops).choose 2 % 2 = 1 <;> simp [h]
  exact ⟨_, mkOpString_majorana hlen, rfl, rfl, h, R.star_den hs h, C05_majorana_square R h⟩

/-- **C05**, the boundary: the constructor also accepts an explicit imaginary prefactor where none is needed; the
string `OperatorString(['A'], [1], 'Majorana', prefactor=1j)` is then not a Majorana string in the sense above
and squares to minus one. -/
theorem C05_explicit_prefactor (R : MajoranaRep K 𝔸 {1}) :
    ∃ s, mkOpString [.A] [1] .majorana (some .imag) = .ok s ∧ R.den s * R.den s = -1 := by
  refine ⟨⟨[.A], [1], .majorana, .imag⟩, by decide +kernel, ?_⟩
  simp [MajoranaRep.den, wordProd, MajoranaRep.site, Pref.val, smul_smul, R.a_sq 1 rfl]

/-- **C03** (Pauli): commutators and anticommutators of strings are exact, and the zero result `(0, None)` is
returned exactly when the bracket vanishes. -/
theorem C03_pauli_brackets [Nontrivial 𝔸] (R : PauliRep K 𝔸 S) {A B : OpString} (hA : PauliString S A)
    (hB : PauliString S B) :
    BracketExact R.den (R.den A * R.den B - R.den B * R.den A) (commutatorS A B : Py (K × Option OpString)) ∧
    BracketExact R.den (R.den A * R.den B + R.den B * R.den A) (anticommutatorS A B : Py (K × Option OpString)) := by
  obtain ⟨c, c', C, h⟩ := pauli_core R hA hB
  exact h.exact (C05_pauli_square R h.str)

/-- **C03** (Majorana) -/
theorem C03_majorana_brackets [Nontrivial 𝔸] (R : MajoranaRep K 𝔸 S) {A B : OpString} (hA : MajoranaString S A)
    (hB : MajoranaString S B) :
    BracketExact R.den (R.den A * R.den B - R.den B * R.den A) (commutatorS A B : Py (K × Option OpString)) ∧
    BracketExact R.den (R.den A * R.den B + R.den B * R.den A) (anticommutatorS A B : Py (K × Option OpString)) := by
  obtain ⟨c, c', C, h⟩ := majorana_core R hA hB
  exact h.exact (C05_majorana_square R h.str)

/-- `C` is in normal form with respect to `A` and `B`: a valid string with strictly increasing labels drawn from
`A` and `B`. -/
structure NormalForm (Str : OpString → Prop) (A B C : OpString) : Prop where
  valid : Str C
  sorted : C.labels.Pairwise (· < ·)
  labels : ∀ l ∈ C.labels, l ∈ A.labels ∨ l ∈ B.labels

/-- **C04**, the statement: `product` returns a phase (1, -1, i, -i) times a normal form string, exactly one of commutator and
anticommutator is the explicit zero and the other is twice a phase times a normal form string. -/
def ClosedAndDichotomous (K : Type) [Field K] [StarRing K] [Coef K] (Str : OpString → Prop) (A B : OpString) : Prop :=
  (∃ (c : K) (C : OpString), productS A B = .ok (c, some C) ∧ (c = 1 ∨ c = -1 ∨ c = I ∨ c = -I) ∧
    NormalForm Str A B C) ∧
  ((((commutatorS A B : Py (K × Option OpString)) = .ok (0, none)) ∧
      ∃ (c : K) (C : OpString), anticommutatorS A B = .ok (c * 2, some C) ∧ (c = 1 ∨ c = -1 ∨ c = I ∨ c = -I) ∧
        NormalForm Str A B C) ∨
    (((anticommutatorS A B : Py (K × Option OpString)) = .ok (0, none)) ∧
      ∃ (c : K) (C : OpString), commutatorS A B = .ok (c * 2, some C) ∧ (c = 1 ∨ c = -1 ∨ c = I ∨ c = -I) ∧
        NormalForm Str A B C))

theorem OpResult.closed {den : OpString → 𝔸} {Str : OpString → Prop} {A B : OpString} {c c' : K}
    {C : OpString} (h : OpResult den Str A B c c' C) : ClosedAndDichotomous K Str A B := by
  have hn : NormalForm Str A B C := ⟨h.str, h.sorted, h.sub⟩
  refine ⟨⟨c, C, h.prod, h.phase, hn⟩, ?_⟩
  rcases h.brackets with ⟨_, h3, h4⟩ | ⟨_, h3, h4⟩
  · exact Or.inl ⟨h3, c, C, h4, h.phase, hn⟩
  · exact Or.inr ⟨h4, c, C, h3, h.phase, hn⟩

/-- **C04** (Pauli): results are closed and well-formed; exactly one of the two brackets vanishes.  No
representation is mentioned: this is a statement about the returned values. -/
theorem C04_pauli_closed {A B : OpString} (hA : PauliString S A) (hB : PauliString S B) :
    ClosedAndDichotomous K (PauliString S) A B := by
  have hU : ∀ {s}, PauliString S s → PauliString Set.univ s := fun h => ⟨h.type, h.ops, h.len, h.nodup, fun _ _ => trivial, h.pref⟩
  obtain ⟨c, c', C, h⟩ := pauli_core (waveRep K) (hU hA) (hU hB)
  have hC : PauliString S C := ⟨h.str.type, h.str.ops, h.str.len, h.str.nodup,
    fun l hl => (h.sub l hl).elim (hA.mem l) (hB.mem l), h.str.pref⟩
  exact OpResult.closed (𝔸 := Module.End K (Conf → K)) (⟨hC, h.sorted, h.sub, h.phase, h.ab, h.ba, h.prod, h.brackets, h.pref⟩ :
    OpResult (waveRep K).den (PauliString S) A B c c' C)

/-- **C04** (Majorana) -/
theorem C04_majorana_closed {A B : OpString} (hA : MajoranaString S A) (hB : MajoranaString S B) :
    ClosedAndDichotomous K (MajoranaString S) A B := by
  have hU : ∀ {s}, MajoranaString S s → MajoranaString Set.univ s :=
    fun h => ⟨h.type, h.ops, h.len, h.nodup, fun _ _ => trivial, h.pref⟩
  obtain ⟨c, c', C, h⟩ := majorana_core (waveMajorana K) (hU hA) (hU hB)
  have hC : MajoranaString S C := ⟨h.str.type, h.str.ops, h.str.len, h.str.nodup,
    fun l hl => (h.sub l hl).elim (hA.mem l) (hB.mem l), h.str.pref⟩
  exact OpResult.closed (𝔸 := Module.End K (Conf → K)) (⟨hC, h.sorted, h.sub, h.phase, h.ab, h.ba, h.prod, h.brackets, h.pref⟩ :
    OpResult (waveMajorana K).den (MajoranaString S) A B c c' C)

/-! ### Non-vacuity: concrete strings and representations -/

/-- 'X 1 Y 3 Z 7' -/
def exP1 : OpString := ⟨[.X, .Y, .Z], [1, 3, 7], .pauli, .float1⟩
/-- 'Z 3 Z 1' (labels not in order) -/
def exP2 : OpString := ⟨[.Z, .Z], [3, 1], .pauli, .float1⟩
/-- 'A 2 D 3 B 5' with prefactor i -/
def exM1 : OpString := ⟨[.A, .D, .B], [2, 3, 5], .majorana, .imag⟩
/-- 'B 3 B 2 A -1' with prefactor i -/
def exM2 : OpString := ⟨[.B, .B, .A], [3, 2, -1], .majorana, .imag⟩

theorem exP1_valid : PauliString Set.univ exP1 := ⟨rfl, by decide, rfl, by decide, by simp, by decide⟩
theorem exP2_valid : PauliString Set.univ exP2 := ⟨rfl, by decide, rfl, by decide, by simp, by decide⟩
theorem exM1_valid : MajoranaString Set.univ exM1 := ⟨rfl, by decide, rfl, by decide, by simp, by decide⟩
theorem exM2_valid : MajoranaString Set.univ exM2 := ⟨rfl, by decide, rfl, by decide, by simp, by decide⟩

example : ∃ (c : QI) (C : OpString), productS exP1 exP2 = .ok (c, some C) ∧
    (waveRep QI).den exP1 * (waveRep QI).den exP2 = c • (waveRep QI).den C :=
  C01_pauli_product (waveRep QI) exP1_valid exP2_valid

example : ∃ (c : QI) (C : OpString), productS exM1 exM2 = .ok (c, some C) ∧
    (waveMajorana QI).den exM1 * (waveMajorana QI).den exM2 = c • (waveMajorana QI).den C :=
  C02_majorana_product (waveMajorana QI) exM1_valid exM2_valid

-- the values: (X1 Y3 Z7)(Z3 Z1) = (XZ)_1 (YZ)_3 Z7 = (-i)(i) Y1 X3 Z7
example : productS exP1 exP2 = .ok ((1 : QI), some ⟨[.Y, .X, .Z], [1, 3, 7], .pauli, .float1⟩) := by decide +kernel
example : productS exM1 exM2 = .ok ((⟨0, -1⟩ : QI), some ⟨[.A, .D, .A, .B], [-1, 2, 3, 5], .majorana, .imag⟩) := by
  decide +kernel

example : BracketExact (waveRep QI).den
    ((waveRep QI).den exP1 * (waveRep QI).den exP2 - (waveRep QI).den exP2 * (waveRep QI).den exP1)
    (commutatorS exP1 exP2 : Py (QI × Option OpString)) :=
  (C03_pauli_brackets (waveRep QI) exP1_valid exP2_valid).1
example : BracketExact (waveMajorana QI).den
    ((waveMajorana QI).den exM1 * (waveMajorana QI).den exM2 - (waveMajorana QI).den exM2 * (waveMajorana QI).den exM1)
    (commutatorS exM1 exM2 : Py (QI × Option OpString)) :=
  (C03_majorana_brackets (waveMajorana QI) exM1_valid exM2_valid).1
example : ClosedAndDichotomous QI (PauliString Set.univ) exP1 exP2 := C04_pauli_closed exP1_valid exP2_valid
example : ClosedAndDichotomous QI (MajoranaString Set.univ) exM1 exM2 := C04_majorana_closed exM1_valid exM2_valid

-- *-representations: the matrices of three spins, and their Jordan-Wigner operators
example : ∃ s, mkOpString [.Y, .X] [2, 0] .pauli = .ok s ∧ star ((matRep QI 3).den s) = (matRep QI 3).den s := by
  obtain ⟨s, h1, -, -, -, h2, -⟩ := C05_pauli_hermitian (matRep QI 3) (matRep_star QI 3) (ops := [.Y, .X]) (labels := [2, 0])
    (by decide) rfl (by decide) (by simp [siteLabels])
  exact ⟨s, h1, h2⟩
example : ∃ s, mkOpString [.B, .D, .A] [2, 0, 1] .majorana = .ok s ∧
    star ((matRep QI 3).jordanWigner.den s) = (matRep QI 3).jordanWigner.den s := by
  obtain ⟨s, h1, -, -, -, h2, -⟩ := C05_majorana_hermitian (matRep QI 3).jordanWigner
    (jordanWigner_star _ (matRep_star QI 3)) (ops := [.B, .D, .A]) (labels := [2, 0, 1])
    (by decide) rfl (by decide) (fun l hl => siteLabels_jw (by revert l; simp [siteLabels]))
  exact ⟨s, h1, h2⟩

end Qosy
