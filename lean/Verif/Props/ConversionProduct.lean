import Verif.Spec.ConversionProduct
import Verif.Props.Conversion
import Verif.Lemmas.StrAlgInst

/-! # Properties of conversion.py and algebra.py: `convert` is a homomorphism (C98) -/

namespace Qosy
open Coef
variable {K : Type} [Field K] [StarRing K] [Coef K] {𝔸 : Type} [Ring 𝔸] [Algebra K 𝔸]

private theorem StrAlg.carry [Nontrivial 𝔸] {R' R : StrAlg K 𝔸} {A B C A' B' C' : OpString} {c₁ c₂ a b k : K}
    (r : OpResult R'.den R'.Str A B c₁ c₂ C) (hA' : R.Str A') (hB' : R.Str B') (hC' : R.Str C') (cC : C'.Canonical)
    (ha : a ≠ 0) (hb : b ≠ 0) (hk : k ≠ 0) (dA : R'.den A = a • R.den A') (dB : R'.den B = b • R.den B') (dC : R'.den C = k • R.den C') :
    ∃ d₁ d₂ : K, OpResult R.den R.Str A' B' d₁ d₂ C' ∧ a * b * d₁ = c₁ * k ∧ a * b * d₂ = c₂ * k := by
  obtain ⟨d₁, d₂, D, q⟩ := R.core A' B' hA' hB'
  have hne : a * b * d₁ ≠ 0 := mul_ne_zero (mul_ne_zero ha hb) q.phase.ne_zero
  have h1 := r.ab
  rw [dA, dB, dC, smul_mul_smul_comm, q.ab, smul_smul, smul_smul] at h1
  have h2 : R.den D = ((a * b * d₁)⁻¹ * (c₁ * k)) • R.den C' := by
    rw [mul_smul, ← h1, smul_smul, inv_mul_cancel₀ hne, one_smul]
  obtain ⟨h3, h4⟩ := R.same_string q.str hC' ⟨q.sorted, q.pref⟩ cC h2
  subst h3
  rw [inv_mul_eq_one₀ hne] at h4
  refine ⟨d₁, d₂, q, h4, ?_⟩
  have h5 := r.ba
  rw [dA, dB, dC, smul_mul_smul_comm, q.ba, smul_smul, smul_smul, mul_comm b a] at h5
  have h6 := congrArg (· * R.den D) h5
  simp only [smul_mul_assoc, R.sq _ q.str] at h6
  exact smul_left_injective K (one_ne_zero (α := 𝔸)) h6

private theorem same_of {A B C A' B' C' : OpString} {c₁ c₂ d₁ d₂ a b k : K} {t : OpType} {den den' : OpString → 𝔸} {Str Str' : OpString → Prop}
    (r : OpResult den' Str' A B c₁ c₂ C) (q : OpResult den Str A' B' d₁ d₂ C') (ha : a ≠ 0) (hb : b ≠ 0) (hk : k ≠ 0)
    (hC : ConvertsTo t C k C') (h1 : a * b * d₁ = c₁ * k) (h2 : a * b * d₂ = c₂ * k) :
    SameAfterConversion t (a * b) (productS A B) (productS A' B') ∧
    SameAfterConversion t (a * b) (commutatorS A B) (commutatorS A' B') ∧
    SameAfterConversion t (a * b) (anticommutatorS A B) (anticommutatorS A' B') := by
  have hc := r.phase.ne_zero
  have h2' : c₁ ≠ -c₁ := fun e => by
    have : (2 : K) * c₁ = 0 := by linear_combination e
    exact hc ((mul_eq_zero.mp this).resolve_left two_ne_zero)
  have hd := q.phase.ne_zero
  refine ⟨Or.inr ⟨c₁, d₁, k, C, C', r.prod, q.prod, hC, h1⟩, ?_⟩
  rcases r.brackets with ⟨e, e1, e2⟩ | ⟨e, e1, e2⟩ <;> rcases q.brackets with ⟨f, f1, f2⟩ | ⟨f, f1, f2⟩
  · exact ⟨Or.inl ⟨e1, f1⟩, Or.inr ⟨_, _, k, C, C', e2, f2, hC, by linear_combination 2 * h1⟩⟩
  · exfalso
    rw [e, f] at h2
    have : (c₁ - -c₁) * k = 0 := by linear_combination -h1 - h2
    rcases mul_eq_zero.mp this with h | h
    · exact h2' (sub_eq_zero.mp h)
    · exact hk h
  · exfalso
    rw [e, f] at h2
    have : (c₁ - -c₁) * k = 0 := by linear_combination h2 - h1
    rcases mul_eq_zero.mp this with h | h
    · exact h2' (sub_eq_zero.mp h)
    · exact hk h
  · exact ⟨Or.inr ⟨_, _, k, C, C', e1, f1, hC, by linear_combination 2 * h1⟩, Or.inl ⟨e2, f2⟩⟩

private theorem unit_ne {c : K} (h : c = 1 ∨ c = -1) : c ≠ 0 := by
  rcases h with h | h <;> simp [h]

/-- **C98** (Pauli to Majorana): converting two Pauli strings and then taking their product, commutator or anticommutator gives the conversion
of their product, commutator or anticommutator; in particular two strings commute if and only if the converted ones do. -/
theorem C98_pauli {A B A' B' : OpString} {a b : K} (hA : PauliString {j | 0 ≤ j} A) (hB : PauliString {j | 0 ≤ j} B)
    (cA : ConvertsTo .majorana A a A') (cB : ConvertsTo .majorana B b B') :
    SameAfterConversion .majorana (a * b) (productS A B) (productS A' B') ∧
    SameAfterConversion .majorana (a * b) (commutatorS A B) (commutatorS A' B') ∧
    SameAfterConversion .majorana (a * b) (anticommutatorS A B) (anticommutatorS A' B') := by
  have hjw : ({j | 0 ≤ j} : Set ℤ) = jwLabels Set.univ := by ext j; simp [jwLabels]
  rw [hjw] at hA hB
  have conv : ∀ {s : OpString} {x : K} {s' : OpString}, PauliString (jwLabels Set.univ) s → ConvertsTo .majorana s x s' →
      MajoranaString (jwLabels Set.univ) s' ∧ s'.Canonical ∧ x ≠ 0 ∧ (waveRep K).den s = x • (waveRep K).jordanWigner.den s' := by
    rintro s x s' hs ⟨incl, O, h1, h2⟩
    obtain ⟨O', c, M, g1, g2, -, g3, g4, g5, g6⟩ := C29_pauli_to_majorana (K := K) hs incl
    rw [h1] at g1
    obtain rfl := Except.ok.inj g1
    rw [h2] at g2
    simp only [List.cons.injEq, Prod.mk.injEq, and_true] at g2
    obtain ⟨rfl, rfl⟩ := g2
    exact ⟨g3, g4, unit_ne g5, g6 _⟩
  obtain ⟨c₁, c₂, C, r⟩ := ((waveRep K).restrict (Set.subset_univ (jwLabels Set.univ))).strAlg.core A B hA hB
  obtain ⟨O, k, C', g1, g2, -⟩ := C29_pauli_to_majorana (K := K) r.str false
  have hC : ConvertsTo .majorana C k C' := ⟨false, O, g1, g2⟩
  obtain ⟨a1, -, a3, a4⟩ := conv hA cA
  obtain ⟨b1, -, b3, b4⟩ := conv hB cB
  obtain ⟨k1, k2, k3, k4⟩ := conv r.str hC
  obtain ⟨d₁, d₂, q, h1, h2⟩ := StrAlg.carry (R := (waveRep K).jordanWigner.strAlg) r a1 b1 k1 k2 a3 b3 k3 a4 b4 k4
  exact same_of r q a3 b3 k3 hC h1 h2

/-- **C98** (Majorana to Pauli) -/
theorem C98_majorana {A B A' B' : OpString} {a b : K} (hA : MajoranaString {j | 0 ≤ j} A) (hB : MajoranaString {j | 0 ≤ j} B)
    (cA : ConvertsTo .pauli A a A') (cB : ConvertsTo .pauli B b B') :
    SameAfterConversion .pauli (a * b) (productS A B) (productS A' B') ∧
    SameAfterConversion .pauli (a * b) (commutatorS A B) (commutatorS A' B') ∧
    SameAfterConversion .pauli (a * b) (anticommutatorS A B) (anticommutatorS A' B') := by
  have hjw : ({j | 0 ≤ j} : Set ℤ) = jwLabels Set.univ := by ext j; simp [jwLabels]
  rw [hjw] at hA hB
  have conv : ∀ {s : OpString} {x : K} {s' : OpString}, MajoranaString (jwLabels Set.univ) s → ConvertsTo .pauli s x s' →
      PauliString Set.univ s' ∧ s'.Canonical ∧ x ≠ 0 ∧ (waveRep K).jordanWigner.den s = x • (waveRep K).den s' := by
    rintro s x s' hs ⟨incl, O, h1, h2⟩
    obtain ⟨O', c, M, g1, g2, -, g3, g4, g5, g6⟩ := C29_majorana_to_pauli (K := K) hs incl
    rw [h1] at g1
    obtain rfl := Except.ok.inj g1
    rw [h2] at g2
    simp only [List.cons.injEq, Prod.mk.injEq, and_true] at g2
    obtain ⟨rfl, rfl⟩ := g2
    exact ⟨g3, g4, unit_ne g5, g6 _⟩
  obtain ⟨c₁, c₂, C, r⟩ := (waveRep K).jordanWigner.strAlg.core A B hA hB
  obtain ⟨O, k, C', g1, g2, -⟩ := C29_majorana_to_pauli (K := K) r.str false
  have hC : ConvertsTo .pauli C k C' := ⟨false, O, g1, g2⟩
  obtain ⟨a1, -, a3, a4⟩ := conv hA cA
  obtain ⟨b1, -, b3, b4⟩ := conv hB cB
  obtain ⟨k1, k2, k3, k4⟩ := conv r.str hC
  obtain ⟨d₁, d₂, q, h1, h2⟩ := StrAlg.carry (R := (waveRep K).strAlg) r a1 b1 k1 k2 a3 b3 k3 a4 b4 k4
  exact same_of r q a3 b3 k3 hC h1 h2

/-- non-vacuity: `X_1` and `Y_2` are converted to Majorana strings that do not commute site by site, but whose commutator vanishes -/
example : PauliString {j | 0 ≤ j} ⟨[.X], [1], .pauli, .float1⟩ ∧ PauliString {j | 0 ≤ j} ⟨[.Y], [2], .pauli, .float1⟩ ∧
    ConvertsTo .majorana ⟨[.X], [1], .pauli, .float1⟩ (1 : QI) ⟨[.D, .A], [0, 1], .majorana, .float1⟩ ∧
    ConvertsTo .majorana ⟨[.Y], [2], .pauli, .float1⟩ (1 : QI) ⟨[.D, .D, .B], [0, 1, 2], .majorana, .float1⟩ ∧
    (commutatorS ⟨[.D, .A], [0, 1], .majorana, .float1⟩ ⟨[.D, .D, .B], [0, 1, 2], .majorana, .float1⟩ : Py (QI × _)) = .ok (0, none) := by
  refine ⟨⟨rfl, by simp, rfl, by simp, by simp, by simp⟩, ⟨rfl, by simp, rfl, by simp, by simp, by simp⟩, ?_, ?_, by decide +kernel⟩
  · exact ⟨false, ⟨[1], Basis.ofList [⟨[.D, .A], [0, 1], .majorana, .float1⟩], .majorana⟩, by decide +kernel, rfl⟩
  · exact ⟨false, ⟨[1], Basis.ofList [⟨[.D, .D, .B], [0, 1, 2], .majorana, .float1⟩], .majorana⟩, by decide +kernel, rfl⟩

end Qosy
