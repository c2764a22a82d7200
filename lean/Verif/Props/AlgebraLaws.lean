import Verif.Spec.AlgebraLaws
import Verif.Spec.Transformation
import Verif.Props.Operator
import Verif.Lemmas.StrAlgInst
import Verif.Lemmas.PauliTrace
import Verif.Lemmas.PermGroup
import Verif.Lemmas.Liouvillian
import Mathlib.Tactic.NoncommRing

/-! # Properties of algebra.py: the laws of the algebra hold for the returned values (C99) -/

namespace Qosy
open Coef

section strings
variable {K : Type} [Field K] [StarRing K] [Coef K] {𝔸 : Type} [Ring 𝔸] [Algebra K 𝔸]

/-- what holds for the strings of one type -/
private theorem StrAlg.assoc [Nontrivial 𝔸] (R : StrAlg K 𝔸) {A B C AB BC L M : OpString} (hA : R.Str A) (hB : R.Str B) (hC : R.Str C)
    {c₁ c₂ d₁ d₂ : K} (h1 : productS A B = .ok (c₁, some AB)) (h2 : productS AB C = .ok (c₂, some L))
    (h3 : productS B C = .ok (d₁, some BC)) (h4 : productS A BC = .ok (d₂, some M)) : L = M ∧ c₁ * c₂ = d₁ * d₂ := by
  have get : ∀ {A B D : OpString} {c : K}, R.Str A → R.Str B → productS A B = .ok (c, some D) →
      R.Str D ∧ D.Canonical ∧ c ≠ 0 ∧ R.den A * R.den B = c • R.den D := by
    intro A B D c hA hB h
    obtain ⟨c₁, c₂, C₁, r⟩ := R.core A B hA hB
    have e := r.prod
    rw [h] at e
    simp only [Except.ok.injEq, Prod.mk.injEq, Option.some.injEq] at e
    obtain ⟨rfl, rfl⟩ := e
    exact ⟨r.str, ⟨r.sorted, r.pref⟩, r.phase.ne_zero, r.ab⟩
  obtain ⟨a1, -, -, a4⟩ := get hA hB h1
  obtain ⟨b1, b2, b3, b4⟩ := get a1 hC h2
  obtain ⟨e1, -, -, e4⟩ := get hB hC h3
  obtain ⟨f1, f2, -, f4⟩ := get hA e1 h4
  have hc : c₁ ≠ 0 := (get hA hB h1).2.2.1
  have key : (c₁ * c₂) • R.den L = (d₁ * d₂) • R.den M := by
    rw [mul_smul, ← b4, ← smul_mul_assoc, ← a4, mul_assoc, e4, mul_smul_comm, f4, smul_smul]
  have hne : c₁ * c₂ ≠ 0 := mul_ne_zero hc b3
  have h : R.den L = ((c₁ * c₂)⁻¹ * (d₁ * d₂)) • R.den M := by
    rw [mul_smul, ← key, smul_smul, inv_mul_cancel₀ hne, one_smul]
  obtain ⟨g1, g2⟩ := R.same_string b1 f1 b2 f2 h
  exact ⟨g1, by rwa [inv_mul_eq_one₀ hne] at g2⟩

/-- the result of a bracket with the opposite sign -/
def negResult (r : Py (K × Option OpString)) : Py (K × Option OpString) := r.map fun x => (-x.1, x.2)

private theorem StrAlg.swap [Nontrivial 𝔸] (R : StrAlg K 𝔸) {A B : OpString} (hA : R.Str A) (hB : R.Str B) :
    (commutatorS B A : Py (K × Option OpString)) = negResult (commutatorS A B) ∧
    (anticommutatorS B A : Py (K × Option OpString)) = anticommutatorS A B := by
  obtain ⟨c₁, c₂, C, r⟩ := R.core A B hA hB
  obtain ⟨d₁, d₂, D, q⟩ := R.core B A hB hA
  have h : R.den D = (d₁⁻¹ * c₂) • R.den C := by
    rw [mul_smul, ← r.ba, q.ab, smul_smul, inv_mul_cancel₀ q.phase.ne_zero, one_smul]
  obtain ⟨g1, g2⟩ := R.same_string q.str r.str ⟨q.sorted, q.pref⟩ ⟨r.sorted, r.pref⟩ h
  subst g1
  rw [inv_mul_eq_one₀ q.phase.ne_zero] at g2
  have hd2 : d₂ = c₁ := by
    have h5 := congrArg (· * R.den D) (q.ba.symm.trans r.ab)
    simp only [smul_mul_assoc, R.sq _ q.str] at h5
    exact smul_left_injective K (one_ne_zero (α := 𝔸)) h5
  have hc := r.phase.ne_zero
  have h2' : c₁ ≠ -c₁ := fun e => by
    have : (2 : K) * c₁ = 0 := by linear_combination e
    exact hc ((mul_eq_zero.mp this).resolve_left two_ne_zero)
  rcases r.brackets with ⟨e, e1, e2⟩ | ⟨e, e1, e2⟩ <;> rcases q.brackets with ⟨f, f1, f2⟩ | ⟨f, f1, f2⟩
  · rw [e1, e2, f1, f2, g2, e]
    simp [negResult, Except.map]
  · exact absurd (by rw [hd2, g2, e] at f; exact f) h2'
  · exact absurd (by rw [hd2, g2, e] at f; exact f) h2'
  · rw [e1, e2, f1, f2, g2, e]
    simp [negResult, Except.map]

/-- the strings of one type in a concrete representation -/
private theorem exists_alg {t : OpType} (ht : t = .pauli ∨ t = .majorana) :
    ∃ R : StrAlg K (Module.End K (Conf → K)), R.type = t ∧ ∀ S s, TypedString t S s → R.Str s := by
  rcases ht with rfl | rfl
  · exact ⟨(waveRep K).strAlg, rfl, fun S s h => (h.resolve_right (by simp)).2.mono (Set.subset_univ S)⟩
  · exact ⟨(waveMajorana K).strAlg, rfl, fun S s h => (h.resolve_left (by simp)).2.mono (Set.subset_univ S)⟩

private theorem TypedString.kind {t : OpType} {S : Set ℤ} {s : OpString} (h : TypedString t S s) : t = .pauli ∨ t = .majorana :=
  h.imp And.left And.left

/-- **C99** (associativity): the product of three strings does not depend on the parentheses. -/
theorem C99_associative {t : OpType} {S : Set ℤ} {A B C AB BC L M : OpString} (hA : TypedString t S A) (hB : TypedString t S B)
    (hC : TypedString t S C) {c₁ c₂ d₁ d₂ : K} (h1 : productS A B = .ok (c₁, some AB)) (h2 : productS AB C = .ok (c₂, some L))
    (h3 : productS B C = .ok (d₁, some BC)) (h4 : productS A BC = .ok (d₂, some M)) : L = M ∧ c₁ * c₂ = d₁ * d₂ := by
  obtain ⟨R, -, h⟩ := exists_alg (K := K) hA.kind
  exact R.assoc (h S _ hA) (h S _ hB) (h S _ hC) h1 h2 h3 h4

/-- **C99** (exchange): `commutator(B, A)` is `commutator(A, B)` with the opposite sign, `anticommutator(B, A)` is `anticommutator(A, B)`. -/
theorem C99_exchange {t : OpType} {S : Set ℤ} {A B : OpString} (hA : TypedString t S A) (hB : TypedString t S B) :
    (commutatorS B A : Py (K × Option OpString)) = negResult (commutatorS A B) ∧
    (anticommutatorS B A : Py (K × Option OpString)) = anticommutatorS A B := by
  obtain ⟨R, -, h⟩ := exists_alg (K := K) hA.kind
  exact R.swap (h S _ hA) (h S _ hB)

/-- non-vacuity: `X_1 Y_1 X_2` by two ways -/
example : TypedString .pauli Set.univ ⟨[.X], [1], .pauli, .float1⟩ ∧ TypedString .pauli Set.univ ⟨[.Y], [1], .pauli, .float1⟩ ∧
    TypedString .pauli Set.univ ⟨[.X], [2], .pauli, .float1⟩ ∧
    productS ⟨[.X], [1], .pauli, .float1⟩ ⟨[.Y], [1], .pauli, .float1⟩ = .ok ((⟨0, 1⟩ : QI), some ⟨[.Z], [1], .pauli, .float1⟩) ∧
    productS ⟨[.Z], [1], .pauli, .float1⟩ ⟨[.X], [2], .pauli, .float1⟩ = .ok ((⟨1, 0⟩ : QI), some ⟨[.Z, .X], [1, 2], .pauli, .float1⟩) ∧
    productS ⟨[.Y], [1], .pauli, .float1⟩ ⟨[.X], [2], .pauli, .float1⟩ = .ok ((⟨1, 0⟩ : QI), some ⟨[.Y, .X], [1, 2], .pauli, .float1⟩) ∧
    productS ⟨[.X], [1], .pauli, .float1⟩ ⟨[.Y, .X], [1, 2], .pauli, .float1⟩ =
      .ok ((⟨0, 1⟩ : QI), some ⟨[.Z, .X], [1, 2], .pauli, .float1⟩) :=
  ⟨Or.inl ⟨rfl, rfl, by simp, rfl, by simp, by simp, by simp⟩, Or.inl ⟨rfl, rfl, by simp, rfl, by simp, by simp, by simp⟩,
    Or.inl ⟨rfl, rfl, by simp, rfl, by simp, by simp, by simp⟩, by decide +kernel, by decide +kernel, by decide +kernel, by decide +kernel⟩

end strings

section operators
variable {K : Type} [Field K] [StarRing K] [Coef K] {𝔸 : Type} [Ring 𝔸] [Algebra K 𝔸]

/-- a linear relation between operators holds between the coefficients -/
private theorem StrAlg.relation [Nontrivial 𝔸] (R : StrAlg K 𝔸) (l : List (K × Operator K))
    (hl : ∀ x ∈ l, x.2.WF ∧ ∀ s ∈ x.2.basis.strs, R.Str s ∧ s.Canonical) (h : (l.map fun x => x.1 • x.2.den R.den).sum = 0) (s : OpString) :
    (l.map fun x => x.1 * x.2.coef s).sum = 0 := by
  set T := (l.flatMap fun x => x.2.basis.strs).dedup with hT
  have hn : T.Nodup := List.nodup_dedup _
  have hmem : ∀ s, s ∈ T ↔ ∃ x ∈ l, s ∈ x.2.basis.strs := fun s => by simp [hT]
  have key : ∀ l' : List (K × Operator K), (∀ x ∈ l', x ∈ l) →
      ∑ i : Fin T.length, (l'.map fun x => x.1 * x.2.coef T[i]).sum • R.den T[i] = (l'.map fun x => x.1 • x.2.den R.den).sum := by
    intro l'
    induction l' with
    | nil => intro _; simp
    | cons x l' ih =>
      intro hx
      simp only [List.map_cons, List.sum_cons, add_smul, Finset.sum_add_distrib]
      rw [ih (fun y hy => hx y (List.mem_cons_of_mem _ hy)), Operator.den,
        ← denT_eq_sum R.den hn x.2.terms (fun t ht => (hmem _).mpr ⟨x, hx x List.mem_cons_self, mem_terms ht⟩), Finset.smul_sum]
      simp only [mul_smul]
      rfl
  by_cases hs : s ∈ T
  · obtain ⟨i, hi, rfl⟩ := List.getElem_of_mem hs
    have := R.independent hn (fun s hs => by obtain ⟨x, hx, hs⟩ := (hmem s).mp hs; exact (hl x hx).2 s hs)
      (w := fun i => (l.map fun x => x.1 * x.2.coef (T.getD i ⟨[], [], .pauli, .float1⟩)).sum) (by
        rw [linComb]
        refine Eq.trans (Finset.sum_congr rfl fun i _ => ?_) ((key l fun _ h => h).trans h)
        rw [List.getD_eq_getElem _ _ i.2]; rfl) i hi
    rwa [List.getD_eq_getElem _ _ hi] at this
  · apply List.sum_eq_zero
    intro y hy
    obtain ⟨x, hx, rfl⟩ := List.mem_map.mp hy
    have : x.2.coef s = 0 := coefT_of_not_mem fun h => by
      obtain ⟨t, ht, rfl⟩ := List.mem_map.mp h
      exact hs ((hmem _).mpr ⟨x, hx, mem_terms ht⟩)
    rw [this, mul_zero]

/-- the value of a bracket with nothing cut off -/
private theorem StrAlg.value (R : StrAlg K 𝔸) {mode : Mode} {A B C : Operator K} (hA : A.On R.type R.Str) (hB : B.On R.type R.Str)
    (hc : NothingCut mode A B) (h : operationOperator mode A B = .ok C) :
    C.On R.type R.Str ∧ (C.WF ∧ ∀ s ∈ C.basis.strs, R.Str s ∧ s.Canonical) ∧ C.den R.den = bracketOf mode (A.den R.den) (B.den R.den) := by
  obtain ⟨C', h1, h2, h3, h4, h5⟩ := R.operator mode (tol := 1 / 10 ^ 16) (by norm_num) hA.wf hB.wf hA.mem hB.mem hA.type hB.type
  obtain rfl : C = C' := Except.ok.inj (h.symm.trans h1)
  refine ⟨⟨h2, h3, fun s hs => (h4 s hs).1⟩, ⟨h2, fun s hs => ⟨(h4 s hs).1, (h4 s hs).2.1, (h4 s hs).2.2.2⟩⟩, ?_⟩
  rw [h5, R.kept_exact mode (fun ta hta tb htb => ?_)]
  · rfl
  · exact (hc ta hta tb htb).imp id fun h => by
      push_cast
      exact h

private theorem jacobi (x y z : 𝔸) : x * (y * z - z * y) - (y * z - z * y) * x + (y * (z * x - x * z) - (z * x - x * z) * y +
    (z * (x * y - y * x) - (x * y - y * x) * z + 0)) = 0 := by noncomm_ring

private theorem derivation (x y z : 𝔸) : -(x * (y * z) - y * z * x) + ((x * y - y * x) * z + (y * (x * z - z * x) + 0)) = 0 := by noncomm_ring

private theorem assoc_zero (x y z : 𝔸) : x * (y * z) + (-(x * y * z) + 0) = 0 := by noncomm_ring

private theorem split_zero (x y : 𝔸) : x * y + x * y + (-(x * y - y * x) + (-(x * y + y * x) + 0)) = 0 := by noncomm_ring

private theorem antisymm (x y : 𝔸) : y * x - x * y = (-1 : K) • (x * y - y * x) := by rw [neg_smul, one_smul, neg_sub]

private theorem sum_swap {α β : Type} (f : α → β → 𝔸) (as : List α) (bs : List β) :
    (as.map fun a => (bs.map (f a)).sum).sum = (bs.map fun b => (as.map fun a => f a b).sum).sum := by
  induction as with
  | nil => simp
  | cons a as ih => simp only [List.map_cons, List.sum_cons, ih, List.sum_map_add]

/-- **C99** (Jacobi identity): `[A, [B, C]] + [B, [C, A]] + [C, [A, B]] = 0` for the returned coefficients, when nothing is cut off. -/
theorem C99_jacobi {t : OpType} {S : Set ℤ} {A B C BC CA AB U V W : Operator K} (hA : A.On t (TypedString t S)) (hB : B.On t (TypedString t S))
    (hC : C.On t (TypedString t S)) (ht : t = .pauli ∨ t = .majorana)
    (h1 : commutatorO B C = .ok BC) (h2 : commutatorO C A = .ok CA) (h3 : commutatorO A B = .ok AB)
    (h4 : commutatorO A BC = .ok U) (h5 : commutatorO B CA = .ok V) (h6 : commutatorO C AB = .ok W)
    (c1 : NothingCut .commutator B C) (c2 : NothingCut .commutator C A) (c3 : NothingCut .commutator A B)
    (c4 : NothingCut .commutator A BC) (c5 : NothingCut .commutator B CA) (c6 : NothingCut .commutator C AB) (s : OpString) :
    U.coef s + V.coef s + W.coef s = 0 := by
  obtain ⟨R, rfl, h⟩ := exists_alg (K := K) ht
  have on : ∀ {X : Operator K}, X.On R.type (TypedString R.type S) → X.On R.type R.Str := fun hX => ⟨hX.wf, hX.type, fun s hs => h S s (hX.mem s hs)⟩
  obtain ⟨o1, -, e1⟩ := R.value (on hB) (on hC) c1 h1
  obtain ⟨o2, -, e2⟩ := R.value (on hC) (on hA) c2 h2
  obtain ⟨o3, -, e3⟩ := R.value (on hA) (on hB) c3 h3
  obtain ⟨-, w4, e4⟩ := R.value (on hA) o1 c4 h4
  obtain ⟨-, w5, e5⟩ := R.value (on hB) o2 c5 h5
  obtain ⟨-, w6, e6⟩ := R.value (on hC) o3 c6 h6
  have := R.relation [(1, U), (1, V), (1, W)] (by simpa using ⟨w4, w5, w6⟩) (by
    simp only [List.map_cons, List.map_nil, List.sum_cons, List.sum_nil, one_smul, e1, e2, e3, e4, e5, e6, bracketOf]
    exact jacobi _ _ _) s
  simpa [add_assoc] using this

/-- **C99** (derivation): `[A, B C] = [A, B] C + B [A, C]` for the returned coefficients, when nothing is cut off. -/
theorem C99_derivation {t : OpType} {S : Set ℤ} {A B C BC AB AC U V W : Operator K} (hA : A.On t (TypedString t S)) (hB : B.On t (TypedString t S))
    (hC : C.On t (TypedString t S)) (ht : t = .pauli ∨ t = .majorana)
    (h1 : productO B C = .ok BC) (h2 : commutatorO A B = .ok AB) (h3 : commutatorO A C = .ok AC)
    (h4 : commutatorO A BC = .ok U) (h5 : productO AB C = .ok V) (h6 : productO B AC = .ok W)
    (c1 : NothingCut .product B C) (c2 : NothingCut .commutator A B) (c3 : NothingCut .commutator A C)
    (c4 : NothingCut .commutator A BC) (c5 : NothingCut .product AB C) (c6 : NothingCut .product B AC) (s : OpString) :
    U.coef s = V.coef s + W.coef s := by
  obtain ⟨R, rfl, h⟩ := exists_alg (K := K) ht
  have on : ∀ {X : Operator K}, X.On R.type (TypedString R.type S) → X.On R.type R.Str := fun hX => ⟨hX.wf, hX.type, fun s hs => h S s (hX.mem s hs)⟩
  obtain ⟨o1, -, e1⟩ := R.value (on hB) (on hC) c1 h1
  obtain ⟨o2, -, e2⟩ := R.value (on hA) (on hB) c2 h2
  obtain ⟨o3, -, e3⟩ := R.value (on hA) (on hC) c3 h3
  obtain ⟨-, w4, e4⟩ := R.value (on hA) o1 c4 h4
  obtain ⟨-, w5, e5⟩ := R.value o2 (on hC) c5 h5
  obtain ⟨-, w6, e6⟩ := R.value (on hB) o3 c6 h6
  have := R.relation [(-1, U), (1, V), (1, W)] (by simpa using ⟨w4, w5, w6⟩) (by
    simp only [List.map_cons, List.map_nil, List.sum_cons, List.sum_nil, one_smul, neg_smul, e1, e2, e3, e4, e5, e6, bracketOf]
    exact derivation _ _ _) s
  simp only [List.map_cons, List.map_nil, List.sum_cons, List.sum_nil] at this
  linear_combination -this

/-- **C99** (associativity of the product of Operators) -/
theorem C99_operators_associative {t : OpType} {S : Set ℤ} {A B C BC AB U V : Operator K} (hA : A.On t (TypedString t S))
    (hB : B.On t (TypedString t S)) (hC : C.On t (TypedString t S)) (ht : t = .pauli ∨ t = .majorana)
    (h1 : productO B C = .ok BC) (h2 : productO A B = .ok AB) (h3 : productO A BC = .ok U) (h4 : productO AB C = .ok V)
    (c1 : NothingCut .product B C) (c2 : NothingCut .product A B) (c3 : NothingCut .product A BC) (c4 : NothingCut .product AB C) (s : OpString) :
    U.coef s = V.coef s := by
  obtain ⟨R, rfl, h⟩ := exists_alg (K := K) ht
  have on : ∀ {X : Operator K}, X.On R.type (TypedString R.type S) → X.On R.type R.Str := fun hX => ⟨hX.wf, hX.type, fun s hs => h S s (hX.mem s hs)⟩
  obtain ⟨o1, -, e1⟩ := R.value (on hB) (on hC) c1 h1
  obtain ⟨o2, -, e2⟩ := R.value (on hA) (on hB) c2 h2
  obtain ⟨-, w3, e3⟩ := R.value (on hA) o1 c3 h3
  obtain ⟨-, w4, e4⟩ := R.value o2 (on hC) c4 h4
  have := R.relation [(1, U), (-1, V)] (by simpa using ⟨w3, w4⟩) (by
    simp only [List.map_cons, List.map_nil, List.sum_cons, List.sum_nil, one_smul, neg_smul, e1, e2, e3, e4, bracketOf]
    exact assoc_zero _ _ _) s
  simp only [List.map_cons, List.map_nil, List.sum_cons, List.sum_nil] at this
  linear_combination this

/-- **C99** (the product and the two brackets): `2 A B = [A, B] + {A, B}` -/
theorem C99_split {t : OpType} {S : Set ℤ} {A B P C D : Operator K} (hA : A.On t (TypedString t S)) (hB : B.On t (TypedString t S))
    (ht : t = .pauli ∨ t = .majorana) (h1 : productO A B = .ok P) (h2 : commutatorO A B = .ok C) (h3 : anticommutatorO A B = .ok D)
    (c1 : NothingCut .product A B) (s : OpString) : 2 * P.coef s = C.coef s + D.coef s := by
  obtain ⟨R, rfl, h⟩ := exists_alg (K := K) ht
  have on : ∀ {X : Operator K}, X.On R.type (TypedString R.type S) → X.On R.type R.Str := fun hX => ⟨hX.wf, hX.type, fun s hs => h S s (hX.mem s hs)⟩
  have cut : ∀ mode, NothingCut mode A B := by
    intro mode ta hta tb htb
    refine (c1 ta hta tb htb).imp id fun h => h.trans ?_
    have : (bracketFactor .product : ℝ) ≤ bracketFactor mode := by
      cases mode <;> simp [bracketFactor]
    exact mul_le_mul_of_nonneg_left this (norm_nonneg _)
  obtain ⟨-, w1, e1⟩ := R.value (on hA) (on hB) c1 h1
  obtain ⟨-, w2, e2⟩ := R.value (on hA) (on hB) (cut _) h2
  obtain ⟨-, w3, e3⟩ := R.value (on hA) (on hB) (cut _) h3
  have := R.relation [(2, P), (-1, C), (-1, D)] (by simpa using ⟨w1, w2, w3⟩) (by
    simp only [List.map_cons, List.map_nil, List.sum_cons, List.sum_nil, neg_smul, one_smul, e1, e2, e3, bracketOf, two_smul]
    exact split_zero _ _) s
  simp only [List.map_cons, List.map_nil, List.sum_cons, List.sum_nil] at this
  linear_combination this

/-- **C99** (exchange for Operators): whatever is cut off, `commutator(B, A)` has the opposite coefficients of `commutator(A, B)` and
`anticommutator(B, A)` the same as `anticommutator(A, B)`. -/
theorem C99_operators_exchange {t : OpType} {S : Set ℤ} {A B C D : Operator K} (hA : A.On t (TypedString t S)) (hB : B.On t (TypedString t S))
    (ht : t = .pauli ∨ t = .majorana) :
    (commutatorO A B = .ok C → commutatorO B A = .ok D → ∀ s, D.coef s = -C.coef s) ∧
    (anticommutatorO A B = .ok C → anticommutatorO B A = .ok D → ∀ s, D.coef s = C.coef s) := by
  obtain ⟨R, rfl, h⟩ := exists_alg (K := K) ht
  have hA' : ∀ s ∈ A.basis.strs, R.Str s := fun s hs => h S s (hA.mem s hs)
  have hB' : ∀ s ∈ B.basis.strs, R.Str s := fun s hs => h S s (hB.mem s hs)
  have key : ∀ mode (σ : K), (∀ x y : Module.End K (Conf → K), bracketOf mode y x = σ • bracketOf mode x y) →
      operationOperator mode A B = .ok C → operationOperator mode B A = .ok D → ∀ s, D.coef s = σ * C.coef s := by
    intro mode σ hσ h1 h2 s
    obtain ⟨C', g1, g2, -, g4, g5⟩ := R.operator mode (tol := 1 / 10 ^ 16) (by norm_num) hA.wf hB.wf hA' hB' hA.type hB.type
    obtain rfl : C = C' := Except.ok.inj (h1.symm.trans g1)
    obtain ⟨D', f1, f2, -, f4, f5⟩ := R.operator mode (tol := 1 / 10 ^ 16) (by norm_num) hB.wf hA.wf hB' hA' hB.type hA.type
    obtain rfl : D = D' := Except.ok.inj (h2.symm.trans f1)
    have hden : D.den R.den = σ • C.den R.den := by
      rw [g5, f5, sum_swap, List.smul_sum, List.map_map]
      refine congrArg List.sum (List.map_congr_left fun ta _ => ?_)
      rw [Function.comp, List.smul_sum, List.map_map]
      refine congrArg List.sum (List.map_congr_left fun tb _ => ?_)
      rw [Function.comp, StrAlg.kept, StrAlg.kept, mul_comm tb.1]
      split
      · rw [smul_zero]
      · rw [hσ, smul_comm]
    have := R.relation [(1, D), (-σ, C)] (by
      simpa using ⟨⟨f2, fun s hs => ⟨(f4 s hs).1, (f4 s hs).2.1, (f4 s hs).2.2.2⟩⟩, ⟨g2, fun s hs => ⟨(g4 s hs).1, (g4 s hs).2.1, (g4 s hs).2.2.2⟩⟩⟩) (by
      simp [hden]) s
    simp only [List.map_cons, List.map_nil, List.sum_cons, List.sum_nil] at this
    linear_combination this
  refine ⟨fun h1 h2 s => ?_, fun h1 h2 s => ?_⟩
  · rw [key .commutator (-1) (fun x y => antisymm x y) h1 h2 s]; ring
  · rw [key .anticommutator 1 (fun x y => by simp [bracketOf, add_comm]) h1 h2 s]; ring

private def oX : Operator QI := ⟨[1], Basis.ofList [⟨[.X], [1], .pauli, .float1⟩], .pauli⟩
private def oY : Operator QI := ⟨[1], Basis.ofList [⟨[.Y], [1], .pauli, .float1⟩], .pauli⟩
private def oXZ : Operator QI := ⟨[1, 2], Basis.ofList [⟨[.X], [1], .pauli, .float1⟩, ⟨[.Z], [1], .pauli, .float1⟩], .pauli⟩

/-- non-vacuity: the hypotheses on the Operators and on the tolerance; all three double commutators are computed and not all of them vanish -/
example : oX.On .pauli (TypedString .pauli Set.univ) ∧ oY.On .pauli (TypedString .pauli Set.univ) ∧ oXZ.On .pauli (TypedString .pauli Set.univ) ∧
    NothingCut .commutator oX oY ∧ NothingCut .commutator oY oXZ ∧
    (commutatorO oX oY >>= commutatorO oXZ) = .ok ⟨[⟨4, 0⟩], Basis.ofList [⟨[.Y], [1], .pauli, .float1⟩], .pauli⟩ ∧
    (commutatorO oXZ oX >>= commutatorO oY) = .ok ⟨[], Basis.ofList [], .pauli⟩ ∧
    (commutatorO oY oXZ >>= commutatorO oX) = .ok ⟨[⟨-4, 0⟩], Basis.ofList [⟨[.Y], [1], .pauli, .float1⟩], .pauli⟩ := by
  have x : TypedString .pauli Set.univ ⟨[.X], [1], .pauli, .float1⟩ := Or.inl ⟨rfl, rfl, by simp, rfl, by simp, by simp, by simp⟩
  have y : TypedString .pauli Set.univ ⟨[.Y], [1], .pauli, .float1⟩ := Or.inl ⟨rfl, rfl, by simp, rfl, by simp, by simp, by simp⟩
  have z : TypedString .pauli Set.univ ⟨[.Z], [1], .pauli, .float1⟩ := Or.inl ⟨rfl, rfl, by simp, rfl, by simp, by simp, by simp⟩
  have n2 : ‖(toC (2 : QI) : ℂ)‖ = 2 := by rw [map_ofNat]; simp
  refine ⟨⟨Operator.WF.mk' (by simp) rfl (by simp), rfl, by simpa [oX, Basis.ofList] using x⟩,
    ⟨Operator.WF.mk' (by simp) rfl (by simp), rfl, by simpa [oY, Basis.ofList] using y⟩,
    ⟨Operator.WF.mk' (by simp) rfl (by simp), rfl, by simpa [oXZ, Basis.ofList] using ⟨x, z⟩⟩, ?_, ?_, by decide +kernel, by decide +kernel, by decide +kernel⟩
  · intro ta hta tb htb
    simp only [oX, oY, Operator.terms, Basis.ofList, List.zip_cons_cons, List.zip_nil_right, List.mem_singleton] at hta htb
    subst hta htb
    right; norm_num [bracketFactor]
  · intro ta hta tb htb
    simp only [oXZ, oY, Operator.terms, Basis.ofList, List.zip_cons_cons, List.zip_nil_right, List.mem_singleton, List.mem_cons, List.not_mem_nil, or_false] at hta htb
    subst hta
    right
    rcases htb with rfl | rfl
    · norm_num [bracketFactor]
    · rw [one_mul, n2]; norm_num [bracketFactor]

end operators
end Qosy
