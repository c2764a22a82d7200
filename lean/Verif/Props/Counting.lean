import Verif.Lemmas.Covariance
import Verif.Props.CommutantAlgebra
import Verif.Props.LieAlgebra
import Verif.Props.StringAlgebra

/-! # C122: two strings commute or anticommute by counting -/

namespace Qosy
open Coef

/-- two letters of strings of the type `t` anticommute: different letters on the same orbital, and `a`, `b` on different orbitals -/
def lettersAnticommute (t : OpType) (x y : Op × ℤ) : Bool :=
  if x.2 = y.2 then x.1 != y.1 else t = .majorana && (x.1 = .A || x.1 = .B) && (y.1 = .A || y.1 = .B)

/-- the letters of a string -/
def OpString.letters (s : OpString) : List (Op × ℤ) := s.ops.zip s.labels

/-- the number of anticommuting pairs of a letter of `s` and a letter of `u` -/
def anticommutingPairs (t : OpType) (s u : OpString) : ℕ := (s.letters.map fun x => u.letters.countP (lettersAnticommute t x)).sum

section
variable {𝔸 : Type} [Ring 𝔸] {site : Op → ℤ → 𝔸} {t : OpType}

/-- the letters of valid strings commute or anticommute -/
private def Letters (site : Op → ℤ → 𝔸) (t : OpType) (ok : Op × ℤ → Prop) : Prop := ∀ x y, ok x → ok y →
  site x.1 x.2 * site y.1 y.2 = (-1) ^ (if lettersAnticommute t x y then 1 else 0) * (site y.1 y.2 * site x.1 x.2)

private theorem neg_pow_comm (k : ℕ) (x : 𝔸) : x * (-1) ^ k = (-1) ^ k * x := ((Commute.neg_one_left x).pow_left k).eq.symm

private theorem letter_word {ok : Op × ℤ → Prop} (h : Letters site t ok) {x : Op × ℤ} (hx : ok x) : ∀ (ops : List Op) (ls : List ℤ), ops.length = ls.length →
    (∀ y ∈ ops.zip ls, ok y) → site x.1 x.2 * wordProd site ops ls = (-1) ^ ((ops.zip ls).countP (lettersAnticommute t x)) * (wordProd site ops ls * site x.1 x.2)
  | [], [], _, _ => by simp [wordProd]
  | o :: ops, l :: ls, hl, ho => by
    have ih := letter_word h hx ops ls (by simpa using hl) (fun y hy => ho y (List.mem_cons_of_mem _ hy))
    have h1 := h x (o, l) hx (ho _ List.mem_cons_self)
    simp only at h1
    simp only [wordProd, List.zip_cons_cons, List.countP_cons, pow_add]
    rw [← mul_assoc, h1, mul_assoc, mul_assoc, ih, ← mul_assoc (site o l), neg_pow_comm, neg_pow_comm, mul_assoc, mul_assoc, mul_assoc]

private theorem word_word {ok : Op × ℤ → Prop} (h : Letters site t ok) {ops' : List Op} {ls' : List ℤ} (hl' : ops'.length = ls'.length) (ho' : ∀ y ∈ ops'.zip ls', ok y) :
    ∀ (ops : List Op) (ls : List ℤ), ops.length = ls.length → (∀ y ∈ ops.zip ls, ok y) →
      wordProd site ops ls * wordProd site ops' ls' =
        (-1) ^ (((ops.zip ls).map fun x => (ops'.zip ls').countP (lettersAnticommute t x)).sum) * (wordProd site ops' ls' * wordProd site ops ls)
  | [], [], _, _ => by simp [wordProd]
  | o :: ops, l :: ls, hl, ho => by
    have ih := word_word h hl' ho' ops ls (by simpa using hl) (fun y hy => ho y (List.mem_cons_of_mem _ hy))
    have h1 := letter_word h (ho _ List.mem_cons_self) ops' ls' hl' ho'
    simp only at h1
    simp only [wordProd, List.zip_cons_cons, List.map_cons, List.sum_cons]
    rw [mul_assoc, ih, ← mul_assoc, neg_pow_comm, mul_assoc, ← mul_assoc (site o l), h1, mul_assoc, mul_assoc, ← mul_assoc, ← pow_add, add_comm]

private theorem signed {x y : 𝔸} {k : ℕ} (h : x * y = (-1) ^ k * (y * x)) : (Even k → x * y - y * x = 0) ∧ (Odd k → x * y + y * x = 0) :=
  ⟨fun hk => by rw [h, hk.neg_one_pow, one_mul, sub_self], fun hk => by rw [h, hk.neg_one_pow, neg_one_mul, neg_add_cancel]⟩
end

section
variable {K : Type} [Field K] [StarRing K] [Coef K] {𝔸 : Type} [Ring 𝔸] [Algebra K 𝔸] {S : Set ℤ}

private theorem pauli_letters (R : PauliRep K 𝔸 S) : Letters R.site .pauli (fun x => (x.1 = .X ∨ x.1 = .Y ∨ x.1 = .Z) ∧ x.2 ∈ S) := by
  rintro ⟨c, i⟩ ⟨c', j⟩ ⟨h, hi⟩ ⟨h', hj⟩
  simp only at h h' hi hj
  by_cases hij : i = j
  · subst hij
    rcases h with rfl | rfl | rfl <;> rcases h' with rfl | rfl | rfl <;> simp [PauliRep.site, lettersAnticommute, R.x_mul_y i hi, R.y_mul_z i hi, R.z_mul_x i hi,
      R.y_mul_x i hi, R.z_mul_y i hi, R.x_mul_z i hi]
  · rcases h with rfl | rfl | rfl <;> rcases h' with rfl | rfl | rfl <;> simp [PauliRep.site, lettersAnticommute, hij]
    · exact R.xx i hi j hj hij
    · exact R.xy i hi j hj hij
    · exact R.xz i hi j hj hij
    · exact (R.xy j hj i hi (Ne.symm hij)).symm
    · exact R.yy i hi j hj hij
    · exact R.yz i hi j hj hij
    · exact (R.xz j hj i hi (Ne.symm hij)).symm
    · exact (R.yz j hj i hi (Ne.symm hij)).symm
    · exact R.zz i hi j hj hij

private theorem majorana_letters (R : MajoranaRep K 𝔸 S) : Letters R.site .majorana (fun x => (x.1 = .A ∨ x.1 = .B ∨ x.1 = .D) ∧ x.2 ∈ S) := by
  rintro ⟨c, i⟩ ⟨c', j⟩ ⟨h, hi⟩ ⟨h', hj⟩
  simp only at h h' hi hj
  have ba : ∀ {i j : ℤ}, i ∈ S → j ∈ S → R.b i * R.a j = -(R.a j * R.b i) := fun hi hj => by rw [R.ab _ hj _ hi, neg_neg]
  by_cases hij : i = j
  · subst hij
    have ad : R.a i * R.d i = -(R.d i * R.a i) := by
      simp only [MajoranaRep.d, mul_neg, neg_mul, mul_smul_comm, smul_mul_assoc, neg_neg]
      rw [mul_assoc (R.a i) (R.b i), ba hi hi, mul_neg, smul_neg]
    have bd : R.b i * R.d i = -(R.d i * R.b i) := by
      simp only [MajoranaRep.d, mul_neg, neg_mul, mul_smul_comm, smul_mul_assoc, neg_neg]
      rw [← mul_assoc (R.b i) (R.a i), ba hi hi, neg_mul, smul_neg, neg_neg]
    rcases h with rfl | rfl | rfl <;> rcases h' with rfl | rfl | rfl <;> simp [MajoranaRep.site, lettersAnticommute]
    · exact R.ab i hi i hi
    · exact ad
    · exact ba hi hi
    · exact bd
    · rw [ad, neg_neg]
    · rw [bd, neg_neg]
  · have comm : ∀ {x a b : 𝔸}, x * a = -(a * x) → x * b = -(b * x) → x * (a * b) = a * b * x := fun h1 h2 => by
      rw [← mul_assoc, h1, neg_mul, mul_assoc, h2, mul_neg, neg_neg, mul_assoc]
    have dx : ∀ {j : ℤ} {x : 𝔸}, x * R.a j = -(R.a j * x) → x * R.b j = -(R.b j * x) → x * R.d j = R.d j * x := fun h1 h2 => by
      simp only [MajoranaRep.d, mul_neg, neg_mul, mul_smul_comm, smul_mul_assoc, comm h1 h2]
    have hji : j ≠ i := Ne.symm hij
    have da : R.a i * R.d j = R.d j * R.a i := dx (R.aa i hi j hj hij) (R.ab i hi j hj)
    have db : R.b i * R.d j = R.d j * R.b i := dx (ba hi hj) (R.bb i hi j hj hij)
    have dd : R.d i * R.d j = R.d j * R.d i := by
      have e : ∀ x : 𝔸, R.a i * x = x * R.a i → R.b i * x = x * R.b i → R.d i * x = x * R.d i := fun x h1 h2 => by
        simp only [MajoranaRep.d, neg_mul, smul_mul_assoc, mul_neg, mul_smul_comm, mul_assoc]
        rw [h2, ← mul_assoc, h1, mul_assoc]
      exact e _ da db
    rcases h with rfl | rfl | rfl <;> rcases h' with rfl | rfl | rfl <;> simp [MajoranaRep.site, lettersAnticommute, hij]
    · exact R.aa i hi j hj hij
    · exact R.ab i hi j hj
    · exact da
    · exact ba hi hj
    · exact R.bb i hi j hj hij
    · exact db
    · exact (dx (R.aa j hj i hi hji) (R.ab j hj i hi)).symm
    · exact (dx (ba hj hi) (R.bb j hj i hi hji)).symm
    · exact dd

private theorem pauli_signed (R : PauliRep K 𝔸 S) {s u : OpString} (hs : PauliString S s) (hu : PauliString S u) :
    (Even (anticommutingPairs .pauli s u) → R.den s * R.den u - R.den u * R.den s = 0) ∧
    (Odd (anticommutingPairs .pauli s u) → R.den s * R.den u + R.den u * R.den s = 0) := by
  have hl : ∀ {s : OpString}, PauliString S s → ∀ y ∈ s.ops.zip s.labels, (y.1 = .X ∨ y.1 = .Y ∨ y.1 = .Z) ∧ y.2 ∈ S := fun h y hy =>
    ⟨h.ops _ (List.of_mem_zip hy).1, h.mem _ (List.of_mem_zip hy).2⟩
  have := word_word (pauli_letters R) hu.len (hl hu) s.ops s.labels hs.len (hl hs)
  refine signed ?_
  rw [PauliRep.den, PauliRep.den, smul_mul_smul_comm, smul_mul_smul_comm, this, mul_smul_comm, mul_comm (s.pref.val (K := K))]
  rfl

private theorem majorana_signed (R : MajoranaRep K 𝔸 S) {s u : OpString} (hs : MajoranaString S s) (hu : MajoranaString S u) :
    (Even (anticommutingPairs .majorana s u) → R.den s * R.den u - R.den u * R.den s = 0) ∧
    (Odd (anticommutingPairs .majorana s u) → R.den s * R.den u + R.den u * R.den s = 0) := by
  have hl : ∀ {s : OpString}, MajoranaString S s → ∀ y ∈ s.ops.zip s.labels, (y.1 = .A ∨ y.1 = .B ∨ y.1 = .D) ∧ y.2 ∈ S := fun h y hy =>
    ⟨h.ops _ (List.of_mem_zip hy).1, h.mem _ (List.of_mem_zip hy).2⟩
  have := word_word (majorana_letters R) hu.len (hl hu) s.ops s.labels hs.len (hl hs)
  refine signed ?_
  rw [MajoranaRep.den, MajoranaRep.den, smul_mul_smul_comm, smul_mul_smul_comm, this, mul_smul_comm, mul_comm (s.pref.val (K := K))]
  rfl

private theorem exact_iff {den : OpString → 𝔸} {x : 𝔸} {r : Py (K × Option OpString)} (h : BracketExact den x r) : r = .ok (0, none) ↔ x = 0 := by
  rcases h with ⟨c, C, h1, -, -, h2⟩ | ⟨h1, h2⟩
  · exact ⟨fun e => by rw [h1] at e; simp at e, fun e => absurd e h2⟩
  · exact ⟨fun _ => h2, fun _ => h1⟩

/-- two elements that square to one do not both commute and anticommute -/
private theorem not_both (F : Type) [Field F] [StarRing F] [Coef F] {𝔹 : Type} [Ring 𝔹] [Algebra F 𝔹] [Nontrivial 𝔹] {x y : 𝔹} (hx : x * x = 1) (hy : y * y = 1) (h : x * y - y * x = 0) (h' : x * y + y * x = 0) : False := by
  have e : (2 : F) • (x * y) = 0 := by
    rw [two_smul]
    calc x * y + x * y = (x * y - y * x) + (x * y + y * x) := by abel
      _ = 0 := by rw [h, h', add_zero]
  have e2 : x * y = 0 := (smul_eq_zero.mp e).resolve_left two_ne_zero'
  have : (1 : 𝔹) = 0 := by
    calc (1 : 𝔹) = x * (y * y) * x := by rw [hy, mul_one, hx]
      _ = 0 := by rw [← mul_assoc, e2, zero_mul, zero_mul]
  exact one_ne_zero this

private theorem counting [Nontrivial 𝔸] {den : OpString → 𝔸} {s u : OpString} {k : ℕ} (hs : den s * den s = 1) (hu : den u * den u = 1)
    (h : (Even k → den s * den u - den u * den s = 0) ∧ (Odd k → den s * den u + den u * den s = 0))
    (hb : BracketExact den (den s * den u - den u * den s) (commutatorS s u : Py (K × Option OpString)) ∧
      BracketExact den (den s * den u + den u * den s) (anticommutatorS s u : Py (K × Option OpString))) :
    ((commutatorS s u : Py (K × Option OpString)) = .ok (0, none) ↔ Even k) ∧ ((anticommutatorS s u : Py (K × Option OpString)) = .ok (0, none) ↔ Odd k) := by
  rw [exact_iff hb.1, exact_iff hb.2]
  refine ⟨⟨fun e => ?_, h.1⟩, ⟨fun e => ?_, h.2⟩⟩
  · by_contra hk
    exact not_both K hs hu e (h.2 (Nat.not_even_iff_odd.mp hk))
  · by_contra hk
    exact not_both K hs hu (h.1 (Nat.not_odd_iff_even.mp hk)) e

end

section
variable {K : Type} [Field K] [StarRing K] [Coef K] {t : OpType} {S : Set ℤ}

/-- **C122** (strings): count the pairs of a letter of `s` and a letter of `u` that anticommute: different letters on the same orbital and, for Majorana
strings, letters `a`, `b` on different orbitals.  `commutator` returns zero exactly if their number is even, `anticommutator` exactly if it is odd. -/
theorem C122_strings {s u : OpString} (hs : TypedString t S s) (hu : TypedString t S u) :
    ((commutatorS s u : Py (K × Option OpString)) = .ok (0, none) ↔ Even (anticommutingPairs t s u)) ∧
    ((anticommutatorS s u : Py (K × Option OpString)) = .ok (0, none) ↔ Odd (anticommutingPairs t s u)) := by
  rcases hs with ⟨rfl, hs⟩ | ⟨rfl, hs⟩
  · have hu := ((hu.resolve_right (by simp)).2).mono (Set.subset_univ S)
    have hs := hs.mono (Set.subset_univ S)
    exact counting (C05_pauli_square (waveRep K) hs) (C05_pauli_square (waveRep K) hu) (pauli_signed (waveRep K) hs hu) (C03_pauli_brackets (waveRep K) hs hu)
  · have hu := ((hu.resolve_left (by simp)).2).mono (Set.subset_univ S)
    have hs := hs.mono (Set.subset_univ S)
    exact counting (C05_majorana_square (waveMajorana K) hs) (C05_majorana_square (waveMajorana K) hu) (majorana_signed (waveMajorana K) hs hu)
      (C03_majorana_brackets (waveMajorana K) hs hu)

private theorem product_swap {𝔸 : Type} [Ring 𝔸] [Algebra K 𝔸] [Nontrivial 𝔸] (R : StrAlg K 𝔸) {s u : OpString} (hs : R.Str s) (hu : R.Str u) {k : ℕ}
    (h : ((commutatorS s u : Py (K × Option OpString)) = .ok (0, none) ↔ Even k) ∧ ((anticommutatorS s u : Py (K × Option OpString)) = .ok (0, none) ↔ Odd k)) :
    ∃ (c : K) (C : OpString), c ≠ 0 ∧ productS s u = .ok (c, some C) ∧ productS u s = .ok ((-1) ^ k * c, some C) := by
  obtain ⟨c, c', C, a⟩ := R.core s u hs hu
  obtain ⟨d, d', D, b⟩ := R.core u s hu hs
  have hc' : c' = (-1) ^ k * c := by
    rcases a.brackets with ⟨e, e', -⟩ | ⟨e, -, e'⟩
    · rw [e, (h.1.mp e').neg_one_pow, one_mul]
    · rw [e, (h.2.mp e').neg_one_pow, neg_one_mul]
  have e : R.den D = (d⁻¹ * c') • R.den C := by
    rw [mul_smul, ← a.ba, b.ab, smul_smul, inv_mul_cancel₀ b.phase.ne_zero, one_smul]
  obtain ⟨rfl, e'⟩ := R.same_string b.str a.str ⟨b.sorted, b.pref⟩ ⟨a.sorted, a.pref⟩ e
  refine ⟨c, D, a.phase.ne_zero, a.prod, ?_⟩
  rw [b.prod, ← hc', (inv_mul_eq_one₀ b.phase.ne_zero).mp e']

/-- **C122** (products): `product(s, u)` and `product(u, s)` return the same string, and the coefficients differ by a minus sign for every anticommuting pair of
letters. -/
theorem C122_product {s u : OpString} (hs : TypedString t S s) (hu : TypedString t S u) :
    ∃ (c : K) (C : OpString), c ≠ 0 ∧ productS s u = .ok (c, some C) ∧ productS u s = .ok ((-1) ^ anticommutingPairs t s u * c, some C) := by
  have h := C122_strings (K := K) hs hu
  rcases hs with ⟨rfl, hs⟩ | ⟨rfl, hs⟩
  · exact product_swap (waveRep K).strAlg (hs.mono (Set.subset_univ S)) ((hu.resolve_right (by simp)).2.mono (Set.subset_univ S)) h
  · exact product_swap (waveMajorana K).strAlg (hs.mono (Set.subset_univ S)) ((hu.resolve_left (by simp)).2.mono (Set.subset_univ S)) h

/-- if the generators commute the smallest closed set is the set of generators -/
private theorem lie_abelian {𝔸 : Type} [Ring 𝔸] [Algebra K 𝔸] [Nontrivial 𝔸] {den : OpString → 𝔸} {Valid : OpString → Prop} {gens r : List OpString}
    (h : IsLieAlgebra K den Valid gens r) (hsq : ∀ s, Valid s → den s * den s = 1) (hc : ∀ s ∈ gens, ∀ u ∈ gens, den s * den u - den u * den s = 0) (s : OpString) :
    s ∈ r ↔ s ∈ gens := by
  refine ⟨h.least {s | s ∈ gens} (fun _ h => h) (fun a ha b hb C c hC _ h0 e => ?_) s, h.contains s⟩
  rw [hc a ha b hb] at e
  have hz : den C = 0 := (smul_eq_zero.mp e.symm).resolve_left h0
  have := hsq C hC
  rw [hz, zero_mul] at this
  exact absurd this zero_ne_one

/-- **C122** (Lie algebras): if the number of anticommuting pairs is even for all pairs of generators, `generate_lie_algebra` returns the generators and
nothing else. -/
theorem C122_lie_algebra {tol : ℚ} (h0 : 0 < tol) (h2 : tol ≤ 2) {B : Basis} (hB : B.Inv) (hs : ∀ s ∈ B.strs, TypedString t S s)
    (hc : ∀ s ∈ B.strs, ∀ u ∈ B.strs, Even (anticommutingPairs t s u)) :
    ∃ (m : ℕ) (r : Basis), (∀ n, m ≤ n → generateLieAlgebra K B n tol = .ok (some r)) ∧ IndexedSet r ∧ ∀ s, s ∈ r.strs ↔ s ∈ B.strs := by
  by_cases ht : t = .majorana
  · subst ht
    have hs' : ∀ s ∈ B.strs, MajoranaString Set.univ s := fun s h => ((hs s h).resolve_left (by simp)).2.mono (Set.subset_univ S)
    obtain ⟨m, r, k1, k2, k3⟩ := C17_majorana (waveMajorana K) h0 h2 hB hs'
    exact ⟨m, r, k1, k2, lie_abelian k3 (fun s h => C05_majorana_square (waveMajorana K) h)
      fun s h u h' => (majorana_signed (waveMajorana K) (hs' s h) (hs' u h')).1 (hc s h u h')⟩
  · have hs' : ∀ s ∈ B.strs, t = .pauli ∧ PauliString Set.univ s := fun s h =>
      ⟨((hs s h).resolve_right (by simp [ht])).1, ((hs s h).resolve_right (by simp [ht])).2.mono (Set.subset_univ S)⟩
    obtain ⟨m, r, k1, k2, k3⟩ := C17_pauli (waveRep K) h0 h2 hB fun s h => (hs' s h).2
    exact ⟨m, r, k1, k2, lie_abelian k3 (fun s h => C05_pauli_square (waveRep K) h)
      fun s h u h' => (pauli_signed (waveRep K) (hs' s h).2 (hs' u h').2).1 ((hs' s h).1 ▸ hc s h u h')⟩

private theorem lie_pair {𝔸 : Type} [Ring 𝔸] [Algebra K 𝔸] [Nontrivial 𝔸] (R : StrAlg K 𝔸) {s u : OpString} (hs : R.Str s ∧ s.Canonical) (hu : R.Str u ∧ u.Canonical)
    (h : (anticommutatorS s u : Py (K × Option OpString)) = .ok (0, none)) {r : List OpString} (hr : IsLieAlgebra K R.den R.Str [s, u] r) :
    ∃ (c : K) (C : OpString), productS s u = .ok (c, some C) ∧ ∀ x, x ∈ r ↔ x = s ∨ x = u ∨ x = C := by
  obtain ⟨c, c', C, a⟩ := R.core s u hs.1 hu.1
  have hc0 := a.phase.ne_zero
  have h2 : (2 : K) ≠ 0 := two_ne_zero'
  obtain rfl : c' = -c := by
    rcases a.brackets with ⟨-, -, e⟩ | ⟨e, -⟩
    · rw [h] at e
      simp at e
    · exact e
  have ss := R.sq s hs.1
  have uu := R.sq u hu.1
  have ab := a.ab
  have ba := a.ba
  have hC : R.den C = c⁻¹ • (R.den s * R.den u) := by rw [ab, smul_smul, inv_mul_cancel₀ hc0, one_smul]
  have us : R.den u * R.den s = -(R.den s * R.den u) := by rw [ab, ba, neg_smul]
  have sus : R.den s * R.den u * R.den s = -R.den u := by rw [mul_assoc, us, mul_neg, ← mul_assoc, ss, one_mul]
  have uus : R.den u * (R.den s * R.den u) = -R.den s := by rw [← mul_assoc, us, neg_mul, mul_assoc, uu, mul_one]
  have br1 : R.den s * R.den u - R.den u * R.den s = (2 * c) • R.den C := by rw [us, sub_neg_eq_add, ab, two_mul, add_smul]
  have br2 : R.den s * R.den C - R.den C * R.den s = (2 * c⁻¹) • R.den u := by
    rw [hC, mul_smul_comm, smul_mul_assoc, sus, ← mul_assoc, ss, one_mul, smul_neg, sub_neg_eq_add, two_mul, add_smul]
  have br3 : R.den u * R.den C - R.den C * R.den u = (-(2 * c⁻¹)) • R.den s := by
    rw [hC, mul_smul_comm, smul_mul_assoc, uus, mul_assoc, uu, mul_one, smul_neg, two_mul, neg_add, add_smul, neg_smul, sub_eq_add_neg]
  have can : ∀ E, E = s ∨ E = u ∨ E = C → R.Str E ∧ E.Canonical := by
    rintro E (rfl | rfl | rfl)
    · exact hs
    · exact hu
    · exact ⟨a.str, a.sorted, a.pref⟩
  have ne0 : ∀ E, R.Str E → R.den E ≠ 0 := fun E hE h0 => by
    have := R.sq E hE
    rw [h0, zero_mul] at this
    exact zero_ne_one this
  have same : ∀ {D E : OpString} {x y : K}, R.Str D → D.Canonical → (E = s ∨ E = u ∨ E = C) → y ≠ 0 → x • R.den E = y • R.den D → D = E := fun {D E x y} h1 h1' h3 h4 h5 =>
    (R.same_string h1 (can E h3).1 h1' (can E h3).2 (c := y⁻¹ * x) (by rw [mul_smul, h5, smul_smul, inv_mul_cancel₀ h4, one_smul])).1
  have swap : ∀ {x y z : 𝔸} {k : K}, x * y - y * x = k • z → y * x - x * y = (-k) • z := fun e => by rw [neg_smul, ← e, neg_sub]
  have brackets : ∀ x y, (x = s ∨ x = u ∨ x = C) → (y = s ∨ y = u ∨ y = C) →
      ∃ (E : OpString) (k : K), (E = s ∨ E = u ∨ E = C) ∧ R.den x * R.den y - R.den y * R.den x = k • R.den E := by
    rintro x y (rfl | rfl | rfl) (rfl | rfl | rfl)
    · exact ⟨y, 0, by simp, by simp⟩
    · exact ⟨_, _, Or.inr (Or.inr rfl), br1⟩
    · exact ⟨_, _, Or.inr (Or.inl rfl), br2⟩
    · exact ⟨_, _, Or.inr (Or.inr rfl), swap br1⟩
    · exact ⟨y, 0, by simp, by simp⟩
    · exact ⟨_, _, Or.inl rfl, br3⟩
    · exact ⟨_, _, Or.inr (Or.inl rfl), swap br2⟩
    · exact ⟨_, _, Or.inl rfl, swap br3⟩
    · exact ⟨y, 0, by simp, by simp⟩
  have sub : ∀ x ∈ r, x = s ∨ x = u ∨ x = C := hr.least {x | x = s ∨ x = u ∨ x = C} (by simp) fun x hx y hy D d hD hD' hd e => by
    obtain ⟨E, k, hE, e'⟩ := brackets x y hx hy
    obtain rfl := same hD hD' hE hd (e'.symm.trans e)
    exact hE
  refine ⟨c, C, a.prod, fun x => ⟨sub x, ?_⟩⟩
  rintro (rfl | rfl | rfl)
  · exact hr.contains _ (by simp)
  · exact hr.contains _ (by simp)
  · rcases hr.closed s (hr.contains _ (by simp)) u (hr.contains _ (by simp)) with e | ⟨D, hD, d, hd, e⟩
    · rw [br1] at e
      exact absurd ((smul_eq_zero.mp e).resolve_left (mul_ne_zero h2 hc0)) (ne0 _ a.str)
    · have := same (can D (sub D hD)).1 (can D (sub D hD)).2 (Or.inr (Or.inr rfl)) hd (br1.symm.trans e)
      exact this ▸ hD

/-- **C122** (two generators): two strings with an odd number of anticommuting pairs generate a Lie algebra of three strings, the third is that of their product. -/
theorem C122_lie_pair {tol : ℚ} (h0 : 0 < tol) (h2 : tol ≤ 2) {s u : OpString} (hs : TypedString t S s ∧ s.Canonical) (hu : TypedString t S u ∧ u.Canonical)
    (hne : s ≠ u) (hodd : Odd (anticommutingPairs t s u)) :
    ∃ (m : ℕ) (r : Basis) (c : K) (C : OpString), (∀ n, m ≤ n → generateLieAlgebra K (Basis.ofList [s, u]) n tol = .ok (some r)) ∧ IndexedSet r ∧
      productS s u = .ok (c, some C) ∧ ∀ x, x ∈ r.strs ↔ x = s ∨ x = u ∨ x = C := by
  have h := (C122_strings (K := K) hs.1 hu.1).2.mpr hodd
  have hB : (Basis.ofList [s, u]).Inv := Basis.Inv.ofList (by simpa using hne)
  obtain ⟨hs, cs⟩ := hs
  obtain ⟨hu, cu⟩ := hu
  rcases hs with ⟨rfl, hs⟩ | ⟨rfl, hs⟩
  · replace hs := hs.mono (Set.subset_univ S)
    replace hu := (hu.resolve_right (by simp)).2.mono (Set.subset_univ S)
    obtain ⟨m, r, k1, k2, k3⟩ := C17_pauli (waveRep K) h0 h2 hB (by simpa [Basis.ofList] using ⟨hs, hu⟩)
    obtain ⟨c, C, e1, e2⟩ := lie_pair (waveRep K).strAlg ⟨hs, cs⟩ ⟨hu, cu⟩ h k3
    exact ⟨m, r, c, C, k1, k2, e1, e2⟩
  · replace hs := hs.mono (Set.subset_univ S)
    replace hu := (hu.resolve_left (by simp)).2.mono (Set.subset_univ S)
    obtain ⟨m, r, k1, k2, k3⟩ := C17_majorana (waveMajorana K) h0 h2 hB (by simpa [Basis.ofList] using ⟨hs, hu⟩)
    obtain ⟨c, C, e1, e2⟩ := lie_pair (waveMajorana K).strAlg ⟨hs, cs⟩ ⟨hu, cu⟩ h k3
    exact ⟨m, r, c, C, k1, k2, e1, e2⟩

end

variable {t : OpType} {S : Set ℤ}

/-- the number of anticommuting pairs of letters has the parity for which the strings commute (mode `commutator`) or anticommute (mode `anticommutator`) -/
def pairsFit (t : OpType) (m : Mode) (s u : OpString) : Bool :=
  match m with
  | .commutator => anticommutingPairs t s u % 2 = 0
  | .anticommutator => anticommutingPairs t s u % 2 = 1
  | .product => false

private theorem fit_iff {𝔸 : Type} [Ring 𝔸] [Algebra ℂ 𝔸] (R : StrAlg ℂ 𝔸) [Nontrivial 𝔸] (hS : ∀ s, TypedString t S s → R.Str s) {m : Mode} (hm : m ≠ .product)
    {s u : OpString} (hs : TypedString t S s) (hu : TypedString t S u) :
    (pairsFit t m s u = true → bracketOf m (R.den s) (R.den u) = 0) ∧ (pairsFit t m s u = false → bracketOf m (R.den s) (R.den u) = (2 : ℂ) • (R.den s * R.den u)) := by
  have h := C122_strings (K := ℂ) hs hu
  have zero : ∀ m' : Mode, operationOpString m' s u = (.ok (0, none) : Py (ℂ × Option OpString)) → bracketOf m' (R.den s) (R.den u) = 0 := fun m' e => by
    rcases R.op_string m' (hS s hs) (hS u hu) with k | ⟨c, C, k, -⟩
    · exact k.2
    · rw [e] at k; simp at k
  have e1 : Even (anticommutingPairs t s u) → R.den s * R.den u - R.den u * R.den s = 0 := fun k => zero .commutator (h.1.mpr k)
  have e2 : Odd (anticommutingPairs t s u) → R.den s * R.den u + R.den u * R.den s = 0 := fun k => zero .anticommutator (h.2.mpr k)
  cases m with
  | product => exact absurd rfl hm
  | commutator =>
    simp only [pairsFit, decide_eq_true_eq, decide_eq_false_iff_not, bracketOf]
    refine ⟨fun k => e1 (Nat.even_iff.mpr k), fun k => ?_⟩
    have := e2 (Nat.odd_iff.mpr (by omega))
    rw [two_smul, eq_neg_of_add_eq_zero_right this, sub_neg_eq_add]
  | anticommutator =>
    simp only [pairsFit, decide_eq_true_eq, decide_eq_false_iff_not, bracketOf]
    refine ⟨fun k => e2 (Nat.odd_iff.mpr k), fun k => ?_⟩
    have := e1 (Nat.even_iff.mpr (by omega))
    rw [two_smul, ← sub_eq_zero.mp this]

/-- **C122** (search): for an Operator `c * u` of one string `u`, `commuting_operators` on a Basis finds exactly the combinations of the strings whose
number of anticommuting pairs with `u` has the right parity, for all tolerances below a positive bound. -/
theorem C122_search (ht : t = .pauli ∨ t = .majorana) {b : Basis} (hb : ∀ s ∈ b.strs, TypedString t S s ∧ s.Canonical) (hn : b.strs.Nodup) {u : OpString}
    (hu : TypedString t S u) {c : ℂ} (hc : c ≠ 0) {eigh : Eigh} (he : ExactEigh eigh) {m : Mode} (hm : m ≠ .product) :
    ∃ δ > 0, ∀ tol, 0 < tol → tol ≤ δ → ∃ r, commutingOperators eigh (.strings b) ⟨[c], Basis.ofList [u], t⟩ m tol = .ok r ∧ r.dim = b.strs.length ∧
      ∀ v : Fin r.dim → ℂ, v ∈ colSpan r.vecs ↔ ∀ (j : Fin r.dim) (s : OpString), b.strs[(j : ℕ)]? = some s → pairsFit t m s u = false → v j = 0 := by
  obtain ⟨R, hR, hS, -, -, H⟩ := commuting_exact (S := S) ht
  have size : (BasisArg.strings b : BasisArg ℂ).size = b.strs.length := by simp [BasisArg.size, BasisArg.elementTerms]
  obtain ⟨δ, p, q⟩ := H m ⟨[c], Basis.ofList [u], t⟩ (fun s hs => by
    simp only [Basis.ofList, List.mem_cons, List.not_mem_nil, or_false] at hs
    exact hs ▸ hu) (.strings b) (fun s hs => (hb s hs).1) (by simp) eigh he
  refine ⟨δ, p, fun tol h0 h1 => ?_⟩
  obtain ⟨⟨n, V, C, e, w⟩, a1, a2, -, a4⟩ := q tol h0 h1
  simp only at a2 a4
  obtain rfl : n = b.strs.length := a2.trans size
  refine ⟨_, a1, rfl, fun v => ?_⟩
  rw [a4 v]
  set d : Fin b.strs.length → Module.End ℂ (Conf → ℂ) := fun j => R.den b.strs[j] with hd
  have hden : (⟨[c], Basis.ofList [u], t⟩ : Operator ℂ).den R.den = c • R.den u := by
    simp [Operator.den, Operator.terms, Basis.ofList, denT]
  have hsum : ∑ j : Fin b.strs.length, v j • (((BasisArg.strings b : BasisArg ℂ).den R.den)[(j : ℕ)]?).getD 0 = ∑ j, v j • d j :=
    Finset.sum_congr rfl fun j _ => by
      simp [BasisArg.den, List.getElem?_map, List.getElem?_eq_getElem j.2, hd]
  have fit : ∀ j : Fin b.strs.length, (pairsFit t m b.strs[j] u = true → bracketOf m (d j) (R.den u) = 0) ∧
      (pairsFit t m b.strs[j] u = false → bracketOf m (d j) (R.den u) = (2 : ℂ) • (d j * R.den u)) := fun j => fit_iff R hS hm (hb _ (List.getElem_mem j.2)).1 hu
  have hbr : bracketOf m (∑ j, v j • d j) (c • R.den u) = (c * 2) • ((∑ j, (if pairsFit t m b.strs[j] u then 0 else v j) • d j) * R.den u) := by
    have lin : ∀ s : Finset (Fin b.strs.length), bracketOf m (∑ j ∈ s, v j • d j) (c • R.den u) = ∑ j ∈ s, (v j * c) • bracketOf m (d j) (R.den u) := by
      intro s
      induction s using Finset.induction_on with
      | empty => simp [bracketOf_zero_left]
      | insert a s ha ih => rw [Finset.sum_insert ha, Finset.sum_insert ha, bracketOf_add_left, ih, bracketOf_smul]
    rw [lin, Finset.sum_mul, Finset.smul_sum]
    refine Finset.sum_congr rfl fun j _ => ?_
    cases hf : pairsFit t m b.strs[j] u with
    | true => rw [(fit j).1 hf]; simp
    | false =>
      rw [(fit j).2 hf, smul_smul, smul_mul_assoc, smul_smul]
      simp only [Bool.false_eq_true, if_false]
      congr 1
      ring
  rw [hsum, hden, hbr, smul_eq_zero, or_iff_right (mul_ne_zero hc two_ne_zero)]
  constructor
  · intro k j s hj hf
    have k' : ∑ j, (if pairsFit t m b.strs[j] u then 0 else v j) • d j = 0 := by
      rw [← mul_one (∑ j, _), ← R.sq u (hS u hu), ← mul_assoc, k, zero_mul]
    have := R.independent hn (fun s hs => ⟨hS s (hb s hs).1, (hb s hs).2⟩)
      (w := fun i => if h : i < b.strs.length then (if pairsFit t m b.strs[i] u then 0 else v ⟨i, h⟩) else 0) (by
        rw [linComb, ← k']
        refine Finset.sum_congr rfl fun i _ => ?_
        simp [hd]) j j.2
    rw [List.getElem?_eq_getElem j.2, Option.some.injEq] at hj
    subst hj
    simpa [hf] using this
  · intro k
    rw [Finset.sum_eq_zero, zero_mul]
    intro j _
    cases hf : pairsFit t m b.strs[j] u with
    | true => simp
    | false => simp [k j _ (List.getElem?_eq_getElem j.2) hf]

/-- **C122** (many strings): whatever the coefficients of `O` are, `commuting_operators` finds every operator over the basis whose strings have the right
parity of anticommuting pairs with all strings of `O`, for all tolerances below a positive bound. -/
theorem C122_found (ht : t = .pauli ∨ t = .majorana) {b : Basis} (hb : ∀ s ∈ b.strs, TypedString t S s) (hn : b.strs.Nodup) {O : Operator ℂ}
    (hO : ∀ s ∈ O.basis.strs, TypedString t S s) {eigh : Eigh} (he : ExactEigh eigh) {m : Mode} (hm : m ≠ .product) :
    ∃ δ > 0, ∀ tol, 0 < tol → tol ≤ δ → ∃ r, commutingOperators eigh (.strings b) O m tol = .ok r ∧ r.dim = b.strs.length ∧
      ∀ A : Operator ℂ, A.On t (· ∈ b.strs) → (∀ s ∈ A.basis.strs, ∀ u ∈ O.basis.strs, pairsFit t m s u = true) → coordinates b _ A ∈ colSpan r.vecs := by
  obtain ⟨R, hR, hS, -, -, H⟩ := commuting_exact (S := S) ht
  have size : (BasisArg.strings b : BasisArg ℂ).size = b.strs.length := by simp [BasisArg.size, BasisArg.elementTerms]
  obtain ⟨δ, p, q⟩ := H m O hO (.strings b) hb (by simp) eigh he
  refine ⟨δ, p, fun tol h0 h1 => ?_⟩
  obtain ⟨r, a1, a2, -, a4⟩ := q tol h0 h1
  refine ⟨r, a1, a2.trans size, fun A hA hf => ?_⟩
  rw [a4, coordinates_den R.den hn hA.mem (a2.trans size)]
  show bracketOf m (denT R.den A.terms) (denT R.den O.terms) = 0
  rw [bracketOf_den]
  refine List.sum_eq_zero fun x hx => ?_
  obtain ⟨a, ha, rfl⟩ := List.mem_map.mp hx
  refine List.sum_eq_zero fun y hy => ?_
  obtain ⟨c, hc, rfl⟩ := List.mem_map.mp hy
  rw [(fit_iff R hS hm (hb _ (hA.mem _ (mem_terms ha))) (hO _ (mem_terms hc))).1 (hf _ (mem_terms ha) _ (mem_terms hc)), smul_zero]

/-! ### non-vacuity -/

private def str (t : OpType) (ops : List Op) (ls : List ℤ) : OpString := ⟨ops, ls, t, .float1⟩

/-- `X 0 Y 1` and `Y 0 X 1 Z 2` have two anticommuting pairs and commute -/
example : (commutatorS (str .pauli [.X, .Y] [0, 1]) (str .pauli [.Y, .X, .Z] [0, 1, 2]) : Py (ℂ × Option OpString)) = .ok (0, none) :=
  (C122_strings (t := .pauli) (S := siteLabels 3) (Or.inl ⟨rfl, ⟨rfl, by decide, rfl, by decide, by unfold siteLabels; decide, by decide⟩⟩)
    (Or.inl ⟨rfl, ⟨rfl, by decide, rfl, by decide, by unfold siteLabels; decide, by decide⟩⟩)).1.mpr (by decide)

/-- `a 0` and `b 1 d 2` have one anticommuting pair and anticommute -/
example : (anticommutatorS (str .majorana [.A] [0]) (str .majorana [.B, .D] [1, 2]) : Py (ℂ × Option OpString)) = .ok (0, none) :=
  (C122_strings (t := .majorana) (S := siteLabels 3) (Or.inr ⟨rfl, ⟨rfl, by decide, rfl, by decide, by unfold siteLabels; decide, by decide⟩⟩)
    (Or.inr ⟨rfl, ⟨rfl, by decide, rfl, by decide, by unfold siteLabels; decide, by decide⟩⟩)).2.mpr (by decide)

/-- `a 0` and `b 0 b 1 b 2` have three anticommuting pairs -/
example : ∃ (c : ℂ) (C : OpString), c ≠ 0 ∧ productS (str .majorana [.A] [0]) ⟨[.B, .B, .B], [0, 1, 2], .majorana, .imag⟩ = .ok (c, some C) ∧
    productS ⟨[.B, .B, .B], [0, 1, 2], .majorana, .imag⟩ (str .majorana [.A] [0]) = .ok (-c, some C) := by
  obtain ⟨c, C, h1, h2, h3⟩ := C122_product (K := ℂ) (t := .majorana) (S := siteLabels 3) (s := str .majorana [.A] [0]) (u := ⟨[.B, .B, .B], [0, 1, 2], .majorana, .imag⟩)
    (Or.inr ⟨rfl, ⟨rfl, by decide, rfl, by decide, by unfold siteLabels; decide, by decide⟩⟩)
    (Or.inr ⟨rfl, ⟨rfl, by decide, rfl, by decide, by unfold siteLabels; decide, by decide⟩⟩)
  refine ⟨c, C, h1, h2, ?_⟩
  rw [h3, show anticommutingPairs .majorana (str .majorana [.A] [0]) ⟨[.B, .B, .B], [0, 1, 2], .majorana, .imag⟩ = 3 by decide]
  norm_num

private def xz : Basis := Basis.ofList [str .pauli [.X] [0], str .pauli [.Z] [0]]

/-- of `X 0` and `Z 0` the search finds for `5 Z 0 Z 1` exactly the multiples of `Z 0` -/
example (eigh : Eigh) (he : ExactEigh eigh) : ∃ δ > 0, ∀ tol, 0 < tol → tol ≤ δ →
    ∃ r, commutingOperators eigh (.strings xz) ⟨[5], Basis.ofList [str .pauli [.Z, .Z] [0, 1]], .pauli⟩ .commutator tol = .ok r ∧ r.dim = 2 ∧
      ∀ v : Fin r.dim → ℂ, v ∈ colSpan r.vecs ↔ ∀ j : Fin r.dim, (j : ℕ) = 0 → v j = 0 := by
  obtain ⟨δ, h1, h2⟩ := C122_search (t := .pauli) (S := siteLabels 2) (Or.inl rfl) (b := xz) (fun s hs => by
      simp only [xz, Basis.ofList, List.mem_cons, List.not_mem_nil, or_false] at hs
      rcases hs with rfl | rfl <;>
        exact ⟨Or.inl ⟨rfl, ⟨rfl, by decide, rfl, by decide, by unfold siteLabels; decide, by decide⟩⟩, by decide, by decide⟩) (by decide)
    (u := str .pauli [.Z, .Z] [0, 1]) (Or.inl ⟨rfl, ⟨rfl, by decide, rfl, by decide, by unfold siteLabels; decide, by decide⟩⟩) (c := 5) (by norm_num) he
    (m := .commutator) (by simp)
  refine ⟨δ, h1, fun tol a b => ?_⟩
  obtain ⟨r, k1, k2, k3⟩ := h2 tol a b
  refine ⟨r, k1, k2, fun v => (k3 v).trans ⟨fun h j hj => h j (str .pauli [.X] [0]) (by rw [hj]; rfl) (by decide), fun h j s hs hf => h j ?_⟩⟩
  have hj : (j : ℕ) < 2 := lt_of_lt_of_eq j.2 k2
  rcases (by omega : (j : ℕ) = 0 ∨ (j : ℕ) = 1) with e | e
  · exact e
  · rw [e] at hs
    obtain rfl : str .pauli [.Z] [0] = s := Option.some.inj hs
    exact absurd hf (by decide)

private def bell : List OpString := [str .pauli [.X, .X] [0, 1], str .pauli [.Y, .Y] [0, 1], str .pauli [.Z, .Z] [0, 1]]

/-- `X 0 X 1`, `Y 0 Y 1` and `Z 0 Z 1` commute -/
example : ∃ (m : ℕ) (r : Basis), (∀ n, m ≤ n → generateLieAlgebra ℂ (Basis.ofList bell) n (1 / 10 ^ 12) = .ok (some r)) ∧ IndexedSet r ∧ ∀ s, s ∈ r.strs ↔ s ∈ bell :=
  C122_lie_algebra (t := .pauli) (S := siteLabels 2) (by norm_num) (by norm_num) (Basis.Inv.ofList (by decide)) (fun s hs => by
      simp only [bell, Basis.ofList, List.mem_cons, List.not_mem_nil, or_false] at hs
      rcases hs with rfl | rfl | rfl <;> exact Or.inl ⟨rfl, ⟨rfl, by decide, rfl, by decide, by unfold siteLabels; decide, by decide⟩⟩) (by
      simp only [Basis.ofList]
      decide)

private noncomputable def ising : Operator ℂ := ⟨[1, 7, 7], Basis.ofList [str .pauli [.Z, .Z] [0, 1], str .pauli [.X] [0], str .pauli [.X] [1]], .pauli⟩
private def flips : Basis := Basis.ofList [str .pauli [.Z] [0], str .pauli [.X, .X] [0, 1]]
private noncomputable def spinFlip : Operator ℂ := ⟨[1], Basis.ofList [str .pauli [.X, .X] [0, 1]], .pauli⟩

/-- the spin flip `X 0 X 1` of the Ising chain `Z 0 Z 1 + 7 X 0 + 7 X 1` is found -/
example (eigh : Eigh) (he : ExactEigh eigh) : ∃ δ > 0, ∀ tol, 0 < tol → tol ≤ δ → ∃ r, commutingOperators eigh (.strings flips) ising .commutator tol = .ok r ∧
    coordinates flips _ spinFlip ∈ colSpan r.vecs := by
  obtain ⟨δ, h1, h2⟩ := C122_found (t := .pauli) (S := siteLabels 2) (Or.inl rfl) (b := flips) (fun s hs => by
      simp only [flips, Basis.ofList, List.mem_cons, List.not_mem_nil, or_false] at hs
      rcases hs with rfl | rfl <;> exact Or.inl ⟨rfl, ⟨rfl, by decide, rfl, by decide, by unfold siteLabels; decide, by decide⟩⟩) (by decide) (O := ising) (fun s hs => by
      simp only [ising, Basis.ofList, List.mem_cons, List.not_mem_nil, or_false] at hs
      rcases hs with rfl | rfl | rfl <;> exact Or.inl ⟨rfl, ⟨rfl, by decide, rfl, by decide, by unfold siteLabels; decide, by decide⟩⟩) he (m := .commutator) (by simp)
  refine ⟨δ, h1, fun tol a b => ?_⟩
  obtain ⟨r, k1, -, k2⟩ := h2 tol a b
  refine ⟨r, k1, k2 spinFlip ⟨Operator.WF.mk' (by simp) rfl (by simp [str]), rfl, ?_⟩ ?_⟩
  · simp only [spinFlip, Basis.ofList]
    decide
  · simp only [spinFlip, ising, Basis.ofList]
    decide

/-- `X 0 X 1` and `Z 0` generate a Lie algebra of three strings -/
example : ∃ (m : ℕ) (r : Basis) (c : ℂ) (C : OpString), (∀ n, m ≤ n → generateLieAlgebra ℂ (Basis.ofList [str .pauli [.X, .X] [0, 1], str .pauli [.Z] [0]]) n (1 / 10 ^ 12) = .ok (some r)) ∧
    productS (str .pauli [.X, .X] [0, 1]) (str .pauli [.Z] [0]) = .ok (c, some C) ∧ ∀ x, x ∈ r.strs ↔ x = str .pauli [.X, .X] [0, 1] ∨ x = str .pauli [.Z] [0] ∨ x = C := by
  obtain ⟨m, r, c, C, h1, -, h2, h3⟩ := C122_lie_pair (K := ℂ) (t := .pauli) (S := siteLabels 2) (tol := 1 / 10 ^ 12) (by norm_num) (by norm_num)
    (s := str .pauli [.X, .X] [0, 1]) (u := str .pauli [.Z] [0])
    ⟨Or.inl ⟨rfl, ⟨rfl, by decide, rfl, by decide, by unfold siteLabels; decide, by decide⟩⟩, by decide, by decide⟩
    ⟨Or.inl ⟨rfl, ⟨rfl, by decide, rfl, by decide, by unfold siteLabels; decide, by decide⟩⟩, by decide, by decide⟩ (by decide) (by decide)
  exact ⟨m, r, c, C, h1, h2, h3⟩

end Qosy
