import Verif.Lemmas.Covariance
import Verif.Props.CommutantAlgebra
import Verif.Props.StringAlgebra

/-! # C121: operators on different orbitals -/

namespace Qosy
open Coef

section
variable {𝔸 : Type} [Ring 𝔸] {site : Op → ℤ → 𝔸} {S : Set ℤ} {ok : Op → Prop} {p : Op → ℕ}

private theorem site_word (h : ∀ c c' i j, ok c → ok c' → i ∈ S → j ∈ S → i ≠ j → site c i * site c' j = (-1) ^ (p c * p c') * (site c' j * site c i))
    {c : Op} {i : ℤ} (hc : ok c) (hi : i ∈ S) : ∀ (ops : List Op) (ls : List ℤ), ops.length = ls.length → (∀ o ∈ ops, ok o) → (∀ l ∈ ls, l ∈ S ∧ i ≠ l) →
      site c i * wordProd site ops ls = (-1) ^ (p c * (ops.map p).sum) * (wordProd site ops ls * site c i)
  | [], [], _, _, _ => by simp [wordProd]
  | o :: ops, l :: ls, hl, ho, hs => by
    have ih := site_word h hc hi ops ls (by simpa using hl) (fun x hx => ho x (List.mem_cons_of_mem _ hx)) (fun x hx => hs x (List.mem_cons_of_mem _ hx))
    have h1 := h c o i l hc (ho o List.mem_cons_self) hi (hs l List.mem_cons_self).1 (hs l List.mem_cons_self).2
    simp only [wordProd, List.map_cons, List.sum_cons, mul_add, pow_add]
    rw [← mul_assoc, h1, mul_assoc, mul_assoc, ih]
    have cm : ∀ (k : ℕ) (x : 𝔸), x * (-1) ^ k = (-1) ^ k * x := fun k x => ((Commute.neg_one_left x).pow_left k).eq.symm
    rw [← mul_assoc (site o l), cm, mul_assoc, mul_assoc, mul_assoc]

private theorem word_word (h : ∀ c c' i j, ok c → ok c' → i ∈ S → j ∈ S → i ≠ j → site c i * site c' j = (-1) ^ (p c * p c') * (site c' j * site c i))
    {ops' : List Op} {ls' : List ℤ} (hl' : ops'.length = ls'.length) (ho' : ∀ o ∈ ops', ok o) (hs' : ∀ l ∈ ls', l ∈ S) :
    ∀ (ops : List Op) (ls : List ℤ), ops.length = ls.length → (∀ o ∈ ops, ok o) → (∀ l ∈ ls, l ∈ S ∧ l ∉ ls') →
      wordProd site ops ls * wordProd site ops' ls' = (-1) ^ ((ops.map p).sum * (ops'.map p).sum) * (wordProd site ops' ls' * wordProd site ops ls)
  | [], [], _, _, _ => by simp [wordProd]
  | o :: ops, l :: ls, hl, ho, hs => by
    have ih := word_word h hl' ho' hs' ops ls (by simpa using hl) (fun x hx => ho x (List.mem_cons_of_mem _ hx)) (fun x hx => hs x (List.mem_cons_of_mem _ hx))
    have h1 := site_word h (ho o List.mem_cons_self) (hs l List.mem_cons_self).1 ops' ls' hl' ho'
      (fun x hx => ⟨hs' x hx, fun e => (hs l List.mem_cons_self).2 (e ▸ hx)⟩)
    have cm : ∀ (k : ℕ) (x : 𝔸), x * (-1) ^ k = (-1) ^ k * x := fun k x => ((Commute.neg_one_left x).pow_left k).eq.symm
    simp only [wordProd, List.map_cons, List.sum_cons, add_mul, pow_add]
    rw [mul_assoc, ih, ← mul_assoc, cm, mul_assoc, ← mul_assoc (site o l), h1]
    simp only [mul_assoc]
    rw [← mul_assoc ((-1) ^ ((ops.map p).sum * (ops'.map p).sum)), ← pow_add, ← mul_assoc ((-1) ^ (p o * (ops'.map p).sum)), ← pow_add, add_comm]
end

section
variable {K : Type} [Field K] [StarRing K] [Coef K] {𝔸 : Type} [Ring 𝔸] [Algebra K 𝔸] {S : Set ℤ}

private theorem pauli_site (R : PauliRep K 𝔸 S) (c c' : Op) (i j : ℤ) (h : c = .X ∨ c = .Y ∨ c = .Z) (h' : c' = .X ∨ c' = .Y ∨ c' = .Z) (hi : i ∈ S) (hj : j ∈ S)
    (hij : i ≠ j) : R.site c i * R.site c' j = (-1) ^ (0 * 0) * (R.site c' j * R.site c i) := by
  rw [Nat.mul_zero, pow_zero, one_mul]
  rcases h with rfl | rfl | rfl <;> rcases h' with rfl | rfl | rfl <;> simp only [PauliRep.site]
  · exact R.xx i hi j hj hij
  · exact R.xy i hi j hj hij
  · exact R.xz i hi j hj hij
  · exact (R.xy j hj i hi hij.symm).symm
  · exact R.yy i hi j hj hij
  · exact R.yz i hi j hj hij
  · exact (R.xz j hj i hi hij.symm).symm
  · exact (R.yz j hj i hi hij.symm).symm
  · exact R.zz i hi j hj hij

private theorem pauli_commute (R : PauliRep K 𝔸 S) {s u : OpString} (hs : PauliString S s) (hu : PauliString S u) (hd : ∀ l ∈ s.labels, l ∉ u.labels) :
    R.den s * R.den u = R.den u * R.den s := by
  have := word_word (site := R.site) (ok := fun c => c = .X ∨ c = .Y ∨ c = .Z) (p := fun _ => 0) (pauli_site R) hu.len hu.ops hu.mem s.ops s.labels hs.len hs.ops
    (fun l hl => ⟨hs.mem l hl, hd l hl⟩)
  simp only [List.map_const', List.sum_replicate, smul_zero, Nat.mul_zero, pow_zero, one_mul] at this
  simp only [PauliRep.den, smul_mul_smul_comm, this, mul_comm]

/-- the parity of a Majorana operator -/
private def oddOp (c : Op) : ℕ := if c = .A ∨ c = .B then 1 else 0

private theorem majorana_site (R : MajoranaRep K 𝔸 S) (c c' : Op) (i j : ℤ) (h : c = .A ∨ c = .B ∨ c = .D) (h' : c' = .A ∨ c' = .B ∨ c' = .D) (hi : i ∈ S) (hj : j ∈ S)
    (hij : i ≠ j) : R.site c i * R.site c' j = (-1) ^ (oddOp c * oddOp c') * (R.site c' j * R.site c i) := by
  have ba : ∀ {i j : ℤ}, i ∈ S → j ∈ S → R.b i * R.a j = -(R.a j * R.b i) := fun hi hj => by rw [R.ab _ hj _ hi, neg_neg]
  have comm : ∀ {x a b : 𝔸}, x * a = -(a * x) → x * b = -(b * x) → x * (a * b) = a * b * x := fun h1 h2 => by
    rw [← mul_assoc, h1, neg_mul, mul_assoc, h2, mul_neg, neg_neg, mul_assoc]
  have dx : ∀ {i j : ℤ} {x : 𝔸}, x * R.a j = -(R.a j * x) → x * R.b j = -(R.b j * x) → x * R.d j = R.d j * x := fun h1 h2 => by
    simp only [MajoranaRep.d, mul_neg, neg_mul, mul_smul_comm, smul_mul_assoc, comm h1 h2]
  have da : R.a i * R.d j = R.d j * R.a i := dx (i := i) (R.aa i hi j hj hij) (R.ab i hi j hj)
  have db : R.b i * R.d j = R.d j * R.b i := dx (i := i) (ba hi hj) (R.bb i hi j hj hij)
  have da' : R.a j * R.d i = R.d i * R.a j := dx (i := j) (R.aa j hj i hi hij.symm) (R.ab j hj i hi)
  have db' : R.b j * R.d i = R.d i * R.b j := dx (i := j) (ba hj hi) (R.bb j hj i hi hij.symm)
  have dd : R.d i * R.d j = R.d j * R.d i := by
    have e : ∀ x : 𝔸, R.a i * x = x * R.a i → R.b i * x = x * R.b i → R.d i * x = x * R.d i := fun x h1 h2 => by
      simp only [MajoranaRep.d, neg_mul, smul_mul_assoc, mul_neg, mul_smul_comm, mul_assoc]
      rw [h2, ← mul_assoc, h1, mul_assoc]
    exact e _ da db
  rcases h with rfl | rfl | rfl <;> rcases h' with rfl | rfl | rfl <;> simp only [MajoranaRep.site, oddOp] <;> norm_num
  · exact R.aa i hi j hj hij
  · exact R.ab i hi j hj
  · exact da
  · exact ba hi hj
  · exact R.bb i hi j hj hij
  · exact db
  · exact da'.symm
  · exact db'.symm
  · exact dd

/-- the number of odd operators `a`, `b` of a Majorana string -/
def OpString.oddCount (s : OpString) : ℕ := (s.ops.filter (fun c => c = .A ∨ c = .B)).length

private theorem oddCount_eq (s : OpString) : (s.ops.map oddOp).sum = s.oddCount := by
  unfold OpString.oddCount
  induction s.ops with
  | nil => rfl
  | cons c l ih =>
    rw [List.map_cons, List.sum_cons, ih, List.filter_cons]
    by_cases h : c = .A ∨ c = .B
    · simp [oddOp, h, Nat.add_comm]
    · simp [oddOp, h]

private theorem majorana_commute (R : MajoranaRep K 𝔸 S) {s u : OpString} (hs : MajoranaString S s) (hu : MajoranaString S u) (hd : ∀ l ∈ s.labels, l ∉ u.labels) :
    R.den s * R.den u = (-1) ^ (s.oddCount * u.oddCount) * (R.den u * R.den s) := by
  have := word_word (site := R.site) (ok := fun c => c = .A ∨ c = .B ∨ c = .D) (p := oddOp) (majorana_site R) hu.len hu.ops hu.mem s.ops s.labels hs.len hs.ops
    (fun l hl => ⟨hs.mem l hl, hd l hl⟩)
  rw [oddCount_eq, oddCount_eq] at this
  rw [MajoranaRep.den, MajoranaRep.den, smul_mul_smul_comm, smul_mul_smul_comm, this, mul_smul_comm, mul_comm (s.pref.val (K := K))]

private theorem majorana_sign (R : MajoranaRep K 𝔸 S) {s u : OpString} (hs : MajoranaString S s) (hu : MajoranaString S u) (hd : ∀ l ∈ s.labels, l ∉ u.labels) :
    (s.oddCount % 2 = 1 ∧ u.oddCount % 2 = 1 → R.den s * R.den u + R.den u * R.den s = 0) ∧
    (¬ (s.oddCount % 2 = 1 ∧ u.oddCount % 2 = 1) → R.den s * R.den u - R.den u * R.den s = 0) := by
  have e := majorana_commute R hs hu hd
  refine ⟨fun hp => ?_, fun hp => ?_⟩
  · have hodd : Odd (s.oddCount * u.oddCount) := (Nat.odd_iff.mpr hp.1).mul (Nat.odd_iff.mpr hp.2)
    rw [e, hodd.neg_one_pow, neg_one_mul, neg_add_cancel]
  · have heven : Even (s.oddCount * u.oddCount) := by
      rw [Nat.even_mul, Nat.even_iff, Nat.even_iff]
      omega
    rw [e, heven.neg_one_pow, one_mul, sub_self]

end

/-- the relation between two strings on different orbitals: Pauli strings commute, Majorana strings anticommute if both are odd and commute otherwise -/
def apartMode (t : OpType) (s u : OpString) : Mode :=
  if t = .majorana ∧ s.oddCount % 2 = 1 ∧ u.oddCount % 2 = 1 then .anticommutator else .commutator

section
variable {K : Type} [Field K] [StarRing K] [Coef K] {t : OpType} {S : Set ℤ}

/-- **C121** (strings): the commutator of two Pauli strings without a common orbital is zero; two Majorana strings without a common orbital have
anticommutator zero if both contain an odd number of operators `a` and `b`, and commutator zero otherwise. -/
theorem C121_strings {s u : OpString} (hs : TypedString t S s) (hu : TypedString t S u) (hd : ∀ l ∈ s.labels, l ∉ u.labels) :
    operationOpString (apartMode t s u) s u = (.ok (0, none) : Py (K × Option OpString)) := by
  rcases hs with ⟨rfl, hs⟩ | ⟨rfl, hs⟩
  · have hu := (hu.resolve_right (by simp)).2
    have hs' := hs.mono (Set.subset_univ S)
    have hu' := hu.mono (Set.subset_univ S)
    have e := pauli_commute (waveRep K) hs' hu' hd
    have h := (C03_pauli_brackets (waveRep K) hs' hu').1
    rw [e, sub_self] at h
    rcases h with ⟨c, C, -, -, -, h⟩ | h
    · exact absurd rfl h
    · rw [apartMode, if_neg fun k => by simp at k]
      exact h.1
  · have hu := (hu.resolve_left (by simp)).2
    have hs' := hs.mono (Set.subset_univ S)
    have hu' := hu.mono (Set.subset_univ S)
    have e := majorana_sign (waveMajorana K) hs' hu' hd
    have h := C03_majorana_brackets (waveMajorana K) hs' hu'
    by_cases hp : s.oddCount % 2 = 1 ∧ u.oddCount % 2 = 1
    · rcases h.2 with ⟨c, C, -, -, -, h⟩ | h
      · exact absurd (e.1 hp) h
      · rw [apartMode, if_pos ⟨rfl, hp⟩]
        exact h.1
    · rcases h.1 with ⟨c, C, -, -, -, h⟩ | h
      · exact absurd (e.2 hp) h
      · rw [apartMode, if_neg fun k => hp k.2]
        exact h.1

end

variable {t : OpType} {S : Set ℤ}

/-- the strings of `A` and `O` have no common orbital and all pairs have the same relation `m` -/
def OnOtherOrbitals (t : OpType) (m : Mode) (A O : Operator ℂ) : Prop :=
  ∀ s ∈ A.basis.strs, ∀ u ∈ O.basis.strs, (∀ l ∈ s.labels, l ∉ u.labels) ∧ apartMode t s u = m

private theorem apart_zero {𝔸 : Type} [Ring 𝔸] [Algebra ℂ 𝔸] (R : StrAlg ℂ 𝔸) (hS : ∀ s, TypedString t S s → R.Str s) {m : Mode} {A O : Operator ℂ}
    (hA : ∀ s ∈ A.basis.strs, TypedString t S s) (hO : ∀ s ∈ O.basis.strs, TypedString t S s) (h : OnOtherOrbitals t m A O) :
    ∀ s ∈ A.basis.strs, ∀ u ∈ O.basis.strs, bracketOf m (R.den s) (R.den u) = 0 := by
  intro s hs u hu
  obtain ⟨hd, rfl⟩ := h s hs u hu
  have e := C121_strings (K := ℂ) (hA s hs) (hO u hu) hd
  rcases R.op_string (apartMode t s u) (hS s (hA s hs)) (hS u (hO u hu)) with k | ⟨c, C, k, -⟩
  · exact k.2
  · rw [e] at k
    simp at k

/-- **C121** (operators): let no string of `A` share an orbital with a string of `O`.  Then their commutator is zero if the strings are Pauli strings or
Majorana strings of which one operator has only even ones, and their anticommutator is zero if all strings of both are odd Majorana strings. -/
theorem C121_operators (ht : t = .pauli ∨ t = .majorana) {m : Mode} {A O : Operator ℂ} (hA : A.On t (TypedString t S)) (hO : O.On t (TypedString t S))
    (h : OnOtherOrbitals t m A O) : ∃ C, operationOperator m A O = .ok C ∧ ∀ s, C.coef s = 0 := by
  obtain ⟨R, hR, hS, -, -, -⟩ := commuting_exact (S := S) ht
  obtain ⟨C, c1, c2, c3, c4, c5⟩ := R.operator m (tol := 1 / 10 ^ 16) (by norm_num) hA.wf hO.wf (fun s hs => hS s (hA.mem s hs))
    (fun s hs => hS s (hO.mem s hs)) (hA.type.trans hR.symm) (hO.type.trans hR.symm)
  have hz := apart_zero R hS hA.mem hO.mem h
  have hden : denT R.den C.terms = denT R.den ([] : List (ℂ × OpString)) := by
    show C.den R.den = _
    rw [c5]
    refine List.sum_eq_zero fun x hx => ?_
    obtain ⟨a, ha, rfl⟩ := List.mem_map.mp hx
    refine List.sum_eq_zero fun y hy => ?_
    obtain ⟨b, hb, rfl⟩ := List.mem_map.mp hy
    rw [StrAlg.kept, hz _ (mem_terms ha) _ (mem_terms hb), smul_zero, ite_self]
  refine ⟨C, c1, fun s => ?_⟩
  have := R.coefT_eq (ts := C.terms) (us := []) (fun t ht => ⟨(c4 _ (mem_terms ht)).1, (c4 _ (mem_terms ht)).2.1, (c4 _ (mem_terms ht)).2.2.2⟩) (by simp) hden s
  simpa [Operator.coef, coefT] using this

/-- **C121** (search): `commuting_operators` finds every operator over the basis that has no orbital in common with `O`, in the mode of their strings,
for all tolerances below a positive bound. -/
theorem C121_search (ht : t = .pauli ∨ t = .majorana) {b : Basis} (hb : ∀ s ∈ b.strs, TypedString t S s) (hn : b.strs.Nodup) {O : Operator ℂ}
    (hO : ∀ s ∈ O.basis.strs, TypedString t S s) {eigh : Eigh} (he : ExactEigh eigh) {m : Mode} :
    ∃ δ > 0, ∀ tol, 0 < tol → tol ≤ δ → ∃ r, commutingOperators eigh (.strings b) O m tol = .ok r ∧ r.dim = b.strs.length ∧
      ∀ A : Operator ℂ, A.On t (· ∈ b.strs) → OnOtherOrbitals t m A O → coordinates b _ A ∈ colSpan r.vecs := by
  obtain ⟨R, hR, hS, -, -, H⟩ := commuting_exact (S := S) ht
  have size : (BasisArg.strings b : BasisArg ℂ).size = b.strs.length := by simp [BasisArg.size, BasisArg.elementTerms]
  obtain ⟨δ, p, q⟩ := H m O hO (.strings b) hb (by simp) eigh he
  refine ⟨δ, p, fun tol h0 h1 => ?_⟩
  obtain ⟨r, a1, a2, -, a4⟩ := q tol h0 h1
  refine ⟨r, a1, a2.trans size, fun A hA hd => ?_⟩
  have hz := apart_zero R hS (fun s hs => hb s (hA.mem s hs)) hO hd
  rw [a4, coordinates_den R.den hn hA.mem (a2.trans size)]
  show bracketOf m (denT R.den A.terms) (denT R.den O.terms) = 0
  rw [bracketOf_den]
  refine List.sum_eq_zero fun x hx => ?_
  obtain ⟨a, ha, rfl⟩ := List.mem_map.mp hx
  refine List.sum_eq_zero fun y hy => ?_
  obtain ⟨c, hc, rfl⟩ := List.mem_map.mp hy
  rw [hz _ (mem_terms ha) _ (mem_terms hc), smul_zero]

/-! ### non-vacuity -/

example : operationOpString .commutator ⟨[.X, .Y], [0, 3], .pauli, .float1⟩ ⟨[.Z], [1], .pauli, .float1⟩ = (.ok (0, none) : Py (ℂ × Option OpString)) :=
  C121_strings (t := .pauli) (S := siteLabels 4) (Or.inl ⟨rfl, ⟨rfl, by decide, rfl, by decide, by unfold siteLabels; decide, by decide⟩⟩)
    (Or.inl ⟨rfl, ⟨rfl, by decide, rfl, by decide, by unfold siteLabels; decide, by decide⟩⟩) (by decide)

private def odd0 : OpString := ⟨[.A], [0], .majorana, .float1⟩
private def odd1 : OpString := ⟨[.B], [1], .majorana, .float1⟩
private noncomputable def odd0Op : Operator ℂ := ⟨[2], Basis.ofList [odd0], .majorana⟩
private noncomputable def odd1Op : Operator ℂ := ⟨[3], Basis.ofList [odd1], .majorana⟩

private theorem odd_typed : TypedString .majorana (siteLabels 2) odd0 ∧ TypedString .majorana (siteLabels 2) odd1 :=
  ⟨Or.inr ⟨rfl, ⟨rfl, by decide, rfl, by decide, by unfold siteLabels; decide, by decide⟩⟩,
    Or.inr ⟨rfl, ⟨rfl, by decide, rfl, by decide, by unfold siteLabels; decide, by decide⟩⟩⟩

example : ∃ C, operationOperator .anticommutator odd0Op odd1Op = .ok C ∧ ∀ s, C.coef s = 0 := by
  refine C121_operators (t := .majorana) (S := siteLabels 2) (Or.inr rfl) ⟨Operator.WF.mk' (by simp) rfl (by simp [odd0]), rfl, fun s hs => ?_⟩
    ⟨Operator.WF.mk' (by simp) rfl (by simp [odd1]), rfl, fun s hs => ?_⟩ (fun s hs u hu => ?_)
  · simp only [odd0Op, Basis.ofList, List.mem_cons, List.not_mem_nil, or_false] at hs
    exact hs ▸ odd_typed.1
  · simp only [odd1Op, Basis.ofList, List.mem_cons, List.not_mem_nil, or_false] at hs
    exact hs ▸ odd_typed.2
  · simp only [odd0Op, odd1Op, Basis.ofList, List.mem_cons, List.not_mem_nil, or_false] at hs hu
    subst hs hu
    decide

private noncomputable def zz12 : Operator ℂ := ⟨[1], Basis.ofList [⟨[.Z, .Z], [1, 2], .pauli, .float1⟩], .pauli⟩
private def paulis0 : Basis := Basis.ofList [⟨[.X], [0], .pauli, .float1⟩, ⟨[.X], [1], .pauli, .float1⟩]
private noncomputable def x0Op : Operator ℂ := ⟨[5], Basis.ofList [⟨[.X], [0], .pauli, .float1⟩], .pauli⟩

/-- `5 X 0` has no orbital in common with `Z 1 Z 2` and is found in the basis of `X 0` and `X 1` -/
example (eigh : Eigh) (he : ExactEigh eigh) : ∃ δ > 0, ∀ tol, 0 < tol → tol ≤ δ → ∃ r, commutingOperators eigh (.strings paulis0) zz12 .commutator tol = .ok r ∧
    coordinates paulis0 _ x0Op ∈ colSpan r.vecs := by
  obtain ⟨δ, h1, h2⟩ := C121_search (t := .pauli) (S := siteLabels 3) (Or.inl rfl) (b := paulis0) (fun s hs => by
      simp only [paulis0, Basis.ofList, List.mem_cons, List.not_mem_nil, or_false] at hs
      rcases hs with rfl | rfl <;> exact Or.inl ⟨rfl, ⟨rfl, by decide, rfl, by decide, by unfold siteLabels; decide, by decide⟩⟩) (by decide) (O := zz12) (fun s hs => by
      simp only [zz12, Basis.ofList, List.mem_cons, List.not_mem_nil, or_false] at hs
      subst hs
      exact Or.inl ⟨rfl, ⟨rfl, by decide, rfl, by decide, by unfold siteLabels; decide, by decide⟩⟩) he (m := .commutator)
  refine ⟨δ, h1, fun tol a b => ?_⟩
  obtain ⟨r, k1, -, k2⟩ := h2 tol a b
  refine ⟨r, k1, k2 x0Op ⟨Operator.WF.mk' (by simp) rfl (by simp), rfl, fun s hs => ?_⟩ (fun s hs u hu => ?_)⟩
  · simp only [x0Op, Basis.ofList, List.mem_cons, List.not_mem_nil, or_false] at hs
    subst hs
    decide
  · simp only [x0Op, zz12, Basis.ofList, List.mem_cons, List.not_mem_nil, or_false] at hs hu
    subst hs hu
    decide

end Qosy
