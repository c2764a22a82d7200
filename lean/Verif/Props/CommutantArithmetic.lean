import Verif.Props.CommutantAlgebra
import Verif.Props.Operator

/-! # C120: what commutes with two operators commutes with all that is built from them -/

namespace Qosy
open Coef
variable {t : OpType} {S : Set ℤ}

private theorem bracket_iff {𝔸 : Type} [Ring 𝔸] {m : Mode} (hm : m ≠ .product) (x o : 𝔸) :
    bracketOf m x o = 0 ↔ x * o = (if m = .commutator then 1 else -1 : ℤ) • (o * x) := by
  cases m with
  | commutator => simp [bracketOf, sub_eq_zero]
  | anticommutator => simp [bracketOf, add_eq_zero_iff_eq_neg]
  | product => exact absurd rfl hm

private theorem sign_mode {m₁ m₂ : Mode} (h₁ : m₁ ≠ .product) (h₂ : m₂ ≠ .product) :
    (if signMode m₁ m₂ = .commutator then 1 else -1 : ℤ) = (if m₁ = .commutator then 1 else -1) * (if m₂ = .commutator then 1 else -1) := by
  cases m₁ <;> cases m₂ <;> first | rfl | exact absurd rfl h₁ | exact absurd rfl h₂

private theorem product_sign {𝔸 : Type} [Ring 𝔸] {x o p : 𝔸} {a b : ℤ} (h : x * o = a • (o * x)) (h' : x * p = b • (p * x)) :
    x * (o * p) = (a * b) • (o * p * x) := by
  rw [← mul_assoc, h, smul_mul_assoc, mul_assoc, h', mul_smul_comm, smul_smul, mul_assoc]

/-- **C120** (sums): let three searches with `commuting_operators` on the same Basis or list of Operators be for `O₁`, `O₂` and `O₁ + O₂`, in the same mode.
An operator that two of them find is found by the third one too, for all tolerances below a positive bound. -/
theorem C120_sum (ht : t = .pauli ∨ t = .majorana) {mode : Mode} {x : BasisArg ℂ} (hx : x.All (TypedString t S)) (hne : x ≠ .operators [])
    {O₁ O₂ : Operator ℂ} (h₁ : O₁.On t (TypedString t S)) (h₂ : O₂.On t (TypedString t S)) {eigh : Eigh} (he : ExactEigh eigh) :
    ∃ O, O₁.add O₂ = .ok O ∧ ∃ δ > 0, ∀ tol, 0 < tol → tol ≤ δ → ∃ (n : ℕ) (V₁ V₂ V : List (Fin n → ℂ)) (C₁ C₂ C : _) (e₁ e₂ e : _) (w₁ w₂ w : _),
      n = x.size ∧ commutingOperators eigh x O₁ mode tol = .ok ⟨n, V₁, C₁, e₁, w₁⟩ ∧ commutingOperators eigh x O₂ mode tol = .ok ⟨n, V₂, C₂, e₂, w₂⟩ ∧
      commutingOperators eigh x O mode tol = .ok ⟨n, V, C, e, w⟩ ∧
      ∀ v : Fin n → ℂ, (v ∈ colSpan V₁ → v ∈ colSpan V₂ → v ∈ colSpan V) ∧ (v ∈ colSpan V₁ → v ∈ colSpan V → v ∈ colSpan V₂) ∧
        (v ∈ colSpan V₂ → v ∈ colSpan V → v ∈ colSpan V₁) := by
  obtain ⟨R, hR, hS, -, -, H⟩ := commuting_exact (S := S) ht
  obtain ⟨O, o1, -, -, -, o2, o3⟩ := C07_add h₁.wf h₂.wf (h₁.type.trans h₂.type.symm)
  have hden : O.den R.den = O₁.den R.den + O₂.den R.den := denT_add _ o3
  have hO : ∀ s ∈ O.basis.strs, TypedString t S s := by
    rw [o2]
    intro s hs
    rcases List.mem_append.mp hs with h | h
    · exact h₁.mem s h
    · exact h₂.mem s (List.mem_of_mem_filter h)
  obtain ⟨δ₁, p1, q1⟩ := H mode O₁ h₁.mem x hx hne eigh he
  obtain ⟨δ₂, p2, q2⟩ := H mode O₂ h₂.mem x hx hne eigh he
  obtain ⟨δ, p3, q3⟩ := H mode O hO x hx hne eigh he
  refine ⟨O, o1, min δ (min δ₁ δ₂), lt_min p3 (lt_min p1 p2), fun tol h0 h1 => ?_⟩
  obtain ⟨⟨n₁, V₁, C₁, e₁, w₁⟩, a1, a2, -, a4⟩ := q1 tol h0 (h1.trans ((min_le_right _ _).trans (min_le_left _ _)))
  obtain ⟨⟨n₂, V₂, C₂, e₂, w₂⟩, b1, b2, -, b4⟩ := q2 tol h0 (h1.trans ((min_le_right _ _).trans (min_le_right _ _)))
  obtain ⟨⟨n, V, C, e, w⟩, c1, c2, -, c4⟩ := q3 tol h0 (h1.trans (min_le_left _ _))
  simp only at a2 b2 c2
  obtain rfl := a2.trans c2.symm
  obtain rfl := b2.trans a2.symm
  refine ⟨n₂, V₁, V₂, V, C₁, C₂, C, e₁, e₂, e, w₁, w₂, w, a2, a1, b1, c1, fun v => ?_⟩
  rw [a4 v, b4 v, c4 v, hden, bracketOf_add_right]
  refine ⟨fun r s => by rw [r, s, add_zero], fun r s => by rwa [r, zero_add] at s, fun r s => by rwa [r, add_zero] at s⟩

/-- **C120** (multiples): for `c ≠ 0` the same operators are found for `c * O` as for `O`. -/
theorem C120_scale (ht : t = .pauli ∨ t = .majorana) {mode : Mode} {x : BasisArg ℂ} (hx : x.All (TypedString t S)) (hne : x ≠ .operators [])
    {O : Operator ℂ} (hO : O.On t (TypedString t S)) {c : ℂ} (hc : c ≠ 0) {eigh : Eigh} (he : ExactEigh eigh) :
    ∃ P, O.smul c = .ok P ∧ ∃ δ > 0, ∀ tol, 0 < tol → tol ≤ δ → ∃ (n : ℕ) (V W : List (Fin n → ℂ)) (C D : _) (e f : _) (w u : _),
      n = x.size ∧ commutingOperators eigh x O mode tol = .ok ⟨n, V, C, e, w⟩ ∧ commutingOperators eigh x P mode tol = .ok ⟨n, W, D, f, u⟩ ∧
      colSpan V = colSpan W ∧ V.length = W.length := by
  obtain ⟨R, hR, hS, -, -, H⟩ := commuting_exact (S := S) ht
  obtain ⟨P, o1, -, -, o2, o3⟩ := C07_smul hO.wf c
  have hden : P.den R.den = c • O.den R.den := denT_smul _ c o3
  obtain ⟨δ₁, p1, q1⟩ := H mode O hO.mem x hx hne eigh he
  obtain ⟨δ₂, p2, q2⟩ := H mode P (by rw [o2]; exact hO.mem) x hx hne eigh he
  refine ⟨P, o1, min δ₁ δ₂, lt_min p1 p2, fun tol h0 h1 => ?_⟩
  obtain ⟨⟨n₁, V₁, C₁, e₁, w₁⟩, a1, a2, a3, a4⟩ := q1 tol h0 (h1.trans (min_le_left _ _))
  obtain ⟨⟨n₂, V₂, C₂, e₂, w₂⟩, b1, b2, b3, b4⟩ := q2 tol h0 (h1.trans (min_le_right _ _))
  simp only at a2 b2
  obtain rfl := b2.trans a2.symm
  have e : colSpan V₁ = colSpan V₂ := by
    ext v
    rw [a4 v, b4 v, hden, bracketOf_smul_right, smul_eq_zero, or_iff_right hc]
  refine ⟨n₂, V₁, V₂, C₁, C₂, e₁, e₂, w₁, w₂, a2, a1, b1, e, ?_⟩
  have k1 := (orthonormal_independent a3).finrank
  have k2 := (orthonormal_independent b3).finrank
  rw [← k1, ← k2]
  simp only
  rw [e]

/-- **C120** (products and brackets): let an operator be found for `O₁` in the mode `m₁` and for `O₂` in the mode `m₂`.  Then it is found for their product,
commutator and anticommutator in the mode `commutator` if `m₁ = m₂` and in the mode `anticommutator` otherwise, if nothing is below the tolerance of the
product, for all tolerances of `commuting_operators` below a positive bound. -/
theorem C120_product (ht : t = .pauli ∨ t = .majorana) {m₁ m₂ : Mode} (hm₁ : m₁ ≠ .product) (hm₂ : m₂ ≠ .product) {x : BasisArg ℂ}
    (hx : x.All (TypedString t S)) (hne : x ≠ .operators []) {O₁ O₂ : Operator ℂ} (h₁ : O₁.On t (TypedString t S)) (h₂ : O₂.On t (TypedString t S))
    {op : Mode} (hcut : NothingCut op O₁ O₂) {eigh : Eigh} (he : ExactEigh eigh) :
    ∃ O, operationOperator op O₁ O₂ = .ok O ∧ ∃ δ > 0, ∀ tol, 0 < tol → tol ≤ δ → ∃ (n : ℕ) (V₁ V₂ V : List (Fin n → ℂ)) (C₁ C₂ C : _) (e₁ e₂ e : _) (w₁ w₂ w : _),
      n = x.size ∧ commutingOperators eigh x O₁ m₁ tol = .ok ⟨n, V₁, C₁, e₁, w₁⟩ ∧ commutingOperators eigh x O₂ m₂ tol = .ok ⟨n, V₂, C₂, e₂, w₂⟩ ∧
      commutingOperators eigh x O (signMode m₁ m₂) tol = .ok ⟨n, V, C, e, w⟩ ∧ ∀ v : Fin n → ℂ, v ∈ colSpan V₁ → v ∈ colSpan V₂ → v ∈ colSpan V := by
  obtain ⟨R, hR, hS, -, hU, H⟩ := commuting_exact (S := Set.univ) ht
  have mono : ∀ s, TypedString t S s → TypedString t Set.univ s := fun s h =>
    h.imp (fun h => ⟨h.1, h.2.mono (Set.subset_univ S)⟩) (fun h => ⟨h.1, h.2.mono (Set.subset_univ S)⟩)
  obtain ⟨O, o1, -, -, o4, o5⟩ := R.operator op (tol := 1 / 10 ^ 16) (by norm_num) h₁.wf h₂.wf (fun s hs => hS s (mono s (h₁.mem s hs)))
    (fun s hs => hS s (mono s (h₂.mem s hs))) (h₁.type.trans hR.symm) (h₂.type.trans hR.symm)
  have hden : O.den R.den = bracketOf op (O₁.den R.den) (O₂.den R.den) := by
    rw [o5]
    exact R.kept_exact op fun ta hta tb htb => by simpa using hcut ta hta tb htb
  obtain ⟨δ₁, p1, q1⟩ := H m₁ O₁ (fun s hs => mono s (h₁.mem s hs)) x (hx.mono mono) hne eigh he
  obtain ⟨δ₂, p2, q2⟩ := H m₂ O₂ (fun s hs => mono s (h₂.mem s hs)) x (hx.mono mono) hne eigh he
  obtain ⟨δ, p3, q3⟩ := H (signMode m₁ m₂) O (fun s hs => hU s (o4 s hs).1) x (hx.mono mono) hne eigh he
  refine ⟨O, o1, min δ (min δ₁ δ₂), lt_min p3 (lt_min p1 p2), fun tol h0 h1 => ?_⟩
  obtain ⟨⟨n₁, V₁, C₁, e₁, w₁⟩, a1, a2, -, a4⟩ := q1 tol h0 (h1.trans ((min_le_right _ _).trans (min_le_left _ _)))
  obtain ⟨⟨n₂, V₂, C₂, e₂, w₂⟩, b1, b2, -, b4⟩ := q2 tol h0 (h1.trans ((min_le_right _ _).trans (min_le_right _ _)))
  obtain ⟨⟨n, V, C, e, w⟩, c1, c2, -, c4⟩ := q3 tol h0 (h1.trans (min_le_left _ _))
  simp only at a2 b2 c2
  obtain rfl := a2.trans c2.symm
  obtain rfl := b2.trans a2.symm
  refine ⟨n₂, V₁, V₂, V, C₁, C₂, C, e₁, e₂, e, w₁, w₂, w, a2, a1, b1, c1, fun v f₁ f₂ => ?_⟩
  have hm : signMode m₁ m₂ ≠ .product := by unfold signMode; split <;> simp
  rw [a4 v, bracket_iff hm₁] at f₁
  rw [b4 v, bracket_iff hm₂] at f₂
  rw [c4 v, hden, bracket_iff hm, sign_mode hm₁ hm₂]
  have k1 := product_sign f₁ f₂
  have k2 := product_sign f₂ f₁
  rw [mul_comm (if m₂ = Mode.commutator then (1 : ℤ) else -1)] at k2
  cases op with
  | product => exact k1
  | commutator => simp only [bracketOf, mul_sub, sub_mul, smul_sub, k1, k2]
  | anticommutator => simp only [bracketOf, mul_add, add_mul, smul_add, k1, k2]

/-! ### non-vacuity: the operators `X 0 X 1` and `Z 0 Z 1` and the strings `X 0 X 1`, `Y 0 Y 1`, `Z 0 Z 1` -/

private def bond (c : Op) : OpString := ⟨[c, c], [0, 1], .pauli, .float1⟩
private def bonds : Basis := Basis.ofList [bond .X, bond .Y, bond .Z]
private noncomputable def bondOp (c : Op) : Operator ℂ := ⟨[1], Basis.ofList [bond c], .pauli⟩

private theorem bond_typed {c : Op} (h : c = .X ∨ c = .Y ∨ c = .Z) : TypedString .pauli (siteLabels 2) (bond c) := by
  rcases h with rfl | rfl | rfl <;> exact Or.inl ⟨rfl, ⟨rfl, by decide, rfl, by decide, by unfold siteLabels; decide, by decide⟩⟩

private theorem bondOp_on {c : Op} (h : c = .X ∨ c = .Y ∨ c = .Z) : (bondOp c).On .pauli (TypedString .pauli (siteLabels 2)) := by
  refine ⟨Operator.WF.mk' (by simp) rfl (by simp [bond]), rfl, fun s hs => ?_⟩
  simp only [bondOp, Basis.ofList, List.mem_cons, List.not_mem_nil, or_false] at hs
  exact hs ▸ bond_typed h

private theorem bonds_all : (BasisArg.strings bonds : BasisArg ℂ).All (TypedString .pauli (siteLabels 2)) := by
  intro s hs
  simp only [bonds, Basis.ofList, List.mem_cons, List.not_mem_nil, or_false] at hs
  rcases hs with rfl | rfl | rfl <;> exact bond_typed (by simp)

example (eigh : Eigh) (he : ExactEigh eigh) : ∃ O, (bondOp .X).add (bondOp .Z) = .ok O ∧ ∃ δ > 0, ∀ tol, 0 < tol → tol ≤ δ →
    ∃ r, commutingOperators eigh (.strings bonds) O .commutator tol = .ok r ∧ r.dim = 3 := by
  obtain ⟨O, h1, δ, h2, h3⟩ := C120_sum (Or.inl rfl) (mode := .commutator) bonds_all (by simp) (bondOp_on (Or.inl rfl)) (bondOp_on (Or.inr (Or.inr rfl))) he
  refine ⟨O, h1, δ, h2, fun tol a b => ?_⟩
  obtain ⟨n, V₁, V₂, V, C₁, C₂, C, e₁, e₂, e, w₁, w₂, w, k1, -, -, k2, -⟩ := h3 tol a b
  exact ⟨_, k2, k1⟩

private theorem bond_uncut : NothingCut .product (bondOp .X) (bondOp .Z) := by
  intro a ha b hb
  simp only [bondOp, Operator.terms, Basis.ofList, List.zip_cons_cons, List.zip_nil_right, List.mem_cons, List.not_mem_nil, or_false] at ha hb
  subst ha hb
  right
  simp only [mul_one, bracketFactor, map_one]
  norm_num

example (eigh : Eigh) (he : ExactEigh eigh) : ∃ O, operationOperator .product (bondOp .X) (bondOp .Z) = .ok O ∧ ∃ δ > 0, ∀ tol, 0 < tol → tol ≤ δ →
    ∃ r, commutingOperators eigh (.strings bonds) O .commutator tol = .ok r ∧ r.dim = 3 := by
  obtain ⟨O, h1, δ, h2, h3⟩ := C120_product (Or.inl rfl) (m₁ := .commutator) (m₂ := .commutator) (by simp) (by simp) bonds_all (by simp) (bondOp_on (Or.inl rfl))
    (bondOp_on (Or.inr (Or.inr rfl))) bond_uncut he
  refine ⟨O, h1, δ, h2, fun tol a b => ?_⟩
  obtain ⟨n, V₁, V₂, V, C₁, C₂, C, e₁, e₂, e, w₁, w₂, w, k1, -, -, k2, -⟩ := h3 tol a b
  exact ⟨_, k2, k1⟩

end Qosy
