import Verif.Lemmas.Description
import Verif.Lemmas.GeneratorOne
import Verif.Spec.ConversionProduct
import Verif.Props.Conversion
import Verif.Props.Energies
import Verif.Props.LieAlgebra
import Verif.Props.LieOperators

/-! # C114: the results belong to the operators, whether they are described by Pauli or by Majorana strings -/

namespace Qosy
open Matrix
variable {n : ℕ} {t t' : OpType}

/-! ### the two algebras of strings -/

private theorem site_sub : siteLabels n ⊆ jwLabels (siteLabels n) := fun _ h => siteLabels_jw h

private theorem site_alg (n : ℕ) (ht : t = .pauli ∨ t = .majorana) : ∃ R : StrAlg ℂ (Matrix (Cfg n) (Cfg n) ℂ), (∀ s, R.Str s ↔ TypedString t (siteLabels n) s) ∧
    ∀ s, R.Str s → R.den s = (matRep ℂ n).anyDen s ∧ star (R.den s) = R.den s := by
  rcases ht with rfl | rfl
  · refine ⟨(matRep ℂ n).strAlg, fun s => by simp [TypedString, PauliRep.strAlg], fun s hs => ⟨?_, star_den_matRep hs⟩⟩
    rw [PauliRep.anyDen, PauliString.type hs]; rfl
  · refine ⟨(siteMajoranas n).strAlg, fun s => by simp [TypedString, MajoranaRep.strAlg], fun s hs => ⟨?_, MajoranaRep.star_den _ siteMajoranas_star hs⟩⟩
    rw [PauliRep.anyDen, MajoranaString.type hs]; rfl

private theorem valid_of_typed {S : Set ℤ} {s : OpString} (h : TypedString t S s) : ValidString S s ∧ s.opType = t := by
  rcases h with ⟨rfl, h⟩ | ⟨rfl, h⟩
  · exact ⟨Or.inl h, h.type⟩
  · exact ⟨Or.inr (Or.inl h), h.type⟩

private theorem typed_of_valid {S : Set ℤ} {s : OpString} (ht : t = .pauli ∨ t = .majorana) (h : ValidString S s) (e : s.opType = t) : TypedString t S s := by
  rcases h with h | h | h
  · exact Or.inl ⟨e.symm.trans h.type, h⟩
  · exact Or.inr ⟨e.symm.trans h.type, h⟩
  · rw [h.type] at e; subst e; simp at ht

private theorem widen_typed {s : OpString} (h : TypedString t (siteLabels n) s) : ValidString (jwLabels (siteLabels n)) s := by
  rcases h with ⟨-, h⟩ | ⟨-, h⟩
  · exact Or.inl (h.mono site_sub)
  · exact Or.inr (Or.inl (h.mono site_sub))

/-! ### `include_identity` does not matter -/

private theorem convertString_incl (ht' : t' = .pauli ∨ t' = .majorana) {s : OpString} (h : s.opType = .pauli ∨ s.opType = .majorana) (incl : Bool) :
    (convertString s t' incl : Py (Operator ℂ)) = convertString s t' true := by
  unfold convertString
  rcases ht' with rfl | rfl <;> rcases h with h | h <;> simp [h]

private theorem foldlM_congr {α β : Type} {f g : β → α → Py β} {l : List α} (h : ∀ b, ∀ a ∈ l, f b a = g b a) (b : β) : l.foldlM f b = l.foldlM g b := by
  induction l generalizing b with
  | nil => rfl
  | cons a l ih =>
    rw [List.foldlM_cons, List.foldlM_cons, h b a (List.mem_cons_self ..)]
    congr 1
    funext b'
    exact ih (fun b a ha => h b a (List.mem_cons_of_mem _ ha)) b'

private theorem convertOperator_incl (ht' : t' = .pauli ∨ t' = .majorana) {A : Operator ℂ} (h : ∀ s ∈ A.basis.strs, s.opType = .pauli ∨ s.opType = .majorana) (incl : Bool) :
    convertOperator A t' incl = convertOperator A t' true := by
  unfold convertOperator
  congr 1
  funext z
  refine foldlM_congr (fun b i _ => ?_) z
  cases pyGet A.coeffs i with
  | error e => rfl
  | ok c =>
    show (pyGet A.basis.strs i).bind _ = (pyGet A.basis.strs i).bind _
    cases hs : pyGet A.basis.strs i with
    | error e => rfl
    | ok s =>
      show (convertString s t' incl).bind _ = (convertString s t' true).bind _
      rw [convertString_incl ht' (h s ?_) incl]
      unfold pyGet at hs
      split at hs
      · rename_i y hy
        cases hs
        exact List.mem_of_getElem? hy
      · cases hs

/-! ### conversion -/

private theorem convert_operator (ht : t = .pauli ∨ t = .majorana) (ht' : t' = .pauli ∨ t' = .majorana) (incl : Bool) {A : Operator ℂ}
    (hA : A.On t (TypedString t (siteLabels n))) :
    ∃ A', convertOperator A t' incl = .ok A' ∧ A'.On t' (TypedString t' (siteLabels n)) ∧ A.den (matRep ℂ n).anyDen = A'.den (matRep ℂ n).anyDen := by
  have hty : ∀ s ∈ A.basis.strs, s.opType = .pauli ∨ s.opType = .majorana := fun s hs => by rw [(valid_of_typed (hA.mem s hs)).2]; exact ht
  obtain ⟨A', k, h1, h2, h3, h4, h5, h6⟩ := C32_operator (K := ℂ) hA.wf (fun s hs => widen_typed (hA.mem s hs)) (tgt := t') (by tauto) true
    (fun s hs e => by rcases hty s hs with h | h <;> rw [h] at e <;> cases e)
  refine ⟨A', by rw [convertOperator_incl ht' hty, h1], ⟨h3, h2, fun s hs => typed_of_valid ht' (h4 s hs) (by rw [h3.type s hs, h2])⟩, ?_⟩
  rw [h6 (matRep ℂ n) (matRep_star ℂ n), h5 rfl, zero_smul, add_zero]

private theorem convert_string (ht : t = .pauli ∨ t = .majorana) (ht' : t' = .pauli ∨ t' = .majorana) (incl : Bool) {s : OpString}
    (hs : TypedString t (siteLabels n) s) :
    ∃ A' : Operator ℂ, convertString s t' incl = .ok A' ∧ A'.On t' (TypedString t' (siteLabels n)) ∧ (matRep ℂ n).anyDen s = A'.den (matRep ℂ n).anyDen := by
  have hty : s.opType = .pauli ∨ s.opType = .majorana := by rw [(valid_of_typed hs).2]; exact ht
  obtain ⟨A', k, h1, h2, h3, h4, h5, h6⟩ := C32_string (K := ℂ) (widen_typed hs) (tgt := t') (by tauto) true
    (fun e => by rcases hty with h | h <;> rw [h] at e <;> cases e)
  refine ⟨A', by rw [convertString_incl ht' hty, h1], ⟨h3, h2, fun s hs => typed_of_valid ht' (h4 s hs) (by rw [h3.type s hs, h2])⟩, ?_⟩
  rw [h6 (matRep ℂ n) (matRep_star ℂ n), h5 rfl, zero_smul, add_zero]

private theorem convert_list {α : Type} {f : α → Py (Operator ℂ)} {d : α → Matrix (Cfg n) (Cfg n) ℂ} {l : List α}
    (h : ∀ a ∈ l, ∃ A', f a = .ok A' ∧ A'.On t' (TypedString t' (siteLabels n)) ∧ d a = A'.den (matRep ℂ n).anyDen) :
    ∃ l', List.Forall₂ (fun a A' => f a = .ok A') l l' ∧ (∀ A' ∈ l', A'.On t' (TypedString t' (siteLabels n))) ∧
      l.map d = l'.map fun A' => A'.den (matRep ℂ n).anyDen := by
  induction l with
  | nil => exact ⟨[], .nil, by simp, rfl⟩
  | cons a l ih =>
    obtain ⟨A', h1, h2, h3⟩ := h a (List.mem_cons_self ..)
    obtain ⟨l', k1, k2, k3⟩ := ih fun b hb => h b (List.mem_cons_of_mem _ hb)
    refine ⟨A' :: l', .cons h1 k1, ?_, by rw [List.map_cons, List.map_cons, h3, k3]⟩
    rintro B (_ | ⟨_, hB⟩)
    · exact h2
    · exact k2 B hB

private theorem convert_basis (ht : t = .pauli ∨ t = .majorana) (ht' : t' = .pauli ∨ t' = .majorana) (incl : Bool) {x : BasisArg ℂ}
    (hx : x.On t (TypedString t (siteLabels n))) :
    ∃ l', x.ConvertedTo t' incl (.operators l') ∧ (∀ A' ∈ l', A'.On t' (TypedString t' (siteLabels n))) ∧
      x.den (matRep ℂ n).anyDen = l'.map fun A' => A'.den (matRep ℂ n).anyDen := by
  cases x with
  | strings b => exact convert_list fun s hs => convert_string ht ht' incl (hx.2 s hs)
  | operators l => exact convert_list fun A hA => convert_operator ht ht' incl (hx A hA)

/-- **C114** (commuting operators): converting the elements of a Basis or of a list of Operators and the Operator between Pauli and Majorana strings changes
neither `commutant_matrix` nor, whatever the eigensolver and the tolerance, the result of `commuting_operators`. -/
theorem C114_commuting_operators (ht : t = .pauli ∨ t = .majorana) (ht' : t' = .pauli ∨ t' = .majorana) (mode : Mode) (incl : Bool) {x : BasisArg ℂ}
    (hx : x.On t (TypedString t (siteLabels n))) (hne : x.size ≠ 0) {O : Operator ℂ} (hO : O.On t (TypedString t (siteLabels n))) :
    ∃ x' O' C C' ext ext', x.ConvertedTo t' incl x' ∧ convertOperator O t' incl = .ok O' ∧ commutantMatrix x O mode = .ok (C, ext) ∧
      commutantMatrix x' O' mode = .ok (C', ext') ∧ SameEntries C C' ∧
      (∀ (eigh : Eigh) (tol : ℝ), ∃ r, commutingOperators eigh x O mode tol = .ok r ∧ commutingOperators eigh x' O' mode tol = .ok r) ∧
      ∀ (eigsh : Eigsh) (k : ℕ) (tol : ℝ), commutingOperatorsVecs eigsh x O k mode tol = commutingOperatorsVecs eigsh x' O' k mode tol := by
  obtain ⟨R, R1, R2⟩ := site_alg n ht
  obtain ⟨R', R1', R2'⟩ := site_alg n ht'
  obtain ⟨l', h1, h2, h3⟩ := convert_basis ht ht' incl hx
  obtain ⟨O', o1, o2, o3⟩ := convert_operator ht ht' incl hO
  have hxR : x.All R.Str := hx.all fun s hs => (R1 s).mpr hs
  have hxR' : (BasisArg.operators l').All R'.Str := fun A hA s hs => (R1' s).mpr ((h2 A hA).mem s hs)
  have e : x.den R.den = (BasisArg.operators l').den R'.den := by
    have e1 : x.den R.den = x.den (matRep ℂ n).anyDen := by
      cases x with
      | strings b => exact List.map_congr_left fun s hs => (R2 s (hxR s hs)).1
      | operators l => exact List.map_congr_left fun A hA => Operator.den_congr fun s hs => (R2 s (hxR A hA s hs)).1
    rw [e1, h3]
    exact List.map_congr_left fun A hA => Operator.den_congr fun s hs => ((R2' s (hxR' A hA s hs)).1).symm
  have eO : O.den R.den = O'.den R'.den := by
    rw [Operator.den_congr fun s hs => (R2 s ((R1 s).mpr (hO.mem s hs))).1, o3]
    exact Operator.den_congr fun s hs => ((R2' s ((R1' s).mpr (o2.mem s hs))).1).symm
  have hsize : x.size = (x.den R.den).length := by cases x <;> simp [BasisArg.size, BasisArg.elementTerms, BasisArg.den]
  have hn1 : x ≠ .operators [] := by rintro rfl; exact hne rfl
  have hn2 : (BasisArg.operators l' : BasisArg ℂ) ≠ .operators [] := by
    rintro h
    cases h
    rw [e] at hsize
    exact hne hsize
  obtain ⟨L, L', C, C', ext, ext', -, -, c1, c2, c3, c4⟩ := StrAlg.commutant_same (fun s hs => (R2 s hs).2) (fun s hs => (R2' s hs).2) mode hxR hxR' hn1 hn2
    (fun s hs => (R1 s).mpr (hO.mem s hs)) (fun s hs => (R1' s).mpr (o2.mem s hs)) e eO
  have hsq : C.nrows = C.ncols := by
    obtain ⟨_, C₁, ext₁, -, k2, -, k4, k5, -⟩ := R.commutant_ok mode hxR hn1 (fun s hs => (R1 s).mpr (hO.mem s hs))
    rw [c1] at k2
    cases k2
    rw [k4, k5]
  have hS := c3.square hsq
  refine ⟨_, O', C, C', ext, ext', h1, o1, c1, c2, c3, fun eigh tol => ⟨_, commutingOperators_of c1 rfl eigh tol, ?_⟩, fun eigsh k tol => ?_⟩
  · rw [commutingOperators_of c2 c3.2.1.symm eigh tol, hS]
  · rw [commutingOperatorsVecs_of c1 rfl eigsh k tol, commutingOperatorsVecs_of c2 c3.2.1.symm eigsh k tol, hS]

/-- the string `s` of type `t` is converted to the string `s'`, with a coefficient `1` or `-1` -/
private theorem converts (ht : t = .pauli ∨ t = .majorana) (ht' : t' = .pauli ∨ t' = .majorana) {R R' : StrAlg ℂ (Matrix (Cfg n) (Cfg n) ℂ)}
    (R1 : ∀ s, R.Str s ↔ TypedString t (siteLabels n) s) (R2 : ∀ s, R.Str s → R.den s = (matRep ℂ n).anyDen s)
    (R1' : ∀ s, R'.Str s ↔ TypedString t' (siteLabels n) s) (R2' : ∀ s, R'.Str s → R'.den s = (matRep ℂ n).anyDen s) {s : OpString} (hs : R.Can s) :
    ∃ (c : ℂ) (s' : OpString), (∀ c₁ s₁, ConvertsTo t' s c₁ s₁ ↔ c₁ = c ∧ s₁ = s') ∧ (c = 1 ∨ c = -1) ∧ R'.Can s' ∧ R.den s = c • R'.den s' ∧
      ∀ (incl : Bool) (O : Operator ℂ), convertString s t' incl = .ok O → O.terms = [(c, s')] := by
  have hty : s.opType = .pauli ∨ s.opType = .majorana := by rw [(valid_of_typed ((R1 s).mp hs.1)).2]; exact ht
  obtain ⟨O, c, s', h1, h2, hc, h3, h4, h5⟩ : ∃ (O : Operator ℂ) (c : ℂ) (s' : OpString), convertString s t' true = .ok O ∧ O.terms = [(c, s')] ∧ (c = 1 ∨ c = -1) ∧
      TypedString t' (siteLabels n) s' ∧ s'.Canonical ∧ (matRep ℂ n).anyDen s = c • (matRep ℂ n).anyDen s' := by
    have hs1 := (R1 s).mp hs.1
    by_cases htt : t = t'
    · subst htt
      refine ⟨⟨[1], Basis.ofList [s], t⟩, 1, s, ?_, rfl, Or.inl rfl, hs1, hs.2, (one_smul _ _).symm⟩
      unfold convertString
      rw [if_pos (valid_of_typed hs1).2]
      exact mkOperator_none_ok (by simp) (by simp) (t := t) (by simp [(valid_of_typed hs1).2])
    · rcases hs1 with ⟨rfl, hP⟩ | ⟨rfl, hM⟩
      · obtain rfl : t' = .majorana := by rcases ht' with h | h; exact absurd h.symm htt; exact h
        obtain ⟨O, c, M, k1, k2, -, k4, k5, k6, k7⟩ := C29_pauli_to_majorana (K := ℂ) (hP.mono site_sub) true
        refine ⟨O, c, M, k1, k2, k6, Or.inr ⟨rfl, k4.mono fun _ h => jwLabels_mem h⟩, k5, ?_⟩
        rw [PauliRep.anyDen, PauliRep.anyDen, hP.type, k4.type]
        exact k7 (matRep ℂ n)
      · obtain rfl : t' = .pauli := by rcases ht' with h | h; exact h; exact absurd h.symm htt
        obtain ⟨O, c, P, k1, k2, -, k4, k5, k6, k7⟩ := C29_majorana_to_pauli (K := ℂ) (hM.mono site_sub) true
        refine ⟨O, c, P, k1, k2, k6, Or.inl ⟨rfl, k4⟩, k5, ?_⟩
        rw [PauliRep.anyDen, PauliRep.anyDen, hM.type, k4.type]
        exact k7 (matRep ℂ n)
  refine ⟨c, s', fun c₁ s₁ => ⟨?_, ?_⟩, hc, ⟨(R1' s').mpr h3, h4⟩, ?_, ?_⟩
  · rintro ⟨incl, O', k1, k2⟩
    rw [convertString_incl ht' hty, h1] at k1
    cases k1
    rw [h2] at k2
    simpa [eq_comm] using k2
  · rintro ⟨rfl, rfl⟩
    exact ⟨true, O, h1, h2⟩
  · rw [R2 s hs.1, R2' s' ((R1' s').mpr h3), h5]
  · intro incl O' k1
    rw [convertString_incl ht' hty, h1] at k1
    cases k1
    exact h2

/-- **C114** (Lie algebras): if the strings of `b'` are those of `b`, converted between Pauli and Majorana strings, then `generate_lie_algebra` returns the converted
strings, and as many. -/
theorem C114_lie_algebra (ht : t = .pauli ∨ t = .majorana) (ht' : t' = .pauli ∨ t' = .majorana) {tol : ℚ} (h0 : 0 < tol) (h2 : tol ≤ 2) {b b' : Basis} (hb : b.Inv)
    (hb' : b'.Inv) (hs : ∀ s ∈ b.strs, TypedString t (siteLabels n) s ∧ s.Canonical) (hbb : ∀ s', s' ∈ b'.strs ↔ ∃ s ∈ b.strs, ∃ c : ℂ, ConvertsTo t' s c s') :
    ∃ (m : ℕ) (r r' : Basis), (∀ k, m ≤ k → generateLieAlgebra ℂ b k tol = .ok (some r) ∧ generateLieAlgebra ℂ b' k tol = .ok (some r')) ∧
      r.strs.length = r'.strs.length ∧ ∀ s', s' ∈ r'.strs ↔ ∃ s ∈ r.strs, ∃ c : ℂ, ConvertsTo t' s c s' := by
  obtain ⟨R, R1, R2⟩ := site_alg n ht
  obtain ⟨R', R1', R2'⟩ := site_alg n ht'
  have conv := fun {s : OpString} (h : R.Can s) => converts ht ht' R1 (fun s hs => (R2 s hs).1) R1' (fun s hs => (R2' s hs).1) h
  have conv' := fun {s : OpString} (h : R'.Can s) => converts ht' ht R1' (fun s hs => (R2' s hs).1) R1 (fun s hs => (R2 s hs).1) h
  have hne : ∀ {c : ℂ}, c = 1 ∨ c = -1 → c ≠ 0 := by rintro c (rfl | rfl) <;> norm_num
  have corr : ∀ {s : OpString} (_ : R.Can s) {s' : OpString}, (∃ c : ℂ, ConvertsTo t' s c s') ↔ R.Corresponds R' s s' := by
    intro s hs s'
    obtain ⟨c, s₀, k1, k2, k3, k4, -⟩ := conv hs
    have hc : R.Corresponds R' s s₀ := ⟨hs, k3, c, hne k2, k4⟩
    constructor
    · rintro ⟨c₁, h⟩
      rw [((k1 _ _).mp h).2]
      exact hc
    · intro h
      refine ⟨c, (k1 _ _).mpr ⟨rfl, ?_⟩⟩
      exact h.symm.left hc.symm
  have hcan : ∀ s ∈ b.strs, R.Can s := fun s hs' => ⟨(R1 s).mpr (hs s hs').1, (hs s hs').2⟩
  have hcan' : ∀ s' ∈ b'.strs, R'.Can s' := fun s' hs' => by
    obtain ⟨s, k1, k2⟩ := (hbb s').mp hs'
    exact ((corr (hcan s k1)).mp k2).2.1
  have lie : ∀ {t : OpType}, t = .pauli ∨ t = .majorana → ∀ {R : StrAlg ℂ (Matrix (Cfg n) (Cfg n) ℂ)}, (∀ s, R.Str s ↔ TypedString t (siteLabels n) s) → ∀ {b : Basis}, b.Inv →
      (∀ s ∈ b.strs, R.Can s) → ∃ (m : ℕ) (r : Basis), (∀ k, m ≤ k → generateLieAlgebra ℂ b k tol = .ok (some r)) ∧ r.strs.Nodup ∧ IsLieAlgebra ℂ R.den R.Str b.strs r.strs := by
    intro t ht R hR b hb hs
    obtain ⟨m, r, k1, k2, k3⟩ := R.generateLieAlgebra_ok h0 h2 hb (fun s hs' => (hs s hs').1) (by
      intro F
      rcases ht with rfl | rfl
      · refine (pauli_finite (siteLabels n) F).subset ?_
        rintro s ⟨h1, h2, h3⟩
        exact ⟨by simpa [TypedString] using (hR s).mp h1, h2, h3⟩
      · refine (majorana_finite (siteLabels n) F).subset ?_
        rintro s ⟨h1, h2, h3⟩
        exact ⟨by simpa [TypedString] using (hR s).mp h1, h2, h3⟩)
    exact ⟨m, r, k1, k2.2, k3⟩
  obtain ⟨m, r, a1, a2, a3⟩ := lie ht R1 hb hcan
  obtain ⟨m', r', b1, b2, b3⟩ := lie ht' R1' hb' hcan'
  have rcan := canonical_of_lie a3 hcan
  have rcan' := canonical_of_lie b3 hcan'
  have f1 := StrAlg.lie_corresponds (R := R) (R' := R') (fun s hs => by
    obtain ⟨c, s₀, k1, k2, k3, k4, -⟩ := conv hs
    exact ⟨s₀, hs, k3, c, hne k2, k4⟩) a3 b3 hcan' (fun s hs => by
    obtain ⟨c, s₀, k1, k2, k3, k4, -⟩ := conv (hcan s hs)
    exact ⟨s₀, (hbb s₀).mpr ⟨s, hs, c, (k1 _ _).mpr ⟨rfl, rfl⟩⟩, hcan s hs, k3, c, hne k2, k4⟩)
  have f2 := StrAlg.lie_corresponds (R := R') (R' := R) (fun s hs => by
    obtain ⟨c, s₀, k1, k2, k3, k4, -⟩ := conv' hs
    exact ⟨s₀, hs, k3, c, hne k2, k4⟩) b3 a3 hcan (fun s' hs' => by
    obtain ⟨s, k1, k2⟩ := (hbb s').mp hs'
    exact ⟨s, k1, ((corr (hcan s k1)).mp k2).symm⟩)
  refine ⟨max m m', r, r', fun k hk => ⟨a1 k ((le_max_left ..).trans hk), b1 k ((le_max_right ..).trans hk)⟩,
    le_antisymm (StrAlg.corresponds_length a2 f1) (StrAlg.corresponds_length b2 f2), fun s' => ⟨fun hs' => ?_, ?_⟩⟩
  · obtain ⟨s, k1, k2⟩ := f2 s' hs'
    exact ⟨s, k1, (corr (rcan s k1)).mpr k2.symm⟩
  · rintro ⟨s, k1, k2⟩
    obtain ⟨s₁, l1, l2⟩ := f1 s k1
    rw [((corr (rcan s k1)).mp k2).symm.left l2.symm]
    exact l1

/-- the strings of a converted Operator are canonical, and it stands for the same matrix -/
private theorem convert_canonical (ht : t = .pauli ∨ t = .majorana) (ht' : t' = .pauli ∨ t' = .majorana) (incl : Bool) {A : Operator ℂ}
    (hA : A.On t fun s => TypedString t (siteLabels n) s ∧ s.Canonical) :
    ∃ A', convertOperator A t' incl = .ok A' ∧ A'.On t' (fun s => TypedString t' (siteLabels n) s ∧ s.Canonical) ∧
      A.den (matRep ℂ n).anyDen = A'.den (matRep ℂ n).anyDen := by
  obtain ⟨R, R1, R2⟩ := site_alg n ht
  obtain ⟨R', R1', R2'⟩ := site_alg n ht'
  have hA' : A.On t (TypedString t (siteLabels n)) := ⟨hA.wf, hA.type, fun s hs => (hA.mem s hs).1⟩
  have hcan : ∀ s ∈ A.basis.strs, R.Can s := fun s hs => ⟨(R1 s).mpr (hA.mem s hs).1, (hA.mem s hs).2⟩
  obtain ⟨B, b1, b2, b3⟩ := convert_operator ht ht' incl hA'
  have hf : ∀ s, ∃ O : Operator ℂ, s ∈ A.basis.strs → convertString s t' incl = .ok O ∧ O.WF ∧ O.opType = t' := fun s => by
    by_cases hs : s ∈ A.basis.strs
    · obtain ⟨O, o1, o2, -⟩ := convert_string ht ht' incl (hA'.mem s hs)
      exact ⟨O, fun _ => ⟨o1, o2.wf, o2.type⟩⟩
    · exact ⟨B, fun h => absurd h hs⟩
  choose f hf using hf
  obtain ⟨B', c1, -, -, c2, -⟩ := convertOperator_ok hA.wf f hf
  obtain rfl : B' = B := by rw [b1] at c1; exact (Except.ok.inj c1).symm
  refine ⟨B', b1, ⟨b2.wf, b2.type, fun s hs => ?_⟩, b3⟩
  obtain ⟨u, u1, u2⟩ := c2 s hs
  obtain ⟨c, s₀, -, -, k3, -, k5⟩ := converts ht ht' R1 (fun s hs => (R2 s hs).1) R1' (fun s hs => (R2' s hs).1) (hcan u u1)
  have e := (hf u u1).2.1.terms_snd
  rw [k5 incl _ (hf u u1).1] at e
  rw [← e] at u2
  obtain rfl : s = s₀ := by simpa using u2
  exact ⟨(R1' s).mp k3.1, k3.2⟩

/-- **C114** (norms): conversion between Pauli and Majorana strings does not change the norm of an Operator. -/
theorem C114_norm (ht : t = .pauli ∨ t = .majorana) (ht' : t' = .pauli ∨ t' = .majorana) (incl : Bool) {A : Operator ℂ}
    (hA : A.On t fun s => TypedString t (siteLabels n) s ∧ s.Canonical) :
    ∃ A', convertOperator A t' incl = .ok A' ∧ A'.norm .l2 = A.norm .l2 := by
  obtain ⟨R, R1, R2⟩ := site_alg n ht
  obtain ⟨R', R1', R2'⟩ := site_alg n ht'
  have hcan : ∀ s ∈ A.basis.strs, R.Can s := fun s hs => ⟨(R1 s).mpr (hA.mem s hs).1, (hA.mem s hs).2⟩
  obtain ⟨B', b1, b2, b3⟩ := convert_canonical ht ht' incl hA
  have hB : ∀ s ∈ B'.basis.strs, R'.Can s := fun s hs => ⟨(R1' s).mpr (b2.mem s hs).1, (b2.mem s hs).2⟩
  have e : A.den R.den = B'.den R'.den := by
    rw [Operator.den_congr fun s hs => (R2 s (hcan s hs).1).1, b3]
    exact Operator.den_congr fun s hs => ((R2' s (hB s hs).1).1).symm
  have hlin := e
  rw [den_linComb (show A.coeffs.length = A.basis.len from hA.wf.len), den_linComb (show B'.coeffs.length = B'.basis.len from b2.wf.len)] at hlin
  have hin := StrAlg.inner_eq (fun s hs => (R2 s hs).2) (fun s hs => (R2' s hs).2) hA.wf.basis.2 hcan b2.wf.basis.2 hB hlin hlin
  have norms : ∀ O : Operator ℂ, O.WF → (((O.coeffs.map fun c => ‖c‖ ^ 2).sum : ℝ) : ℂ) = ∑ i : Fin O.basis.strs.length, star (O.coeffs.getD i 0) * O.coeffs.getD i 0 := by
    intro O hO
    rw [← hO.len, ← Fin.sum_univ_fun_getElem, Complex.ofReal_sum]
    refine Finset.sum_congr rfl fun i _ => ?_
    rw [List.getD_eq_getElem _ _ i.2, Complex.star_def, ← Complex.normSq_eq_conj_mul_self, Complex.normSq_eq_norm_sq]
  refine ⟨B', b1, ?_⟩
  rw [Operator.norm, Operator.norm]
  congr 1
  apply Complex.ofReal_injective
  rw [norms _ b2.wf, norms _ hA.wf, hin]

/-- **C114** (back again): an Operator on Pauli or Majorana strings that is converted to the other type and back has the coefficients it had before. -/
theorem C114_round_trip (ht : t = .pauli ∨ t = .majorana) (ht' : t' = .pauli ∨ t' = .majorana) (incl incl' : Bool) {A : Operator ℂ}
    (hA : A.On t fun s => TypedString t (siteLabels n) s ∧ s.Canonical) :
    ∃ A' A'', convertOperator A t' incl = .ok A' ∧ convertOperator A' t incl' = .ok A'' ∧ A''.opType = A.opType ∧ ∀ s, A''.coef s = A.coef s := by
  obtain ⟨R, R1, R2⟩ := site_alg n ht
  obtain ⟨A', a1, a2, a3⟩ := convert_canonical ht ht' incl hA
  obtain ⟨A'', b1, b2, b3⟩ := convert_canonical ht' ht incl' a2
  have can : ∀ {B : Operator ℂ}, B.On t (fun s => TypedString t (siteLabels n) s ∧ s.Canonical) → ∀ x ∈ B.terms, R.Can x.2 := fun hB x hx =>
    have h := hB.mem x.2 (List.of_mem_zip hx).2
    ⟨(R1 _).mpr h.1, h.2⟩
  refine ⟨A', A'', a1, b1, b2.type.trans hA.type.symm, fun s => R.coefT_eq (can b2) (can hA) ?_ s⟩
  have e : ∀ {B : Operator ℂ}, B.On t (fun s => TypedString t (siteLabels n) s ∧ s.Canonical) → B.den R.den = B.den (matRep ℂ n).anyDen := fun hB =>
    Operator.den_congr fun s hs => (R2 s ((R1 s).mpr (hB.mem s hs).1)).1
  exact (e b2).trans ((a3.trans b3).symm.trans (e hA).symm)

/-! ### Non-vacuity -/

/-- for every Basis there is the Basis of the converted strings -/
theorem converted_basis (ht : t = .pauli ∨ t = .majorana) (ht' : t' = .pauli ∨ t' = .majorana) {b : Basis}
    (hs : ∀ s ∈ b.strs, TypedString t (siteLabels n) s ∧ s.Canonical) :
    ∃ b' : Basis, b'.Inv ∧ ∀ s', s' ∈ b'.strs ↔ ∃ s ∈ b.strs, ∃ c : ℂ, ConvertsTo t' s c s' := by
  obtain ⟨R, R1, R2⟩ := site_alg n ht
  obtain ⟨R', R1', R2'⟩ := site_alg n ht'
  have hf : ∀ s, ∃ u, s ∈ b.strs → ∃ c : ℂ, ∀ c₁ s₁, ConvertsTo t' s c₁ s₁ ↔ c₁ = c ∧ s₁ = u := fun s => by
    by_cases h : s ∈ b.strs
    · obtain ⟨c, s₀, k1, -⟩ := converts ht ht' R1 (fun s hs => (R2 s hs).1) R1' (fun s hs => (R2' s hs).1) (s := s) ⟨(R1 s).mpr (hs s h).1, (hs s h).2⟩
      exact ⟨s₀, fun _ => ⟨c, k1⟩⟩
    · exact ⟨s, fun h' => absurd h' h⟩
  choose f hf using hf
  refine ⟨Basis.ofList (b.strs.map f).dedup, Basis.Inv.ofList (List.nodup_dedup _), fun s' => ?_⟩
  show s' ∈ (b.strs.map f).dedup ↔ _
  rw [List.mem_dedup, List.mem_map]
  constructor
  · rintro ⟨s, h1, rfl⟩
    obtain ⟨c, hc⟩ := hf s h1
    exact ⟨s, h1, c, (hc _ _).mpr ⟨rfl, rfl⟩⟩
  · rintro ⟨s, h1, c, h2⟩
    obtain ⟨c', hc⟩ := hf s h1
    exact ⟨s, h1, ((hc _ _).mp h2).2.symm⟩

private theorem pairs_valid : ∀ s ∈ ([⟨[.X], [0], .pauli, .float1⟩, ⟨[.Y, .Z], [0, 1], .pauli, .float1⟩] : List OpString),
    TypedString .pauli (siteLabels 2) s ∧ s.Canonical := by
  intro s hs
  simp only [List.mem_cons, List.not_mem_nil, or_false] at hs
  rcases hs with rfl | rfl
  · exact ⟨Or.inl ⟨rfl, rfl, by decide, rfl, by decide, by simp [siteLabels], by decide⟩, by simp [OpString.Canonical]⟩
  · exact ⟨Or.inl ⟨rfl, rfl, by decide, rfl, by decide, by simp [siteLabels], by decide⟩, by simp [OpString.Canonical]⟩

/-- the strings `X 0` and `Y 0 Z 1` generate a Lie algebra, and so do the Majorana strings they are converted to, with as many members -/
example : ∃ (b' r r' : Basis) (m : ℕ), generateLieAlgebra ℂ (Basis.ofList [⟨[.X], [0], .pauli, .float1⟩, ⟨[.Y, .Z], [0, 1], .pauli, .float1⟩]) m (1 / 10 ^ 12) = .ok (some r) ∧
    generateLieAlgebra ℂ b' m (1 / 10 ^ 12) = .ok (some r') ∧ r.strs.length = r'.strs.length := by
  obtain ⟨b', h1, h2⟩ := converted_basis (n := 2) (b := Basis.ofList [⟨[.X], [0], .pauli, .float1⟩, ⟨[.Y, .Z], [0, 1], .pauli, .float1⟩]) (t' := .majorana)
    (Or.inl rfl) (Or.inr rfl) pairs_valid
  obtain ⟨m, r, r', k1, k2, -⟩ := C114_lie_algebra (tol := 1 / 10 ^ 12) (Or.inl rfl) (Or.inr rfl) (by norm_num) (by norm_num) (Basis.Inv.ofList (by decide)) h1 pairs_valid h2
  exact ⟨b', r, r', m, (k1 m le_rfl).1, (k1 m le_rfl).2, k2⟩

/-- the operators on `X 0` and `Y 0 Z 1` that commute with `2 X 0 + Y 0 Z 1` -/
example : ∃ x' O', (BasisArg.strings (Basis.ofList [⟨[.X], [0], .pauli, .float1⟩, ⟨[.Y, .Z], [0, 1], .pauli, .float1⟩])).ConvertedTo .majorana false x' ∧
    convertOperator (⟨[2, 1], Basis.ofList [⟨[.X], [0], .pauli, .float1⟩, ⟨[.Y, .Z], [0, 1], .pauli, .float1⟩], .pauli⟩ : Operator ℂ) .majorana false = .ok O' ∧
    O'.norm .l2 = Real.sqrt 5 ∧ ∀ eigh tol, ∃ r, commutingOperators eigh (.strings (Basis.ofList [⟨[.X], [0], .pauli, .float1⟩, ⟨[.Y, .Z], [0, 1], .pauli, .float1⟩]))
      ⟨[2, 1], Basis.ofList [⟨[.X], [0], .pauli, .float1⟩, ⟨[.Y, .Z], [0, 1], .pauli, .float1⟩], .pauli⟩ .commutator tol = .ok r ∧
      commutingOperators eigh x' O' .commutator tol = .ok r := by
  have hO : (⟨[2, 1], Basis.ofList [⟨[.X], [0], .pauli, .float1⟩, ⟨[.Y, .Z], [0, 1], .pauli, .float1⟩], .pauli⟩ : Operator ℂ).On .pauli
      fun s => TypedString .pauli (siteLabels 2) s ∧ s.Canonical :=
    ⟨Operator.WF.mk' (by decide) rfl (by simp), rfl, pairs_valid⟩
  obtain ⟨x', O', C, C', ext, ext', h1, h2, -, -, -, h3, -⟩ := C114_commuting_operators (t' := .majorana) (Or.inl rfl) (Or.inr rfl) .commutator false
    (x := .strings (Basis.ofList [⟨[.X], [0], .pauli, .float1⟩, ⟨[.Y, .Z], [0, 1], .pauli, .float1⟩])) ⟨Basis.Inv.ofList (by decide), fun s hs => (pairs_valid s hs).1⟩
    (by simp [BasisArg.size, BasisArg.elementTerms, Basis.ofList]) (O := ⟨[2, 1], Basis.ofList [⟨[.X], [0], .pauli, .float1⟩, ⟨[.Y, .Z], [0, 1], .pauli, .float1⟩], .pauli⟩)
    ⟨hO.wf, hO.type, fun s hs => (hO.mem s hs).1⟩
  obtain ⟨O'', k1, k2⟩ := C114_norm (t' := .majorana) (Or.inl rfl) (Or.inr rfl) false hO
  rw [h2] at k1
  cases k1
  refine ⟨x', O', h1, h2, ?_, h3⟩
  rw [k2, Operator.norm]
  norm_num

/-- `2 X 0 + Y 0 Z 1`, converted to Majorana strings and back -/
example : ∃ A' A'', convertOperator (⟨[2, 1], Basis.ofList [⟨[.X], [0], .pauli, .float1⟩, ⟨[.Y, .Z], [0, 1], .pauli, .float1⟩], .pauli⟩ : Operator ℂ) .majorana false = .ok A' ∧
    convertOperator A' .pauli false = .ok A'' ∧ A''.coef ⟨[.X], [0], .pauli, .float1⟩ = 2 := by
  obtain ⟨A', A'', h1, h2, -, h3⟩ := C114_round_trip (n := 2) (t := .pauli) (t' := .majorana) (Or.inl rfl) (Or.inr rfl) false false
    (A := ⟨[2, 1], Basis.ofList [⟨[.X], [0], .pauli, .float1⟩, ⟨[.Y, .Z], [0, 1], .pauli, .float1⟩], .pauli⟩)
    ⟨Operator.WF.mk' (by decide) rfl (by simp), rfl, pairs_valid⟩
  refine ⟨A', A'', h1, h2, ?_⟩
  rw [h3]
  simp [Operator.coef, coefT, Operator.terms, Basis.ofList]

end Qosy
