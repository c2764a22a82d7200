import Verif.Lemmas.Equivariance
import Verif.Spec.Generator
import Verif.Props.Energies
import Verif.Props.LieOperators

/-! # C116: transforming the problem transforms the answer -/

namespace Qosy
open Matrix
variable {n : ℕ} {t : OpType} {T : Transformation ℂ} {reverses : Bool}

private theorem site_covariant (ht : t = .pauli ∨ t = .majorana) {mode : Mode} (hm : mode ≠ .product) (hT : StringSymmetry n t T reverses) :
    ∃ (R : StrAlg ℂ (Matrix (Cfg n) (Cfg n) ℂ)) (ε : OpString → ℂ) (f : OpString → OpString), R.type = t ∧ (∀ s, R.Can s ↔ TypedString t (siteLabels n) s ∧ s.Canonical) ∧
      (∀ s, R.Str s → star (R.den s) = R.den s) ∧ Covariant R mode T (bracketSign mode reverses) ε f ∧
      ∀ F : Finset ℤ, {s : OpString | R.Str s ∧ s.Canonical ∧ ∀ l ∈ s.labels, l ∈ F}.Finite := by
  rcases ht with rfl | rfl
  · obtain ⟨ε, f, h⟩ := hT.pauli (matRep ℂ n) hm
    exact ⟨_, ε, f, rfl, fun s => by simp [StrAlg.Can, TypedString, PauliRep.strAlg], fun s hs => star_den_matRep hs, h, fun F => pauli_finite _ F⟩
  · obtain ⟨ε, f, h⟩ := hT.majorana (siteMajoranas n) hm
    exact ⟨_, ε, f, rfl, fun s => by simp [StrAlg.Can, TypedString, MajoranaRep.strAlg], fun s hs => MajoranaRep.star_den _ siteMajoranas_star hs, h,
      fun F => majorana_finite _ F⟩

private theorem image_list {α : Type} {R : StrAlg ℂ (Matrix (Cfg n) (Cfg n) ℂ)} {g : α → Py (Operator ℂ)} {d : α → Matrix (Cfg n) (Cfg n) ℂ} {l : List α}
    (h : ∀ a ∈ l, ∃ B, g a = .ok B ∧ B.On R.type R.Can ∧ B.den R.den = d a) :
    ∃ l', List.Forall₂ (fun a B => g a = .ok B) l l' ∧ (∀ B ∈ l', B.On R.type R.Can) ∧ (l'.map fun B => B.den R.den) = l.map d := by
  induction l with
  | nil => exact ⟨[], .nil, by simp, rfl⟩
  | cons a l ih =>
    obtain ⟨B, h1, h2, h3⟩ := h a (List.mem_cons_self ..)
    obtain ⟨l', k1, k2, k3⟩ := ih fun b hb => h b (List.mem_cons_of_mem _ hb)
    refine ⟨B :: l', .cons h1 k1, ?_, by rw [List.map_cons, List.map_cons, h3, k3]⟩
    rintro C (_ | ⟨_, hC⟩)
    · exact h2
    · exact k2 C hC

/-- **C116** (commuting operators): transforming the elements of a Basis or of a list of Operators and the Operator by the same product of label permutations, time
reversal and (for Majorana strings) particle-hole transformations changes neither `commutant_matrix` nor, whatever the eigensolver and the tolerance, the result of
`commuting_operators`. -/
theorem C116_commuting_operators (ht : t = .pauli ∨ t = .majorana) {mode : Mode} (hm : mode ≠ .product) (hT : StringSymmetry n t T reverses) {x : BasisArg ℂ}
    (hx : x.On t fun s => TypedString t (siteLabels n) s ∧ s.Canonical) (hne : x.size ≠ 0) {O : Operator ℂ}
    (hO : O.On t fun s => TypedString t (siteLabels n) s ∧ s.Canonical) :
    ∃ x' O' C C' ext ext', x.TransformedBy T x' ∧ T.apply O = .ok O' ∧ commutantMatrix x O mode = .ok (C, ext) ∧ commutantMatrix x' O' mode = .ok (C', ext') ∧
      SameEntries C C' ∧ (∀ (eigh : Eigh) (tol : ℝ), ∃ r, commutingOperators eigh x O mode tol = .ok r ∧ commutingOperators eigh x' O' mode tol = .ok r) ∧
      ∀ (eigsh : Eigsh) (k : ℕ) (tol : ℝ), commutingOperatorsVecs eigsh x O k mode tol = commutingOperatorsVecs eigsh x' O' k mode tol := by
  obtain ⟨R, ε, f, rfl, hR, hstar, h, -⟩ := site_covariant ht hm hT
  have hCan : R.Can = fun s => TypedString R.type (siteLabels n) s ∧ s.Canonical := funext fun s => propext (hR s)
  rw [← hCan] at hO hx
  obtain ⟨O', o1, o2, o3⟩ := h.apply hO
  obtain ⟨l', h1, h2, h3⟩ : ∃ l', x.TransformedBy T (.operators l') ∧ (∀ B ∈ l', B.On R.type R.Can) ∧
      (l'.map fun B => B.den R.den) = x.den fun s => ε s • R.den (f s) := by
    cases x with
    | strings b =>
      refine image_list (g := T) fun s hs => ⟨_, h.rule.sends s (hx.2 s hs), ⟨single_wf _ ?_, h.rule.type s (hx.2 s hs), ?_⟩, ?_⟩
      · rw [h.rule.type s (hx.2 s hs), h.rule.type _ (h.rule.mem s (hx.2 s hs))]
      · intro s' hs'
        simp only [Basis.ofList, List.mem_singleton] at hs'
        rw [hs']
        exact h.rule.mem s (hx.2 s hs)
      · simp [Operator.den, denT, Operator.terms, Basis.ofList]
    | operators l => exact image_list (g := T.apply) fun A hA => h.apply (hx A hA)
  have hall : x.All R.Can := by
    cases x with
    | strings b => exact hx.2
    | operators l => exact fun A hA s hs => (hx A hA).mem s hs
  have hn1 : x ≠ .operators [] := by rintro rfl; exact hne rfl
  have hn2 : (BasisArg.operators l' : BasisArg ℂ) ≠ .operators [] := by
    rintro e
    cases e
    have := congrArg List.length h3
    rw [BasisArg.den_terms, List.length_map, List.length_map] at this
    exact hne this.symm
  obtain ⟨C, C', ext, ext', c1, c2, c3, hsq⟩ := h.commutant_image hstar (bracketSign_cases mode reverses) hall (x' := .operators l') (fun B hB s hs => (h2 B hB).mem s hs)
    hn1 hn2 hO.mem o2.mem h3 o3
  have hS := c3.square hsq
  refine ⟨_, O', C, C', ext, ext', h1, o1, c1, c2, c3, fun eigh tol => ⟨_, commutingOperators_of c1 rfl eigh tol, ?_⟩, fun eigsh k tol => ?_⟩
  · rw [commutingOperators_of c2 c3.2.1.symm eigh tol, hS]
  · rw [commutingOperatorsVecs_of c1 rfl eigsh k tol, commutingOperatorsVecs_of c2 c3.2.1.symm eigsh k tol, hS]

/-- **C116** (Lie algebras): if the strings of `b'` are the images of those of `b`, then `generate_lie_algebra` returns the images of the strings, and as many. -/
theorem C116_lie_algebra (ht : t = .pauli ∨ t = .majorana) (hT : StringSymmetry n t T reverses) {tol : ℚ} (h0 : 0 < tol) (h2 : tol ≤ 2) {b b' : Basis} (hb : b.Inv)
    (hb' : b'.Inv) (hs : ∀ s ∈ b.strs, TypedString t (siteLabels n) s ∧ s.Canonical) (hbb : b.ImageUnder T b') :
    ∃ (m : ℕ) (r r' : Basis), (∀ k, m ≤ k → generateLieAlgebra ℂ b k tol = .ok (some r) ∧ generateLieAlgebra ℂ b' k tol = .ok (some r')) ∧
      r.strs.length = r'.strs.length ∧ r.ImageUnder T r' := by
  obtain ⟨R, ε, f, rfl, hR, hstar, h, hfin⟩ := site_covariant ht (mode := .commutator) (by decide) hT
  have hcan : ∀ s ∈ b.strs, R.Can s := fun s hs' => (hR s).mpr (hs s hs')
  have sends : ∀ {s : OpString}, R.Can s → ∀ {s' : OpString}, (∃ c : ℂ, T.Sends s c s') ↔ s' = f s := fun {s} hs' {s'} => by
    constructor
    · rintro ⟨c, hc⟩
      have := hc.symm.trans (h.rule.sends s hs')
      simp only [Except.ok.injEq, Operator.mk.injEq] at this
      have e := congrArg Basis.strs this.2.1
      simpa [Basis.ofList] using e
    · rintro rfl
      exact ⟨_, h.rule.sends s hs'⟩
  have hgg : ∀ s', s' ∈ b'.strs ↔ ∃ s ∈ b.strs, s' = f s := fun s' => by
    rw [hbb s']
    exact exists_congr fun s => and_congr_right fun hs' => sends (hcan s hs')
  have hcan' : ∀ s ∈ b'.strs, R.Can s := fun s' hs' => by
    obtain ⟨s, k1, rfl⟩ := (hgg s').mp hs'
    exact h.rule.mem s (hcan s k1)
  obtain ⟨m, r, a1, a2, a3⟩ := R.generateLieAlgebra_ok h0 h2 hb (fun s hs' => (hcan s hs').1) hfin
  obtain ⟨m', r', b1, b2, b3⟩ := R.generateLieAlgebra_ok h0 h2 hb' (fun s hs' => (hcan' s hs').1) hfin
  have hη : (bracketSign .commutator reverses : ℂ) ≠ 0 := by rcases bracketSign_cases (K := ℂ) .commutator reverses with e | e <;> rw [e] <;> norm_num
  have key := h.lie_image hη hcan hgg a3 b3
  have rcan := canonical_of_lie a3 hcan
  refine ⟨max m m', r, r', fun k hk => ⟨a1 k ((le_max_left ..).trans hk), b1 k ((le_max_right ..).trans hk)⟩, ?_, fun s' => ?_⟩
  · have hn : (r.strs.map f).Nodup := a2.2.map_on fun x hx y hy => h.inj (rcan x hx) (rcan y hy)
    have hp : (r.strs.map f).Perm r'.strs := (List.perm_ext_iff_of_nodup hn b2.2).mpr fun s' => by
      rw [key s', List.mem_map]
      exact exists_congr fun s => and_congr_right fun _ => eq_comm
    rw [← hp.length_eq, List.length_map]
  · rw [key s']
    exact exists_congr fun s => and_congr_right fun hs' => (sends (rcan s hs')).symm

/-- **C116** (norms): the transformation does not change the norm of an Operator. -/
theorem C116_norm (ht : t = .pauli ∨ t = .majorana) (hT : StringSymmetry n t T reverses) {A : Operator ℂ}
    (hA : A.On t fun s => TypedString t (siteLabels n) s ∧ s.Canonical) : ∃ A', T.apply A = .ok A' ∧ A'.norm .l2 = A.norm .l2 := by
  obtain ⟨R, ε, f, rfl, hR, hstar, h, -⟩ := site_covariant ht (mode := .commutator) (by decide) hT
  have hCan : R.Can = fun s => TypedString R.type (siteLabels n) s ∧ s.Canonical := funext fun s => propext (hR s)
  rw [← hCan] at hA
  obtain ⟨B, b1, b2, b3⟩ := h.apply hA
  obtain ⟨g, g1, g2, g3, g4⟩ := h.linComb₂ hA.wf.basis.2 hA.mem
  have e := b3
  rw [den_linComb (show A.coeffs.length = A.basis.len from hA.wf.len), den_linComb (show B.coeffs.length = B.basis.len from b2.wf.len)] at e
  have e' := e.trans (g3 _)
  have hin := StrAlg.inner_eq hstar hstar b2.wf.basis.2 b2.mem g1 g2 e' e'
  rw [g4] at hin
  have norms : ∀ O : Operator ℂ, O.WF → (((O.coeffs.map fun c => ‖c‖ ^ 2).sum : ℝ) : ℂ) = ∑ i : Fin O.basis.strs.length, star (O.coeffs.getD i 0) * O.coeffs.getD i 0 := by
    intro O hO
    rw [← hO.len, ← Fin.sum_univ_fun_getElem, Complex.ofReal_sum]
    refine Finset.sum_congr rfl fun i _ => ?_
    rw [List.getD_eq_getElem _ _ i.2, Complex.star_def, ← Complex.normSq_eq_conj_mul_self, Complex.normSq_eq_norm_sq]
  refine ⟨B, b1, ?_⟩
  rw [Operator.norm, Operator.norm]
  congr 1
  apply Complex.ofReal_injective
  rw [norms _ b2.wf, norms _ hA.wf, hin]

/-! ### Non-vacuity -/

/-- for every Basis there is the Basis of the images -/
theorem image_basis (ht : t = .pauli ∨ t = .majorana) (hT : StringSymmetry n t T reverses) {b : Basis} (hs : ∀ s ∈ b.strs, TypedString t (siteLabels n) s ∧ s.Canonical) :
    ∃ b' : Basis, b'.Inv ∧ b.ImageUnder T b' := by
  obtain ⟨R, ε, f, rfl, hR, hstar, h, -⟩ := site_covariant ht (mode := .commutator) (by decide) hT
  refine ⟨Basis.ofList (b.strs.map f).dedup, Basis.Inv.ofList (List.nodup_dedup _), fun s' => ?_⟩
  show s' ∈ (b.strs.map f).dedup ↔ _
  rw [List.mem_dedup, List.mem_map]
  refine exists_congr fun s => and_congr_right fun hs' => ⟨?_, ?_⟩
  · rintro rfl
    exact ⟨_, h.rule.sends s ((hR s).mpr (hs s hs'))⟩
  · rintro ⟨c, hc⟩
    have := hc.symm.trans (h.rule.sends s ((hR s).mpr (hs s hs')))
    simp only [Except.ok.injEq, Operator.mk.injEq] at this
    have e := congrArg Basis.strs this.2.1
    exact (by simpa [Basis.ofList] using e : s' = f s).symm

private theorem pair_valid : ∀ s ∈ ([⟨[.X], [0], .pauli, .float1⟩, ⟨[.Y, .Z], [0, 1], .pauli, .float1⟩] : List OpString),
    TypedString .pauli (siteLabels 2) s ∧ s.Canonical := by
  intro s hs
  simp only [List.mem_cons, List.not_mem_nil, or_false] at hs
  rcases hs with rfl | rfl
  · exact ⟨Or.inl ⟨rfl, rfl, by decide, rfl, by decide, by simp [siteLabels], by decide⟩, by simp [OpString.Canonical]⟩
  · exact ⟨Or.inl ⟨rfl, rfl, by decide, rfl, by decide, by simp [siteLabels], by decide⟩, by simp [OpString.Canonical]⟩

private theorem swap_reverse : StringSymmetry 2 .pauli ((labelPermutation (labelsOf [1, 0])).mul timeReversal : Transformation ℂ) true :=
  .mul (a := false) (b := true) (.permutation (p := [1, 0]) (by unfold IsPermArray; decide) rfl) .timeReversal

/-- the strings `X 0` and `Y 0 Z 1` with the sites exchanged and time reversed -/
example : ∃ (b' r r' : Basis) (m : ℕ), generateLieAlgebra ℂ (Basis.ofList [⟨[.X], [0], .pauli, .float1⟩, ⟨[.Y, .Z], [0, 1], .pauli, .float1⟩]) m (1 / 10 ^ 12) = .ok (some r) ∧
    generateLieAlgebra ℂ b' m (1 / 10 ^ 12) = .ok (some r') ∧ r.strs.length = r'.strs.length := by
  obtain ⟨b', h1, h2⟩ := image_basis (b := Basis.ofList [⟨[.X], [0], .pauli, .float1⟩, ⟨[.Y, .Z], [0, 1], .pauli, .float1⟩]) (Or.inl rfl) swap_reverse pair_valid
  obtain ⟨m, r, r', k1, k2, -⟩ := C116_lie_algebra (tol := 1 / 10 ^ 12) (Or.inl rfl) swap_reverse (by norm_num) (by norm_num) (Basis.Inv.ofList (by decide)) h1 pair_valid h2
  exact ⟨b', r, r', m, (k1 m le_rfl).1, (k1 m le_rfl).2, k2⟩

/-- the operators on these strings that commute with `2 X 0 + Y 0 Z 1` -/
example : ∃ x' O', (BasisArg.strings (Basis.ofList [⟨[.X], [0], .pauli, .float1⟩, ⟨[.Y, .Z], [0, 1], .pauli, .float1⟩])).TransformedBy
      ((labelPermutation (labelsOf [1, 0])).mul timeReversal) x' ∧
    ((labelPermutation (labelsOf [1, 0])).mul timeReversal).apply (⟨[2, 1], Basis.ofList [⟨[.X], [0], .pauli, .float1⟩, ⟨[.Y, .Z], [0, 1], .pauli, .float1⟩], .pauli⟩ : Operator ℂ) = .ok O' ∧
    O'.norm .l2 = Real.sqrt 5 ∧ ∀ eigh tol, ∃ r, commutingOperators eigh (.strings (Basis.ofList [⟨[.X], [0], .pauli, .float1⟩, ⟨[.Y, .Z], [0, 1], .pauli, .float1⟩]))
      ⟨[2, 1], Basis.ofList [⟨[.X], [0], .pauli, .float1⟩, ⟨[.Y, .Z], [0, 1], .pauli, .float1⟩], .pauli⟩ .commutator tol = .ok r ∧
      commutingOperators eigh x' O' .commutator tol = .ok r := by
  have hO : (⟨[2, 1], Basis.ofList [⟨[.X], [0], .pauli, .float1⟩, ⟨[.Y, .Z], [0, 1], .pauli, .float1⟩], .pauli⟩ : Operator ℂ).On .pauli
      fun s => TypedString .pauli (siteLabels 2) s ∧ s.Canonical :=
    ⟨Operator.WF.mk' (by decide) rfl (by simp), rfl, pair_valid⟩
  obtain ⟨x', O', C, C', ext, ext', h1, h2, -, -, -, h3, -⟩ := C116_commuting_operators (Or.inl rfl) (mode := .commutator) (by decide) swap_reverse
    (x := .strings (Basis.ofList [⟨[.X], [0], .pauli, .float1⟩, ⟨[.Y, .Z], [0, 1], .pauli, .float1⟩])) ⟨Basis.Inv.ofList (by decide), pair_valid⟩
    (by simp [BasisArg.size, BasisArg.elementTerms, Basis.ofList]) hO
  obtain ⟨O'', k1, k2⟩ := C116_norm (Or.inl rfl) swap_reverse hO
  rw [h2] at k1
  cases k1
  refine ⟨x', O', h1, h2, ?_, h3⟩
  rw [k2, Operator.norm]
  norm_num

end Qosy
