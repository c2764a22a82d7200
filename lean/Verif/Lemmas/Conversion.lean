import Verif.Lemmas.MajoranaToFermion
import Verif.Spec.Conversion
import Verif.Spec.Concrete
import Verif.Lemmas.Distance
import Verif.Lemmas.Matrix
import Verif.Lemmas.Vector

/-! # `convert` for all types -/

namespace Qosy
open Coef
variable {K : Type} [Field K] [StarRing K] [Coef K]
variable {𝔸 : Type} [Ring 𝔸] [Algebra K 𝔸] {S : Set ℤ}

theorem Operator.den_single (d : OpString → 𝔸) (c : K) (s : OpString) (t : OpType) :
    (⟨[c], Basis.ofList [s], t⟩ : Operator K).den d = c • d s := by
  simp [Operator.den, Operator.terms, Basis.ofList, denT]

theorem Operator.den_congr {A : Operator K} {d e : OpString → 𝔸} (h : ∀ s ∈ A.basis.strs, d s = e s) : A.den d = A.den e := by
  rw [Operator.den, Operator.den, denT, denT]
  congr 1
  apply List.map_congr_left
  intro t ht
  rw [h t.2 (List.of_mem_zip ht).2]

theorem MajoranaString.mono {T : Set ℤ} {s : OpString} (h : MajoranaString S s) (hST : S ⊆ T) : MajoranaString T s :=
  ⟨h.type, h.ops, h.len, h.nodup, fun l hl => hST (h.mem l hl), h.pref⟩
theorem PauliString.mono {T : Set ℤ} {s : OpString} (h : PauliString S s) (hST : S ⊆ T) : PauliString T s :=
  ⟨h.type, h.ops, h.len, h.nodup, fun l hl => hST (h.mem l hl), h.pref⟩
theorem FermionString.mono {T : Set ℤ} {s : OpString} (h : FermionString S s) (hST : S ⊆ T) : FermionString T s :=
  ⟨h.type, h.len, h.ordered, h.cdag_nodup, h.c_nodup, fun l hl => hST (h.mem l hl)⟩

theorem jwLabels_subset : jwLabels S ⊆ S := fun _ h => jwLabels_mem h

/-- the Jordan-Wigner loop over the terms of a Majorana operator -/
theorem jwTerms_ok : ∀ (ts : List (K × OpString)), (ts.map Prod.snd).Nodup → (∀ t ∈ ts, MajoranaString (jwLabels S) t.2 ∧ t.2.Canonical) →
    ∃ ps : List (K × OpString), jwTerms ts = .ok ps ∧ (ps.map Prod.snd).Nodup ∧ (∀ p ∈ ps, PauliString S p.2 ∧ p.2.Canonical) ∧
      (∀ p ∈ ps, ∃ t ∈ ts, (∃ c : K, (waveOn K S).den p.2 = c • (waveOn K S).jordanWigner.den t.2) ∧ ‖toC p.1‖ = ‖toC t.1‖) ∧
      ∀ {𝔸 : Type} [Ring 𝔸] [Algebra K 𝔸] (R : PauliRep K 𝔸 S), denT R.jordanWigner.den ts = denT R.den ps
  | [], _, _ => ⟨[], rfl, by simp, by simp, by simp, by intro 𝔸 _ _ R; simp⟩
  | (x, M) :: ts, hn, h => by
    rw [List.map_cons, List.nodup_cons] at hn
    obtain ⟨ps, h1, h2, h3, h4, h5⟩ := jwTerms_ok ts hn.2 (fun t ht => h t (List.mem_cons_of_mem _ ht))
    obtain ⟨c, P, k1, k2, k3, k4, k5⟩ := jordanWigner_majorana (waveOn K S) (h (x, M) (List.mem_cons_self ..)).1
    have hinv : (waveOn K S).den P = c⁻¹ • (waveOn K S).jordanWigner.den M := by
      rw [k5, smul_smul, inv_mul_cancel₀ k4.ne_zero, one_smul]
    refine ⟨(c * x, P) :: ps, ?_, ?_, ?_, ?_, ?_⟩
    · rw [jwTerms, List.mapM_cons]
      rw [jwTerms] at h1
      simp only [k1, bind, Except.bind, pure, Except.pure] at h1 ⊢
      rw [h1]
    · rw [List.map_cons, List.nodup_cons]
      refine ⟨?_, h2⟩
      intro hm
      obtain ⟨p, hp, he⟩ := List.mem_map.mp hm
      obtain ⟨t, ht, ⟨c', hc'⟩, -⟩ := h4 p hp
      have hc0 : (waveOn K S).jordanWigner.den M = (c * c') • (waveOn K S).jordanWigner.den t.2 := by
        rw [k5, ← (show p.2 = P from he), hc', smul_smul]
      have hM := h (x, M) (List.mem_cons_self ..)
      have ht' := h t (List.mem_cons_of_mem _ ht)
      have := (waveOn K S).jordanWigner.strAlg.same_string hM.1 ht'.1 hM.2 ht'.2 hc0
      exact hn.1 (List.mem_map.mpr ⟨t, ht, this.1.symm⟩)
    · intro p hp
      rcases List.mem_cons.mp hp with rfl | hp
      · exact ⟨k2, k3⟩
      · exact h3 p hp
    · intro p hp
      rcases List.mem_cons.mp hp with rfl | hp
      · exact ⟨(x, M), List.mem_cons_self .., ⟨c⁻¹, hinv⟩, by simp [k4.norm]⟩
      · obtain ⟨t, ht, r⟩ := h4 p hp
        exact ⟨t, List.mem_cons_of_mem _ ht, r⟩
    · intro 𝔸 _ _ R
      obtain ⟨c', P', l1, -, -, -, l5⟩ := jordanWigner_majorana R (h (x, M) (List.mem_cons_self ..)).1
      rw [k1] at l1
      simp only [Except.ok.injEq, Prod.mk.injEq] at l1
      rw [denT_cons, denT_cons, h5 R, l5, ← l1.1, ← l1.2, smul_smul, mul_comm x c]

/-- `convert` of a string of any type to any type -/
theorem convertString_any {s : OpString} (hs : ValidString (jwLabels S) s) {tgt : OpType}
    (htgt : tgt = .pauli ∨ tgt = .majorana ∨ tgt = .fermion) (incl : Bool)
    (hf : s.opType = .fermion → tgt ≠ .fermion → FermionConvertible s incl) :
    ∃ (O : Operator K) (k : K), convertString s tgt incl = .ok O ∧ O.opType = tgt ∧ O.WF ∧ (∀ M ∈ O.basis.strs, ValidString S M) ∧
      (∀ c ∈ O.coeffs, (1 / 10 ^ 16 : ℝ) < ‖toC c‖) ∧ (incl = true → k = 0) ∧
      ∀ {𝔸 : Type} [Ring 𝔸] [Algebra K 𝔸] [StarRing 𝔸] [StarModule K 𝔸] (R : PauliRep K 𝔸 S), R.Hermitian →
        R.anyDen s = O.den R.anyDen + k • 1 := by
  have hherm : ∀ {𝔸 : Type} [Ring 𝔸] [Algebra K 𝔸] [StarRing 𝔸] (R : PauliRep K 𝔸 S), R.Hermitian → ∀ i ∈ jwLabels S,
      star (R.jordanWigner.a i) = R.jordanWigner.a i ∧ star (R.jordanWigner.b i) = R.jordanWigner.b i := by
    intro 𝔸 _ _ _ R hR i hi
    exact jordanWigner_star R hR i hi
  by_cases hsame : s.opType = tgt
  · refine ⟨⟨[1], Basis.ofList [s], tgt⟩, 0, ?_, rfl, Operator.WF.mk' (by simp) rfl (by simp [hsame]), ?_, by simp; norm_num, by simp, ?_⟩
    · unfold convertString; rw [if_pos hsame]
      exact mkOperator_none_ok (by simp) (by simp) (by simp [hsame])
    · intro M hM
      simp only [Basis.ofList, List.mem_singleton] at hM
      subst hM
      rcases hs with h | h | h
      · exact Or.inl (h.mono jwLabels_subset)
      · exact Or.inr (Or.inl (h.mono jwLabels_subset))
      · exact Or.inr (Or.inr (h.mono jwLabels_subset))
    · intro 𝔸 _ _ _ _ R hR
      rw [Operator.den_single]; simp
  rcases hs with h | h | h
  · obtain ⟨c, M, h1, h2, h3, h4, h5⟩ := jordanWigner_pauli (waveOn K S) h
    have h5' : ∀ {𝔸 : Type} [Ring 𝔸] [Algebra K 𝔸] (R : PauliRep K 𝔸 S), R.den s = c • R.jordanWigner.den M := by
      intro 𝔸 _ _ R
      obtain ⟨c', M', k1, -, -, -, k4⟩ := jordanWigner_pauli R h
      rw [h1] at k1
      simp only [Except.ok.injEq, Prod.mk.injEq] at k1
      rw [k4, k1.1, k1.2]
    rcases htgt with rfl | rfl | rfl
    · exact absurd h.type hsame
    · refine ⟨⟨[c], Basis.ofList [M], .majorana⟩, 0, ?_, rfl, Operator.WF.mk' (by simp) rfl (by simp [h2.type]), ?_, by simp [h4.norm]; norm_num, by simp, ?_⟩
      · unfold convertString; rw [if_neg hsame]
        simp only [h.type, h1, bind, Except.bind]
        exact mkOperator_ok (by simp) (by simp [h2.type])
      · intro M' hM
        simp only [Basis.ofList, List.mem_singleton] at hM
        subst hM
        exact Or.inr (Or.inl (h2.mono jwLabels_subset))
      · intro 𝔸 _ _ _ _ R hR
        rw [Operator.den_single]
        simp only [PauliRep.anyDen, h.type, h2.type, zero_smul, add_zero]
        exact h5' R
    · obtain ⟨O, k, k1, k2, k3, k4, kb, k5, k6⟩ := convertMajoranaString_ok (K := K) h2 incl
      obtain ⟨C, l1, l2, l3, l4, l5⟩ := Operator.smul_ok k3 c
      refine ⟨C, c * k, ?_, l3.trans k2, l2, ?_, ?_, ?_, ?_⟩
      · unfold convertString; rw [if_neg hsame]
        simp only [h.type, h1, bind, Except.bind, k1]
        exact l1
      · intro M' hM
        rw [l4] at hM
        exact Or.inr (Or.inr ((k4 M' hM).1.mono jwLabels_subset))
      · have hC : C.coeffs = O.coeffs.map (· * c) := by
          rw [Operator.smul, mkOperator_ok k3.basis.2 k3.type] at l1
          simp only [Except.ok.injEq] at l1
          rw [← l1]
        rw [hC]
        intro x hx
        obtain ⟨y, hy, rfl⟩ := List.mem_map.mp hx
        rw [map_mul, norm_mul, h4.norm, mul_one]
        exact kb y hy
      · intro hi; rw [k5 hi, mul_zero]
      · intro 𝔸 _ _ _ _ R hR
        have e1 : C.den R.anyDen = c • O.den R.anyDen := denT_smul _ c l5
        have e2 : O.den R.anyDen = O.den R.jordanWigner.fden := Operator.den_congr (fun x hx => by
          simp only [PauliRep.anyDen, k3.type x hx, k2])
        rw [e1, e2]
        simp only [PauliRep.anyDen, h.type]
        rw [h5' R, k6 R.jordanWigner (hherm R hR), smul_add, smul_smul]
  · rcases htgt with rfl | rfl | rfl
    · obtain ⟨c, P, h1, h2, h3, h4, h5⟩ := jordanWigner_majorana (waveOn K S) h
      refine ⟨⟨[c], Basis.ofList [P], .pauli⟩, 0, ?_, rfl, Operator.WF.mk' (by simp) rfl (by simp [h2.type]), ?_, by simp [h4.norm]; norm_num, by simp, ?_⟩
      · unfold convertString; rw [if_neg hsame]
        simp only [h.type, h1, bind, Except.bind]
        exact mkOperator_ok (by simp) (by simp [h2.type])
      · intro M' hM
        simp only [Basis.ofList, List.mem_singleton] at hM
        subst hM
        exact Or.inl h2
      · intro 𝔸 _ _ _ _ R hR
        obtain ⟨c', P', k1, -, -, -, k4⟩ := jordanWigner_majorana R h
        rw [h1] at k1
        simp only [Except.ok.injEq, Prod.mk.injEq] at k1
        rw [Operator.den_single]
        simp only [PauliRep.anyDen, h.type, h2.type, zero_smul, add_zero]
        rw [k4, k1.1, k1.2]
    · exact absurd h.type hsame
    · obtain ⟨O, k, k1, k2, k3, k4, kb, k5, k6⟩ := convertMajoranaString_ok (K := K) h incl
      refine ⟨O, k, ?_, k2, k3, fun M hM => Or.inr (Or.inr ((k4 M hM).1.mono jwLabels_subset)), kb, k5, ?_⟩
      · unfold convertString; rw [if_neg hsame]
        simp only [h.type]
        exact k1
      · intro 𝔸 _ _ _ _ R hR
        have e2 : O.den R.anyDen = O.den R.jordanWigner.fden := Operator.den_congr (fun x hx => by
          simp only [PauliRep.anyDen, k3.type x hx, k2])
        rw [e2]
        simp only [PauliRep.anyDen, h.type]
        exact k6 R.jordanWigner (hherm R hR)
  · have hne : tgt ≠ .fermion := fun h' => hsame (h.type.trans h'.symm)
    obtain ⟨f1, f2, f3⟩ := hf h.type hne
    obtain ⟨O, k, k1, k2, k3, k4, kb, k5, k6⟩ := convertFermionString_ok (K := K) h incl f1 f2 f3
    rcases htgt with rfl | rfl | rfl
    · have hts : O.terms.map Prod.snd = O.basis.strs := by
        rw [Operator.terms]; exact List.map_snd_zip (by rw [k3.len])
      obtain ⟨ps, p1, p2, p3, p4, p5⟩ := jwTerms_ok (K := K) (S := S) O.terms (by rw [hts]; exact k3.basis.2) (fun t ht => by
        have := k4 t.2 (by rw [← hts]; exact List.mem_map_of_mem ht)
        exact ⟨this.1, this.2.1⟩)
      have hty : ∀ s ∈ ps.map Prod.snd, s.opType = .pauli := by
        intro s hs
        obtain ⟨p, hp, rfl⟩ := List.mem_map.mp hs
        exact (p3 p hp).1.type
      refine ⟨⟨ps.map Prod.fst, Basis.ofList (ps.map Prod.snd), .pauli⟩, k, ?_, rfl, Operator.WF.mk' p2 (by simp) hty, ?_, ?_, k5, ?_⟩
      · unfold convertString; rw [if_neg hsame]
        simp only [h.type, k1, bind, Except.bind, p1]
        exact mkOperator_ok p2 hty
      · intro M hM
        obtain ⟨p, hp, rfl⟩ := List.mem_map.mp hM
        exact Or.inl (p3 p hp).1
      · intro c hc
        obtain ⟨p, hp, rfl⟩ := List.mem_map.mp hc
        obtain ⟨t, ht, -, hn⟩ := p4 p hp
        rw [hn]
        exact kb t.1 (List.of_mem_zip ht).1
      · intro 𝔸 _ _ _ _ R hR
        have e : (⟨ps.map Prod.fst, Basis.ofList (ps.map Prod.snd), .pauli⟩ : Operator K).den R.anyDen = denT R.den ps := by
          rw [Operator.den_congr (e := R.den)]
          · rw [Operator.den, Operator.terms]; simp only [Basis.ofList, zip_fst_snd]
          · intro x hx
            simp only [PauliRep.anyDen, hty x hx]
        rw [e, ← p5 R]
        simp only [PauliRep.anyDen, h.type]
        exact k6 R.jordanWigner (hherm R hR)
    · refine ⟨O, k, ?_, k2, k3, fun M hM => Or.inr (Or.inl ((k4 M hM).1.mono jwLabels_subset)), kb, k5, ?_⟩
      · unfold convertString; rw [if_neg hsame]
        simp only [h.type]
        exact k1
      · intro 𝔸 _ _ _ _ R hR
        have e2 : O.den R.anyDen = O.den R.jordanWigner.den := Operator.den_congr (fun x hx => by
          simp only [PauliRep.anyDen, k3.type x hx, k2])
        rw [e2]
        simp only [PauliRep.anyDen, h.type]
        exact k6 R.jordanWigner (hherm R hR)
    · exact absurd rfl hne

/-! ### linear combinations -/

/-- the loop of `_convert_operator` -/
theorem convert_fold {tgt : OpType} {incl : Bool} (f : OpString → Operator K) :
    ∀ (ts : List (K × OpString)) (cs : List K) (strs : List OpString) (n : ℕ), cs.drop n = ts.map Prod.fst → strs.drop n = ts.map Prod.snd →
      (∀ t ∈ ts, convertString t.2 tgt incl = .ok (f t.2) ∧ (f t.2).WF ∧ (f t.2).opType = tgt) →
    ∀ (N : Operator K), N.WF → N.opType = tgt →
    ∃ C : Operator K, (List.range' n ts.length).foldlM (fun new i => do
        let c ← pyGet cs i
        let s ← pyGet strs i
        let r ← convertString s tgt incl
        let cr ← r.smul c
        new.iadd cr) N = .ok C ∧ C.WF ∧ C.opType = tgt ∧
      (∀ s ∈ C.basis.strs, s ∈ N.basis.strs ∨ ∃ t ∈ ts, s ∈ (f t.2).basis.strs) ∧
      ∀ s, C.coef s = N.coef s + (ts.map (fun t => t.1 * (f t.2).coef s)).sum
  | [], cs, strs, n, _, _, _, N, hN, hNt => ⟨N, rfl, hN, hNt, fun s hs => Or.inl hs, by simp⟩
  | (c, s) :: ts, cs, strs, n, hc, hs, h, N, hN, hNt => by
    obtain ⟨a1, a2, a3⟩ := h (c, s) (List.mem_cons_self ..)
    obtain ⟨D, d1, d2, d3, d4, d5⟩ := Operator.smul_ok a2 c
    obtain ⟨E, e1, e2, e3, e4, e5⟩ := Operator.iadd_ok hN d2 (by rw [hNt, d3, a3])
    have hc' : cs[n]? = some c := by
      have := congrArg List.head? hc
      simpa [List.head?_drop] using this
    have hs' : strs[n]? = some s := by
      have := congrArg List.head? hs
      simpa [List.head?_drop] using this
    obtain ⟨C, g1, g2, g3, g4, g5⟩ := convert_fold (incl := incl) f ts cs strs (n + 1) (by rw [← List.drop_drop, hc]; simp [List.drop_one])
      (by rw [← List.drop_drop, hs]; simp [List.drop_one]) (fun t ht => h t (List.mem_cons_of_mem _ ht)) E e2 (e3.trans hNt)
    refine ⟨C, ?_, g2, g3, ?_, ?_⟩
    · rw [List.length_cons, List.range'_succ, List.foldlM_cons]
      simp only [pyGet, hc', hs', bind, Except.bind, a1, d1, e1]
      exact g1
    · intro x hx
      rcases g4 x hx with hx | ⟨t, ht, hx⟩
      · rw [e4] at hx
        rcases mem_unionList.mp hx with hx | hx
        · exact Or.inl hx
        · rw [d4] at hx; exact Or.inr ⟨(c, s), List.mem_cons_self .., hx⟩
      · exact Or.inr ⟨t, List.mem_cons_of_mem _ ht, hx⟩
    · intro x
      rw [g5, e5, d5, List.map_cons, List.sum_cons]; ring

/-- the converted operator: coefficients -/
theorem convertOperator_ok {A : Operator K} (hA : A.WF) {tgt : OpType} {incl : Bool} (f : OpString → Operator K)
    (h : ∀ s ∈ A.basis.strs, convertString s tgt incl = .ok (f s) ∧ (f s).WF ∧ (f s).opType = tgt) :
    ∃ C, convertOperator A tgt incl = .ok C ∧ C.WF ∧ C.opType = tgt ∧ (∀ s ∈ C.basis.strs, ∃ t ∈ A.basis.strs, s ∈ (f t).basis.strs) ∧
      ∀ s, C.coef s = (A.terms.map (fun t => t.1 * (f t.2).coef s)).sum := by
  have hl : A.len = A.terms.length := by
    rw [Operator.len, Basis.len, Operator.terms, List.length_zip, hA.len, min_self]
  obtain ⟨C, h1, h2, h3, h4, h5⟩ := convert_fold (incl := incl) f A.terms A.coeffs A.basis.strs 0 (by rw [hA.terms_fst]; rfl)
    (by rw [hA.terms_snd]; rfl) (fun t ht => h t.2 (List.of_mem_zip ht).2) ⟨[], Basis.ofList [], tgt⟩
    (Operator.WF.mk' (by simp) rfl (by simp)) rfl
  refine ⟨C, ?_, h2, h3, ?_, ?_⟩
  · rw [convertOperator, mkOperator_ok (by simp) (by simp)]
    simp only [bind, Except.bind]
    simp only [bind, Except.bind] at h1
    rw [hl, List.range_eq_range']
    exact h1
  · intro s hs
    rcases h4 s hs with h | ⟨t, ht, h⟩
    · simp [Basis.ofList] at h
    · exact ⟨t.2, (List.of_mem_zip ht).2, h⟩
  · intro s
    rw [h5]
    simp [Operator.coef, Operator.terms, Basis.ofList]

/-! ### `conversion_matrix` -/

theorem tget_flatten (Ds : List (List (ℕ × ℕ × K))) (i j : ℕ) : tget Ds.flatten i j = (Ds.map (fun D => tget D i j)).sum := by
  induction Ds with
  | nil => rfl
  | cons D Ds ih => rw [List.flatten_cons, tget_append, ih, List.map_cons, List.sum_cons]

/-- the entries of one column -/
def convCol (tgt : List OpString) (tol : ℚ) (j : ℕ) (ts : List (K × OpString)) : List (ℕ × ℕ × K) :=
  ts.filterMap (fun t => if absGt t.1 tol then some (tgt.idxOf t.2, j, t.1) else none)

theorem conversionColumn_ok {tgt : Basis} (ht : tgt.Inv) {tol : ℚ} {j : ℕ} {ts : List (K × OpString)}
    (h : ∀ t ∈ ts, absGt t.1 tol = true → t.2 ∈ tgt.strs) : conversionColumn tgt tol j ts = .ok (convCol tgt.strs tol j ts) := by
  rw [conversionColumn, convCol]
  apply collect_ok
  intro t htm
  by_cases hb : absGt t.1 tol = true
  · rw [if_pos hb, if_pos hb, ht.1, Basis.index_ofList, if_pos (h t htm hb)]; rfl
  · rw [if_neg hb, if_neg hb]

theorem conversionColumn_err {tgt : Basis} (ht : tgt.Inv) {tol : ℚ} {j : ℕ} : ∀ {ts : List (K × OpString)},
    (∃ t ∈ ts, absGt t.1 tol = true ∧ t.2 ∉ tgt.strs) → conversionColumn tgt tol j ts = .error .keyError
  | [], h => by obtain ⟨t, h, _⟩ := h; simp at h
  | t :: ts, h => by
    rw [conversionColumn, collect]
    by_cases h1 : absGt t.1 tol = true ∧ t.2 ∉ tgt.strs
    · rw [if_pos h1.1, ht.1, Basis.index_ofList, if_neg h1.2]; rfl
    · have ih : conversionColumn tgt tol j ts = .error .keyError := by
        apply conversionColumn_err ht
        obtain ⟨t', ht', h2⟩ := h
        rcases List.mem_cons.mp ht' with rfl | h3
        · exact absurd h2 h1
        · exact ⟨t', h3, h2⟩
      rw [conversionColumn] at ih
      rw [ih]
      by_cases hb : absGt t.1 tol = true
      · have : t.2 ∈ tgt.strs := by by_contra hc; exact h1 ⟨hb, hc⟩
        rw [if_pos hb, ht.1, Basis.index_ofList, if_pos this]; rfl
      · rw [if_neg hb]; rfl

theorem tget_convCol {tgt : List OpString} (hn : tgt.Nodup) {tol : ℚ} {j : ℕ} {i : ℕ} (hi : i < tgt.length) (j' : ℕ) :
    ∀ {ts : List (K × OpString)}, (∀ t ∈ ts, absGt t.1 tol = true ∧ t.2 ∈ tgt) →
    tget (convCol tgt tol j ts) i j' = if j = j' then coefT ts tgt[i] else 0
  | [], _ => by simp [convCol]
  | t :: ts, h => by
    have ih := tget_convCol hn (j := j) hi j' (ts := ts) (fun x hx => h x (List.mem_cons_of_mem _ hx))
    obtain ⟨hb, hm⟩ := h t (List.mem_cons_self ..)
    have e : convCol tgt tol j (t :: ts) = (tgt.idxOf t.2, j, t.1) :: convCol tgt tol j ts := by
      rw [convCol, List.filterMap_cons, if_pos hb]; rfl
    rw [e, tget_cons, ih, coefT_cons]
    have hidx : tgt.idxOf t.2 = i ↔ t.2 = tgt[i] := by
      constructor
      · intro h'
        have := List.getElem_idxOf (List.idxOf_lt_length_iff.mpr hm)
        rw [← this]; simp only [h']
      · intro h'; rw [h', hn.idxOf_getElem]
    by_cases h1 : j = j'
    · by_cases h2 : t.2 = tgt[i]
      · simp [h1, h2, hn.idxOf_getElem]
      · have : ¬ tgt.idxOf t.2 = i := fun h' => h2 (hidx.mp h')
        simp [h1, h2, this]
    · simp [h1]

theorem conversionMatrix_ok {fr tgt : Basis} (ht : tgt.Inv) (hfr : fr.strs ≠ []) (htgt : tgt.strs ≠ []) {T : OpType}
    (hT : ∀ s ∈ tgt.strs, s.opType = T) {tol : ℚ} (f : OpString → Operator K)
    (h : ∀ s ∈ fr.strs, convertString s T false = .ok (f s) ∧ ∀ t ∈ (f s).terms, absGt t.1 tol = true ∧ t.2 ∈ tgt.strs) :
    ∃ M, conversionMatrix fr tgt tol = .ok M ∧ M.nrows = tgt.len ∧ M.ncols = fr.len ∧
      ∀ i j (hi : i < tgt.strs.length) (hj : j < fr.strs.length), M.get i j = (f fr.strs[j]).coef tgt.strs[i] := by
  obtain ⟨s0, rest, hs0⟩ : ∃ s0 rest, tgt.strs = s0 :: rest := List.exists_cons_of_ne_nil htgt
  have hcols : fr.strs.zipIdx.mapM (fun e => do
      let r ← convertString e.1 T false
      conversionColumn tgt tol e.2 r.terms) = .ok (fr.strs.zipIdx.map (fun e => convCol tgt.strs tol e.2 (f e.1).terms)) := by
    apply mapM_ok
    intro e he
    have hm : e.1 ∈ fr.strs := (List.mem_zipIdx' he).2 ▸ List.getElem_mem _
    obtain ⟨h1, h2⟩ := h e.1 hm
    simp only [h1, bind, Except.bind]
    exact conversionColumn_ok ht (fun t ht' _ => (h2 t ht').2)
  have hfirst : pyGet tgt.strs 0 = .ok s0 := by rw [hs0]; rfl
  have hs0T : s0.opType = T := hT s0 (by rw [hs0]; exact List.mem_cons_self ..)
  have hlen : ¬ fr.len = 0 := by rw [Basis.len, List.length_eq_zero_iff]; exact hfr
  refine ⟨⟨tgt.len, fr.len, (fr.strs.zipIdx.map (fun e => convCol tgt.strs tol e.2 (f e.1).terms)).flatten⟩, ?_, rfl, rfl, ?_⟩
  · rw [conversionMatrix, if_neg hlen, hfirst]
    simp only [bind, Except.bind] at hcols ⊢
    rw [hs0T, hcols]
    apply mkCsr_ok
    intro e he
    obtain ⟨D, hD, he⟩ := List.mem_flatten.mp he
    obtain ⟨x, hx, rfl⟩ := List.mem_map.mp hD
    obtain ⟨t, ht', hte⟩ := List.mem_filterMap.mp he
    have hx' := List.mem_zipIdx' hx
    have hm : x.1 ∈ fr.strs := hx'.2 ▸ List.getElem_mem _
    obtain ⟨hb, hmt⟩ := (h x.1 hm).2 t ht'
    rw [if_pos hb] at hte
    simp only [Option.some.injEq] at hte
    rw [← hte]
    exact ⟨List.idxOf_lt_length_iff.mpr hmt, hx'.1⟩
  · intro i j hi hj
    rw [Mat.get_eq, tget_flatten, List.map_map]
    have e1 : fr.strs.zipIdx.map ((fun D => tget D i j) ∘ fun e => convCol tgt.strs tol e.2 (f e.1).terms) =
        fr.strs.zipIdx.map (fun e => if e.2 = j then (f e.1).coef tgt.strs[i] else 0) := by
      apply List.map_congr_left
      intro e he
      have hm : e.1 ∈ fr.strs := (List.mem_zipIdx' he).2 ▸ List.getElem_mem _
      exact tget_convCol ht.2 hi j (h e.1 hm).2
    rw [e1]
    have key : ∀ (l : List OpString) (n : ℕ) (g : OpString → K), ((l.zipIdx n).map (fun e => if e.2 = j then g e.1 else 0)).sum =
        if h : n ≤ j ∧ j - n < l.length then g (l[j - n]'h.2) else 0 := by
      intro l
      induction l with
      | nil => simp
      | cons x l ih =>
        intro n g
        rw [List.zipIdx_cons, List.map_cons, List.sum_cons, ih]
        by_cases h1 : n = j
        · subst h1; simp
        · by_cases h2 : n + 1 ≤ j ∧ j - (n + 1) < l.length
          · have h3 : n ≤ j ∧ j - n < (x :: l).length := by simp only [List.length_cons]; omega
            rw [dif_pos h2, dif_pos h3, if_neg h1, zero_add]
            congr 1
            have : j - n = (j - (n + 1)) + 1 := by omega
            simp [this]
          · have h3 : ¬ (n ≤ j ∧ j - n < (x :: l).length) := by simp only [List.length_cons]; omega
            rw [dif_neg h2, dif_neg h3, if_neg h1, zero_add]
    rw [key fr.strs 0 (fun s => (f s).coef tgt.strs[i])]
    simp [hj]

theorem mapM_err {α β : Type} {f : α → Py β} {e : PyErr} : ∀ {l : List α}, (∀ x ∈ l, (∃ y, f x = .ok y) ∨ f x = .error e) →
    (∃ x ∈ l, f x = .error e) → l.mapM f = .error e
  | [], _, h => by obtain ⟨x, h, _⟩ := h; simp at h
  | x :: l, h, hx => by
    rw [List.mapM_cons]
    rcases h x (List.mem_cons_self ..) with ⟨y, hy⟩ | hy
    · have ih : l.mapM f = .error e := by
        apply mapM_err (fun z hz => h z (List.mem_cons_of_mem _ hz))
        obtain ⟨z, hz, hze⟩ := hx
        rcases List.mem_cons.mp hz with rfl | hz
        · rw [hy] at hze; cases hze
        · exact ⟨z, hz, hze⟩
      rw [hy, ih]; rfl
    · rw [hy]; rfl

theorem conversionMatrix_err {fr tgt : Basis} (ht : tgt.Inv) (htgt : tgt.strs ≠ []) {T : OpType}
    (hT : ∀ s ∈ tgt.strs, s.opType = T) {tol : ℚ} (f : OpString → Operator K) (h : ∀ s ∈ fr.strs, convertString s T false = .ok (f s))
    (hmiss : ∃ s ∈ fr.strs, ∃ t ∈ (f s).terms, absGt t.1 tol = true ∧ t.2 ∉ tgt.strs) :
    conversionMatrix fr tgt tol = (.error .keyError : Py (Mat K)) := by
  obtain ⟨s, hs, t, hts, hbad⟩ := hmiss
  obtain ⟨s0, rest, hs0⟩ : ∃ s0 rest, tgt.strs = s0 :: rest := List.exists_cons_of_ne_nil htgt
  have hfirst : pyGet tgt.strs 0 = .ok s0 := by rw [hs0]; rfl
  have hs0T : s0.opType = T := hT s0 (by rw [hs0]; exact List.mem_cons_self ..)
  have hlen : ¬ fr.len = 0 := by
    rw [Basis.len, List.length_eq_zero_iff]; intro h0; rw [h0] at hs; simp at hs
  have hcol : ∀ j s, s ∈ fr.strs → (∃ y, conversionColumn tgt tol j (f s).terms = .ok y) ∨
      conversionColumn tgt tol j (f s).terms = (.error .keyError : Py (List (ℕ × ℕ × K))) := by
    intro j s hs
    by_cases hm : ∃ t ∈ (f s).terms, absGt t.1 tol = true ∧ t.2 ∉ tgt.strs
    · exact Or.inr (conversionColumn_err ht hm)
    · refine Or.inl ⟨_, conversionColumn_ok ht (fun t ht' hb => ?_)⟩
      by_contra hc
      exact hm ⟨t, ht', hb, hc⟩
  have hcols : fr.strs.zipIdx.mapM (fun e => do
      let r ← convertString e.1 T false
      conversionColumn tgt tol e.2 r.terms) = (.error .keyError : Py (List (List (ℕ × ℕ × K)))) := by
    apply mapM_err
    · intro e he
      have hm : e.1 ∈ fr.strs := (List.mem_zipIdx' he).2 ▸ List.getElem_mem _
      simp only [h e.1 hm, bind, Except.bind]
      exact hcol e.2 e.1 hm
    · obtain ⟨j, hj, rfl⟩ := List.getElem_of_mem hs
      refine ⟨(fr.strs[j], j), List.mk_mem_zipIdx_iff_getElem?.mpr (by simp [hj]), ?_⟩
      simp only [h _ hs, bind, Except.bind]
      exact conversionColumn_err ht ⟨t, hts, hbad⟩
  rw [conversionMatrix, if_neg hlen, hfirst]
  simp only [bind, Except.bind] at hcols ⊢
  rw [hs0T, hcols]

/-- the converted operator: denotation -/
theorem convertOperator_den {A : Operator K} (hA : A.WF) {tgt : OpType} {incl : Bool} (f : OpString → Operator K)
    (h : ∀ s ∈ A.basis.strs, convertString s tgt incl = .ok (f s) ∧ (f s).WF ∧ (f s).opType = tgt) :
    ∃ C, convertOperator A tgt incl = .ok C ∧ C.WF ∧ C.opType = tgt ∧ (∀ s ∈ C.basis.strs, ∃ t ∈ A.basis.strs, s ∈ (f t).basis.strs) ∧
      (∀ s, C.coef s = (A.terms.map (fun t => t.1 * (f t.2).coef s)).sum) ∧
      ∀ {M : Type} [AddCommGroup M] [Module K M] (den : OpString → M), C.den den = (A.terms.map (fun t => t.1 • (f t.2).den den)).sum := by
  obtain ⟨C, h1, h2, h3, h4, h5⟩ := convertOperator_ok hA f h
  refine ⟨C, h1, h2, h3, h4, h5, ?_⟩
  intro M _ _ den
  have key : ∀ ts : List (K × OpString), ∃ L : List (K × OpString), (∀ s, coefT L s = (ts.map (fun t => t.1 * (f t.2).coef s)).sum) ∧
      denT den L = (ts.map (fun t => t.1 • (f t.2).den den)).sum := by
    intro ts
    induction ts with
    | nil => exact ⟨[], by simp, by simp⟩
    | cons t ts ih =>
      obtain ⟨L, l1, l2⟩ := ih
      refine ⟨(f t.2).terms.map (fun u => (t.1 * u.1, u.2)) ++ L, ?_, ?_⟩
      · intro s
        rw [coefT_append, l1, List.map_cons, List.sum_cons]
        congr 1
        rw [Operator.coef, coefT, coefT, List.map_map, ← List.sum_map_mul_left]
        congr 1
        apply List.map_congr_left
        intro u _
        simp only [Function.comp_apply]
        split <;> simp
      · rw [denT_append, l2, List.map_cons, List.sum_cons]
        congr 1
        rw [Operator.den]
        apply denT_smul
        intro s
        rw [coefT, coefT, List.map_map, ← List.sum_map_mul_left]
        congr 1
        apply List.map_congr_left
        intro u _
        simp only [Function.comp_apply]
        split <;> simp
  obtain ⟨L, l1, l2⟩ := key A.terms
  rw [← l2]
  exact denT_congr _ (fun s => by rw [l1, ← h5]; rfl)

theorem Operator.WF.coeffs_mem {A : Operator K} (h : A.WF) {c : K} (hc : c ∈ A.coeffs) : ∃ s ∈ A.basis.strs, A.coef s = c := by
  obtain ⟨i, hi, rfl⟩ := List.getElem_of_mem hc
  have hi' : i < A.basis.strs.length := by rw [← h.len]; exact hi
  refine ⟨A.basis.strs[i], List.getElem_mem hi', ?_⟩
  rw [h.coef_eq, if_pos (List.getElem_mem hi'), h.basis.2.idxOf_getElem i hi', List.getD_eq_getElem _ _ hi]

end Qosy
