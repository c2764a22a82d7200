import Verif.Spec.Spectrum
import Verif.Lemmas.Core
import Verif.Lemmas.GreedyNumerics
import Verif.Lemmas.PauliTrace
import Verif.Props.Conversion

/-! # Lemmas for `diagonalize` -/

namespace Qosy
open Matrix

section
variable {ι : Type} [Fintype ι]

/-- inner product -/
theorem sum_star_comm (v w : ι → ℂ) : ∑ i, star (w i) * v i = star (∑ i, star (v i) * w i) := by
  rw [star_sum]
  refine Finset.sum_congr rfl fun i _ => ?_
  rw [star_mul', star_star, mul_comm]

theorem sum_norm_sq (v : ι → ℂ) : ((∑ i, ‖v i‖ ^ 2 : ℝ) : ℂ) = ∑ i, star (v i) * v i := by
  push_cast
  refine Finset.sum_congr rfl fun i _ => ?_
  exact (Complex.conj_mul' _).symm

theorem sum_star_mulVec {D : Matrix ι ι ℂ} (hD : D.IsHermitian) (v w : ι → ℂ) : ∑ i, star (v i) * (D.mulVec w) i = ∑ i, star (D.mulVec v i) * w i := by
  simp only [Matrix.mulVec, dotProduct, Finset.mul_sum, star_sum, Finset.sum_mul]
  rw [Finset.sum_comm]
  refine Finset.sum_congr rfl fun j _ => Finset.sum_congr rfl fun i _ => ?_
  rw [star_mul', hD.apply i j]
  ring

theorem OrthonormalList.perm {vs ws : List (ι → ℂ)} (h : OrthonormalList vs) (hp : vs.Perm ws) : OrthonormalList ws :=
  ⟨fun v hv => h.1 v (hp.mem_iff.mpr hv), (hp.pairwise_iff (fun {v w} hvw => by rw [sum_star_comm, hvw, star_zero])).mp h.2⟩

theorem BoundsRest.perm {D : Matrix ι ι ℂ} {vs ws : List (ι → ℂ)} {x : ℝ} (h : BoundsRest D vs x) (hp : vs.Perm ws) : BoundsRest D ws x :=
  fun u hu => h u fun v hv => hu v (hp.mem_iff.mp hv)

theorem LowestEigenpairs.perm {D : Matrix ι ι ℂ} {r r' : List (ℝ × (ι → ℂ))} (h : LowestEigenpairs D r) (hp : r.Perm r') : LowestEigenpairs D r' :=
  ⟨h.orthonormal.perm (hp.map _), fun p hp' => h.eigen p (hp.mem_iff.mpr hp'), fun p hp' => (h.lowest p (hp.mem_iff.mpr hp')).perm (hp.map _)⟩

/-- one step of the variational principle -/
theorem bounds_step {D : Matrix ι ι ℂ} (hD : D.IsHermitian) {v : ι → ℂ} {E x : ℝ} (hv : ∑ i, ‖v i‖ ^ 2 = 1) (he : D.mulVec v = (E : ℂ) • v) (hx : x ≤ E)
    {vs : List (ι → ℂ)} (ho : ∀ w ∈ vs, ∑ i, star (w i) * v i = 0) (h : BoundsRest D (v :: vs) x) : BoundsRest D vs x := by
  intro u hu
  set c : ℂ := ∑ i, star (v i) * u i with hc
  set w : ι → ℂ := fun i => u i - c * v i with hw
  have hvv : ∑ i, star (v i) * v i = 1 := by rw [← sum_norm_sq, hv]; simp
  have hvw : ∑ i, star (v i) * w i = 0 := by
    simp only [hw, mul_sub]
    rw [Finset.sum_sub_distrib, ← hc]
    have : ∑ i, star (v i) * (c * v i) = c * ∑ i, star (v i) * v i := by rw [Finset.mul_sum]; exact Finset.sum_congr rfl fun i _ => by ring
    rw [this, hvv, mul_one, sub_self]
  have hwv : ∑ i, star (w i) * v i = 0 := by rw [sum_star_comm, hvw, star_zero]
  have hu' : u = fun i => c * v i + w i := by funext i; simp [hw]
  have hDu : D.mulVec u = fun i => c * E * v i + D.mulVec w i := by
    rw [hu', show (fun i => c * v i + w i) = c • v + w from rfl, Matrix.mulVec_add, Matrix.mulVec_smul, he]
    funext i
    simp [mul_assoc]
  have hvDw : ∑ i, star (v i) * D.mulVec w i = 0 := by
    rw [sum_star_mulVec hD, he]
    have : ∑ i, star (((E : ℂ) • v) i) * w i = E * ∑ i, star (v i) * w i := by
      rw [Finset.mul_sum]
      refine Finset.sum_congr rfl fun i _ => ?_
      simp [mul_assoc]
    rw [this, hvw, mul_zero]
  have e1 : ∑ i, star (u i) * D.mulVec u i = E * ((‖c‖ ^ 2 : ℝ) : ℂ) + ∑ i, star (w i) * D.mulVec w i := by
    rw [hDu, hu']
    have : ∀ i, star (c * v i + w i) * (c * E * v i + D.mulVec w i) = star c * c * E * (star (v i) * v i) + star c * (star (v i) * D.mulVec w i) +
        c * E * (star (w i) * v i) + star (w i) * D.mulVec w i := fun i => by
      rw [star_add, star_mul']; ring
    simp only [this]
    rw [Finset.sum_add_distrib, Finset.sum_add_distrib, Finset.sum_add_distrib, ← Finset.mul_sum, ← Finset.mul_sum, ← Finset.mul_sum, hvv, hvDw, hwv]
    rw [show star c * c = ((‖c‖ ^ 2 : ℝ) : ℂ) by push_cast; exact Complex.conj_mul' c]
    ring
  have e2 : ∑ i, ‖u i‖ ^ 2 = ‖c‖ ^ 2 + ∑ i, ‖w i‖ ^ 2 := by
    have : ((∑ i, ‖u i‖ ^ 2 : ℝ) : ℂ) = ((‖c‖ ^ 2 + ∑ i, ‖w i‖ ^ 2 : ℝ) : ℂ) := by
      rw [sum_norm_sq, Complex.ofReal_add, sum_norm_sq w]
      rw [hu']
      have : ∀ i, star (c * v i + w i) * (c * v i + w i) = star c * c * (star (v i) * v i) + star c * (star (v i) * w i) +
          c * (star (w i) * v i) + star (w i) * w i := fun i => by rw [star_add, star_mul']; ring
      simp only [this]
      rw [Finset.sum_add_distrib, Finset.sum_add_distrib, Finset.sum_add_distrib, ← Finset.mul_sum, ← Finset.mul_sum, ← Finset.mul_sum, hvv, hvw, hwv]
      rw [show star c * c = ((‖c‖ ^ 2 : ℝ) : ℂ) by push_cast; exact Complex.conj_mul' c]
      ring
    exact_mod_cast this
  have hw' : ∀ z ∈ v :: vs, ∑ i, star (z i) * w i = 0 := by
    intro z hz
    rcases List.mem_cons.mp hz with rfl | hz
    · exact hvw
    · simp only [hw, mul_sub]
      rw [Finset.sum_sub_distrib, hu z hz]
      have : ∑ i, star (z i) * (c * v i) = c * ∑ i, star (z i) * v i := by rw [Finset.mul_sum]; exact Finset.sum_congr rfl fun i _ => by ring
      rw [this, ho z hz, mul_zero, sub_zero]
  have := h w hw'
  rw [e1, e2, Complex.add_re, ← Complex.ofReal_mul, Complex.ofReal_re]
  nlinarith [sq_nonneg ‖c‖]

/-- the variational principle -/
theorem LowestEigenpairs.minmax {D : Matrix ι ι ℂ} (hD : D.IsHermitian) {r : List (ℝ × (ι → ℂ))} (h : LowestEigenpairs D r)
    (hs : r.Pairwise fun p q => p.1 ≤ q.1) {j : ℕ} (hj : j < r.length) : BoundsRest D ((r.take j).map Prod.snd) r[j].1 := by
  -- from the end of the list
  have key : ∀ d m, m + d = r.length → j ≤ m → BoundsRest D ((r.take m).map Prod.snd) r[j].1 := by
    intro d
    induction d with
    | zero =>
      intro m hm _
      rw [List.take_of_length_le (by omega)]
      exact h.lowest _ (List.getElem_mem _)
    | succ d ih =>
      intro m hm hjm
      have hmlt : m < r.length := by omega
      have h1 := ih (m + 1) (by omega) (by omega)
      have hperm : ((r.take (m + 1)).map Prod.snd).Perm (r[m].2 :: (r.take m).map Prod.snd) := by
        rw [List.take_succ_eq_append_getElem hmlt, List.map_append]
        exact List.perm_append_comm
      have ho := (h.orthonormal.2.sublist ((List.take_sublist (m + 1) r).map Prod.snd))
      rw [List.take_succ_eq_append_getElem hmlt, List.map_append, List.pairwise_append] at ho
      refine bounds_step hD (h.orthonormal.1 _ (List.mem_map_of_mem (List.getElem_mem hmlt))) (h.eigen _ (List.getElem_mem hmlt)) ?_ ?_ (h1.perm hperm)
      · rcases Nat.lt_or_eq_of_le hjm with hlt | rfl
        · exact (List.pairwise_iff_getElem.mp hs) j m hj hmlt hlt
        · exact le_refl _
      · exact fun w hw => ho.2.2 w hw _ (by simp)
  exact key (r.length - j) j (by omega) le_rfl

/-- vectors over another index set -/
theorem LowestEigenpairs.reindex {κ : Type} [Fintype κ] (e : κ ≃ ι) {D : Matrix ι ι ℂ} {r : List (ℝ × (κ → ℂ))} (h : LowestEigenpairs (D.submatrix e e) r) :
    LowestEigenpairs D (r.map fun p => (p.1, p.2 ∘ e.symm)) := by
  have hsum : ∀ f : ι → ℂ, ∑ i, f i = ∑ k, f (e k) := fun f => (e.sum_comp f).symm
  have hmul : ∀ (u : ι → ℂ) k, D.mulVec u (e k) = (D.submatrix e e).mulVec (u ∘ e) k := fun u k => by
    simp only [Matrix.mulVec, dotProduct, Matrix.submatrix_apply, Function.comp]
    exact hsum _
  refine ⟨⟨?_, ?_⟩, ?_, ?_⟩
  · intro v hv
    simp only [List.map_map, List.mem_map, Function.comp] at hv
    obtain ⟨p, hp, rfl⟩ := hv
    rw [← h.orthonormal.1 p.2 (List.mem_map_of_mem hp), ← e.sum_comp]
    simp
  · rw [List.map_map, List.pairwise_map]
    have := h.orthonormal.2
    rw [List.pairwise_map] at this
    refine this.imp fun {p q} hpq => ?_
    simp only [Function.comp]
    rw [hsum, ← hpq]
    simp
  · intro p hp
    simp only [List.mem_map] at hp
    obtain ⟨q, hq, rfl⟩ := hp
    funext i
    obtain ⟨k, rfl⟩ := e.surjective i
    rw [hmul, show (q.2 ∘ e.symm) ∘ e = q.2 by funext k; simp, h.eigen q hq]
    simp
  · intro p hp
    simp only [List.mem_map] at hp
    obtain ⟨q, hq, rfl⟩ := hp
    intro u hu
    have := h.lowest q hq (u ∘ e) (fun v hv => by
      simp only [List.mem_map] at hv
      obtain ⟨q', hq', rfl⟩ := hv
      have := hu (q'.2 ∘ e.symm) (by simp only [List.map_map, List.mem_map, Function.comp]; exact ⟨q', hq', rfl⟩)
      rw [hsum] at this
      simpa using this)
    rw [hsum (fun i => star (u i) * D.mulVec u i), ← e.sum_comp]
    simpa [hmul] using this

/-- a matrix shifted by a multiple of the identity -/
theorem LowestEigenpairs.shift [DecidableEq ι] {D : Matrix ι ι ℂ} {r : List (ℝ × (ι → ℂ))} (h : LowestEigenpairs D r) (x : ℝ) :
    LowestEigenpairs (D + (x : ℂ) • 1) (r.map fun p => (p.1 + x, p.2)) := by
  have hmap : (r.map fun p => (p.1 + x, p.2)).map Prod.snd = r.map Prod.snd := by rw [List.map_map]; rfl
  have hmul : ∀ u : ι → ℂ, (D + (x : ℂ) • 1).mulVec u = D.mulVec u + (x : ℂ) • u := fun u => by
    rw [Matrix.add_mulVec, Matrix.smul_mulVec, Matrix.one_mulVec]
  refine ⟨by rw [hmap]; exact h.orthonormal, ?_, ?_⟩
  · intro p hp
    obtain ⟨q, hq, rfl⟩ := List.mem_map.mp hp
    rw [hmul, h.eigen q hq, ← add_smul]
    push_cast
    rfl
  · intro p hp
    obtain ⟨q, hq, rfl⟩ := List.mem_map.mp hp
    rw [hmap]
    intro u hu
    have := h.lowest q hq u hu
    have e : ∑ i, star (u i) * (D + (x : ℂ) • 1).mulVec u i = ∑ i, star (u i) * D.mulVec u i + ((x * ∑ i, ‖u i‖ ^ 2 : ℝ) : ℂ) := by
      rw [Complex.ofReal_mul, sum_norm_sq, Finset.mul_sum, ← Finset.sum_add_distrib]
      refine Finset.sum_congr rfl fun i _ => ?_
      rw [hmul]
      simp only [Pi.add_apply, Pi.smul_apply, smul_eq_mul]
      ring
    rw [e, Complex.add_re, Complex.ofReal_re]
    simp only
    linarith

/-- a complete orthonormal set of eigenvectors -/
theorem lowest_of_eigh {n : ℕ} {D : Matrix (Fin n) (Fin n) ℂ} {r : EighResult (Fin n) n} (h : IsEigh D r) :
    LowestEigenpairs D (List.ofFn fun k => (r.evals k, fun i => r.evecs i k)) := by
  have hin := h.inner
  refine ⟨⟨?_, ?_⟩, ?_, ?_⟩
  · intro v hv
    simp only [List.map_ofFn, List.mem_ofFn] at hv
    obtain ⟨k, rfl⟩ := hv
    have := hin k k
    rw [if_pos rfl, ← sum_norm_sq (fun i => r.evecs i k)] at this
    exact_mod_cast this
  · rw [List.map_ofFn, List.pairwise_ofFn]
    intro i j hij
    have := hin i j
    rwa [if_neg hij.ne] at this
  · intro p hp
    rw [List.mem_ofFn] at hp
    obtain ⟨k, rfl⟩ := hp
    exact h.column k
  · intro p hp u hu
    have h0 : r.evecsᴴ *ᵥ u = 0 := by
      funext k
      exact hu (fun i => r.evecs i k) (by simp only [List.map_ofFn, List.mem_ofFn]; exact ⟨k, rfl⟩)
    have : u = 0 := by
      have := congrArg (r.evecs *ᵥ ·) h0
      simpa [Matrix.mulVec_mulVec, h.complete] using this
    subst this
    simp

end

/-! ### sorting -/

theorem sortEigenpairs_ok {n : ℕ} {argsort : List ℝ → List ℕ}
    (h : ∀ l : List ℝ, (argsort l).Perm (List.range l.length) ∧ (argsort l).Pairwise fun i j => l.getD i 0 ≤ l.getD j 0) (r : List (ℝ × (Fin n → ℂ))) :
    ∃ r', sortEigenpairs argsort r = .ok r' ∧ r.Perm r' ∧ r'.Pairwise fun p q => p.1 ≤ q.1 := by
  obtain ⟨h1, h2⟩ := h (r.map Prod.fst)
  rw [List.length_map] at h1
  have hlt : ∀ i ∈ argsort (r.map Prod.fst), i < r.length := fun i hi => List.mem_range.mp (h1.mem_iff.mp hi)
  refine ⟨(argsort (r.map Prod.fst)).map fun i => r.getD i (0, 0), ?_, ?_, ?_⟩
  · rw [sortEigenpairs]
    refine mapM_ok fun i hi => ?_
    rw [pyGet, List.getElem?_eq_getElem (hlt i hi), List.getD_eq_getElem _ _ (hlt i hi)]
  · refine List.Perm.trans ?_ (h1.symm.map _)
    refine List.Perm.of_eq ?_
    apply List.ext_getElem (by simp)
    intro i hi _
    simp [List.getElem?_eq_getElem hi]
  · rw [List.pairwise_map]
    refine h2.imp_of_mem fun {i j} hi hj hij => ?_
    rw [List.getD_eq_getElem _ _ (by simpa using hlt i hi), List.getD_eq_getElem _ _ (by simpa using hlt j hj), List.getElem_map, List.getElem_map] at hij
    rwa [List.getD_eq_getElem _ _ (hlt i hi), List.getD_eq_getElem _ _ (hlt j hj)]

/-! ### conversion to Pauli strings -/

section
variable {n : ℕ}

/-- the conversion of a Fermion string does not contain the identity -/
theorem fermion_pauli_strings {s : OpString} (h : FermionString (jwLabels (siteLabels n)) s) (hf : FermionConvertible s false) {O : Operator ℂ}
    (hO : convertString s .pauli false = .ok O) : ∀ M ∈ O.basis.strs, PauliString (siteLabels n) M ∧ M.Canonical ∧ M ≠ identityString .pauli := by
  obtain ⟨f1, f2, f3⟩ := hf
  obtain ⟨Q, k, k1, k2, k3, k4, kb, k5, k6⟩ := convertFermionString_ok (K := ℂ) h false f1 f2 f3
  have hts : Q.terms.map Prod.snd = Q.basis.strs := by
    rw [Operator.terms]; exact List.map_snd_zip (by rw [k3.len])
  obtain ⟨ps, p1, p2, p3, p4, p5⟩ := jwTerms_ok (K := ℂ) (S := siteLabels n) Q.terms (by rw [hts]; exact k3.basis.2) (fun t ht => by
    have := k4 t.2 (by rw [← hts]; exact List.mem_map_of_mem ht)
    exact ⟨this.1, this.2.1⟩)
  have hty : ∀ s ∈ ps.map Prod.snd, s.opType = .pauli := by
    intro s hs
    obtain ⟨p, hp, rfl⟩ := List.mem_map.mp hs
    exact (p3 p hp).1.type
  unfold convertString at hO
  rw [if_neg (by rw [h.type]; simp)] at hO
  simp only [h.type, k1, bind, Except.bind, p1] at hO
  rw [mkOperator_ok p2 hty] at hO
  simp only [Except.ok.injEq] at hO
  subst hO
  intro M hM
  obtain ⟨p, hp, rfl⟩ := List.mem_map.mp hM
  refine ⟨(p3 p hp).1, (p3 p hp).2, fun hid => ?_⟩
  obtain ⟨t, ht, ⟨c, hc⟩, -⟩ := p4 p hp
  have hm := k4 t.2 (by rw [← hts]; exact List.mem_map_of_mem ht)
  have hI : MajoranaString (jwLabels (siteLabels n)) (identityString .majorana) ∧ (identityString .majorana).Canonical :=
    ⟨⟨rfl, by simp [identityString], rfl, by simp [identityString], by simp [identityString], by simp [identityString]⟩, by simp [identityString], Or.inr rfl⟩
  have hden : (waveOn ℂ (siteLabels n)).jordanWigner.den (identityString .majorana) = 1 := by
    simp [MajoranaRep.den, identityString, wordProd, Pref.val]
  rw [hid, PauliRep.den_identity, ← hden] at hc
  have := (waveOn ℂ (siteLabels n)).jordanWigner.strAlg.same_string hI.1 hm.1 hI.2 hm.2.1 hc
  exact hm.2.2 rfl (by rw [← this.1]; rfl)

theorem trace_denT_zero {ts : List (ℂ × OpString)} (h : ∀ t ∈ ts, PauliString (siteLabels n) t.2 ∧ t.2.Canonical ∧ t.2 ≠ identityString .pauli) :
    (denT (matRep ℂ n).den ts).trace = 0 := by
  induction ts with
  | nil => simp
  | cons t ts ih =>
    obtain ⟨a, b, c⟩ := h t List.mem_cons_self
    rw [denT_cons, Matrix.trace_add, Matrix.trace_smul, trace_den a b c, smul_zero, zero_add, ih fun t ht => h t (List.mem_cons_of_mem _ ht)]

theorem foldlM_congr' {α β : Type} {f g : β → α → Py β} : ∀ {l : List α} (b : β), (∀ x ∈ l, ∀ b, f b x = g b x) → l.foldlM f b = l.foldlM g b
  | [], _, _ => rfl
  | x :: l, b, h => by
    rw [List.foldlM_cons, List.foldlM_cons, h x List.mem_cons_self]
    cases g b x with
    | error _ => rfl
    | ok c => exact foldlM_congr' c fun y hy => h y (List.mem_cons_of_mem _ hy)

/-- without Fermion strings `include_identity` has no effect -/
theorem convertOperator_pauli_incl {A : Operator ℂ} (h : ∀ s ∈ A.basis.strs, s.opType ≠ .fermion) :
    convertOperator A .pauli false = convertOperator A .pauli true := by
  rw [convertOperator, convertOperator]
  congr 1
  funext zero
  refine foldlM_congr' zero fun i _ b => ?_
  cases hc : pyGet A.coeffs i with
  | error _ => rfl
  | ok c =>
    cases hs : pyGet A.basis.strs i with
    | error _ => rfl
    | ok s =>
      have hmem : s ∈ A.basis.strs := by
        rw [pyGet] at hs
        cases hi : A.basis.strs[i]? with
        | none => rw [hi] at hs; exact absurd hs (by simp)
        | some s' =>
          rw [hi] at hs
          rw [← Except.ok.inj hs]
          exact List.mem_of_getElem? hi
      have : (convertString s .pauli false : Py (Operator ℂ)) = convertString s .pauli true := by
        unfold convertString
        by_cases h1 : s.opType = .pauli
        · rw [if_pos h1, if_pos h1]
        · rw [if_neg h1, if_neg h1]
          cases h2 : s.opType with
          | fermion => exact absurd h2 (h s hmem)
          | pauli => rfl
          | majorana => rfl
          | other _ => rfl
      simp only [bind, Except.bind, this]

/-- the conversion in `diagonalize` -/
theorem convertOperator_pauli {A : Operator ℂ} (hA : A.WF) (hs : ∀ s ∈ A.basis.strs, ValidString (jwLabels (siteLabels n)) s)
    (hf : ∀ s ∈ A.basis.strs, s.opType = .fermion → FermionConvertible s false) :
    ∃ (C : Operator ℂ) (k : ℂ), convertOperator A .pauli false = .ok C ∧ (∀ M ∈ C.basis.strs, PauliString (siteLabels n) M) ∧
      A.den (matRep ℂ n).anyDen = C.den (matRep ℂ n).den + k • 1 ∧ (A.opType ≠ .fermion → k = 0) ∧
      (A.opType = .fermion → k = (A.den (matRep ℂ n).anyDen).trace / 2 ^ n) := by
  have hH : (matRep ℂ n).Hermitian := matRep_star ℂ n
  have hany : ∀ C : Operator ℂ, C.opType = .pauli → C.WF → (∀ M ∈ C.basis.strs, ValidString (siteLabels n) M) →
      (∀ M ∈ C.basis.strs, PauliString (siteLabels n) M) ∧ C.den (matRep ℂ n).anyDen = C.den (matRep ℂ n).den := fun C h1 h2 h3 => by
    refine ⟨fun M hM => ?_, Operator.den_congr fun x hx => by simp only [PauliRep.anyDen, h2.type x hx, h1]⟩
    rcases h3 M hM with h | h | h
    · exact h
    · exact absurd (h.type.symm.trans ((h2.type M hM).trans h1)) (by simp)
    · exact absurd (h.type.symm.trans ((h2.type M hM).trans h1)) (by simp)
  by_cases hfer : A.opType = .fermion
  · obtain ⟨C, k, h1, h2, h3, h4, -, h6⟩ := C32_operator (K := ℂ) hA hs (Or.inl rfl) false (fun s hs' ht _ => hf s hs' ht)
    obtain ⟨g1, g2⟩ := hany C h2 h3 h4
    have hden := h6 (matRep ℂ n) hH
    rw [g2] at hden
    refine ⟨C, k, h1, g1, hden, fun h => absurd hfer h, fun _ => ?_⟩
    have hex : ∀ s : OpString, ∃ O : Operator ℂ, s ∈ A.basis.strs → convertString s .pauli false = .ok O ∧ O.WF ∧ O.opType = .pauli := fun s => by
      by_cases h : s ∈ A.basis.strs
      · obtain ⟨O, k, o1, o2, o3, -⟩ := C32_string (K := ℂ) (hs s h) (Or.inl rfl) false (fun ht _ => hf s h ht)
        exact ⟨O, fun _ => ⟨o1, o3, o2⟩⟩
      · exact ⟨⟨[], Basis.ofList [], .pauli⟩, fun h' => absurd h' h⟩
    choose f hfs using hex
    obtain ⟨C', c1, -, -, c4, -⟩ := convertOperator_ok hA f hfs
    rw [h1] at c1
    have hCC := Except.ok.inj c1
    subst hCC
    have htr : (C.den (matRep ℂ n).den).trace = 0 := by
      refine trace_denT_zero fun t ht => ?_
      obtain ⟨u, hu, hm⟩ := c4 t.2 (List.of_mem_zip ht).2
      have hut : u.opType = .fermion := (hA.type u hu).trans hfer
      refine fermion_pauli_strings ?_ (hf u hu hut) (hfs u hu).1 t.2 hm
      rcases hs u hu with h | h | h
      · exact absurd (h.type.symm.trans hut) (by simp)
      · exact absurd (h.type.symm.trans hut) (by simp)
      · exact h
    rw [hden, Matrix.trace_add, htr, zero_add, Matrix.trace_smul, trace_one_cfg, smul_eq_mul, mul_div_cancel_right₀ _ (pow_ne_zero _ two_ne_zero)]
  · obtain ⟨C, k, h1, h2, h3, h4, h5, h6⟩ := C32_operator (K := ℂ) hA hs (Or.inl rfl) true (fun s hs' ht _ => absurd ((hA.type s hs').symm.trans ht) hfer)
    obtain ⟨g1, g2⟩ := hany C h2 h3 h4
    have hden := h6 (matRep ℂ n) hH
    rw [g2] at hden
    rw [← convertOperator_pauli_incl fun s hs' ht => hfer ((hA.type s hs').symm.trans ht)] at h1
    exact ⟨C, k, h1, g1, hden, fun _ => h5 rfl, fun h => absurd h hfer⟩

/-- the number added to the energies is real for Hermitian operators -/
theorem shift_real {H : Matrix (Cfg n) (Cfg n) ℂ} (hH : H.IsHermitian) : star (H.trace / 2 ^ n) = H.trace / 2 ^ n := by
  rw [star_div₀, ← Matrix.trace_conjTranspose, hH.eq, star_pow, star_ofNat]

/-- positions of the matrix are configurations -/
theorem toarray_submatrix {M : Mat ℂ} {D : Matrix (Cfg n) (Cfg n) ℂ} (hM : IsMatrixOf n M D) :
    ∃ e : Fin M.ncols ≃ Cfg n, M.toarray = D.submatrix e e ∧ ∀ x : Fin M.ncols → ℂ, IsState n (List.ofFn x) (x ∘ e.symm) := by
  refine ⟨(finCongr hM.ncols).trans (cfgEquiv n), ?_, fun x => ⟨by simp [hM.ncols], fun k hk => ?_⟩⟩
  · ext i j
    exact hM.entries i j (by rw [← hM.ncols]; exact i.2) (by rw [← hM.ncols]; exact j.2)
  · have hk' : k < M.ncols := by rw [hM.ncols]; exact hk
    rw [List.getElem?_eq_getElem (by simpa using hk')]
    simp only [List.getElem_ofFn, Option.some.injEq, Function.comp]
    congr 1
    rw [Equiv.eq_symm_apply]
    rfl

end
end Qosy
