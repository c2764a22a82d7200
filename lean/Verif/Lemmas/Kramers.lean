import Verif.Lemmas.StateSymmetry
import Verif.Lemmas.Energies
import Mathlib.LinearAlgebra.Matrix.ToLinearEquiv
import Mathlib.LinearAlgebra.Matrix.NonsingularInverse

/-!
# Time reversal of states
-/

namespace Qosy
open Matrix
variable {n : ℕ}

/-- the sign of a configuration -/
def Cfg.parity (σ : Cfg n) : ℂ := ∏ k, if σ k then -1 else 1

/-- all spins flipped -/
def Cfg.opposite (σ : Cfg n) : Cfg n := fun k => !σ k

/-- time reversal of a state -/
noncomputable def reverseState (ψ : Cfg n → ℂ) : Cfg n → ℂ := fun σ => σ.parity * star (ψ σ.opposite)

theorem Cfg.opposite_opposite (σ : Cfg n) : σ.opposite.opposite = σ := by
  funext k
  simp [Cfg.opposite]

theorem Cfg.parity_star (σ : Cfg n) : star σ.parity = σ.parity := by
  simp only [Cfg.parity, star_prod]
  exact Finset.prod_congr rfl fun k _ => by split <;> simp

theorem Cfg.parity_opposite (σ : Cfg n) : σ.parity * σ.opposite.parity = (-1) ^ n := by
  rw [Cfg.parity, Cfg.parity, ← Finset.prod_mul_distrib, Finset.prod_congr rfl (g := fun _ => (-1 : ℂ)) fun k _ => by cases h : σ k <;> simp [Cfg.opposite, h]]
  simp

theorem reverseState_twice (ψ : Cfg n → ℂ) : reverseState (reverseState ψ) = (-1 : ℂ) ^ n • ψ := by
  funext σ
  simp only [reverseState, star_mul', star_star, Cfg.parity_star, Cfg.opposite_opposite, Pi.smul_apply, smul_eq_mul]
  rw [← mul_assoc, Cfg.parity_opposite]

theorem reverseState_smul (c : ℂ) (ψ : Cfg n → ℂ) : reverseState (c • ψ) = star c • reverseState ψ := by
  funext σ
  simp only [reverseState, Pi.smul_apply, smul_eq_mul, star_mul']
  ring

theorem reverseState_add (φ ψ : Cfg n → ℂ) : reverseState (φ + ψ) = reverseState φ + reverseState ψ := by
  funext σ
  simp only [reverseState, Pi.add_apply, star_add, mul_add]

theorem reverseState_zero : reverseState (0 : Cfg n → ℂ) = 0 := by
  funext σ
  simp [reverseState]

theorem mono_mulVec (f : Cfg n → Cfg n) (c : Cfg n → ℂ) (ψ : Cfg n → ℂ) (σ : Cfg n) : (mono f c).mulVec ψ σ = c σ * ψ (f σ) := by
  rw [Matrix.mulVec, dotProduct, Finset.sum_eq_single (f σ)]
  · simp [mono]
  · intro b _ hb
    simp [mono, hb]
  · simp

theorem Cfg.opposite_flip (i : ℤ) (σ : Cfg n) : Cfg.opposite (Cfg.flip i σ) = Cfg.flip i σ.opposite := by
  funext k
  simp only [Cfg.opposite, Cfg.flip]
  split <;> rfl

theorem Cfg.bit_opposite {i : ℤ} (hi : i ∈ siteLabels n) (σ : Cfg n) : Cfg.bit i σ.opposite = !Cfg.bit i σ := by
  have : 0 ≤ i ∧ i < n := hi
  simp [Cfg.bit, Cfg.opposite, this]

theorem Cfg.parity_flip {i : ℤ} (hi : i ∈ siteLabels n) (σ : Cfg n) : (Cfg.flip i σ).parity = -σ.parity := by
  have h : 0 ≤ i ∧ i < n := hi
  have hk : ((⟨i.toNat, by omega⟩ : Fin n) : ℤ) = i := by simp; omega
  rw [Cfg.parity, Cfg.parity, ← Finset.mul_prod_erase _ _ (Finset.mem_univ (⟨i.toNat, by omega⟩ : Fin n)),
    ← Finset.mul_prod_erase (f := fun k => if σ k = true then (-1 : ℂ) else 1) _ (Finset.mem_univ (⟨i.toNat, by omega⟩ : Fin n)), ← neg_mul]
  congr 1
  · rw [Cfg.flip, if_pos hk]
    cases σ ⟨i.toNat, _⟩ <;> simp
  · refine Finset.prod_congr rfl fun k hk' => ?_
    have : (k : ℤ) ≠ i := fun e => (Finset.ne_of_mem_erase hk') (Fin.ext (by simp; omega))
    simp [Cfg.flip, this]

/-- one Pauli operator changes its sign under time reversal -/
theorem site_reverse {o : Op} (ho : o = .X ∨ o = .Y ∨ o = .Z) {i : ℤ} (hi : i ∈ siteLabels n) (ψ : Cfg n → ℂ) :
    ((matRep ℂ n).site o i).mulVec (reverseState ψ) = -reverseState (((matRep ℂ n).site o i).mulVec ψ) := by
  have hI : star (CoefOps.I : ℂ) = -CoefOps.I := Complex.conj_I
  funext σ
  rcases ho with rfl | rfl | rfl
  · simp only [PauliRep.site, matRep, matX, mono_mulVec, reverseState, Pi.neg_apply, Cfg.parity_flip hi, Cfg.opposite_flip, one_mul]
    ring
  · simp only [PauliRep.site, matRep, matY, mono_mulVec, reverseState, Pi.neg_apply, Cfg.parity_flip hi, Cfg.opposite_flip, Cfg.bit_opposite hi, star_mul']
    cases Cfg.bit i σ <;> simp [hI] <;> ring
  · simp only [PauliRep.site, matRep, matZ, mono_mulVec, reverseState, Pi.neg_apply, Cfg.bit_opposite hi, star_mul']
    cases Cfg.bit i σ <;> simp <;> ring

theorem word_reverse (ψ : Cfg n → ℂ) : ∀ (ops : List Op) (ls : List ℤ), ops.length = ls.length → (∀ o ∈ ops, o = .X ∨ o = .Y ∨ o = .Z) → (∀ l ∈ ls, l ∈ siteLabels n) →
    (wordProd (matRep ℂ n).site ops ls).mulVec (reverseState ψ) = (-1 : ℂ) ^ ops.length • reverseState ((wordProd (matRep ℂ n).site ops ls).mulVec ψ)
  | [], [], _, _, _ => by simp [wordProd]
  | o :: ops, l :: ls, hl, ho, hm => by
    rw [wordProd, ← mulVec_mulVec, word_reverse ψ ops ls (by simpa using hl) (fun o h => ho o (List.mem_cons_of_mem _ h)) (fun l h => hm l (List.mem_cons_of_mem _ h)),
      mulVec_smul, site_reverse (ho o (List.mem_cons_self ..)) (hm l (List.mem_cons_self ..)), mulVec_mulVec, List.length_cons, pow_succ]
    module

theorem den_reverse {s : OpString} (hs : PauliString (siteLabels n) s) (ψ : Cfg n → ℂ) :
    ((matRep ℂ n).den s).mulVec (reverseState ψ) = (-1 : ℂ) ^ s.ops.length • reverseState (((matRep ℂ n).den s).mulVec ψ) := by
  have hp : (s.pref.val : ℂ) = 1 := by
    have := hs.pref
    cases h : s.pref <;> simp_all [Pref.val]
  rw [PauliRep.den, hp, one_smul]
  exact word_reverse ψ _ _ hs.len hs.ops hs.mem

theorem reverseState_sum {ι : Type} (s : Finset ι) (f : ι → Cfg n → ℂ) : reverseState (∑ k ∈ s, f k) = ∑ k ∈ s, reverseState (f k) := by
  classical
  induction s using Finset.induction_on with
  | empty => simp [reverseState_zero]
  | insert a s ha ih => rw [Finset.sum_insert ha, Finset.sum_insert ha, reverseState_add, ih]

/-- on an odd number of sites the form `⟨φ, θψ⟩` is antisymmetric -/
theorem reverseState_antisymm (hn : Odd n) (φ ψ : Cfg n → ℂ) : ∑ σ, star (φ σ) * reverseState ψ σ = -∑ σ, star (ψ σ) * reverseState φ σ := by
  let e : Cfg n ≃ Cfg n := ⟨Cfg.opposite, Cfg.opposite, Cfg.opposite_opposite, Cfg.opposite_opposite⟩
  rw [← Equiv.sum_comp e, ← Finset.sum_neg_distrib]
  refine Finset.sum_congr rfl fun σ _ => ?_
  have h1 : σ.opposite.parity = -σ.parity := by
    have h := Cfg.parity_opposite σ
    have h2 : σ.parity * σ.parity = 1 := by
      rw [Cfg.parity, ← Finset.prod_mul_distrib]
      exact Finset.prod_eq_one fun k _ => by split <;> norm_num
    rw [hn.neg_one_pow] at h
    calc σ.opposite.parity = σ.parity * σ.parity * σ.opposite.parity := by rw [h2, one_mul]
      _ = -σ.parity := by rw [mul_assoc, h, mul_neg_one]
  show star (φ σ.opposite) * (σ.opposite.parity * star (ψ σ.opposite.opposite)) = -(star (ψ σ) * (σ.parity * star (φ σ.opposite)))
  rw [Cfg.opposite_opposite, h1]
  ring

/-- Kramers: on an odd number of sites every eigenvalue of a time reversal symmetric matrix has even multiplicity -/
theorem kramers_even {D : Matrix (Cfg n) (Cfg n) ℂ} {r : List (ℝ × (Cfg n → ℂ))} (hr : LowestEigenpairs D r) (hn : Odd n)
    (hD : ∀ ψ, D.mulVec (reverseState ψ) = reverseState (D.mulVec ψ)) (hH : D.IsHermitian)
    (hc : ∀ u : Cfg n → ℂ, (∀ p ∈ r, ∑ σ, star (p.2 σ) * u σ = 0) → u = 0) (E : ℝ) : Even (Fintype.card {k : Fin r.length // r[k].1 = E}) := by
  classical
  by_contra hodd
  rw [Nat.not_even_iff_odd] at hodd
  let I := {k : Fin r.length // r[k].1 = E}
  let M : Matrix I I ℂ := fun k l => ∑ σ, star (r[l.1].2 σ) * reverseState r[k.1].2 σ
  have hM : Mᵀ = -M := by
    ext k l
    exact reverseState_antisymm hn _ _
  have hdet : M.det = 0 := by
    have h := Matrix.det_transpose M
    rw [hM, Matrix.det_neg, hodd.neg_one_pow, neg_one_mul] at h
    exact self_eq_neg.mp h.symm
  have hfam := hr.orthonormal.family
  have hexp : ∀ k : I, reverseState r[k.1].2 = ∑ l : I, M k l • r[l.1].2 := by
    intro k
    rw [← sub_eq_zero]
    apply hc
    intro p hp
    obtain ⟨j, hj, rfl⟩ := List.mem_iff_getElem.mp hp
    have e1 : ∑ σ, star (r[j].2 σ) * (reverseState r[k.1].2 - ∑ l : I, M k l • r[l.1].2) σ =
        ∑ σ, star (r[j].2 σ) * reverseState r[k.1].2 σ - ∑ l : I, M k l * ∑ σ, star (r[j].2 σ) * r[l.1].2 σ := by
      simp only [Pi.sub_apply, Finset.sum_apply, Pi.smul_apply, smul_eq_mul, mul_sub, Finset.sum_sub_distrib, Finset.mul_sum]
      congr 1
      rw [Finset.sum_comm]
      exact Finset.sum_congr rfl fun _ _ => Finset.sum_congr rfl fun _ _ => by ring
    rw [e1]
    have e2 : ∀ l : I, ∑ σ, star (r[j].2 σ) * r[l.1].2 σ = if (⟨j, hj⟩ : Fin r.length) = l.1 then 1 else 0 := fun l => hfam ⟨j, hj⟩ l.1
    simp only [e2]
    by_cases hE : r[j].1 = E
    · rw [Finset.sum_eq_single (⟨⟨j, hj⟩, hE⟩ : I)]
      · rw [if_pos rfl, mul_one]
        exact sub_self _
      · intro l _ hl
        rw [if_neg (fun e => hl (Subtype.ext e.symm)), mul_zero]
      · intro h
        exact absurd (Finset.mem_univ _) h
    · have e3 : ∑ l : I, M k l * (if (⟨j, hj⟩ : Fin r.length) = l.1 then (1 : ℂ) else 0) = 0 := Finset.sum_eq_zero fun l _ => by
        rw [if_neg (fun e => hE (by have := l.2; rw [← e] at this; exact this)), mul_zero]
      rw [e3, sub_zero]
      have a1 : D.mulVec (reverseState r[k.1].2) = (E : ℂ) • reverseState r[k.1].2 := by
        have b : D.mulVec r[k.1].2 = (r[k.1].1 : ℂ) • r[k.1].2 := hr.eigen _ (List.getElem_mem k.1.2)
        rw [hD, b, reverseState_smul, k.2]
        simp
      have a2 := hr.eigen _ (List.getElem_mem hj)
      have a3 : ∑ σ, star (r[j].2 σ) * D.mulVec (reverseState r[k.1].2) σ = ∑ σ, star (D.mulVec r[j].2 σ) * reverseState r[k.1].2 σ := by
        have : star r[j].2 ⬝ᵥ D.mulVec (reverseState r[k.1].2) = star (D.mulVec r[j].2) ⬝ᵥ reverseState r[k.1].2 := by
          rw [Matrix.star_mulVec, hH.eq, Matrix.dotProduct_mulVec]
        exact this
      rw [a1, a2] at a3
      have a4 : ((E : ℂ) - (r[j].1 : ℂ)) * ∑ σ, star (r[j].2 σ) * reverseState r[k.1].2 σ = 0 := by
        rw [sub_mul, Finset.mul_sum, Finset.mul_sum, sub_eq_zero]
        refine Eq.trans (Finset.sum_congr rfl fun σ _ => ?_) (a3.trans (Finset.sum_congr rfl fun σ _ => ?_))
        · simp only [Pi.smul_apply, smul_eq_mul]; ring
        · simp only [Pi.smul_apply, smul_eq_mul, star_mul', Complex.star_def, Complex.conj_ofReal]; ring
      rcases mul_eq_zero.mp a4 with h | h
      · exact absurd (Complex.ofReal_injective (sub_eq_zero.mp h)).symm hE
      · exact h
  obtain ⟨x, hx, hx0⟩ := Matrix.exists_vecMul_eq_zero_iff.mpr hdet
  have h1 : ∑ k : I, x k • reverseState r[k.1].2 = 0 := by
    simp only [hexp, Finset.smul_sum]
    rw [Finset.sum_comm]
    refine Finset.sum_eq_zero fun l _ => ?_
    simp only [smul_smul]
    rw [← Finset.sum_smul]
    have := congrFun hx0 l
    rw [show ∑ k : I, x k * M k l = 0 from this, zero_smul]
  have h2 : reverseState (∑ k : I, star (x k) • r[k.1].2) = 0 := by
    rw [reverseState_sum, ← h1]
    exact Finset.sum_congr rfl fun k _ => by rw [reverseState_smul, star_star]
  have h3 : ∑ k : I, star (x k) • r[k.1].2 = 0 := by
    have h := reverseState_twice (∑ k : I, star (x k) • r[k.1].2)
    rw [h2, reverseState_zero, hn.neg_one_pow] at h
    simpa using h.symm
  apply hx
  funext l
  have h4 : ∑ σ, star (r[l.1].2 σ) * (∑ k : I, star (x k) • r[k.1].2) σ = star (x l) := by
    simp only [Finset.sum_apply, Pi.smul_apply, smul_eq_mul, Finset.mul_sum]
    rw [Finset.sum_comm, Finset.sum_eq_single l]
    · have := hfam l.1 l.1
      rw [if_pos rfl] at this
      calc _ = star (x l) * ∑ σ, star (r[l.1].2 σ) * r[l.1].2 σ := by
            rw [Finset.mul_sum]; exact Finset.sum_congr rfl fun _ _ => by ring
        _ = star (x l) := by rw [this, mul_one]
    · intro k _ hk
      have := hfam l.1 k.1
      rw [if_neg (fun e => hk (Subtype.ext e.symm))] at this
      calc _ = star (x k) * ∑ σ, star (r[l.1].2 σ) * r[k.1].2 σ := by
            rw [Finset.mul_sum]; exact Finset.sum_congr rfl fun _ _ => by ring
        _ = 0 := by rw [this, mul_zero]
    · intro h
      exact absurd (Finset.mem_univ _) h
  rw [h3] at h4
  simpa using h4.symm

section
variable {ι : Type} [Fintype ι] [DecidableEq ι] {D : Matrix ι ι ℂ} {r : List (ℝ × (ι → ℂ))}

/-- an eigenvector is a combination of the eigenvectors with the same eigenvalue -/
theorem eigenspace_expand (hr : LowestEigenpairs D r) (hH : D.IsHermitian) (hc : ∀ u : ι → ℂ, (∀ p ∈ r, star p.2 ⬝ᵥ u = 0) → u = 0) {E : ℝ} {u : ι → ℂ}
    (hu : D.mulVec u = (E : ℂ) • u) : u = ∑ l : {k : Fin r.length // r[k].1 = E}, (star r[l.1].2 ⬝ᵥ u) • r[l.1].2 := by
  rw [← sub_eq_zero]
  apply hc
  intro p hp
  obtain ⟨j, hj, rfl⟩ := List.mem_iff_getElem.mp hp
  have e2 : ∀ l : {k : Fin r.length // r[k].1 = E}, star r[j].2 ⬝ᵥ r[l.1].2 = if (⟨j, hj⟩ : Fin r.length) = l.1 then 1 else 0 := fun l => hr.orthonormal.family ⟨j, hj⟩ l.1
  rw [dotProduct_sub, dotProduct_sum]
  simp only [dotProduct_smul, smul_eq_mul, e2]
  by_cases hE : r[j].1 = E
  · rw [Finset.sum_eq_single (⟨⟨j, hj⟩, hE⟩ : {k : Fin r.length // r[k].1 = E})]
    · rw [if_pos rfl, mul_one]
      exact sub_self _
    · intro l _ hl
      rw [if_neg (fun e => hl (Subtype.ext e.symm)), mul_zero]
    · intro h
      exact absurd (Finset.mem_univ _) h
  · rw [Finset.sum_eq_zero fun l _ => by
      rw [if_neg (fun e => hE (by have := l.2; rw [← e] at this; exact this)), mul_zero], sub_zero]
    have a2 := hr.eigen _ (List.getElem_mem hj)
    have a3 : star r[j].2 ⬝ᵥ D.mulVec u = star (D.mulVec r[j].2) ⬝ᵥ u := by
      rw [Matrix.star_mulVec, hH.eq, Matrix.dotProduct_mulVec]
    rw [hu, a2, dotProduct_smul, star_smul, smul_dotProduct, smul_eq_mul, smul_eq_mul, Complex.star_def, Complex.conj_ofReal, ← sub_eq_zero, ← sub_mul] at a3
    rcases mul_eq_zero.mp a3 with h | h
    · exact absurd (Complex.ofReal_injective (sub_eq_zero.mp h)).symm hE
    · exact h

/-- two anticommuting square roots of one that commute with a matrix make the multiplicities of its eigenvalues even -/
theorem anticommuting_even {X Y : Matrix ι ι ℂ} (hr : LowestEigenpairs D r) (hH : D.IsHermitian) (hc : ∀ u : ι → ℂ, (∀ p ∈ r, star p.2 ⬝ᵥ u = 0) → u = 0)
    (hX : X * X = 1) (hY : Y * Y = 1) (hXD : D * X = X * D) (hYD : D * Y = Y * D) (hXY : X * Y = -(Y * X)) (E : ℝ) :
    Even (Fintype.card {k : Fin r.length // r[k].1 = E}) := by
  let I := {k : Fin r.length // r[k].1 = E}
  let c : Matrix ι ι ℂ → Matrix I I ℂ := fun W k l => star r[k.1].2 ⬝ᵥ W.mulVec r[l.1].2
  have heig : ∀ k : I, D.mulVec r[k.1].2 = (E : ℂ) • r[k.1].2 := fun k => by
    have : D.mulVec r[k.1].2 = (r[k.1].1 : ℂ) • r[k.1].2 := hr.eigen _ (List.getElem_mem k.1.2)
    rw [this, k.2]
  have hmul : ∀ V W : Matrix ι ι ℂ, D * W = W * D → c V * c W = c (V * W) := by
    intro V W hW
    ext k m
    have hx := eigenspace_expand hr hH hc (E := E) (u := W.mulVec r[m.1].2) (by
      rw [mulVec_mulVec, hW, ← mulVec_mulVec, heig m, mulVec_smul])
    show ∑ l : I, c V k l * c W l m = star r[k.1].2 ⬝ᵥ (V * W).mulVec r[m.1].2
    rw [← mulVec_mulVec]
    conv_rhs => rw [hx]
    rw [mulVec_sum, dotProduct_sum]
    refine Finset.sum_congr rfl fun l _ => ?_
    rw [mulVec_smul, dotProduct_smul, smul_eq_mul, mul_comm]
  have hone : c 1 = 1 := by
    ext k l
    show star r[k.1].2 ⬝ᵥ (1 : Matrix ι ι ℂ).mulVec r[l.1].2 = _
    rw [one_mulVec, Matrix.one_apply]
    refine Eq.trans (hr.orthonormal.family k.1 l.1) ?_
    by_cases h : k = l
    · rw [h, if_pos rfl, if_pos rfl]
    · rw [if_neg h, if_neg (fun e => h (Subtype.ext e))]
  have hneg : ∀ W, c (-W) = -c W := fun W => by
    ext k l
    show star r[k.1].2 ⬝ᵥ (-W).mulVec r[l.1].2 = -(star r[k.1].2 ⬝ᵥ W.mulVec r[l.1].2)
    rw [neg_mulVec, dotProduct_neg]
  have h1 : c X * c Y = -(c Y * c X) := by rw [hmul _ _ hYD, hmul _ _ hXD, hXY, hneg]
  have hne : ∀ W : Matrix ι ι ℂ, W * W = 1 → D * W = W * D → (c W).det ≠ 0 := fun W hW hWD h => by
    have := congrArg Matrix.det (hmul W W hWD)
    rw [hW, hone, Matrix.det_mul, h, zero_mul, Matrix.det_one] at this
    exact zero_ne_one this
  have h2 := congrArg Matrix.det h1
  rw [Matrix.det_neg, Matrix.det_mul, Matrix.det_mul, mul_comm (c Y).det] at h2
  by_contra hodd
  rw [Nat.not_even_iff_odd] at hodd
  rw [hodd.neg_one_pow, neg_one_mul] at h2
  exact mul_ne_zero (hne X hX hXD) (hne Y hY hYD) (self_eq_neg.mp h2)

end

theorem card_positions {α β : Type} [DecidableEq β] (r : List α) (f : α → β) (E : β) : Fintype.card {k : Fin r.length // f r[k] = E} = (r.map f).count E := by
  rw [Fintype.card_subtype, List.count, List.countP_map]
  conv_rhs => rw [← List.ofFn_getElem (xs := r)]
  rw [List.ofFn_eq_map, List.countP_map, List.countP_eq_length_filter]
  rw [Finset.card_def, Finset.filter_val, Fin.univ_def, Multiset.filter_coe, Multiset.coe_card]
  congr 1

end Qosy
