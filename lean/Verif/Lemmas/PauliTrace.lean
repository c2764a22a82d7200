import Verif.Lemmas.Diagonalization
import Verif.Lemmas.StrAlgInst
import Verif.Lemmas.JordanWigner
import Verif.Lemmas.Hermitian
import Verif.Spec.Concrete
import Mathlib.LinearAlgebra.Dimension.Constructions
import Mathlib.LinearAlgebra.FiniteDimensional.Lemmas
import Mathlib.LinearAlgebra.Matrix.Trace

/-! # Traces of products of Pauli strings; the Pauli strings span all matrices -/

namespace Qosy
open Coef
variable {K : Type} [Field K] [StarRing K] [Coef K] {n : ℕ}

theorem trace_one_cfg : (1 : Matrix (Cfg n) (Cfg n) K).trace = 2 ^ n := by
  rw [Matrix.trace_one]; simp

theorem identity_pauli (S : Set ℤ) : PauliString S (identityString .pauli) ∧ (identityString .pauli).Canonical :=
  ⟨⟨rfl, by simp [identityString], rfl, by simp [identityString], by simp [identityString], by simp [identityString]⟩,
    by simp [identityString], Or.inr rfl⟩

theorem PauliRep.den_identity {𝔸 : Type} [Ring 𝔸] [Algebra K 𝔸] {S : Set ℤ} (R : PauliRep K 𝔸 S) : R.den (identityString .pauli) = 1 := by
  simp [PauliRep.den, identityString, wordProd, Pref.val]

/-- Pauli strings other than the identity have no trace -/
theorem trace_den {s : OpString} (hs : PauliString (siteLabels n) s) (hc : s.Canonical) (hne : s ≠ identityString .pauli) :
    ((matRep K n).den s).trace = 0 := by
  obtain ⟨u, ε, h1, h2, h3⟩ := (matRep K n).separates hs (identity_pauli _).1 hc (identity_pauli (siteLabels n)).2 hne
  have hI := h2 _ (identity_pauli _).1
  rw [PauliRep.den_identity, mul_one, one_mul] at hI
  have hu : ε (identityString .pauli) = 1 := by
    have : (1 - ε (identityString .pauli)) • (1 : Matrix (Cfg n) (Cfg n) K) = 0 := by
      rw [← h1, sub_smul, one_smul]
      rw [← smul_mul_assoc, ← hI, sub_self]
    have h0 := congrFun (congrFun this (fun _ => false)) (fun _ => false)
    simp at h0
    linear_combination -h0
  have ht : ((matRep K n).den s).trace = ε s * ((matRep K n).den s).trace := by
    calc ((matRep K n).den s).trace = (u * (u * (matRep K n).den s)).trace := by rw [← mul_assoc, h1, one_mul]
      _ = (u * (matRep K n).den s * u).trace := by rw [Matrix.trace_mul_comm]
      _ = ε s * ((matRep K n).den s).trace := by rw [h2 s hs, smul_mul_assoc, mul_assoc, h1, mul_one, Matrix.trace_smul, smul_eq_mul]
  have h4 : (ε s - 1) * ((matRep K n).den s).trace = 0 := by linear_combination -ht
  rcases mul_eq_zero.mp h4 with h5 | h5
  · exact absurd (by rw [hu]; linear_combination h5) h3
  · exact h5

theorem star_den_matRep {s : OpString} (hs : PauliString (siteLabels n) s) : star ((matRep K n).den s) = (matRep K n).den s :=
  (matRep K n).star_den (matRep_star K n) hs

/-- trace-orthonormality -/
theorem trace_den_den {s t : OpString} (hs : PauliString (siteLabels n) s) (ht : PauliString (siteLabels n) t) (cs : s.Canonical) (ct : t.Canonical) :
    (star ((matRep K n).den s) * (matRep K n).den t).trace = if s = t then 2 ^ n else 0 := by
  rw [star_den_matRep hs]
  by_cases h : s = t
  · subst h
    rw [if_pos rfl, show (matRep K n).den s * (matRep K n).den s = 1 from (matRep K n).strAlg.sq s hs, trace_one_cfg]
  · rw [if_neg h]
    obtain ⟨c, c', C, hr⟩ := pauli_core (matRep K n) hs ht
    rw [hr.ab, Matrix.trace_smul]
    by_cases hC : C = identityString .pauli
    · exfalso
      apply h
      have h1 : (matRep K n).den s = c • (matRep K n).den t := by
        have := congrArg (· * (matRep K n).den t) hr.ab
        simp only [mul_assoc] at this
        rw [show (matRep K n).den t * (matRep K n).den t = 1 from (matRep K n).strAlg.sq t ht, mul_one, hC, PauliRep.den_identity, smul_mul_assoc, one_mul] at this
        exact this
      exact ((matRep K n).strAlg.same_string hs ht cs ct h1).1
    · rw [trace_den hr.str ⟨hr.sorted, hr.pref⟩ hC, smul_zero]

/-- `to_vector` computes the normalized overlaps with the strings of the basis -/
theorem toVectorOf_ok {M : Mat K} {D : Matrix (Cfg n) (Cfg n) K} (hM : IsMatrixOf n M D) (wM : M.WF) {b : Basis}
    (hb : ∀ s ∈ b.strs, PauliString (siteLabels n) s) :
    toVectorOf M b n = .ok (b.strs.map (fun s => (star ((matRep K n).den s) * D).trace / 2 ^ n)) := by
  haveI : Inhabited (Mat K) := ⟨⟨0, 0, []⟩⟩
  choose! f h1 h2 h3 using fun s (hs : s ∈ b.strs) => toMatrixString_ok (K := K) (hb s hs)
  rw [toVectorOf, mapM_ok h1]
  simp only [bind, Except.bind]
  rw [List.mapM_map]
  apply mapM_ok
  intro s hs
  obtain ⟨P, p1, p2, _⟩ := (h2 s hs).getH.dot hM (Mat.getH_wf (h3 s hs)) wM
  simp only [Function.comp, p1, p2.diagSum]
  rfl

/-! ### completeness -/

/-- the operator names with the identity -/
def fourOps : Fin 4 → Option Op := ![none, some .X, some .Y, some .Z]

/-- the string with the given operators on the sites -/
def stringOf (o : Fin n → Fin 4) : OpString :=
  let w := (List.finRange n).filterMap (fun i => (fourOps (o i)).map (fun op => (op, ((i : ℕ) : ℤ))))
  ⟨w.map Prod.fst, w.map Prod.snd, .pauli, .float1⟩

theorem fourOps_pauli {j : Fin 4} {op : Op} (h : fourOps j = some op) : op = .X ∨ op = .Y ∨ op = .Z := by
  fin_cases j <;> simp [fourOps] at h <;> simp [← h]

theorem fourOps_inj : Function.Injective fourOps := by decide

theorem stringOf_pauli (o : Fin n → Fin 4) : PauliString (siteLabels n) (stringOf o) ∧ (stringOf o).Canonical := by
  have hp : (stringOf o).labels.Pairwise (· < ·) := by
    simp only [stringOf, List.map_filterMap]
    apply List.Pairwise.filterMap (R := (· < ·)) _ _ (List.pairwise_lt_finRange n)
    intro i j hij a ha b hb
    simp only [Option.map_map, Option.mem_def, Option.map_eq_some_iff, Function.comp] at ha hb
    obtain ⟨_, _, rfl⟩ := ha
    obtain ⟨_, _, rfl⟩ := hb
    exact_mod_cast hij
  refine ⟨⟨rfl, ?_, by simp [stringOf], hp.imp (fun h => ne_of_lt h), ?_, by simp [stringOf]⟩, hp, Or.inr rfl⟩
  · intro op hop
    simp only [stringOf, List.mem_map, List.mem_filterMap] at hop
    obtain ⟨x, ⟨i, _, hi⟩, rfl⟩ := hop
    obtain ⟨op', h1, rfl⟩ := Option.map_eq_some_iff.mp hi
    exact fourOps_pauli h1
  · intro l hl
    simp only [stringOf, List.mem_map, List.mem_filterMap] at hl
    obtain ⟨x, ⟨i, _, hi⟩, rfl⟩ := hl
    obtain ⟨op', h1, rfl⟩ := Option.map_eq_some_iff.mp hi
    have := i.2
    constructor <;> simp

theorem stringOf_inj : Function.Injective (stringOf (n := n)) := by
  intro o o' h
  funext i
  apply fourOps_inj
  have hw : ∀ o : Fin n → Fin 4, ∀ op, fourOps (o i) = some op ↔ (op, ((i : ℕ) : ℤ)) ∈ (stringOf o).ops.zip (stringOf o).labels := by
    intro o op
    have : (stringOf o).ops.zip (stringOf o).labels = (List.finRange n).filterMap (fun i => (fourOps (o i)).map (fun op => (op, ((i : ℕ) : ℤ)))) := by
      simp only [stringOf]
      rw [List.zip_map']
      exact List.map_id _
    rw [this, List.mem_filterMap]
    constructor
    · intro h; exact ⟨i, by simp, by rw [h]; rfl⟩
    · rintro ⟨j, _, hj⟩
      obtain ⟨op', h1, h2⟩ := Option.map_eq_some_iff.mp hj
      simp only [Prod.mk.injEq, Nat.cast_inj] at h2
      obtain rfl : j = i := Fin.ext h2.2
      rw [h1, h2.1]
  cases h1 : fourOps (o i) with
  | some op => exact ((hw o' op).mpr (h ▸ (hw o op).mp h1)).symm
  | none =>
    cases h2 : fourOps (o' i) with
    | none => rfl
    | some op =>
      have := (hw o op).mpr (h ▸ (hw o' op).mp h2)
      rw [h1] at this
      simp at this

/-- a list of all strings gives an expansion of every matrix -/
theorem pauli_expansion {strs : List OpString} (hn : strs.Nodup) (hs : ∀ s ∈ strs, PauliString (siteLabels n) s ∧ s.Canonical)
    (hall : ∀ s, PauliString (siteLabels n) s → s.Canonical → s ∈ strs) (D : Matrix (Cfg n) (Cfg n) K) :
    D = (strs.map (fun s => ((star ((matRep K n).den s) * D).trace / 2 ^ n) • (matRep K n).den s)).sum := by
  have h2 : (2 : K) ^ n ≠ 0 := pow_ne_zero _ two_ne_zero'
  -- the strings with given operators on the sites are a basis
  let v : (Fin n → Fin 4) → Matrix (Cfg n) (Cfg n) K := fun o => (matRep K n).den (stringOf o)
  have hv : ∀ o o', (star (v o) * v o').trace = if o = o' then 2 ^ n else 0 := by
    intro o o'
    rw [trace_den_den (stringOf_pauli o).1 (stringOf_pauli o').1 (stringOf_pauli o).2 (stringOf_pauli o').2]
    simp [stringOf_inj.eq_iff]
  have hli : LinearIndependent K v := by
    rw [Fintype.linearIndependent_iff]
    intro g hg o
    have := congrArg (fun M => (star (v o) * M).trace) hg
    simp only [mul_zero, Matrix.trace_zero, Finset.mul_sum, Matrix.trace_sum, mul_smul_comm, Matrix.trace_smul, hv, smul_eq_mul] at this
    rw [Finset.sum_eq_single o (by intro o' _ h; rw [if_neg (Ne.symm h), mul_zero]) (by simp), if_pos rfl] at this
    exact (mul_eq_zero.mp this).resolve_right h2
  have hspan : ⊤ ≤ Submodule.span K (Set.range v) := by
    have := hli.span_eq_top_of_card_eq_finrank' (by
      rw [Module.finrank_matrix]
      simp [Fintype.card_fun, ← pow_mul, ← mul_pow])
    exact this.ge
  have hD : D ∈ Submodule.span K (Set.range v) := hspan trivial
  -- both sides are linear in D and agree on the basis
  have hlin : ∀ D ∈ Submodule.span K (Set.range v),
      D = (strs.map (fun s => ((star ((matRep K n).den s) * D).trace / 2 ^ n) • (matRep K n).den s)).sum := by
    intro D hD
    induction hD using Submodule.span_induction with
    | mem x hx =>
      obtain ⟨o, rfl⟩ := hx
      have hm := hall _ (stringOf_pauli o).1 (stringOf_pauli o).2
      have e : ∀ s ∈ strs, ((star ((matRep K n).den s) * v o).trace / 2 ^ n) • (matRep K n).den s =
          if s = stringOf o then v o else 0 := by
        intro s hs'
        rw [trace_den_den (hs s hs').1 (stringOf_pauli o).1 (hs s hs').2 (stringOf_pauli o).2]
        split
        · rename_i h; rw [div_self h2, one_smul, h]
        · simp
      rw [List.map_congr_left e, List.sum_map_ite_eq]
      simp [List.count_eq_one_of_mem hn hm]
    | zero => simp
    | add x y _ _ hx hy =>
      conv_lhs => rw [hx, hy]
      rw [← List.sum_map_add]
      congr 1
      apply List.map_congr_left
      intro s _
      rw [mul_add, Matrix.trace_add, add_div, add_smul]
    | smul c x _ hx =>
      conv_lhs => rw [hx]
      rw [List.smul_sum, List.map_map]
      congr 1
      apply List.map_congr_left
      intro s _
      simp only [Function.comp]
      rw [mul_smul_comm, Matrix.trace_smul, smul_smul, smul_eq_mul, mul_div_assoc]
  exact hlin D hD

end Qosy
