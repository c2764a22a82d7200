import Verif.Lemmas.ManyBody
import Verif.Lemmas.GreedySymmetry
import Mathlib.LinearAlgebra.Lagrange
import Mathlib.Analysis.Complex.Polynomial.Basic

/-! # Lemmas: the energies of an operator do not depend on the representation -/

namespace Qosy
open Matrix Polynomial

section moments
variable {𝔸 𝔹 : Type} [Ring 𝔸] [Algebra ℂ 𝔸] [Ring 𝔹] [Algebra ℂ 𝔹]

/-- the list of the products of two sums of strings -/
theorem StrAlg.mul_terms (R : StrAlg ℂ 𝔸) (Q : StrAlg ℂ 𝔹) (hRQ : ∀ s, R.Str s → Q.Str s) :
    ∀ (ts us : List (ℂ × OpString)), (∀ t ∈ ts, R.Str t.2) → (∀ t ∈ us, R.Str t.2) →
      ∃ vs : List (ℂ × OpString), (∀ t ∈ vs, R.Str t.2 ∧ t.2.Canonical) ∧ denT R.den vs = denT R.den ts * denT R.den us ∧
        denT Q.den vs = denT Q.den ts * denT Q.den us := by
  have single : ∀ (t : ℂ × OpString) (us : List (ℂ × OpString)), R.Str t.2 → (∀ t ∈ us, R.Str t.2) →
      ∃ vs : List (ℂ × OpString), (∀ t ∈ vs, R.Str t.2 ∧ t.2.Canonical) ∧ denT R.den vs = (t.1 • R.den t.2) * denT R.den us ∧
        denT Q.den vs = (t.1 • Q.den t.2) * denT Q.den us := by
    intro t us ht hus
    induction us with
    | nil => exact ⟨[], by simp, by simp, by simp⟩
    | cons u us ih =>
      obtain ⟨vs, v1, v2, v3⟩ := ih fun x hx => hus x (List.mem_cons_of_mem _ hx)
      have hu := hus u List.mem_cons_self
      obtain ⟨c, c', C, h⟩ := R.core t.2 u.2 ht hu
      obtain ⟨d, d', D, q⟩ := Q.core t.2 u.2 (hRQ _ ht) (hRQ _ hu)
      have e := q.prod
      rw [h.prod] at e
      simp only [Except.ok.injEq, Prod.mk.injEq, Option.some.injEq] at e
      obtain ⟨rfl, rfl⟩ := e
      refine ⟨(t.1 * u.1 * c, C) :: vs, ?_, ?_, ?_⟩
      · intro x hx
        rcases List.mem_cons.mp hx with rfl | hx
        · exact ⟨h.str, h.sorted, h.pref⟩
        · exact v1 x hx
      · rw [denT_cons, denT_cons, v2, mul_add, smul_mul_smul_comm, h.ab, smul_smul]
      · rw [denT_cons, denT_cons, v3, mul_add, smul_mul_smul_comm, q.ab, smul_smul]
  intro ts us hts hus
  induction ts with
  | nil => exact ⟨[], by simp, by simp, by simp⟩
  | cons t ts ih =>
    obtain ⟨vs, v1, v2, v3⟩ := ih fun x hx => hts x (List.mem_cons_of_mem _ hx)
    obtain ⟨ws, w1, w2, w3⟩ := single t us (hts t List.mem_cons_self) hus
    refine ⟨ws ++ vs, ?_, ?_, ?_⟩
    · intro x hx
      rcases List.mem_append.mp hx with hx | hx
      · exact w1 x hx
      · exact v1 x hx
    · rw [denT_append, denT_cons, add_mul, w2, v2]
    · rw [denT_append, denT_cons, add_mul, w3, v3]

/-- the powers of a sum of strings are the same sums of strings in all representations -/
theorem StrAlg.pow_terms (R : StrAlg ℂ 𝔸) (Q : StrAlg ℂ 𝔹) (hRQ : ∀ s, R.Str s → Q.Str s) {e : OpString} (he : R.Str e ∧ e.Canonical) (hR1 : R.den e = 1) (hQ1 : Q.den e = 1)
    {ts : List (ℂ × OpString)} (hts : ∀ t ∈ ts, R.Str t.2) (k : ℕ) :
    ∃ vs : List (ℂ × OpString), (∀ t ∈ vs, R.Str t.2 ∧ t.2.Canonical) ∧ denT R.den vs = denT R.den ts ^ k ∧ denT Q.den vs = denT Q.den ts ^ k := by
  induction k with
  | zero => exact ⟨[(1, e)], by simpa using he, by simp [hR1], by simp [hQ1]⟩
  | succ k ih =>
    obtain ⟨vs, v1, v2, v3⟩ := ih
    obtain ⟨ws, w1, w2, w3⟩ := R.mul_terms Q hRQ vs ts (fun t ht => (v1 t ht).1) hts
    exact ⟨ws, w1, by rw [w2, v2, pow_succ], by rw [w3, v3, pow_succ]⟩

/-- a linear functional which is zero on all strings other than the identity -/
def StrAlg.IsTrace (R : StrAlg ℂ 𝔸) (e : OpString) (f : 𝔸 →ₗ[ℂ] ℂ) : Prop := ∀ s, R.Str s → s.Canonical → s ≠ e → f (R.den s) = 0

theorem StrAlg.moments (R : StrAlg ℂ 𝔸) (Q : StrAlg ℂ 𝔹) (hRQ : ∀ s, R.Str s → Q.Str s) {e : OpString} (he : R.Str e ∧ e.Canonical) (hR1 : R.den e = 1) (hQ1 : Q.den e = 1)
    {f : 𝔸 →ₗ[ℂ] ℂ} {g : 𝔹 →ₗ[ℂ] ℂ} (hf : R.IsTrace e f) (hg : Q.IsTrace e g) {ts : List (ℂ × OpString)} (hts : ∀ t ∈ ts, R.Str t.2) (k : ℕ) :
    g 1 * f (denT R.den ts ^ k) = f 1 * g (denT Q.den ts ^ k) := by
  obtain ⟨vs, v1, v2, v3⟩ := R.pow_terms Q hRQ he hR1 hQ1 hts k
  rw [← v2, ← v3]
  clear v2 v3
  induction vs with
  | nil => simp
  | cons v vs ih =>
    obtain ⟨a, b⟩ := v1 v List.mem_cons_self
    rw [denT_cons, denT_cons, map_add, map_add, map_smul, map_smul, mul_add, mul_add, ih fun t ht => v1 t (List.mem_cons_of_mem _ ht)]
    congr 1
    by_cases h : v.2 = e
    · rw [h, hR1, hQ1, smul_eq_mul, smul_eq_mul]
      ring
    · rw [hf _ a b h, hg _ (hRQ _ a) b h]
      simp

/-- the trace of matrices is such a functional -/
theorem StrAlg.trace {ι : Type} [Fintype ι] [DecidableEq ι] (R : StrAlg ℂ (Matrix ι ι ℂ)) {e : OpString} (he : R.Str e ∧ e.Canonical) (hR1 : R.den e = 1) :
    R.IsTrace e (Matrix.traceLinearMap ι ℂ ℂ) := by
  intro s hs hc hne
  rw [Matrix.traceLinearMap_apply]
  obtain ⟨u, ε, h1, h2, h3⟩ := R.sep s e hs he.1 hc he.2 hne
  rcases isEmpty_or_nonempty ι with hι | hι
  · simp [Matrix.trace]
  have hu : ε e = 1 := by
    have h := h2 e he.1
    rw [hR1, mul_one, one_mul] at h
    have h4 : (1 - ε e) • (1 : Matrix ι ι ℂ) = 0 := by
      rw [← h1, ← smul_mul_assoc, sub_smul, one_smul, ← h, sub_self, zero_mul]
    have i : ι := Classical.arbitrary ι
    have h5 := congrFun (congrFun h4 i) i
    simp only [Matrix.smul_apply, Matrix.one_apply_eq, smul_eq_mul, mul_one, Matrix.zero_apply] at h5
    linear_combination -h5
  have ht : (R.den s).trace = ε s * (R.den s).trace := by
    calc (R.den s).trace = (u * (u * R.den s)).trace := by rw [← mul_assoc, h1, one_mul]
      _ = (u * R.den s * u).trace := by rw [Matrix.trace_mul_comm]
      _ = ε s * (R.den s).trace := by rw [h2 s hs, smul_mul_assoc, mul_assoc, h1, mul_one, Matrix.trace_smul, smul_eq_mul]
  have : (1 - ε s) * (R.den s).trace = 0 := by linear_combination ht
  rcases mul_eq_zero.mp this with h | h
  · exact absurd (by rw [hu]; linear_combination -h) h3
  · exact h

end moments

section spectra
variable {ι κ : Type} [Fintype ι] [DecidableEq ι] [Fintype κ] [DecidableEq κ]

/-- the trace of a power is the sum of the powers of the eigenvalues -/
theorem LowestEigenpairs.trace_pow {D : Matrix ι ι ℂ} {r : List (ℝ × (ι → ℂ))} (h : LowestEigenpairs D r) (hl : r.length = Fintype.card ι) (k : ℕ) :
    (D ^ k).trace = (r.map fun p => (p.1 : ℂ) ^ k).sum := by
  let e : ι ≃ Fin r.length := Fintype.equivOfCardEq (by simp [hl])
  have hc := charpoly_of_eigenvectors (H := D ^ k) (v := fun i => r[e i].2) (d := fun i => (r[e i].1 : ℂ) ^ k)
    (fun i h0 => by
      have := h.orthonormal.family (e i) (e i)
      rw [h0] at this
      simp at this)
    (fun i j hij => by
      have := h.orthonormal.family (e i) (e j)
      rw [if_neg (fun h => hij (e.injective h))] at this
      exact this)
    (fun i => by
      induction k with
      | zero => simp
      | succ k ih =>
        have he : D *ᵥ r[e i].2 = (r[e i].1 : ℂ) • r[e i].2 := h.eigen r[e i] (List.getElem_mem _)
        rw [pow_succ, ← Matrix.mulVec_mulVec, he, Matrix.mulVec_smul, ih, smul_smul, pow_succ, mul_comm])
  rw [Matrix.trace_eq_sum_roots_charpoly, hc]
  have r' : (∏ i, (X - C ((r[e i].1 : ℂ) ^ k))).roots = Finset.univ.val.map fun i => (r[e i].1 : ℂ) ^ k := by
    rw [← roots_multiset_prod_X_sub_C (Finset.univ.val.map _), Multiset.map_map]
    rfl
  rw [r', ← Finset.sum_eq_multiset_sum, e.sum_comp (fun i => (r[i].1 : ℂ) ^ k), ← List.sum_ofFn]
  congr 1
  exact List.ext_getElem (by simp) (by simp)

/-- polynomials instead of powers -/
theorem poly_sums {a b : List ℂ} {N M : ℂ} (h : ∀ k : ℕ, M * (a.map (· ^ k)).sum = N * (b.map (· ^ k)).sum) (p : ℂ[X]) :
    M * (a.map p.eval).sum = N * (b.map p.eval).sum := by
  induction p using Polynomial.induction_on' with
  | add p q hp hq => simp only [eval_add, List.sum_map_add, mul_add, hp, hq]
  | monomial k c =>
    simp only [eval_monomial, List.sum_map_mul_left]
    linear_combination c * h k

/-- power sums determine the numbers and their multiplicities -/
theorem count_of_moments {a b : List ℂ} {N M : ℕ} (h : ∀ k : ℕ, (M : ℂ) * (a.map (· ^ k)).sum = N * (b.map (· ^ k)).sum) (x : ℂ) :
    M * a.count x = N * b.count x := by
  classical
  let s : Finset ℂ := insert x (a.toFinset ∪ b.toFinset)
  let p := Lagrange.interpolate s id fun y => if y = x then (1 : ℂ) else 0
  have hp : ∀ y ∈ s, p.eval y = if y = x then 1 else 0 := fun y hy => Lagrange.eval_interpolate_at_node _ (Function.injective_id.injOn) hy
  have hcount : ∀ l : List ℂ, (∀ y ∈ l, y ∈ s) → (l.map p.eval).sum = l.count x := by
    intro l hl
    induction l with
    | nil => simp
    | cons y l ih =>
      rw [List.map_cons, List.sum_cons, ih fun z hz => hl z (List.mem_cons_of_mem _ hz), hp y (hl y List.mem_cons_self), List.count_cons]
      by_cases hy : y = x <;> simp [hy, add_comm]
  have := poly_sums h p
  rw [hcount a (fun y hy => by simp [s, hy]), hcount b (fun y hy => by simp [s, hy])] at this
  exact_mod_cast this

/-- sorted lists with the same multiplicities -/
theorem sorted_eq_of_count {a b : List ℝ} (ha : a.Pairwise (· ≤ ·)) (hb : b.Pairwise (· ≤ ·)) (h : ∀ x, a.count x = b.count x) : a = b :=
  List.Perm.eq_of_pairwise (fun _ _ _ _ => le_antisymm) ha hb (List.perm_iff_count.mpr h)

theorem count_ofReal (l : List ℝ) (x : ℝ) : (l.map Complex.ofReal).count (x : ℂ) = l.count x :=
  List.count_map_of_injective l _ Complex.ofReal_injective x

/-- equal normalised moments give equal energies, with multiplicities in proportion to the dimensions -/
theorem energies_of_moments {D : Matrix ι ι ℂ} {E : Matrix κ κ ℂ} {r : List (ℝ × (ι → ℂ))} {q : List (ℝ × (κ → ℂ))} (hr : LowestEigenpairs D r) (hq : LowestEigenpairs E q)
    (hrl : r.length = Fintype.card ι) (hql : q.length = Fintype.card κ) (hrs : r.Pairwise fun p q => p.1 ≤ q.1) (hqs : q.Pairwise fun p q => p.1 ≤ q.1) {m : ℕ} (hι : 0 < Fintype.card ι)
    (hm : Fintype.card κ = m * Fintype.card ι) (h : ∀ k : ℕ, (Fintype.card κ : ℂ) * (D ^ k).trace = Fintype.card ι * (E ^ k).trace) :
    q.map Prod.fst = (r.map Prod.fst).flatMap fun x => List.replicate m x := by
  have hsort : ∀ {α : Type} {l : List (ℝ × α)}, (l.Pairwise fun p q => p.1 ≤ q.1) → (l.map Prod.fst).Pairwise (· ≤ ·) := fun h => List.pairwise_map.mpr h
  have hflat : ∀ {l : List ℝ}, l.Pairwise (· ≤ ·) → (l.flatMap fun x => List.replicate m x).Pairwise (· ≤ ·) := by
    intro l hl
    rw [List.pairwise_flatMap]
    refine ⟨fun x _ => ?_, hl.imp fun {x y} hxy => ?_⟩
    · rw [List.pairwise_replicate]
      exact Or.inr le_rfl
    · intro a ha b hb
      rw [List.eq_of_mem_replicate ha, List.eq_of_mem_replicate hb]
      exact hxy
  refine sorted_eq_of_count (hsort hqs) (hflat (hsort hrs)) fun x => ?_
  have key := count_of_moments (a := (r.map Prod.fst).map Complex.ofReal) (b := (q.map Prod.fst).map Complex.ofReal) (N := Fintype.card ι) (M := Fintype.card κ) (fun k => by
    have := h k
    rw [hr.trace_pow hrl, hq.trace_pow hql] at this
    simpa [List.map_map, Function.comp_def] using this) x
  rw [count_ofReal, count_ofReal, hm] at key
  have hc : ((r.map Prod.fst).flatMap fun x => List.replicate m x).count x = m * (r.map Prod.fst).count x := by
    generalize r.map Prod.fst = l
    induction l with
    | nil => simp
    | cons y l ih =>
      rw [List.flatMap_cons, List.count_append, ih, List.count_replicate, List.count_cons]
      by_cases hy : y = x
      · simp [hy, mul_add, add_comm]
      · simp [hy]
  rw [hc]
  refine Nat.eq_of_mul_eq_mul_left hι ?_
  rw [← key]
  ring

/-- the lowest eigenvalues of a Hermitian matrix are determined by the matrix -/
theorem LowestEigenpairs.le {D : Matrix ι ι ℂ} (hD : D.IsHermitian) {r q : List (ℝ × (ι → ℂ))} (hr : LowestEigenpairs D r) (hq : LowestEigenpairs D q)
    (hrs : r.Pairwise fun p q => p.1 ≤ q.1) (hqs : q.Pairwise fun p q => p.1 ≤ q.1) {j : ℕ} (hjr : j < r.length) (hjq : j < q.length) : r[j].1 ≤ q[j].1 := by
  -- a combination of the first `j + 1` vectors of `q` orthogonal to the first `j` vectors of `r`
  have hqi : ∀ i : Fin (j + 1), (i : ℕ) < q.length := fun i => by omega
  let f : (Fin (j + 1) → ℂ) →ₗ[ℂ] (Fin j → ℂ) :=
    { toFun := fun c k => ∑ x, star ((r[(k : ℕ)]'(by omega)).2 x) * ∑ i : Fin (j + 1), c i * (q[(i : ℕ)]'(hqi i)).2 x
      map_add' := fun c d => by
        funext k
        simp only [Pi.add_apply, add_mul, Finset.sum_add_distrib, mul_add]
      map_smul' := fun a c => by
        funext k
        simp only [Pi.smul_apply, smul_eq_mul, RingHom.id_apply, Finset.mul_sum]
        exact Finset.sum_congr rfl fun x _ => Finset.sum_congr rfl fun i _ => by ring }
  have hk : LinearMap.ker f ≠ ⊥ := LinearMap.ker_ne_bot_of_finrank_lt (by simp)
  obtain ⟨c, hc, hc0⟩ := Submodule.exists_mem_ne_zero_of_ne_bot hk
  let u : ι → ℂ := fun x => ∑ i : Fin (j + 1), c i * (q[(i : ℕ)]'(hqi i)).2 x
  have hb := hr.minmax hD hrs hjr u (fun v hv => by
    obtain ⟨p, hp, rfl⟩ := List.mem_map.mp hv
    obtain ⟨k, hk, rfl⟩ := List.mem_iff_getElem.mp hp
    have hkj : k < j := by
      rw [List.length_take] at hk
      omega
    rw [List.getElem_take]
    exact congrFun (LinearMap.mem_ker.mp hc) ⟨k, hkj⟩)
  have hfam : ∀ i i' : Fin (j + 1), ∑ x, star ((q[(i : ℕ)]'(hqi i)).2 x) * (q[(i' : ℕ)]'(hqi i')).2 x = if i = i' then 1 else 0 := by
    intro i i'
    have := hq.orthonormal.family ⟨i, hqi i⟩ ⟨i', hqi i'⟩
    simpa [Fin.ext_iff] using this
  have hDu : D.mulVec u = fun x => ∑ i : Fin (j + 1), ((q[(i : ℕ)]'(hqi i)).1 : ℂ) * c i * (q[(i : ℕ)]'(hqi i)).2 x := by
    have e : u = ∑ i : Fin (j + 1), c i • (q[(i : ℕ)]'(hqi i)).2 := by
      funext x
      simp [u, Finset.sum_apply]
    rw [e, Matrix.mulVec_sum]
    funext x
    rw [Finset.sum_apply]
    refine Finset.sum_congr rfl fun i _ => ?_
    rw [Matrix.mulVec_smul, hq.eigen _ (List.getElem_mem _)]
    simp only [Pi.smul_apply, smul_eq_mul]
    ring
  have hform : ∀ d : Fin (j + 1) → ℂ, ∑ x, star (u x) * ∑ i : Fin (j + 1), d i * (q[(i : ℕ)]'(hqi i)).2 x = ∑ i, star (c i) * d i := by
    intro d
    have e : ∀ x, star (u x) * ∑ i : Fin (j + 1), d i * (q[(i : ℕ)]'(hqi i)).2 x =
        ∑ i' : Fin (j + 1), ∑ i : Fin (j + 1), star (c i') * d i * (star ((q[(i' : ℕ)]'(hqi i')).2 x) * (q[(i : ℕ)]'(hqi i)).2 x) := by
      intro x
      rw [show star (u x) = ∑ i' : Fin (j + 1), star (c i' * (q[(i' : ℕ)]'(hqi i')).2 x) from star_sum _ _, Finset.sum_mul_sum]
      refine Finset.sum_congr rfl fun i' _ => Finset.sum_congr rfl fun i _ => ?_
      rw [star_mul']
      ring
    rw [Finset.sum_congr rfl fun x _ => e x, Finset.sum_comm]
    refine Finset.sum_congr rfl fun i' _ => ?_
    rw [Finset.sum_comm]
    simp only [← Finset.mul_sum, hfam]
    simp
  have hn : ∑ x, ‖u x‖ ^ 2 = ∑ i, ‖c i‖ ^ 2 := by
    have e : ∀ z : ℂ, star z * z = ((‖z‖ ^ 2 : ℝ) : ℂ) := fun z => by
      rw [Complex.star_def, Complex.conj_mul', Complex.ofReal_pow]
    have := hform c
    simp only [e] at this
    have h1 : ∑ x, ((‖u x‖ ^ 2 : ℝ) : ℂ) = ∑ i, ((‖c i‖ ^ 2 : ℝ) : ℂ) := by
      rw [← this]
      exact Finset.sum_congr rfl fun x _ => (e (u x)).symm
    exact_mod_cast h1
  have hE : (∑ x, star (u x) * D.mulVec u x).re = ∑ i : Fin (j + 1), (q[(i : ℕ)]'(hqi i)).1 * ‖c i‖ ^ 2 := by
    rw [hDu, hform, Complex.re_sum]
    refine Finset.sum_congr rfl fun i _ => ?_
    rw [show star (c i) * (((q[(i : ℕ)]'(hqi i)).1 : ℂ) * c i) = (((q[(i : ℕ)]'(hqi i)).1 * ‖c i‖ ^ 2 : ℝ) : ℂ) by
      rw [mul_left_comm, Complex.star_def, Complex.conj_mul']
      push_cast
      rfl, Complex.ofReal_re]
  rw [hE, hn] at hb
  have hle : ∑ i : Fin (j + 1), (q[(i : ℕ)]'(hqi i)).1 * ‖c i‖ ^ 2 ≤ q[j].1 * ∑ i, ‖c i‖ ^ 2 := by
    rw [Finset.mul_sum]
    refine Finset.sum_le_sum fun i _ => mul_le_mul_of_nonneg_right ?_ (by positivity)
    rcases Nat.lt_or_ge i j with h | h
    · exact List.pairwise_iff_getElem.mp hqs i j (hqi i) hjq h
    · have : (i : ℕ) = j := by omega
      simp only [this]
      exact le_rfl
  have hpos : 0 < ∑ i, ‖c i‖ ^ 2 := by
    obtain ⟨i, hi⟩ := Function.ne_iff.mp hc0
    exact Finset.sum_pos' (fun _ _ => by positivity) ⟨i, Finset.mem_univ _, by have : c i ≠ 0 := hi; positivity⟩
  exact le_of_mul_le_mul_right (hb.trans hle) hpos

/-- fewer eigenvalues are the first ones -/
theorem LowestEigenpairs.take {D : Matrix ι ι ℂ} (hD : D.IsHermitian) {r q : List (ℝ × (ι → ℂ))} (hr : LowestEigenpairs D r) (hq : LowestEigenpairs D q)
    (hrs : r.Pairwise fun p q => p.1 ≤ q.1) (hqs : q.Pairwise fun p q => p.1 ≤ q.1) (hl : r.length ≤ q.length) : r.map Prod.fst = (q.map Prod.fst).take r.length := by
  refine List.ext_getElem (by simp [hl]) fun j h1 h2 => ?_
  have hj : j < r.length := by simpa using h1
  rw [List.getElem_take, List.getElem_map, List.getElem_map]
  exact le_antisymm (hr.le hD hq hrs hqs hj (by omega)) (hq.le hD hr hqs hrs (by omega) hj)

end spectra

end Qosy
