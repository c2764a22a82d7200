import Verif.Lemmas.LatticeSymmetry
import Mathlib.LinearAlgebra.Matrix.Notation
import Mathlib.Tactic.FinCases

/-!
# C55, C65: lattices symmetrized by a point group

`Lattice.atoms` are the positions and orbitals of the unit cell, `Lattice.Equivalent` is agreement of positions up to the tolerance and
lattice translations, `PointGenerators` are generators of a finite group whose elements can be told apart numerically, and `rowsOf` is a
matrix the way it is passed to Python (see `Verif.Spec.LatticeSymmetry`).
-/

namespace Qosy
open scoped MatrixGroups
variable {d : ℕ} {ω ν : Type} [DecidableEq ω] [DecidableEq ν]

/-! ### C55 -/

/-- everything about the result, in terms of the list of matrices used -/
theorem symmetrizeLattice_spec {L : Lattice ℝ ω ν} (hL : L.Proper d) (hd : 0 < d) {gens : List (GL (Fin d) ℝ)} (hg : PointGenerators gens) {n : ℕ}
    (hn : 0 < n) {tol : ℝ} (ht : 0 < tol) (latTol : ℝ) (render : List ℝ → ν) (dflt : ω) {fuel : ℕ}
    (hf : Nat.card (Subgroup.closure {g | g ∈ gens}) ≤ fuel) {G : List (GL (Fin d) ℝ)}
    (hG : pointGroup d (gens.map fun g => rowsOf g.1) fuel = .ok (some (G.map fun g => rowsOf g.1))) :
    ∃ L' L'', symmetrizeLattice euclid latTol render dflt L (gens.map fun g => rowsOf g.1) n tol fuel = .ok (some L') ∧ L''.Proper d ∧
      (n = 1 → L'' = L) ∧ L'.periodic = L.periodic ∧ (∀ l, L'.unitCell.vec d l = ((n : ℝ) + 1) • L.unitCell.vec d l) ∧
      ∃ hne, Expanded L'' L' d L.unitCell.vectors (L.unitCell.vectors.getLast hne) G tol := by
  obtain ⟨k, rfl⟩ := Nat.exists_eq_add_one.mpr hn
  have hne : L.unitCell.vectors ≠ [] := by
    intro h
    have := hL.cell.vectors
    rw [h] at this
    simp at this; omega
  obtain ⟨L', L'', h1, h2, h3, h4, h5, h6⟩ := expansions_ok hL.cell.vectors hL.cell.vector hne G latTol render dflt ht k L none hL
  refine ⟨L', L'', ?_, h2, fun h => h3 (by omega), h4, fun l => ?_, hne, h6⟩
  · simp only [symmetrizeLattice, hL.dim, hG, h1, bind, Except.bind]
  · rw [h5, UnitCell.vec]
    push_cast
    module

/-- **C55** (termination): for generators of a finite point group, `symmetrize_lattice` ends without an exception, and the new lattice vectors are
`num_expansions + 1` times the old ones. -/
theorem C55_total {L : Lattice ℝ ω ν} (hL : L.Proper d) (hd : 0 < d) {gens : List (GL (Fin d) ℝ)} (hg : PointGenerators gens) {n : ℕ} (hn : 0 < n)
    {tol : ℝ} (ht : 0 < tol) (latTol : ℝ) (render : List ℝ → ν) (dflt : ω) {fuel : ℕ} (hf : Nat.card (Subgroup.closure {g | g ∈ gens}) ≤ fuel) :
    ∃ L', symmetrizeLattice euclid latTol render dflt L (gens.map fun g => rowsOf g.1) n tol fuel = .ok (some L') ∧ L'.Proper d ∧
      L'.periodic = L.periodic ∧ ∀ l, L'.unitCell.vec d l = ((n : ℝ) + 1) • L.unitCell.vec d l := by
  obtain ⟨G, g1, -⟩ := pointGroup_ok hg hf
  obtain ⟨L', L'', h1, -, -, h2, h3, _, h4⟩ := symmetrizeLattice_spec hL hd hg hn ht latTol render dflt hf g1
  exact ⟨L', h1, h4.proper, h2, h3⟩

/-- **C55** (no expansions): with `num_expansions=0` there is no lattice to return (UnboundLocalError). -/
theorem C55_no_expansions {L : Lattice ℝ ω ν} (hL : L.Proper d) {gens : List (GL (Fin d) ℝ)} (hg : PointGenerators gens)
    (tol latTol : ℝ) (render : List ℝ → ν) (dflt : ω) {fuel : ℕ} (hf : Nat.card (Subgroup.closure {g | g ∈ gens}) ≤ fuel) :
    symmetrizeLattice euclid latTol render dflt L (gens.map fun g => rowsOf g.1) 0 tol fuel = .error .nameError := by
  obtain ⟨G, g1, -⟩ := pointGroup_ok hg hf
  simp only [symmetrizeLattice, hL.dim, g1, bind, Except.bind, expansions]

/-- **C55** (atoms): if two of the generators (or one of them, twice) multiply to the identity, the whole group is used: every element of the group
takes every atom of the new unit cell to an atom with the same orbitals, up to the tolerance and lattice translations.  No two of the atoms
coincide in this sense with at most one translation in each direction. -/
theorem C55_partial {L : Lattice ℝ ω ν} (hL : L.Proper d) (hd : 0 < d) {gens : List (GL (Fin d) ℝ)} (hg : PointGenerators gens)
    (hpair : gens = [] ∨ ∃ a ∈ gens, ∃ b ∈ gens, a * b = 1) {n : ℕ} (hn : 0 < n)
    {tol : ℝ} (ht : 0 < tol) (latTol : ℝ) (render : List ℝ → ν) (dflt : ω) {fuel : ℕ} (hf : Nat.card (Subgroup.closure {g | g ∈ gens}) ≤ fuel) :
    ∃ L', symmetrizeLattice euclid latTol render dflt L (gens.map fun g => rowsOf g.1) n tol fuel = .ok (some L') ∧
      (∀ h ∈ Subgroup.closure {g | g ∈ gens}, ∀ a ∈ L'.atoms, ∃ b ∈ L'.atoms, b.2 = a.2 ∧
        L'.Equivalent d tol (h.1.mulVec (vec d a.1)) (vec d b.1)) ∧
      L'.atoms.Pairwise fun a b => ∀ c : Fin d → ℤ, Near c → Period (some L'.periodic) c →
        separation (vec d b.1 + ∑ l, (c l : ℝ) • L'.unitCell.vec d l) (vec d a.1) < tol → a.2 ≠ b.2 := by
  obtain ⟨G, g1, g2, g3, g4⟩ := pointGroup_ok hg hf
  obtain ⟨L', L'', h1, -, -, h2, h3, _, h4⟩ := symmetrizeLattice_spec hL hd hg hn ht latTol render dflt hf g1
  refine ⟨L', h1, fun h hh a ha => h4.invariant (fun g hg => g4 hpair _ (mul_mem hh (g3 g hg))) ha, ?_⟩
  refine h4.distinct.imp fun {a b} hab c c1 c2 hlt hne => hab ⟨⟨c, c1, c2, hlt⟩, hne.symm⟩

/-- **C55** (crystals): if moreover the element of the group takes lattice vectors to integer combinations of lattice
vectors, it takes every atom of the infinite crystal to an atom of the crystal with the same orbitals, up to the tolerance. -/
theorem C55_crystal_partial {L : Lattice ℝ ω ν} (hL : L.Proper d) (hd : 0 < d) {gens : List (GL (Fin d) ℝ)} (hg : PointGenerators gens)
    (hpair : gens = [] ∨ ∃ a ∈ gens, ∃ b ∈ gens, a * b = 1) {n : ℕ} (hn : 0 < n)
    {tol : ℝ} (ht : 0 < tol) (latTol : ℝ) (render : List ℝ → ν) (dflt : ω) {fuel : ℕ} (hf : Nat.card (Subgroup.closure {g | g ∈ gens}) ≤ fuel) :
    ∃ L', symmetrizeLattice euclid latTol render dflt L (gens.map fun g => rowsOf g.1) n tol fuel = .ok (some L') ∧
      ∀ h ∈ Subgroup.closure {g | g ∈ gens}, ∀ M : Fin d → Fin d → ℤ,
        (∀ l, h.1.mulVec (L.unitCell.vec d l) = ∑ k, (M l k : ℝ) • L.unitCell.vec d k) →
        ∀ (m : Fin d → ℤ) (a : ℕ), a < L'.unitCell.orbitals.length → ∃ (m' : Fin d → ℤ) (b : ℕ), b < L'.unitCell.orbitals.length ∧
          L'.unitCell.orbitals[b]? = L'.unitCell.orbitals[a]? ∧
          separation (h.1.mulVec (L'.unitCell.point d m a)) (L'.unitCell.point d m' b) < tol := by
  obtain ⟨G, g1, g2, g3, g4⟩ := pointGroup_ok hg hf
  obtain ⟨L', L'', h1, -, -, h2, h3, _, h4⟩ := symmetrizeLattice_spec hL hd hg hn ht latTol render dflt hf g1
  refine ⟨L', h1, fun h hh M hM m a ha => ?_⟩
  have hpos := h4.proper.cell.positions
  have ha' : a < L'.unitCell.positions.length := by rw [hpos]; exact ha
  have hmem : (L'.unitCell.positions[a], L'.unitCell.orbitals[a]) ∈ L'.atoms := by
    rw [Lattice.atoms, List.mem_iff_getElem]
    exact ⟨a, by simp [ha, ha'], by simp⟩
  obtain ⟨r, hr, hr2, c, c1, c2⟩ := h4.invariant (fun g hg => g4 hpair _ (mul_mem hh (g3 g hg))) hmem
  rw [Lattice.atoms, List.mem_iff_getElem] at hr
  obtain ⟨b, hb, rfl⟩ := hr
  have hb1 : b < L'.unitCell.positions.length := by simp at hb; exact hb.1
  have hb2 : b < L'.unitCell.orbitals.length := by simp at hb; exact hb.2
  rw [List.getElem_zip] at hr2 c2
  refine ⟨fun k => (∑ l, m l * M l k) - c k, b, hb2, ?_, ?_⟩
  · rw [List.getElem?_eq_getElem hb2, List.getElem?_eq_getElem ha]
    exact congrArg some hr2
  · have hM' : ∀ l, h.1.mulVec (L'.unitCell.vec d l) = ∑ k, (M l k : ℝ) • L'.unitCell.vec d k := by
      intro l
      rw [h3, Matrix.mulVec_smul, hM, Finset.smul_sum]
      refine Finset.sum_congr rfl fun k _ => ?_
      rw [h3, smul_comm]
    have e : separation (h.1.mulVec (L'.unitCell.point d m a)) (L'.unitCell.point d (fun k => (∑ l, m l * M l k) - c k) b) =
        separation (h.1.mulVec (vec d L'.unitCell.positions[a]) + ∑ l, (c l : ℝ) • L'.unitCell.vec d l) (vec d L'.unitCell.positions[b]) := by
      have hdiff : h.1.mulVec (L'.unitCell.point d m a) - L'.unitCell.point d (fun k => (∑ l, m l * M l k) - c k) b =
          h.1.mulVec (vec d L'.unitCell.positions[a]) + ∑ l, (c l : ℝ) • L'.unitCell.vec d l - vec d L'.unitCell.positions[b] := by
        rw [UnitCell.point, UnitCell.point, Matrix.mulVec_add, List.getD_eq_getElem _ _ ha', List.getD_eq_getElem _ _ hb1]
        have e1 : h.1.mulVec (∑ l, (m l : ℝ) • L'.unitCell.vec d l) = ∑ k, ((∑ l, (m l : ℝ) * M l k)) • L'.unitCell.vec d k := by
          rw [Matrix.mulVec_sum]
          simp only [Matrix.mulVec_smul, hM', Finset.smul_sum, Finset.sum_smul]
          rw [Finset.sum_comm]
          simp only [smul_smul]
        have e2 : ∑ k, (((∑ l, m l * M l k) - c k : ℤ) : ℝ) • L'.unitCell.vec d k =
            ∑ k, ((∑ l, (m l : ℝ) * M l k)) • L'.unitCell.vec d k - ∑ l, (c l : ℝ) • L'.unitCell.vec d l := by
          rw [← Finset.sum_sub_distrib]
          refine Finset.sum_congr rfl fun k _ => ?_
          push_cast
          rw [sub_smul]
        rw [e1, e2]
        abel
      rw [separation, separation]
      congr 1
      refine Finset.sum_congr rfl fun i _ => ?_
      have := congrFun hdiff i
      simp only [Pi.sub_apply] at this
      rw [this]
    rw [e]
    exact c2

/-- **C55** (a single generator): for a single generator of order at least three, only the generator and the identity are used. -/
theorem C55_single {g : GL (Fin d) ℝ} (hg : PointGenerators [g]) (h2 : g * g ≠ 1) (n : ℕ) :
    pointGroup d [rowsOf g.1] (n + 1) = .ok (some [rowsOf (1 : GL (Fin d) ℝ).1, rowsOf g.1]) := by
  have hmem : g ∈ Subgroup.closure {x | x ∈ [g]} := Subgroup.subset_closure (by simp)
  obtain ⟨l, l1, l2, l3⟩ := removeDuplicates_rows (S := {x | x ∈ Subgroup.closure {x | x ∈ [g]}}) hg.separated [g, g * g] (by
    intro x hx
    simp only [List.mem_cons, List.not_mem_nil, or_false] at hx
    rcases hx with rfl | rfl
    · exact hmem
    · exact mul_mem hmem hmem)
  have hne : g ≠ g * g := fun h => hg.proper (by
    have : g = 1 := by simpa using h.symm
    simp [this])
  have hl : l.length = 2 := by
    have : l.Perm [g, g * g] := (List.perm_ext_iff_of_nodup l2 (by simp [hne])).mpr l3
    simpa using this.length_eq
  have hprod := groupProducts_rows [g] [1, g]
  simp only [List.map_cons, List.map_nil, List.flatMap_cons, List.flatMap_nil, List.append_nil, List.singleton_append, one_mul] at hprod l1
  rw [pointGroup, eye_rows, pointGroupLoop.eq_def]
  dsimp only
  rw [if_pos (by simp)]
  have e : [rowsOf (1 : Matrix (Fin d) (Fin d) ℝ)] ++ [rowsOf g.1] = [rowsOf (1 : GL (Fin d) ℝ).1, rowsOf g.1] := rfl
  rw [e]
  simp only [hprod, bind, Except.bind, l1]
  rw [pointGroupLoop.eq_def]
  dsimp only
  rw [if_neg (by simp [hl])]

/-- the trivial group -/
theorem nil_generators : PointGenerators ([] : List (GL (Fin d) ℝ)) := by
  have e : {g : GL (Fin d) ℝ | g ∈ ([] : List (GL (Fin d) ℝ))} = ∅ := by ext; simp
  refine ⟨by simp, by simp, ?_, ?_⟩
  · rw [e, Subgroup.closure_empty]; infer_instance
  · rw [e, Subgroup.closure_empty]
    intro g hg h hh _
    rw [Subgroup.mem_bot.mp hg, Subgroup.mem_bot.mp hh]

/-! #### the rotation by ninety degrees -/

/-- the rotation by ninety degrees -/
noncomputable def quarter : GL (Fin 2) ℝ :=
  ⟨!![0, -1; 1, 0], !![0, 1; -1, 0], by ext i j; fin_cases i <;> fin_cases j <;> simp, by ext i j; fin_cases i <;> fin_cases j <;> simp⟩

theorem quarter_four : quarter ^ 4 = 1 := by
  ext i j
  simp only [pow_succ, pow_zero, one_mul, Units.val_mul, quarter]
  fin_cases i <;> fin_cases j <;> simp

theorem quarter_powers {g : GL (Fin 2) ℝ} (h : g ∈ Subgroup.closure {x | x ∈ [quarter]}) : ∃ k < 4, g = quarter ^ k := by
  have : {x | x ∈ [quarter]} = {quarter} := by ext; simp
  rw [this, ← Subgroup.zpowers_eq_closure, Subgroup.mem_zpowers_iff] at h
  obtain ⟨k, rfl⟩ := h
  refine ⟨(k % 4).toNat, by omega, ?_⟩
  rw [← zpow_natCast, Int.toNat_of_nonneg (by omega)]
  conv_lhs => rw [← Int.mul_ediv_add_emod k 4, zpow_add, zpow_mul]
  have h4 : quarter ^ (4 : ℤ) = 1 := by exact_mod_cast quarter_four
  rw [h4, one_zpow, one_mul]

theorem quarter_entries (k : ℕ) (hk : k < 4) : (quarter ^ k).1 0 0 = ![1, 0, -1, 0] ⟨k, hk⟩ ∧ (quarter ^ k).1 1 0 = ![0, 1, 0, -1] ⟨k, hk⟩ := by
  have h : k = 0 ∨ k = 1 ∨ k = 2 ∨ k = 3 := by omega
  rcases h with rfl | rfl | rfl | rfl <;> simp [pow_succ, quarter]

theorem quarter_generators : PointGenerators [quarter] := by
  refine ⟨by simp, ?_, ?_, ?_⟩
  · intro h
    have h1 : (1 : GL (Fin 2) ℝ) = quarter := by simpa using h
    have := (quarter_entries 1 (by norm_num)).1
    rw [pow_one, ← h1] at this
    simp at this
  · have hf : Set.Finite {g | ∃ k < 4, g = quarter ^ k} := by
      have : {g | ∃ k < 4, g = quarter ^ k} = (fun k => quarter ^ k) '' {k | k < 4} := by
        ext g
        simp only [Set.mem_setOf_eq, Set.mem_image]
        exact ⟨fun ⟨k, h1, h2⟩ => ⟨k, h1, h2.symm⟩, fun ⟨k, h1, h2⟩ => ⟨k, h1, h2.symm⟩⟩
      rw [this]
      exact Set.Finite.image _ (Set.finite_lt_nat 4)
    exact hf.subset fun g hg => quarter_powers hg
  · intro g hg h hh hi
    obtain ⟨k, hk, rfl⟩ := quarter_powers hg
    obtain ⟨j, hj, rfl⟩ := quarter_powers hh
    have e1 := quarter_entries k hk
    have e2 := quarter_entries j hj
    have i1 := hi 0 0
    have i2 := hi 1 0
    rw [e1.1, e2.1] at i1
    rw [e1.2, e2.2] at i2
    have h1 : k = 0 ∨ k = 1 ∨ k = 2 ∨ k = 3 := by omega
    have h2 : j = 0 ∨ j = 1 ∨ j = 2 ∨ j = 3 := by omega
    rcases h1 with rfl | rfl | rfl | rfl <;> rcases h2 with rfl | rfl | rfl | rfl <;> first
      | rfl
      | (exfalso; norm_num at i1; done)
      | (exfalso; norm_num at i2; done)

/-- the hypotheses of the theorems above hold for the rotation and its inverse -/
theorem quarter_pair : PointGenerators [quarter, quarter⁻¹] := by
  have hc : Subgroup.closure {x | x ∈ [quarter, quarter⁻¹]} = Subgroup.closure {x | x ∈ [quarter]} := by
    apply le_antisymm
    · rw [Subgroup.closure_le]
      intro x hx
      have hq : quarter ∈ Subgroup.closure {x | x ∈ [quarter]} := Subgroup.subset_closure (by simp)
      simp only [List.mem_cons, List.not_mem_nil, or_false, Set.mem_setOf_eq] at hx
      rcases hx with rfl | rfl
      · exact hq
      · exact inv_mem hq
    · exact Subgroup.closure_mono fun x hx => by simp at hx ⊢; exact Or.inl hx
  have hg := quarter_generators
  refine ⟨?_, ?_, ?_, ?_⟩
  · simp only [List.nodup_cons, List.mem_singleton, List.not_mem_nil, not_false_eq_true, List.nodup_nil, and_true]
    intro h
    have := congrArg (fun g : GL (Fin 2) ℝ => g.1 1 0) h
    simp [quarter] at this
    norm_num at this
  · intro h
    rcases List.mem_cons.mp h with h | h
    · exact hg.proper (by rw [← h]; simp [← h])
    · have : quarter = 1 := by
        have := List.mem_singleton.mp h
        rw [← inv_inv quarter, ← this, inv_one]
      exact hg.proper (by simp [this])
  · rw [hc]; exact hg.finite
  · rw [hc]; exact hg.separated

/-- the lattice of the examples: a square lattice with one atom off the axes -/
def squareCell (names : List ω) : UnitCell ℝ ω := ⟨[[10, 0], [0, 10]], [[3, 4]], [names]⟩

theorem squareCell_wf (names : List ω) : (squareCell names).WF 2 := by
  refine ⟨rfl, ?_, rfl, ?_⟩
  · intro v hv
    simp only [squareCell, List.mem_cons, List.not_mem_nil, or_false] at hv
    rcases hv with rfl | rfl <;> rfl
  · intro v hv
    simp only [squareCell, List.mem_cons, List.not_mem_nil, or_false] at hv
    rw [hv]; rfl

/-- the hypotheses of `C55_partial` and `C55_crystal_partial` hold for this lattice -/
example (latTol : ℝ) (render : List ℝ → ν) (dflt : ω) : ∃ L, mkLattice (squareCell [dflt]) [1, 1] (some [true, true]) latTol render = .ok L ∧
    ∃ L', symmetrizeLattice euclid latTol render dflt L [rowsOf quarter.1, rowsOf (quarter⁻¹).1] 1 (1 / 10 ^ 12)
      (Nat.card (Subgroup.closure {x | x ∈ [quarter, quarter⁻¹]})) = .ok (some L') ∧
      ∀ a ∈ L'.atoms, ∃ b ∈ L'.atoms, b.2 = a.2 ∧ L'.Equivalent 2 (1 / 10 ^ 12) (quarter.1.mulVec (vec 2 a.1)) (vec 2 b.1) := by
  obtain ⟨L, h1, h2⟩ := mkLattice_single (d := 2) (squareCell_wf [dflt]) (periodic := [true, true]) rfl latTol render
  refine ⟨L, h1, ?_⟩
  obtain ⟨L', g1, g2, -⟩ := C55_partial (h2.proper (squareCell_wf [dflt]) rfl) (by norm_num) quarter_pair
    (Or.inr ⟨quarter, by simp, quarter⁻¹, by simp, by simp⟩) (n := 1) (by norm_num) (tol := 1 / 10 ^ 12) (by norm_num) latTol render dflt (le_refl _)
  exact ⟨L', g1, g2 quarter (Subgroup.subset_closure (by simp))⟩

theorem le_separation {x y : Fin 2 → ℝ} (i : Fin 2) : |x i - y i| ≤ separation x y := by
  rw [separation, ← Real.sqrt_sq_eq_abs]
  apply Real.sqrt_le_sqrt
  exact Finset.single_le_sum (f := fun i => (x i - y i) ^ 2) (fun i _ => sq_nonneg _) (Finset.mem_univ i)

/-- positions of a lattice with vectors `(20,0)` and `(0,20)` whose difference is an integer that is not a multiple of 20 are not equivalent -/
theorem not_equivalent {L : Lattice ℝ ω ν} (h0 : L.unitCell.vec 2 0 = ![20, 0]) (h1 : L.unitCell.vec 2 1 = ![0, 20]) {tol : ℝ} (ht : tol ≤ 1)
    {x y : Fin 2 → ℝ} (i : Fin 2) (k : ℤ) (hk : ¬ (20 : ℤ) ∣ k) (h : x i - y i = k) : ¬ L.Equivalent 2 tol x y := by
  rintro ⟨c, -, hc⟩
  have h2 := (le_separation (x := x + ∑ l, (c l : ℝ) • L.unitCell.vec 2 l) (y := y) i).trans_lt (hc.trans_le ht)
  have e : (x + ∑ l, (c l : ℝ) • L.unitCell.vec 2 l) i - y i = ((k + 20 * c i : ℤ) : ℝ) := by
    rw [Fin.sum_univ_two, h0, h1]
    push_cast
    rw [← h]
    fin_cases i <;> simp <;> ring
  rw [e] at h2
  have h3 : |k + 20 * c i| < 1 := by exact_mod_cast h2
  have h4 : k + 20 * c i = 0 := Int.abs_lt_one_iff.mp h3
  exact hk ⟨-c i, by omega⟩

/-- **C55 refuted**: for a single generator of order four the result is not invariant.  The square lattice with lattice constant 10 and
an atom at (3,4), symmetrized with the rotation by ninety degrees: the rotation takes an atom of the new lattice to a place where there is no
atom. -/
theorem C55_refuted (latTol : ℝ) (render : List ℝ → ν) (dflt : ω) (names : List ω) {tol : ℝ} (ht : 0 < tol) (ht1 : tol ≤ 1) :
    ∃ L, mkLattice (squareCell names) [1, 1] (some [true, true]) latTol render = .ok L ∧ ∃ fuel L',
      symmetrizeLattice euclid latTol render dflt L [rowsOf quarter.1] 1 tol fuel = .ok (some L') ∧
      ∃ a ∈ L'.atoms, ∀ b ∈ L'.atoms, ¬ L'.Equivalent 2 tol (quarter.1.mulVec (vec 2 a.1)) (vec 2 b.1) := by
  obtain ⟨L, h1, h2⟩ := mkLattice_single (d := 2) (squareCell_wf names) (periodic := [true, true]) rfl latTol render
  have hL := h2.proper (squareCell_wf names) rfl
  refine ⟨L, h1, Nat.card (Subgroup.closure {x | x ∈ [quarter]}) + 1, ?_⟩
  have hq : quarter * quarter ≠ 1 := by
    intro h
    have := (quarter_entries 2 (by norm_num)).1
    rw [pow_two, h] at this
    simp at this
    norm_num at this
  obtain ⟨L', L'', g1, -, g2, -, g4, hne, g5⟩ := symmetrizeLattice_spec hL (by norm_num) quarter_generators (n := 1) (by norm_num) ht latTol render dflt
    (Nat.le_succ _) (G := [1, quarter]) (C55_single quarter_generators hq _)
  rw [g2 rfl] at g5
  refine ⟨L', g1, ?_⟩
  have hv0 : L'.unitCell.vec 2 0 = ![20, 0] := by
    rw [g4, UnitCell.vec, h2.unitCell_eq]
    funext i
    fin_cases i <;> simp [squareCell, vec]; norm_num
  have hv1 : L'.unitCell.vec 2 1 = ![0, 20] := by
    rw [g4, UnitCell.vec, h2.unitCell_eq]
    funext i
    fin_cases i <;> simp [squareCell, vec]; norm_num
  have himg : ∀ b, b ∈ images [1, quarter] (expandedAtoms L (L.unitCell.vectors.getLast hne)) ↔
      b = ([3, 4], names) ∨ b = ([-4, 3], names) ∨ b = ([3, 14], names) ∨ b = ([-14, 3], names) := by
    intro b
    have hat : L.atoms = [([3, 4], names)] := by rw [Lattice.atoms, h2.unitCell_eq]; rfl
    have hlast : L.unitCell.vectors.getLast hne = [0, 10] := by
      simp only [h2.unitCell_eq, squareCell]
      rfl
    rw [images, expandedAtoms, hat, hlast]
    have e1 : (List.ofFn ((1 : GL (Fin 2) ℝ).1.mulVec (vec 2 [3, 4]))) = [3, 4] := by simp [vec]
    have e2 : (List.ofFn (quarter.1.mulVec (vec 2 [3, 4]))) = [-4, 3] := by simp [vec, quarter, Matrix.mulVec, dotProduct]
    have e3 : (List.ofFn ((1 : GL (Fin 2) ℝ).1.mulVec (vec 2 (plus [0, 10] [3, 4])))) = [3, 14] := by simp [vec]; norm_num
    have e4 : (List.ofFn (quarter.1.mulVec (vec 2 (plus [0, 10] [3, 4])))) = [-14, 3] := by
      simp [vec, quarter, Matrix.mulVec, dotProduct]; norm_num
    simp only [List.map_cons, List.map_nil, List.cons_append, List.nil_append, List.flatMap_cons, List.flatMap_nil, e1, e2, e3, e4, List.append_nil,
      List.mem_cons, List.not_mem_nil, or_false]
  have v1 : vec 2 ([3, 4] : List ℝ) = ![3, 4] := by funext i; fin_cases i <;> simp [vec]
  have v2 : vec 2 ([-4, 3] : List ℝ) = ![-4, 3] := by funext i; fin_cases i <;> simp [vec]
  have v3 : vec 2 ([3, 14] : List ℝ) = ![3, 14] := by funext i; fin_cases i <;> simp [vec]
  have v4 : vec 2 ([-14, 3] : List ℝ) = ![-14, 3] := by funext i; fin_cases i <;> simp [vec]
  have hin : (([-4, 3], names) : List ℝ × List ω) ∈ L'.atoms := by
    obtain ⟨b, hb, hn⟩ := g5.cover ([-4, 3], names) ((himg _).mpr (Or.inr (Or.inl rfl)))
    have hn := hn.equivalent
    rcases (himg b).mp (g5.sub b hb) with rfl | rfl | rfl | rfl
    · refine absurd hn (not_equivalent hv0 hv1 ht1 0 (-7) (by decide) ?_)
      rw [v1, v2]; norm_num
    · exact hb
    · refine absurd hn (not_equivalent hv0 hv1 ht1 0 (-7) (by decide) ?_)
      rw [v3, v2]; norm_num
    · refine absurd hn (not_equivalent hv0 hv1 ht1 0 10 (by decide) ?_)
      rw [v4, v2]; norm_num
  refine ⟨_, hin, fun b hb => ?_⟩
  have hr : quarter.1.mulVec (vec 2 [-4, 3]) = ![-3, -4] := by
    rw [v2]; funext i; fin_cases i <;> simp [quarter, Matrix.mulVec, dotProduct]
  dsimp only
  rw [hr]
  rcases (himg b).mp (g5.sub b hb) with rfl | rfl | rfl | rfl
  · exact not_equivalent hv0 hv1 ht1 0 (-6) (by decide) (by rw [v1]; norm_num)
  · exact not_equivalent hv0 hv1 ht1 0 1 (by decide) (by rw [v2]; norm_num)
  · exact not_equivalent hv0 hv1 ht1 0 (-6) (by decide) (by rw [v3]; norm_num)
  · exact not_equivalent hv0 hv1 ht1 0 11 (by decide) (by rw [v4]; norm_num)

/-! ### C65 -/

/-- a finite group of matrices in one dimension consists of signs -/
theorem one_dim_pair {gens : List (GL (Fin 1) ℝ)} (hg : PointGenerators gens) : gens = [] ∨ ∃ a ∈ gens, ∃ b ∈ gens, a * b = 1 := by
  rcases gens with _ | ⟨g, rest⟩
  · exact Or.inl rfl
  · refine Or.inr ⟨g, by simp, g, by simp, ?_⟩
    have := hg.finite
    have hmem : g ∈ Subgroup.closure {x | x ∈ g :: rest} := Subgroup.subset_closure (by simp)
    obtain ⟨n, hn, h1⟩ := (isOfFinOrder_of_finite (⟨g, hmem⟩ : Subgroup.closure {x | x ∈ g :: rest})).exists_pow_eq_one
    have h2 : g ^ n = 1 := by simpa using congrArg Subtype.val h1
    have h3 : (g.1 0 0) ^ n = 1 := by
      have := congrArg (fun x : GL (Fin 1) ℝ => x.1.det) h2
      simp only [Units.val_pow_eq_pow_val, Matrix.det_pow, Units.val_one, Matrix.det_one] at this
      rwa [Matrix.det_fin_one] at this
    have h4 : g.1 0 0 * g.1 0 0 = 1 := by
      have : |g.1 0 0| = 1 := by
        rw [← pow_eq_one_iff_of_nonneg (abs_nonneg _) (by omega : n ≠ 0), ← abs_pow, h3, abs_one]
      rw [← abs_mul_abs_self, this, one_mul]
    ext i j
    fin_cases i; fin_cases j
    simpa [Matrix.mul_apply] using h4

/-- **C65** (chains): in one dimension, `symmetrize_lattice` with one expansion keeps all atoms of the infinite crystal, with their orbitals, up to the
tolerance. -/
theorem C65_one_dimension_partial {L : Lattice ℝ ω ν} (hL : L.Proper 1) {gens : List (GL (Fin 1) ℝ)} (hg : PointGenerators gens)
    {tol : ℝ} (ht : 0 < tol) (latTol : ℝ) (render : List ℝ → ν) (dflt : ω) {fuel : ℕ} (hf : Nat.card (Subgroup.closure {g | g ∈ gens}) ≤ fuel) :
    ∃ L', symmetrizeLattice euclid latTol render dflt L (gens.map fun g => rowsOf g.1) 1 tol fuel = .ok (some L') ∧
      ∀ (m : Fin 1 → ℤ) (a : ℕ), a < L.unitCell.orbitals.length → ∃ (m' : Fin 1 → ℤ) (b : ℕ), b < L'.unitCell.orbitals.length ∧
        L'.unitCell.orbitals[b]? = L.unitCell.orbitals[a]? ∧ separation (L.unitCell.point 1 m a) (L'.unitCell.point 1 m' b) < tol := by
  obtain ⟨G, g1, g2, g3, g4⟩ := pointGroup_ok hg hf
  obtain ⟨L', L'', h1, -, h2, -, h3, hne, h4⟩ := symmetrizeLattice_spec hL (by norm_num) hg (n := 1) (by norm_num) ht latTol render dflt hf g1
  rw [h2 rfl] at h4
  refine ⟨L', h1, fun m a ha => ?_⟩
  have ha' : a < L.unitCell.positions.length := by rw [hL.cell.positions]; exact ha
  have hmem : (L.unitCell.positions[a], L.unitCell.orbitals[a]) ∈ L.atoms := by
    rw [Lattice.atoms, List.mem_iff_getElem]
    exact ⟨a, by simp [ha, ha'], by simp⟩
  have hlast : L.unitCell.vectors.getLast hne = L.unitCell.vectors.getD 0 [] := by
    have hl := hL.cell.vectors
    rw [List.getLast_eq_getElem, List.getD_eq_getElem _ _ (by omega)]
    congr 1
    omega
  have hone : (1 : GL (Fin 1) ℝ) ∈ G := g4 (one_dim_pair hg) 1 (one_mem _)
  -- the atom in an even or an odd cell
  obtain ⟨x, hx, hxv⟩ : ∃ x, (x, L.unitCell.orbitals[a]) ∈ expandedAtoms L (L.unitCell.vectors.getLast hne) ∧
      vec 1 x = vec 1 L.unitCell.positions[a] + ((m 0 % 2 : ℤ) : ℝ) • L.unitCell.vec 1 0 := by
    rcases Int.emod_two_eq_zero_or_one (m 0) with h | h
    · exact ⟨_, List.mem_append_left _ hmem, by rw [h]; simp⟩
    · refine ⟨plus (L.unitCell.vectors.getLast hne) L.unitCell.positions[a], List.mem_append_right _ (List.mem_map.mpr ⟨_, hmem, rfl⟩), ?_⟩
      have hl : (L.unitCell.vectors.getLast hne).length = 1 := hL.cell.vector _ (List.getLast_mem hne)
      rw [vec_plus hl (hL.cell.position _ (List.getElem_mem ha')), h, hlast, UnitCell.vec]
      simp [add_comm]
  obtain ⟨b, hb, hn⟩ := h4.cover (List.ofFn ((1 : GL (Fin 1) ℝ).1.mulVec (vec 1 x)), L.unitCell.orbitals[a]) (by
    rw [images, List.mem_flatMap]
    exact ⟨_, hx, List.mem_map.mpr ⟨1, hone, rfl⟩⟩)
  obtain ⟨⟨c, -, -, hc⟩, ho⟩ := hn
  rw [Lattice.atoms, List.mem_iff_getElem] at hb
  obtain ⟨k, hk, rfl⟩ := hb
  have hk1 : k < L'.unitCell.positions.length := by simp at hk; exact hk.1
  have hk2 : k < L'.unitCell.orbitals.length := by simp at hk; exact hk.2
  rw [List.getElem_zip] at ho hc
  refine ⟨fun _ => m 0 / 2 - c 0, k, hk2, ?_, ?_⟩
  · rw [List.getElem?_eq_getElem hk2, List.getElem?_eq_getElem ha]
    exact congrArg some ho.symm
  · have hm : ((m 0 : ℤ) : ℝ) = 2 * ((m 0 / 2 : ℤ) : ℝ) + ((m 0 % 2 : ℤ) : ℝ) := by
      have := Int.mul_ediv_add_emod (m 0) 2
      exact_mod_cast this.symm
    have e : separation (L.unitCell.point 1 m a) (L'.unitCell.point 1 (fun _ => m 0 / 2 - c 0) k) =
        separation (vec 1 (List.ofFn ((1 : GL (Fin 1) ℝ).1.mulVec (vec 1 x))) + ∑ l, (c l : ℝ) • L'.unitCell.vec 1 l) (vec 1 L'.unitCell.positions[k]) := by
      rw [separation, separation]
      congr 1
      refine Finset.sum_congr rfl fun i _ => ?_
      rw [vec_ofFn, UnitCell.point, UnitCell.point, List.getD_eq_getElem _ _ ha', List.getD_eq_getElem _ _ hk1]
      simp only [Units.val_one, Matrix.one_mulVec, hxv, Fin.sum_univ_one, Pi.add_apply, Pi.smul_apply, smul_eq_mul, h3, hm]
      push_cast
      ring
    rw [e]
    exact hc

/-- the hypotheses of `C65_one_dimension_partial` hold for the trivial group and a chain with two atoms per cell -/
example (latTol : ℝ) (render : List ℝ → ν) (dflt : ω) :
    (∃ L, mkLattice (⟨[[2]], [[0], [1 / 2]], [[dflt], [dflt]]⟩ : UnitCell ℝ ω) [1] (some [true]) latTol render = .ok L ∧ L.Proper 1) ∧
    PointGenerators ([] : List (GL (Fin 1) ℝ)) := by
  constructor
  · have hu : UnitCell.WF (⟨[[2]], [[0], [1 / 2]], [[dflt], [dflt]]⟩ : UnitCell ℝ ω) 1 :=
      ⟨rfl, by simp, rfl, by simp⟩
    obtain ⟨L, h1, h2⟩ := mkLattice_single hu (periodic := [true]) rfl latTol render
    exact ⟨L, h1, h2.proper hu rfl⟩
  · exact nil_generators

/-- **C65 refuted**: in two dimensions atoms are lost, even without any generators.  The square lattice with lattice constant 10 and an atom at
(3,4): the result has lattice constant 20 but no atom at (13,4). -/
theorem C65_refuted (latTol : ℝ) (render : List ℝ → ν) (dflt : ω) (names : List ω) {tol : ℝ} (ht : 0 < tol) (ht1 : tol ≤ 1) :
    ∃ L, mkLattice (squareCell names) [1, 1] (some [true, true]) latTol render = .ok L ∧ ∃ fuel L',
      symmetrizeLattice euclid latTol render dflt L [] 1 tol fuel = .ok (some L') ∧
      ∃ (m : Fin 2 → ℤ) (a : ℕ), a < L.unitCell.orbitals.length ∧ ∀ (m' : Fin 2 → ℤ) (b : ℕ), b < L'.unitCell.orbitals.length →
        ¬ separation (L.unitCell.point 2 m a) (L'.unitCell.point 2 m' b) < tol := by
  obtain ⟨L, h1, h2⟩ := mkLattice_single (d := 2) (squareCell_wf names) (periodic := [true, true]) rfl latTol render
  have hL := h2.proper (squareCell_wf names) rfl
  refine ⟨L, h1, Nat.card (Subgroup.closure {x | x ∈ ([] : List (GL (Fin 2) ℝ))}), ?_⟩
  have hG : pointGroup 2 (([] : List (GL (Fin 2) ℝ)).map fun g => rowsOf g.1) (Nat.card (Subgroup.closure {x | x ∈ ([] : List (GL (Fin 2) ℝ))})) =
      .ok (some (([1] : List (GL (Fin 2) ℝ)).map fun g => rowsOf g.1)) := by
    rw [pointGroup, pointGroupLoop.eq_def]
    dsimp only
    rw [if_neg (by simp), eye_rows]
    rfl
  obtain ⟨L', L'', g1, -, g2, -, g4, hne, g5⟩ := symmetrizeLattice_spec hL (by norm_num) nil_generators (n := 1) (by norm_num) ht latTol render dflt
    (le_refl _) hG
  rw [g2 rfl] at g5
  refine ⟨L', g1, ![1, 0], 0, by rw [h2.unitCell_eq]; simp [squareCell], ?_⟩
  have hv0 : L'.unitCell.vec 2 0 = ![20, 0] := by
    rw [g4, UnitCell.vec, h2.unitCell_eq]
    funext i
    fin_cases i <;> simp [squareCell, vec]; norm_num
  have hv1 : L'.unitCell.vec 2 1 = ![0, 20] := by
    rw [g4, UnitCell.vec, h2.unitCell_eq]
    funext i
    fin_cases i <;> simp [squareCell, vec]; norm_num
  have hpt : L.unitCell.point 2 ![1, 0] 0 = ![13, 4] := by
    rw [UnitCell.point, Fin.sum_univ_two, UnitCell.vec, UnitCell.vec, h2.unitCell_eq]
    funext i
    fin_cases i <;> simp [squareCell, vec]; norm_num
  intro m' b hb hlt
  have hb' : b < L'.unitCell.positions.length := by rw [g5.proper.cell.positions]; exact hb
  have hmem : (L'.unitCell.positions[b], L'.unitCell.orbitals[b]) ∈ L'.atoms := by
    rw [Lattice.atoms, List.mem_iff_getElem]
    exact ⟨b, by simp [hb, hb'], by simp⟩
  have h3 : L'.unitCell.positions[b][0]? = some 3 := by
    have := g5.sub _ hmem
    have hat : L.atoms = [([3, 4], names)] := by rw [Lattice.atoms, h2.unitCell_eq]; rfl
    have hlast : L.unitCell.vectors.getLast hne = [0, 10] := by
      simp only [h2.unitCell_eq, squareCell]
      rfl
    rw [images, expandedAtoms, hat, hlast] at this
    simp only [List.map_cons, List.map_nil, List.cons_append, List.nil_append, List.flatMap_cons, List.flatMap_nil, List.append_nil,
      List.mem_cons, List.not_mem_nil, or_false, Prod.mk.injEq, Units.val_one, Matrix.one_mulVec] at this
    rcases this with ⟨h, -⟩ | ⟨h, -⟩ <;> rw [h] <;> simp [vec]
  have hx := (le_separation (x := L.unitCell.point 2 ![1, 0] 0) (y := L'.unitCell.point 2 m' b) 0).trans_lt (hlt.trans_le ht1)
  have e : L.unitCell.point 2 ![1, 0] 0 0 - L'.unitCell.point 2 m' b 0 = ((10 - 20 * m' 0 : ℤ) : ℝ) := by
    rw [hpt, UnitCell.point, Fin.sum_univ_two, hv0, hv1, List.getD_eq_getElem _ _ hb']
    simp [vec, h3]
    ring
  rw [e] at hx
  have h4 : |10 - 20 * m' 0| < 1 := by exact_mod_cast hx
  have := Int.abs_lt_one_iff.mp h4
  omega

end Qosy
