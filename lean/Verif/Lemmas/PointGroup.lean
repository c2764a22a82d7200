import Verif.Spec.LatticeSymmetry
import Verif.Lemmas.Lattice
import Verif.Lemmas.Distance
import Verif.Props.Tools
import Mathlib.Data.Matrix.Mul

/-! # The loop that generates the point group -/

namespace Qosy
open scoped MatrixGroups
variable {d : ℕ}

/-! ### matrices as lists of rows -/

theorem rowDot_ofFn (x y : Fin d → ℝ) : rowDot (List.ofFn x) (List.ofFn y) = .ok (∑ i, x i * y i) := by
  rw [rowDot, if_pos (by simp)]
  congr 1
  rw [← List.sum_ofFn]
  congr 1
  apply List.ext_getElem (by simp)
  intro i h1 h2
  simp

theorem ofFn_mapM {β : Type} {f : List ℝ → Py β} {r : Fin d → List ℝ} {g : Fin d → β} (h : ∀ i, f (r i) = .ok (g i)) :
    (List.ofFn r).mapM f = .ok (List.ofFn g) := by
  have hf : ∀ n (r : Fin n → List ℝ) (g : Fin n → β), (∀ i, f (r i) = .ok (g i)) → (List.ofFn r).mapM f = .ok (List.ofFn g) := by
    intro n
    induction n with
    | zero => intro r g _; simp; rfl
    | succ n ih =>
      intro r g h
      rw [List.ofFn_succ, List.mapM_cons, h 0, List.ofFn_succ, ih (fun i => r i.succ) (fun i => g i.succ) (fun i => h _)]
      rfl
  exact hf d r g h

theorem rowsVec_rows (A : Matrix (Fin d) (Fin d) ℝ) {p : List ℝ} (hp : p.length = d) :
    rowsVec (rowsOf A) p = .ok (List.ofFn (A.mulVec (vec d p))) := by
  rw [rowsVec, rowsOf]
  apply ofFn_mapM
  intro i
  conv_lhs => rw [← ofFn_vec hp]
  rw [rowDot_ofFn]; rfl

theorem columns_rows (A : Matrix (Fin d) (Fin d) ℝ) : columns (rowsOf A).length (rowsOf A) = List.ofFn fun j => List.ofFn fun i => A i j := by
  have hl : (rowsOf A).length = d := by simp [rowsOf]
  rw [columns, hl]
  apply List.ext_getElem (by simp)
  intro j h1 h2
  have hj : j < d := by simpa using h2
  simp only [List.getElem_map, List.getElem_range, List.getElem_ofFn, rowsOf, List.map_ofFn]
  congr 1
  funext i
  simp [hj]

theorem rowsMul_rows (A B : Matrix (Fin d) (Fin d) ℝ) : rowsMul (rowsOf A) (rowsOf B) = .ok (rowsOf (A * B)) := by
  rw [rowsMul, columns_rows, rowsOf, rowsOf]
  apply ofFn_mapM
  intro i
  apply ofFn_mapM
  intro j
  rw [rowDot_ofFn, Matrix.mul_apply]

theorem eye_rows : eye d = rowsOf (1 : Matrix (Fin d) (Fin d) ℝ) := by
  rw [eye, rowsOf]
  apply List.ext_getElem (by simp)
  intro i h1 h2
  simp only [List.getElem_map, List.getElem_range, List.getElem_ofFn, unitVector]
  apply List.ext_getElem (by simp)
  intro j h3 h4
  simp only [List.getElem_map, List.getElem_range, List.getElem_ofFn, Matrix.one_apply, Fin.mk.injEq]
  simp only [eq_comm]

theorem allClose_rows (A B : Matrix (Fin d) (Fin d) ℝ) : allClose (1 / 10 ^ 12) (rowsOf A) (rowsOf B) = true ↔ Indistinct A B := by
  have e : (rowsOf A).flatten.zip (rowsOf B).flatten = (List.ofFn fun i => List.ofFn fun j => (A i j, B i j)).flatten := by
    have key : ∀ n (a b : Fin n → Fin d → ℝ), (List.ofFn fun i => List.ofFn (a i)).flatten.zip (List.ofFn fun i => List.ofFn (b i)).flatten =
        (List.ofFn fun i => List.ofFn fun j => (a i j, b i j)).flatten := by
      intro n
      induction n with
      | zero => intro a b; simp
      | succ n ih =>
        intro a b
        simp only [List.ofFn_succ, List.flatten_cons]
        rw [List.zip_append (by simp), ih]
        congr 1
        apply List.ext_getElem (by simp)
        intro i h1 h2
        simp
    exact key d A B
  rw [allClose, e, List.all_eq_true]
  simp only [List.mem_flatten, List.mem_ofFn, decide_eq_true_eq]
  constructor
  · intro h i j
    exact h (A i j, B i j) ⟨_, ⟨i, rfl⟩, List.mem_ofFn.mpr ⟨j, rfl⟩⟩
  · rintro h p ⟨l, ⟨i, rfl⟩, hp⟩
    obtain ⟨j, rfl⟩ := List.mem_ofFn.mp hp
    exact h i j

theorem indistinct_refl (A : Matrix (Fin d) (Fin d) ℝ) : Indistinct A A := fun i j => by
  rw [sub_self, abs_zero]; positivity

/-! ### removing duplicates of group elements -/

theorem removeDuplicates_rows {S : Set (GL (Fin d) ℝ)} (hS : ∀ g ∈ S, ∀ h ∈ S, Indistinct g.1 h.1 → g = h) (l : List (GL (Fin d) ℝ))
    (hl : ∀ g ∈ l, g ∈ S) : ∃ l' : List (GL (Fin d) ℝ), removeDuplicates (allClose (1 / 10 ^ 12)) (l.map fun g => rowsOf g.1) = l'.map (fun g => rowsOf g.1) ∧
      l'.Nodup ∧ ∀ g, g ∈ l' ↔ g ∈ l := by
  induction l using List.reverseRecOn with
  | nil => exact ⟨[], rfl, List.nodup_nil, fun _ => Iff.rfl⟩
  | append_singleton l x ih =>
    obtain ⟨l', h1, h2, h3⟩ := ih fun g hg => hl g (List.mem_append_left _ hg)
    have hx : x ∈ S := hl x (by simp)
    have hl'S : ∀ g ∈ l', g ∈ S := fun g hg => hl g (List.mem_append_left _ ((h3 g).mp hg))
    have e : removeDuplicates (allClose (1 / 10 ^ 12)) ((l ++ [x]).map fun g => rowsOf g.1) =
        if (l'.map fun g : GL (Fin d) ℝ => rowsOf g.1).any (fun y => allClose (1 / 10 ^ 12) (rowsOf x.1) y) then l'.map (fun g => rowsOf g.1)
        else l'.map (fun g => rowsOf g.1) ++ [rowsOf x.1] := by
      rw [← h1, List.map_append, removeDuplicates, List.foldl_append]
      rfl
    have hany : (l'.map fun g : GL (Fin d) ℝ => rowsOf g.1).any (fun y => allClose (1 / 10 ^ 12) (rowsOf x.1) y) = true ↔ x ∈ l' := by
      rw [List.any_map, List.any_eq_true]
      constructor
      · rintro ⟨y, hy, h⟩
        rw [hS x hx y (hl'S y hy) ((allClose_rows _ _).mp h)]
        exact hy
      · intro h
        exact ⟨x, h, (allClose_rows _ _).mpr (indistinct_refl _)⟩
    rw [e]
    by_cases hm : x ∈ l'
    · rw [if_pos (hany.mpr hm)]
      refine ⟨l', rfl, h2, fun g => ?_⟩
      rw [h3, List.mem_append, List.mem_singleton]
      exact ⟨Or.inl, fun h => h.elim id fun h => h ▸ (h3 x).mp hm⟩
    · rw [if_neg (fun h => hm (hany.mp h))]
      refine ⟨l' ++ [x], by simp, ?_, fun g => ?_⟩
      · rw [List.nodup_append]
        refine ⟨h2, by simp, ?_⟩
        rintro a ha b hb rfl
        exact hm (by rw [← List.mem_singleton.mp hb]; exact ha)
      · rw [List.mem_append, List.mem_append, h3]

theorem groupProducts_rows (gens G : List (GL (Fin d) ℝ)) : groupProducts (gens.map fun g => rowsOf g.1) (G.map fun g => rowsOf g.1) =
    .ok ((G.flatMap fun g => gens.map fun h => g * h).map fun g => rowsOf g.1) := by
  have e : (G.map fun g => rowsOf g.1).mapM (fun g => (gens.map fun g => rowsOf g.1).mapM fun h => rowsMul g h) =
      .ok (G.map fun g => gens.map fun h => rowsOf (g * h).1) := by
    induction G with
    | nil => rfl
    | cons g G ih =>
      have e1 : (gens.map fun g => rowsOf g.1).mapM (fun h => rowsMul (rowsOf g.1) h) = .ok (gens.map fun h => rowsOf (g * h).1) := by
        clear ih
        induction gens with
        | nil => rfl
        | cons h gens ih =>
          rw [List.map_cons, List.mapM_cons, rowsMul_rows, ih]
          rfl
      rw [List.map_cons, List.mapM_cons, e1, ih]
      rfl
  simp only [groupProducts, e, bind, Except.bind]
  congr 1
  rw [List.map_flatMap, ← List.flatMap_def]
  simp [List.flatMap_def, Function.comp_def]

/-! ### the loop -/

/-- the invariant of the loop -/
structure GroupInv (gens G newG : List (GL (Fin d) ℝ)) : Prop where
  nodup : G.Nodup
  nodup' : newG.Nodup
  mem : ∀ g ∈ newG, g ∈ Subgroup.closure {g | g ∈ gens}
  mem' : ∀ g ∈ G, g ∈ Subgroup.closure {g | g ∈ gens}
  le : G.length ≤ newG.length
  pair : (∃ a ∈ gens, ∃ b ∈ gens, a * b = 1) → 1 ∈ G ∧ (∀ g ∈ G, g ∈ newG) ∧ (∀ g ∈ G, ∀ a ∈ gens, g * a ∈ newG) ∧
    ∀ g ∈ newG, g = 1 ∨ ∃ h ∈ G, ∃ a ∈ gens, g = h * a

theorem GroupInv.first {gens : List (GL (Fin d) ℝ)} (h : PointGenerators gens) : GroupInv gens [1] (1 :: gens) where
  nodup := by simp
  nodup' := List.nodup_cons.mpr ⟨h.proper, h.distinct⟩
  mem := by
    intro g hg
    rcases List.mem_cons.mp hg with rfl | hg
    · exact one_mem _
    · exact Subgroup.subset_closure hg
  mem' := by
    intro g hg
    rw [List.mem_singleton.mp hg]; exact one_mem _
  le := by simp
  pair := by
    intro _
    refine ⟨by simp, by simp, ?_, ?_⟩
    · intro g hg a ha
      rw [List.mem_singleton.mp hg, one_mul]
      exact List.mem_cons_of_mem _ ha
    · intro g hg
      rcases List.mem_cons.mp hg with rfl | hg
      · exact Or.inl rfl
      · exact Or.inr ⟨1, by simp, g, hg, by simp⟩

theorem GroupInv.next {gens G newG l : List (GL (Fin d) ℝ)} (h : GroupInv gens G newG) (hne : newG.length ≠ G.length) (hl : l.Nodup)
    (hmem : ∀ g, g ∈ l ↔ g ∈ newG.flatMap fun g => gens.map fun a => g * a) (hg : gens ≠ []) : GroupInv gens newG l := by
  classical
  have hmem' : ∀ g, g ∈ l ↔ ∃ h ∈ newG, ∃ a ∈ gens, g = h * a := by
    intro g
    rw [hmem, List.mem_flatMap]
    refine exists_congr fun h => and_congr_right fun _ => ?_
    rw [List.mem_map]
    exact exists_congr fun a => and_congr_right fun _ => eq_comm
  refine ⟨h.nodup', hl, ?_, h.mem, ?_, ?_⟩
  · intro g hg
    obtain ⟨x, hx, a, ha, rfl⟩ := (hmem' g).mp hg
    exact mul_mem (h.mem x hx) (Subgroup.subset_closure ha)
  · obtain ⟨a, ha⟩ := List.exists_mem_of_ne_nil _ hg
    have : (newG.map (· * a)).Subperm l := by
      apply List.Nodup.subperm
      · exact h.nodup'.map (mul_left_injective a)
      · intro x hx
        obtain ⟨y, hy, rfl⟩ := List.mem_map.mp hx
        exact (hmem' _).mpr ⟨y, hy, a, ha, rfl⟩
    simpa using this.length_le
  · intro hp
    obtain ⟨p1, p2, p3, p4⟩ := h.pair hp
    refine ⟨p2 1 p1, ?_, fun g hg a ha => (hmem' _).mpr ⟨g, hg, a, ha, rfl⟩, fun g hg => Or.inr ((hmem' g).mp hg)⟩
    intro g hg
    rcases p4 g hg with rfl | ⟨x, hx, a, ha, rfl⟩
    · obtain ⟨a, ha, b, hb, hab⟩ := hp
      exact (hmem' _).mpr ⟨a, by simpa using p3 1 p1 a ha, b, hb, hab.symm⟩
    · exact (hmem' _).mpr ⟨x, p2 x hx, a, ha, rfl⟩

/-- when the sizes agree, the list is the whole group -/
theorem GroupInv.done {gens G newG : List (GL (Fin d) ℝ)} (h : GroupInv gens G newG) (he : newG.length = G.length)
    (hp : ∃ a ∈ gens, ∃ b ∈ gens, a * b = 1) (g : GL (Fin d) ℝ) (hg : g ∈ Subgroup.closure {g | g ∈ gens}) : g ∈ G := by
  classical
  obtain ⟨p1, p2, p3, -⟩ := h.pair hp
  have hsub : ∀ g ∈ newG, g ∈ G := by
    have : G.Subperm newG := h.nodup.subperm p2
    exact (this.perm_of_length_le he.le).symm.subset
  have hright : ∀ a ∈ gens, ∀ g ∈ G, g * a ∈ G := fun a ha g hg => hsub _ (p3 g hg a ha)
  have hinv : ∀ a ∈ gens, ∀ g ∈ G, g * a⁻¹ ∈ G := by
    intro a ha g hg
    have : (G.map (· * a)).Subperm G := by
      apply List.Nodup.subperm
      · exact h.nodup.map (mul_left_injective a)
      · intro x hx
        obtain ⟨y, hy, rfl⟩ := List.mem_map.mp hx
        exact hright a ha y hy
    have := (this.perm_of_length_le (by simp)).symm.subset hg
    obtain ⟨y, hy, rfl⟩ := List.mem_map.mp this
    simpa using hy
  induction hg using Subgroup.closure_induction_right with
  | one => exact p1
  | mul_right x hx y hy ih => exact hright y hy x ih
  | mul_inv_cancel x hx y hy ih => exact hinv y hy x ih

theorem pointGroupLoop_ok {gens : List (GL (Fin d) ℝ)} (hg : PointGenerators gens) (hne : gens ≠ []) (n : ℕ) : ∀ (G newG : List (GL (Fin d) ℝ)),
    GroupInv gens G newG → Nat.card (Subgroup.closure {g | g ∈ gens}) ≤ n + G.length →
    ∃ G' : List (GL (Fin d) ℝ), pointGroupLoop (gens.map fun g => rowsOf g.1) n (G.map fun g => rowsOf g.1) (newG.map fun g => rowsOf g.1) =
      .ok (some (G'.map fun g => rowsOf g.1)) ∧ G'.Nodup ∧ (∀ g ∈ G', g ∈ Subgroup.closure {g | g ∈ gens}) ∧
      ((∃ a ∈ gens, ∃ b ∈ gens, a * b = 1) → ∀ g ∈ Subgroup.closure {g | g ∈ gens}, g ∈ G') := by
  classical
  have := hg.finite
  have hcard : ∀ l : List (GL (Fin d) ℝ), l.Nodup → (∀ g ∈ l, g ∈ Subgroup.closure {g | g ∈ gens}) →
      l.length ≤ Nat.card (Subgroup.closure {g | g ∈ gens}) := by
    intro l hl hm
    rw [← List.toFinset_card_of_nodup hl, ← Set.ncard_coe_finset]
    exact Set.ncard_le_ncard (fun x hx => hm x (by simpa using hx)) (Set.toFinite _)
  induction n with
  | zero =>
    intro G newG h hn
    have he : newG.length = G.length := le_antisymm ((hcard _ h.nodup' h.mem).trans (by omega)) h.le
    refine ⟨G, ?_, h.nodup, h.mem', fun hp => h.done he hp⟩
    rw [pointGroupLoop, if_neg (by simpa using he)]
  | succ n ih =>
    intro G newG h hn
    by_cases he : newG.length = G.length
    · refine ⟨G, ?_, h.nodup, h.mem', fun hp => h.done he hp⟩
      rw [pointGroupLoop, if_neg (by simpa using he)]
    · obtain ⟨l, l1, l2, l3⟩ := removeDuplicates_rows (S := {g | g ∈ Subgroup.closure {g | g ∈ gens}}) hg.separated
        (newG.flatMap fun g => gens.map fun a => g * a) (by
          intro g hg
          rw [List.mem_flatMap] at hg
          obtain ⟨x, hx, hg⟩ := hg
          obtain ⟨a, ha, rfl⟩ := List.mem_map.mp hg
          exact mul_mem (h.mem x hx) (Subgroup.subset_closure ha))
      have hlt : G.length < newG.length := lt_of_le_of_ne h.le (Ne.symm he)
      obtain ⟨G', g1, g2⟩ := ih newG l (h.next he l2 l3 hne) (by omega)
      refine ⟨G', ?_, g2⟩
      rw [pointGroupLoop, if_pos (by simpa using he)]
      simp only [groupProducts_rows, l1, bind, Except.bind]
      exact g1

/-- the generated list of matrices -/
theorem pointGroup_ok {gens : List (GL (Fin d) ℝ)} (hg : PointGenerators gens) {fuel : ℕ}
    (hf : Nat.card (Subgroup.closure {g | g ∈ gens}) ≤ fuel) :
    ∃ G : List (GL (Fin d) ℝ), pointGroup d (gens.map fun g => rowsOf g.1) fuel = .ok (some (G.map fun g : GL (Fin d) ℝ => rowsOf g.1)) ∧ G.Nodup ∧
      (∀ g ∈ G, g ∈ Subgroup.closure {g | g ∈ gens}) ∧
      ((gens = [] ∨ ∃ a ∈ gens, ∃ b ∈ gens, a * b = 1) → ∀ g ∈ Subgroup.closure {g | g ∈ gens}, g ∈ G) := by
  by_cases hne : gens = []
  · subst hne
    refine ⟨[1], ?_, by simp, ?_, ?_⟩
    · rw [pointGroup, pointGroupLoop.eq_def]
      dsimp only
      rw [if_neg (by simp), eye_rows]
      rfl
    · intro g hg
      rw [List.mem_singleton.mp hg]; exact one_mem _
    · intro _ g hg
      have : {g : GL (Fin d) ℝ | g ∈ ([] : List (GL (Fin d) ℝ))} = ∅ := by ext; simp
      rw [this, Subgroup.closure_empty, Subgroup.mem_bot] at hg
      rw [hg]; simp
  · obtain ⟨G, h1, h2, h3, h4⟩ := pointGroupLoop_ok hg hne fuel [1] (1 :: gens) (GroupInv.first hg) (by omega)
    refine ⟨G, ?_, h2, h3, fun h => h4 (h.resolve_left hne)⟩
    rw [pointGroup, eye_rows]
    exact h1

end Qosy
