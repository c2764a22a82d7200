import Verif.Lemmas.PointGroup
import Verif.Lemmas.LatticeDistance

/-! # The steps of `symmetrize_lattice` -/

namespace Qosy
open scoped MatrixGroups
variable {d : ℕ} {ω ν : Type} [DecidableEq ω] [DecidableEq ν]

/-! ### lattices of one cell -/

/-- what the constructor does for one cell in each direction -/
structure Lattice.Single (L : Lattice ℝ ω ν) (d : ℕ) (u : UnitCell ℝ ω) (periodic : List Bool) : Prop where
  unitCell_eq : L.unitCell = u
  numCells_eq : L.numCells = List.replicate d 1
  periodic_eq : L.periodic = periodic
  distance : ∀ x y : Fin d → ℝ, ∃ δ, L.distance euclid (.at (List.ofFn x)) (.at (List.ofFn y)) = .ok δ ∧
      (∃ c, Near c ∧ Period (some periodic) c ∧ δ = separation (x + ∑ l, (c l : ℝ) • u.vec d l) y) ∧
      ∀ c, Near c → Period (some periodic) c → δ ≤ separation (x + ∑ l, (c l : ℝ) • u.vec d l) y

theorem mkLattice_single {u : UnitCell ℝ ω} (hu : u.WF d) {periodic : List Bool} (hp : periodic.length = d) (tol : ℝ) (render : List ℝ → ν) :
    ∃ L, mkLattice u (List.replicate d 1) (some periodic) tol render = .ok L ∧ L.Single d u periodic := by
  have key : ∀ N : List ℕ, (∀ n ∈ N, n = 1) → u.WF N.length → periodic.length = N.length →
      ∃ L, mkLattice u N (some periodic) tol render = .ok L ∧ L.unitCell = u ∧ L.numCells = N ∧ L.periodic = periodic ∧
      ∀ x y : Fin N.length → ℝ, ∃ δ, L.distance euclid (.at (List.ofFn x)) (.at (List.ofFn y)) = .ok δ ∧
      (∃ c, Near c ∧ Period (some periodic) c ∧ δ = separation (x + ∑ l, (c l : ℝ) • u.vec N.length l) y) ∧
      ∀ c, Near c → Period (some periodic) c → δ ≤ separation (x + ∑ l, (c l : ℝ) • u.vec N.length l) y := by
    intro N hN hu hp
    obtain ⟨L, h1, h2⟩ := mkLattice_ok hu (periodic := some periodic) (fun p h => by cases h; exact hp) tol render
    have hsh : ∀ c : Fin N.length → ℤ, u.shift N.length (sizes N) c = ∑ l, (c l : ℝ) • u.vec N.length l := by
      intro c
      rw [UnitCell.shift]
      refine Finset.sum_congr rfl fun l _ => ?_
      rw [sizes, List.getD_eq_getElem _ _ l.2, hN _ (List.getElem_mem _), Nat.cast_one, mul_one]
    have hf : L.unitCell = u ∧ L.numCells = N ∧ L.periodic = periodic := by
      have h1' := h1
      simp only [mkLattice, bind, Except.bind] at h1'
      split at h1'
      · cases h1'
      · split at h1'
        · cases h1'
        · cases h1'
          exact ⟨rfl, rfl, rfl⟩
    refine ⟨L, h1, hf.1, hf.2.1, hf.2.2, fun x y => ?_⟩
    obtain ⟨δ, hδ, ⟨c, hc1, hc2, hc3⟩, hmin⟩ := distance_ok h2 x y
    refine ⟨δ, hδ, ⟨c, hc1, hc2, by rw [hc3, hsh]⟩, fun c hc1 hc2 => ?_⟩
    rw [← hsh]
    exact hmin c hc1 hc2
  have := key (List.replicate d 1) (fun n hn => List.eq_of_mem_replicate hn) (by simpa using hu) (by simpa using hp)
  obtain ⟨L, h1, h2, h3, h4, h5⟩ := this
  refine ⟨L, h1, h2, h3, h4, ?_⟩
  have hd : (List.replicate d 1).length = d := by simp
  generalize List.replicate d 1 = N at hd h5
  subst hd
  exact h5

/-- the constructor keeps its arguments -/
theorem Lattice.Single.proper {L : Lattice ℝ ω ν} {u : UnitCell ℝ ω} {periodic : List Bool} (h : L.Single d u periodic) (hu : u.WF d)
    (hp : periodic.length = d) : L.Proper d :=
  ⟨by rw [h.numCells_eq]; simp, by rw [h.unitCell_eq]; exact hu, by rw [h.periodic_eq]; exact hp⟩

/-! ### expansion -/

/-- sum of two vectors of coordinates -/
abbrev plus (a b : List ℝ) : List ℝ := List.zipWith (· + ·) a b

theorem vadd_plus {a b : List ℝ} (ha : a.length = d) (hb : b.length = d) : vadd a b = .ok (plus a b) := by
  rw [vadd, if_pos (ha.trans hb.symm)]

theorem plus_length {a b : List ℝ} (ha : a.length = d) (hb : b.length = d) : (plus a b).length = d := by simp [ha, hb]

theorem vec_plus {a b : List ℝ} (ha : a.length = d) (hb : b.length = d) : vec d (plus a b) = vec d a + vec d b := by
  obtain ⟨r, h1, -, h3⟩ := vadd_ok ha hb
  rw [vadd_plus ha hb] at h1
  cases h1
  exact h3

theorem expandLattice_ok {cell : UnitCell ℝ ω} (hu : cell.WF d) {periodic : List Bool} (hp : periodic.length = d) {k : ℕ} (hk : k < d)
    {delta : List ℝ} (hd : delta.length = d) (tol : ℝ) (render : List ℝ → ν) :
    ∃ L, expandLattice tol render cell d periodic k delta =
        .ok (⟨cell.vectors.set k (plus (cell.vectors.getD k []) delta), cell.positions, cell.orbitals⟩, L) ∧
      L.Single d ⟨cell.vectors.set k (plus (cell.vectors.getD k []) delta), cell.positions ++ cell.positions.map (plus delta),
        cell.orbitals ++ cell.orbitals⟩ periodic ∧
      UnitCell.WF (⟨cell.vectors.set k (plus (cell.vectors.getD k []) delta), cell.positions, cell.orbitals⟩ : UnitCell ℝ ω) d ∧
      L.unitCell.WF d := by
  have hkv : k < cell.vectors.length := by rw [hu.vectors]; exact hk
  have hl := hu.vector _ (List.getElem_mem hkv)
  have e1 : pyGet cell.vectors k = .ok cell.vectors[k] := by rw [pyGet, List.getElem?_eq_getElem hkv]
  have e2 : cell.vectors.getD k [] = cell.vectors[k] := List.getD_eq_getElem _ _ hkv
  have e3 : cell.positions.mapM (fun pos => vadd delta pos) = .ok (cell.positions.map (plus delta)) :=
    mapM_ok fun p hp => vadd_plus hd (hu.position p hp)
  have hvec : ∀ v ∈ cell.vectors.set k (plus (cell.vectors.getD k []) delta), v.length = d := by
    intro v hv
    rcases List.mem_or_eq_of_mem_set hv with h | rfl
    · exact hu.vector v h
    · rw [e2]; exact plus_length hl hd
  have hwf : UnitCell.WF (⟨cell.vectors.set k (plus (cell.vectors.getD k []) delta), cell.positions ++ cell.positions.map (plus delta),
        cell.orbitals ++ cell.orbitals⟩ : UnitCell ℝ ω) d := by
    refine ⟨by simp [hu.vectors], hvec, by simp [hu.positions], ?_⟩
    intro p hp
    rcases List.mem_append.mp hp with h | h
    · exact hu.position p h
    · obtain ⟨q, hq, rfl⟩ := List.mem_map.mp h
      exact plus_length hd (hu.position q hq)
  obtain ⟨L, h1, h2⟩ := mkLattice_single hwf hp tol render
  refine ⟨L, ?_, h2, ⟨by simp [hu.vectors], hvec, hu.positions, hu.position⟩, by rw [h2.unitCell_eq]; exact hwf⟩
  rw [e2] at h1 ⊢
  simp only [expandLattice, e1, vadd_plus hl hd, setAt, if_pos hkv, e3, h1, bind, Except.bind]

theorem expandAll_ok {periodic : List Bool} (hp : periodic.length = d) (tol : ℝ) (render : List ℝ → ν) (deltas : List (List ℝ)) :
    ∀ (k : ℕ) (cell : UnitCell ℝ ω) (new : Option (Lattice ℝ ω ν)), cell.WF d → k + deltas.length = d → (∀ v ∈ deltas, v.length = d) →
    (deltas = [] → ∃ L, new = some L ∧ L.unitCell.vectors = cell.vectors ∧
      L.Single d L.unitCell periodic ∧ L.unitCell.WF d) →
    ∃ L, expandAll tol render d periodic deltas k cell new = .ok (some L) ∧ L.Single d L.unitCell periodic ∧ L.unitCell.WF d ∧
      L.unitCell.vectors = cell.vectors.take k ++ List.zipWith plus (cell.vectors.drop k) deltas ∧
      ∀ h : deltas ≠ [], L.unitCell.positions = cell.positions ++ cell.positions.map (plus (deltas.getLast h)) ∧
        L.unitCell.orbitals = cell.orbitals ++ cell.orbitals := by
  induction deltas with
  | nil =>
    intro k cell new hu hk _ hnew
    obtain ⟨L, rfl, h1, h2, h3⟩ := hnew rfl
    refine ⟨L, rfl, h2, h3, ?_, fun h => absurd rfl h⟩
    rw [List.zipWith_nil_right, List.append_nil, h1, List.take_of_length_le]
    rw [hu.vectors]; simp at hk; omega
  | cons delta rest ih =>
    intro k cell new hu hk hd _
    simp only [List.length_cons] at hk
    have hkd : k < d := by omega
    have hkv : k < cell.vectors.length := by rw [hu.vectors]; exact hkd
    obtain ⟨L, h1, h2, h3, h4⟩ := expandLattice_ok hu hp hkd (hd delta (List.mem_cons_self ..)) tol render
    obtain ⟨L', g1, g2, g3, g4, g5⟩ := ih (k + 1) _ (some L) h3 (by omega) (fun v hv => hd v (List.mem_cons_of_mem _ hv))
      (fun _ => ⟨L, rfl, by rw [h2.unitCell_eq], by rw [h2.unitCell_eq]; exact h2, h4⟩)
    refine ⟨L', ?_, g2, g3, ?_, ?_⟩
    · simp only [expandAll, h1, bind, Except.bind]
      exact g1
    · rw [g4]
      dsimp only
      have e1 : (cell.vectors.set k (plus (cell.vectors.getD k []) delta)).take (k + 1) = cell.vectors.take k ++ [plus (cell.vectors.getD k []) delta] := by
        rw [List.take_add_one, List.take_set_of_le (le_refl _)]
        congr 1
        simp [hkv]
      have e2 : (cell.vectors.set k (plus (cell.vectors.getD k []) delta)).drop (k + 1) = cell.vectors.drop (k + 1) := by
        rw [List.drop_set_of_lt (by omega)]
      rw [e1, e2, List.drop_eq_getElem_cons hkv, List.zipWith_cons_cons, List.append_assoc, List.singleton_append,
        List.getD_eq_getElem _ _ hkv]
    · intro _
      by_cases hr : rest = []
      · subst hr
        have : L' = L := by
          simp only [expandAll] at g1
          cases g1; rfl
        rw [this, h2.unitCell_eq]
        exact ⟨rfl, rfl⟩
      · rw [List.getLast_cons hr]
        exact g5 hr

/-! ### sorting and collecting atoms -/

theorem insertAtom_perm (nrm : List ℝ → ℝ) (tol : ℝ) (a : List ℝ × List ω) (l : List (List ℝ × List ω)) :
    (insertAtom nrm tol a l).Perm (a :: l) := by
  induction l with
  | nil => exact List.Perm.refl _
  | cons b l ih =>
    rw [insertAtom]
    split
    · exact List.Perm.refl _
    · exact (List.Perm.cons b ih).trans (List.Perm.swap ..)

theorem sortAtoms_perm (nrm : List ℝ → ℝ) (tol : ℝ) (l : List (List ℝ × List ω)) : (sortAtoms nrm tol l).Perm l := by
  have key : ∀ (l acc : List (List ℝ × List ω)), (l.foldl (fun l a => insertAtom nrm tol a l) acc).Perm (acc ++ l) := by
    intro l
    induction l with
    | nil => intro acc; simp
    | cons a l ih =>
      intro acc
      rw [List.foldl_cons]
      refine (ih _).trans ?_
      refine ((insertAtom_perm nrm tol a acc).append_right l).trans ?_
      exact List.perm_middle.symm
  have := key l []
  rwa [List.nil_append] at this

theorem cellOf_eq (dflt : ω) (vectors : List (List ℝ)) (atoms : List (List ℝ × List ω)) :
    cellOf dflt vectors atoms = ⟨vectors, atoms.map Prod.fst, atoms.map Prod.snd⟩ := by
  have key : ∀ (l : List (List ℝ × List ω)) (u : UnitCell ℝ ω), l.foldl (fun u a => u.addAtom dflt a.1 (some a.2)) u =
      ⟨u.vectors, u.positions ++ l.map Prod.fst, u.orbitals ++ l.map Prod.snd⟩ := by
    intro l
    induction l with
    | nil => intro u; simp
    | cons a l ih =>
      intro u
      rw [List.foldl_cons, ih]
      simp [UnitCell.addAtom]
  rw [cellOf, key]
  simp [UnitCell.new]

theorem cellOf_wf (dflt : ω) {vectors : List (List ℝ)} {atoms : List (List ℝ × List ω)} (h1 : vectors.length = d) (h2 : ∀ v ∈ vectors, v.length = d)
    (h3 : ∀ a ∈ atoms, a.1.length = d) : (cellOf dflt vectors atoms).WF d := by
  rw [cellOf_eq]
  refine ⟨h1, h2, by simp, ?_⟩
  intro p hp
  obtain ⟨a, ha, rfl⟩ := List.mem_map.mp hp
  exact h3 a ha

theorem atoms_of_cell {L : Lattice ℝ ω ν} {vectors : List (List ℝ)} {atoms : List (List ℝ × List ω)}
    (h : L.unitCell = ⟨vectors, atoms.map Prod.fst, atoms.map Prod.snd⟩) : L.atoms = atoms := by
  rw [Lattice.atoms, h]
  dsimp only
  clear h
  induction atoms with
  | nil => rfl
  | cons a l ih => rw [List.map_cons, List.map_cons, List.zip_cons_cons, ih]

/-! ### symmetrized atoms -/

/-- the images of the atoms under the group elements -/
noncomputable def images (G : List (GL (Fin d) ℝ)) (atoms : List (List ℝ × List ω)) : List (List ℝ × List ω) :=
  atoms.flatMap fun a => G.map fun g => (List.ofFn (g.1.mulVec (vec d a.1)), a.2)

theorem mem_atoms_length {L : Lattice ℝ ω ν} (hL : L.Proper d) {a : List ℝ × List ω} (ha : a ∈ L.atoms) : a.1.length = d :=
  hL.cell.position _ (List.of_mem_zip ha).1

theorem symmetrizeAtoms_ok {L : Lattice ℝ ω ν} (hL : L.Proper d) (G : List (GL (Fin d) ℝ)) (latTol : ℝ) (render : List ℝ → ν) (dflt : ω) (tol : ℝ) :
    ∃ L', symmetrizeAtoms euclid latTol render dflt L (G.map fun g => rowsOf g.1) tol = .ok L' ∧ L'.Single d L'.unitCell L.periodic ∧
      L'.Proper d ∧ L'.unitCell.vectors = L.unitCell.vectors ∧ L'.atoms.Perm (images G L.atoms) := by
  have e : L.atoms.mapM (fun a => (G.map fun g => rowsOf g.1).mapM fun g => (do
      let p ← rowsVec g a.1
      .ok (p, a.2) : Py (List ℝ × List ω))) = .ok (L.atoms.map fun a => G.map fun g => (List.ofFn (g.1.mulVec (vec d a.1)), a.2)) := by
    apply mapM_ok
    intro a ha
    have hl := mem_atoms_length hL ha
    induction G with
    | nil => rfl
    | cons g G ih =>
      rw [List.map_cons, List.mapM_cons, ih]
      simp only [rowsVec_rows _ hl, bind, Except.bind]
      rfl
  set l := (L.atoms.map fun a => G.map fun g => (List.ofFn (g.1.mulVec (vec d a.1)), a.2)).flatten with hl
  have himg : l = images G L.atoms := by rw [hl, images, List.flatMap_def]
  have hwf := cellOf_wf (d := d) dflt (vectors := L.unitCell.vectors) (atoms := sortAtoms euclid tol l) hL.cell.vectors hL.cell.vector (by
    intro a ha
    have ha := (sortAtoms_perm euclid tol l).subset ha
    rw [himg, images, List.mem_flatMap] at ha
    obtain ⟨b, -, ha⟩ := ha
    obtain ⟨g, -, rfl⟩ := List.mem_map.mp ha
    simp)
  obtain ⟨L', h1, h2⟩ := mkLattice_single hwf hL.periodic latTol render
  have hu := h2.unitCell_eq
  refine ⟨L', ?_, by rw [hu]; exact h2, h2.proper hwf hL.periodic, by rw [hu, cellOf_eq], ?_⟩
  · rw [← hL.dim] at h1
    have e' := e
    simp only [Lattice.atoms, bind, Except.bind] at e'
    simp only [symmetrizeAtoms, bind, Except.bind]
    rw [e']
    exact h1
  · rw [cellOf_eq] at hu
    rw [atoms_of_cell hu, ← himg]
    exact sortAtoms_perm euclid tol l

/-! ### removing duplicates -/

theorem keepNew_ok {α : Type} {equiv : α → α → Py Bool} {E : α → α → Prop} {S : Set α} (h : ∀ x ∈ S, ∀ y ∈ S, ∃ b, equiv x y = .ok b ∧ (b = true ↔ E x y))
    (hr : ∀ x ∈ S, E x x) (l : List α) : ∀ kept : List α, (∀ x ∈ kept, x ∈ S) → (∀ x ∈ l, x ∈ S) → kept.Pairwise (fun x y => ¬ E y x) →
    ∃ r, l.foldlM (keepNew equiv) kept = .ok r ∧ kept.Sublist r ∧ r.Sublist (kept ++ l) ∧ r.Pairwise (fun x y => ¬ E y x) ∧
      (∀ x ∈ l, ∃ y ∈ r, E x y) := by
  classical
  induction l with
  | nil => intro kept _ _ hpw; exact ⟨kept, rfl, List.Sublist.refl _, by simp, hpw, by simp⟩
  | cons x l ih =>
    intro kept hk hl hpw
    have hx := hl x (List.mem_cons_self ..)
    have e : kept.mapM (fun y => equiv x y) = .ok (kept.map fun y => decide (E x y)) := by
      apply mapM_ok
      intro y hy
      obtain ⟨b, h1, h2⟩ := h x hx y (hk y hy)
      rw [h1]
      congr 1
      rw [Bool.eq_iff_iff, h2, decide_eq_true_eq]
    have hany : ((kept.map fun y => decide (E x y)).any id) = true ↔ ∃ y ∈ kept, E x y := by
      rw [List.any_map, List.any_eq_true]
      simp
    have hstep : keepNew equiv kept x = .ok (if ∃ y ∈ kept, E x y then kept else kept ++ [x]) := by
      simp only [keepNew, e, bind, Except.bind]
      congr 1
      by_cases hc : ∃ y ∈ kept, E x y
      · rw [if_pos hc, if_pos (hany.mpr hc)]
      · rw [if_neg hc, if_neg (fun h => hc (hany.mp h))]
    by_cases hc : ∃ y ∈ kept, E x y
    · obtain ⟨r, r1, r2, r3, r4, r5⟩ := ih kept hk (fun y hy => hl y (List.mem_cons_of_mem _ hy)) hpw
      refine ⟨r, ?_, r2, r3.trans ?_, r4, ?_⟩
      · rw [List.foldlM_cons, hstep, if_pos hc]
        exact r1
      · exact (List.Sublist.refl kept).append (List.sublist_cons_self x l)
      · intro y hy
        rcases List.mem_cons.mp hy with rfl | hy
        · obtain ⟨z, hz, hE⟩ := hc
          exact ⟨z, r2.subset hz, hE⟩
        · exact r5 y hy
    · obtain ⟨r, r1, r2, r3, r4, r5⟩ := ih (kept ++ [x]) (by
          intro y hy
          rcases List.mem_append.mp hy with hy | hy
          · exact hk y hy
          · rw [List.mem_singleton.mp hy]; exact hx) (fun y hy => hl y (List.mem_cons_of_mem _ hy)) (by
          rw [List.pairwise_append]
          refine ⟨hpw, by simp, ?_⟩
          intro y hy z hz
          rw [List.mem_singleton.mp hz]
          exact fun hE => hc ⟨y, hy, hE⟩)
      refine ⟨r, ?_, (List.sublist_append_left _ _).trans r2, by simpa using r3, r4, ?_⟩
      · rw [List.foldlM_cons, hstep, if_neg hc]
        exact r1
      · intro y hy
        rcases List.mem_cons.mp hy with rfl | hy
        · exact ⟨y, r2.subset (by simp), hr y hx⟩
        · exact r5 y hy

/-- equal orbitals at positions that agree up to `tol` and one period in each direction -/
def NearAtoms (L : Lattice ℝ ω ν) (d : ℕ) (tol : ℝ) (a b : List ℝ × List ω) : Prop :=
  (∃ c : Fin d → ℤ, Near c ∧ Period (some L.periodic) c ∧ separation (vec d a.1 + ∑ l, (c l : ℝ) • L.unitCell.vec d l) (vec d b.1) < tol) ∧ a.2 = b.2

theorem NearAtoms.equivalent {L : Lattice ℝ ω ν} {tol : ℝ} {a b : List ℝ × List ω} (h : NearAtoms L d tol a b) :
    L.Equivalent d tol (vec d a.1) (vec d b.1) := by
  obtain ⟨⟨c, -, h2, h3⟩, -⟩ := h
  exact ⟨c, h2, h3⟩

theorem separation_self (x : Fin d → ℝ) : separation x x = 0 := by simp [separation]

theorem equivAtoms_ok {L : Lattice ℝ ω ν} (h : L.Single d L.unitCell L.periodic) (tol : ℝ) {a b : List ℝ × List ω} (ha : a.1.length = d)
    (hb : b.1.length = d) : ∃ r, equivAtoms euclid L tol a b = .ok r ∧ (r = true ↔ NearAtoms L d tol a b) := by
  obtain ⟨δ, h1, ⟨c, c1, c2, c3⟩, hmin⟩ := h.distance (vec d a.1) (vec d b.1)
  rw [ofFn_vec ha, ofFn_vec hb] at h1
  refine ⟨_, by simp only [equivAtoms, h1, bind, Except.bind]; rfl, ?_⟩
  rw [Bool.and_eq_true, decide_eq_true_eq, decide_eq_true_eq, NearAtoms]
  refine and_congr_left fun _ => ⟨fun hlt => ⟨c, c1, c2, c3 ▸ hlt⟩, ?_⟩
  rintro ⟨c', c1', c2', hlt⟩
  exact (hmin c' c1' c2').trans_lt hlt

theorem nearAtoms_refl (L : Lattice ℝ ω ν) {tol : ℝ} (ht : 0 < tol) (a : List ℝ × List ω) : NearAtoms L d tol a a := by
  refine ⟨⟨0, fun _ => Or.inr (Or.inl rfl), fun _ _ => rfl, ?_⟩, rfl⟩
  simpa [separation_self] using ht

theorem removeDuplicateAtoms_ok {L : Lattice ℝ ω ν} (hs : L.Single d L.unitCell L.periodic) (hL : L.Proper d) (latTol : ℝ) (render : List ℝ → ν)
    (dflt : ω) {tol : ℝ} (ht : 0 < tol) :
    ∃ L', removeDuplicateAtoms euclid latTol render dflt L tol = .ok L' ∧ L'.Single d L'.unitCell L.periodic ∧ L'.Proper d ∧
      L'.unitCell.vectors = L.unitCell.vectors ∧ L'.atoms.Sublist L.atoms ∧ L'.atoms.Pairwise (fun a b => ¬ NearAtoms L' d tol b a) ∧
      ∀ a ∈ L.atoms, ∃ b ∈ L'.atoms, NearAtoms L' d tol a b := by
  obtain ⟨r, r1, -, r3, r4, r5⟩ := keepNew_ok (S := {a | a ∈ L.atoms}) (equiv := equivAtoms euclid L tol) (E := NearAtoms L d tol)
    (fun x hx y hy => equivAtoms_ok hs tol (mem_atoms_length hL hx) (mem_atoms_length hL hy)) (fun x _ => nearAtoms_refl L ht x) L.atoms []
    (by simp) (by simp) List.Pairwise.nil
  rw [List.nil_append] at r3
  have hwf := cellOf_wf (d := d) dflt (vectors := L.unitCell.vectors) (atoms := r) hL.cell.vectors hL.cell.vector
    (fun a ha => mem_atoms_length hL (r3.subset ha))
  obtain ⟨L', h1, h2⟩ := mkLattice_single hwf hL.periodic latTol render
  have hu := h2.unitCell_eq
  have hvec : L'.unitCell.vectors = L.unitCell.vectors := by rw [hu, cellOf_eq]
  have hat : L'.atoms = r := by
    rw [cellOf_eq] at hu
    exact atoms_of_cell hu
  have hE : NearAtoms L' d tol = NearAtoms L d tol := by
    funext a b
    have : L'.unitCell.vec d = L.unitCell.vec d := by
      funext l; rw [UnitCell.vec, UnitCell.vec, hvec]
    rw [NearAtoms, NearAtoms, h2.periodic_eq, this]
  refine ⟨L', ?_, by rw [hu]; exact h2, h2.proper hwf hL.periodic, hvec, hat ▸ r3, ?_, ?_⟩
  · rw [← hL.dim] at h1
    rw [Lattice.atoms] at r1
    simp only [removeDuplicateAtoms, r1, bind, Except.bind]
    exact h1
  · rw [hE, hat]; exact r4
  · rw [hE, hat]; exact r5

/-! ### expansions -/

/-- the atoms of the last expanded lattice: those of the old unit cell and their translates by the last original vector -/
def expandedAtoms (L : Lattice ℝ ω ν) (delta : List ℝ) : List (List ℝ × List ω) := L.atoms ++ L.atoms.map fun a => (plus delta a.1, a.2)

/-- what one expansion does -/
structure Expanded (L L' : Lattice ℝ ω ν) (d : ℕ) (deltas : List (List ℝ)) (delta : List ℝ) (G : List (GL (Fin d) ℝ)) (tol : ℝ) : Prop where
  proper : L'.Proper d
  periodic : L'.periodic = L.periodic
  vectors : L'.unitCell.vectors = List.zipWith plus L.unitCell.vectors deltas
  sub : ∀ b ∈ L'.atoms, b ∈ images G (expandedAtoms L delta)
  cover : ∀ a ∈ images G (expandedAtoms L delta), ∃ b ∈ L'.atoms, NearAtoms L' d tol a b
  distinct : L'.atoms.Pairwise (fun a b => ¬ NearAtoms L' d tol b a)

theorem expandOnce_ok {L : Lattice ℝ ω ν} (hL : L.Proper d) {deltas : List (List ℝ)} (hd : deltas.length = d) (hv : ∀ v ∈ deltas, v.length = d)
    (hne : deltas ≠ []) (G : List (GL (Fin d) ℝ)) (latTol : ℝ) (render : List ℝ → ν) (dflt : ω) {tol : ℝ} (ht : 0 < tol)
    (new : Option (Lattice ℝ ω ν)) :
    ∃ L', expandOnce euclid latTol render dflt deltas (G.map fun g => rowsOf g.1) tol L new = .ok L' ∧
      Expanded L L' d deltas (deltas.getLast hne) G tol := by
  obtain ⟨L1, a1, a2, a3, a4, a5⟩ := expandAll_ok hL.periodic latTol render deltas 0 L.unitCell new hL.cell (by omega) hv (fun h => absurd h hne)
  obtain ⟨a5, a6⟩ := a5 hne
  rw [List.take_zero, List.nil_append, List.drop_zero] at a4
  have p1 : L1.Proper d := a2.proper a3 hL.periodic
  have hat : L1.atoms = expandedAtoms L (deltas.getLast hne) := by
    rw [Lattice.atoms, a5, a6, expandedAtoms, Lattice.atoms, List.zip_append hL.cell.positions, List.zip_map_left]
    rfl
  obtain ⟨L2, b1, b2, b3, b4, b5⟩ := symmetrizeAtoms_ok p1 G latTol render dflt tol
  have hp1 : L1.periodic = L.periodic := a2.periodic_eq
  have hp2 : L2.periodic = L.periodic := by rw [b2.periodic_eq, hp1]
  obtain ⟨L3, c1, c2, c3, c4, c5, c6, c7⟩ := removeDuplicateAtoms_ok (hp2 ▸ hp1 ▸ b2) b3 latTol render dflt ht
  refine ⟨L3, ?_, c3, by rw [c2.periodic_eq, hp2], by rw [c4, b4, a4], ?_, ?_, c6⟩
  · rw [← hL.dim] at a1
    simp only [expandOnce, a1, b1, bind, Except.bind]
    exact c1
  · intro b hb
    rw [← hat]
    exact b5.subset (c5.subset hb)
  · intro a ha
    rw [← hat] at ha
    exact c7 a (b5.symm.subset ha)

theorem Expanded.vec {L L' : Lattice ℝ ω ν} {deltas : List (List ℝ)} {delta : List ℝ} {G : List (GL (Fin d) ℝ)} {tol : ℝ}
    (h : Expanded L L' d deltas delta G tol) (hL : L.Proper d) (hd : deltas.length = d) (hv : ∀ v ∈ deltas, v.length = d) (l : Fin d) :
    L'.unitCell.vec d l = L.unitCell.vec d l + Qosy.vec d (deltas.getD l []) := by
  have h1 : (l : ℕ) < L.unitCell.vectors.length := by rw [hL.cell.vectors]; exact l.2
  have h2 : (l : ℕ) < deltas.length := by rw [hd]; exact l.2
  rw [UnitCell.vec, UnitCell.vec, h.vectors, List.getD_eq_getElem _ _ (by rw [List.length_zipWith]; exact lt_min h1 h2), List.getElem_zipWith,
    List.getD_eq_getElem _ _ h1, List.getD_eq_getElem _ _ h2]
  exact vec_plus (hL.cell.vector _ (List.getElem_mem _)) (hv _ (List.getElem_mem _))

theorem expansions_ok {deltas : List (List ℝ)} (hd : deltas.length = d) (hv : ∀ v ∈ deltas, v.length = d)
    (hne : deltas ≠ []) (G : List (GL (Fin d) ℝ)) (latTol : ℝ) (render : List ℝ → ν) (dflt : ω) {tol : ℝ} (ht : 0 < tol) (n : ℕ) :
    ∀ (L : Lattice ℝ ω ν) (new : Option (Lattice ℝ ω ν)), L.Proper d →
    ∃ L' L'', expansions euclid latTol render dflt deltas (G.map fun g => rowsOf g.1) tol (n + 1) L new = .ok L' ∧ L''.Proper d ∧
      (n = 0 → L'' = L) ∧ L'.periodic = L.periodic ∧ (∀ l : Fin d, L'.unitCell.vec d l = L.unitCell.vec d l + ((n + 1 : ℕ) : ℝ) • vec d (deltas.getD l [])) ∧
      Expanded L'' L' d deltas (deltas.getLast hne) G tol := by
  induction n with
  | zero =>
    intro L new hL
    obtain ⟨L', h1, h2⟩ := expandOnce_ok hL hd hv hne G latTol render dflt ht new
    refine ⟨L', L, ?_, hL, fun _ => rfl, h2.periodic, fun l => ?_, h2⟩
    · simp only [expansions, h1, bind, Except.bind]
    · rw [h2.vec hL hd hv]; simp
  | succ n ih =>
    intro L new hL
    obtain ⟨L1, h1, h2⟩ := expandOnce_ok hL hd hv hne G latTol render dflt ht new
    obtain ⟨L', L'', g1, g2, -, g4, g5, g6⟩ := ih L1 (some L1) h2.proper
    refine ⟨L', L'', ?_, g2, fun h => by omega, by rw [g4, h2.periodic], fun l => ?_, g6⟩
    · rw [expansions]
      simp only [h1, bind, Except.bind]
      exact g1
    · rw [g5, h2.vec hL hd hv]
      push_cast
      module

/-- the result is invariant under every matrix that permutes the list used for the symmetrization -/
theorem Expanded.invariant {L L' : Lattice ℝ ω ν} {deltas : List (List ℝ)} {delta : List ℝ} {G : List (GL (Fin d) ℝ)} {tol : ℝ}
    (h : Expanded L L' d deltas delta G tol) {x : GL (Fin d) ℝ} (hx : ∀ g ∈ G, x * g ∈ G) {a : List ℝ × List ω} (ha : a ∈ L'.atoms) :
    ∃ b ∈ L'.atoms, b.2 = a.2 ∧ L'.Equivalent d tol (x.1.mulVec (Qosy.vec d a.1)) (Qosy.vec d b.1) := by
  have h1 := h.sub a ha
  rw [images, List.mem_flatMap] at h1
  obtain ⟨r, hr, h1⟩ := h1
  obtain ⟨g, hg, rfl⟩ := List.mem_map.mp h1
  obtain ⟨b, hb, hn⟩ := h.cover (List.ofFn ((x * g).1.mulVec (Qosy.vec d r.1)), r.2) (by
    rw [images, List.mem_flatMap]
    exact ⟨r, hr, List.mem_map.mpr ⟨x * g, hx g hg, rfl⟩⟩)
  refine ⟨b, hb, hn.2.symm, ?_⟩
  have := hn.equivalent
  rw [vec_ofFn] at this
  dsimp only
  rw [vec_ofFn, Matrix.mulVec_mulVec]
  exact this

end Qosy
