import Verif.Lemmas.SpaceGroup
import Verif.Lemmas.Antiunitary
import Verif.Props.Names

/-!
# Properties: symmetries of crystals and of spins

C73 `space_group_symmetry`, C74 `spin_flip_symmetry`, C75 `spin_parity_symmetry`, C76 `time_reversal` of fermions with spin.
-/

namespace Qosy
open Coef
variable {F ω ν : Type} [Field F] [LinearOrder F] [IsStrictOrderedRing F] [DecidableEq ω] [DecidableEq ν]
variable {K : Type} [Field K] [StarRing K] [Coef K]
variable {N : List ℕ} {periodic : Option (List Bool)} {tol : F} {render : List F → ν}

/-! ### C73 -/

/-- **C73**: if `r ↦ R r + d` maps the crystal to itself (and only periods to periods), `space_group_symmetry(lattice, R, d)` relabels the
orbitals accordingly: the operators of the orbital at `r` become those of the orbital with the same name at `R r + d`. -/
theorem C73_space_group {u : UnitCell F ω} (hu : u.WF N.length) (hp : ∀ p, periodic = some p → p.length = N.length) (hprim : u.Primitive N.length)
    (hres : u.Resolved N.length tol render (fun _ => True)) {R : Matrix (Fin N.length) (Fin N.length) F} {d : Fin N.length → F}
    (hmap : u.MapsOrbitals N periodic R d) (hinj : ∀ x, u.IsPeriod N periodic (R.mulVec x) → u.IsPeriod N periodic x) :
    ∃ (L : Lattice F ω ν) (T : Transformation K) (e : ℤ → ℤ), mkLattice u N periodic tol render = .ok L ∧
      spaceGroupSymmetry L (List.ofFn fun i => List.ofFn (R i)) (List.ofFn d) = .ok T ∧ T.Relabels L.len e ∧ L.Moves u N periodic R d e := by
  obtain ⟨L, h1, h2⟩ := mkLattice_ok hu hp tol render
  obtain ⟨p, p1, p2, p3, p4⟩ := spaceGroupLabels_ok h2 hu hprim hres hmap hinj
  refine ⟨L, labelPermutation (labelsOf p), relabelMap (labelsOf p), h1, ?_, ?_, fun i x hi => ?_⟩
  · rw [spaceGroupSymmetry, p3]
    exact checkedPermutation_ok p
  · rw [Lattice.len, ← p2]; exact labelPermutation_relabels p1
  · obtain ⟨j, y, c, q1, q2, q3, q4, q5⟩ := p4 i x hi
    exact ⟨j, y, relabelMap_get q1, q2, q3, c, q4, by rw [q5]; abel⟩

/-- translating the cell numbers -/
theorem UnitCell.point_translate (u : UnitCell F ω) (d : ℕ) (m v : Fin d → ℤ) (a : ℕ) :
    u.point d m a + ∑ l, (v l : F) • u.vec d l = u.point d (m + v) a := by
  simp only [UnitCell.point, add_assoc, ← Finset.sum_add_distrib, ← add_smul, Pi.add_apply, Int.cast_add]

/-- translations by lattice vectors that are not longer than the lattice and are zero in the open directions map the crystal to itself -/
theorem translation_mapsOrbitals (u : UnitCell F ω) {v : Fin N.length → ℤ} (hv : ∀ l, |v l| ≤ (sizes N l : ℤ))
    (hopen : Period periodic v) : u.MapsOrbitals N periodic 1 (∑ l, (v l : F) • u.vec N.length l) := by
  intro m hm a ha o ho
  have key : ∀ l, ∃ m' c : ℤ, 0 ≤ m' ∧ m' < sizes N l ∧ (c = -1 ∨ c = 0 ∨ c = 1) ∧ m l + v l = m' + c * sizes N l ∧ (v l = 0 → c = 0) := by
    intro l
    obtain ⟨h1, h2⟩ := hm l
    have h3 := abs_le.mp (hv l)
    by_cases h4 : m l + v l < 0
    · exact ⟨m l + v l + sizes N l, -1, by omega, by omega, Or.inl rfl, by ring, by omega⟩
    · by_cases h5 : m l + v l < sizes N l
      · exact ⟨m l + v l, 0, by omega, h5, Or.inr (Or.inl rfl), by ring, fun _ => rfl⟩
      · exact ⟨m l + v l - sizes N l, 1, by omega, by omega, Or.inr (Or.inr rfl), by ring, by omega⟩
  choose m' c h1 h2 h3 h4 h5 using key
  refine ⟨m', c, a, ha, fun l => ⟨h1 l, h2 l⟩, h3, fun l hl => h5 l (hopen l hl), ho, ?_⟩
  rw [UnitCell.point_add_shift, ← show m + v = (fun l => m' l + c l * sizes N l) from funext h4, ← UnitCell.point_translate]
  funext i
  show (1 : Matrix (Fin N.length) (Fin N.length) F).mulVec (u.point N.length m a) i + _ = _
  rw [Matrix.one_mulVec]; rfl

/-- **C73** (translations): the translation of a primitive lattice by a vector of the lattice is a symmetry, if it is zero in the open directions and
at most one full period in the other ones. -/
theorem C73_translation {u : UnitCell F ω} (hu : u.WF N.length) (hp : ∀ p, periodic = some p → p.length = N.length) (hprim : u.Primitive N.length)
    (hres : u.Resolved N.length tol render (fun _ => True)) {v : Fin N.length → ℤ} (hv : ∀ l, |v l| ≤ (sizes N l : ℤ)) (hopen : Period periodic v) :
    ∃ (L : Lattice F ω ν) (T : Transformation K) (e : ℤ → ℤ), mkLattice u N periodic tol render = .ok L ∧
      spaceGroupSymmetry L (List.ofFn fun i => List.ofFn ((1 : Matrix (Fin N.length) (Fin N.length) F) i))
        (List.ofFn (∑ l, (v l : F) • u.vec N.length l)) = .ok T ∧ T.Relabels L.len e ∧
      L.Moves u N periodic 1 (∑ l, (v l : F) • u.vec N.length l) e :=
  C73_space_group hu hp hprim hres (translation_mapsOrbitals u hv hopen) (fun x hx => by rwa [Matrix.one_mulVec] at hx)

/-- the rotation by 90 degrees maps the periodic `n` by `n` square lattice to itself -/
theorem rotation_mapsOrbitals (n : ℕ) (names : List ω) : (cubicCell F 2 names).MapsOrbitals [n, n] (some [true, true]) !![0, -1; 1, 0] 0 := by
  intro m hm a ha o ho
  obtain ⟨h1, h2⟩ := hm 0
  obtain ⟨h3, h4⟩ := hm 1
  have ha0 : a = 0 := by simpa [cubicCell] using ha
  subst ha0
  have hs : ∀ l : Fin 2, sizes [n, n] l = n := by
    intro l
    fin_cases l <;> rfl
  have hs0 : sizes [n, n] (0 : Fin 2) = n := hs 0
  have hs1 : sizes [n, n] (1 : Fin 2) = n := hs 1
  change (0 : ℤ) ≤ m (0 : Fin 2) at h1
  change m (0 : Fin 2) < ((sizes [n, n] (0 : Fin 2) : ℕ) : ℤ) at h2
  change (0 : ℤ) ≤ m (1 : Fin 2) at h3
  change m (1 : Fin 2) < ((sizes [n, n] (1 : Fin 2) : ℕ) : ℤ) at h4
  rw [hs0] at h2
  rw [hs1] at h4
  obtain ⟨y, c, hy0, hy1, hc, he⟩ : ∃ y c : ℤ, 0 ≤ y ∧ y < n ∧ (c = -1 ∨ c = 0) ∧ -m (1 : Fin 2) = y + c * n := by
    by_cases h : m (1 : Fin 2) = 0
    · exact ⟨0, 0, le_rfl, by omega, Or.inr rfl, by rw [h]; ring⟩
    · exact ⟨n - m (1 : Fin 2), -1, by omega, by omega, Or.inl rfl, by ring⟩
  refine ⟨![y, m (0 : Fin 2)], ![c, 0], 0, ha, ?_, ?_, ?_, ho, ?_⟩
  · intro l
    have h5 : ∀ l : Fin 2, 0 ≤ (![y, m (0 : Fin 2)] : Fin 2 → ℤ) l ∧ (![y, m (0 : Fin 2)] : Fin 2 → ℤ) l < n := by
      intro l
      fin_cases l
      · exact ⟨hy0, hy1⟩
      · exact ⟨h1, h2⟩
    rw [hs l]
    exact h5 l
  · intro l
    have h5 : ∀ l : Fin 2, (![c, 0] : Fin 2 → ℤ) l = -1 ∨ (![c, 0] : Fin 2 → ℤ) l = 0 ∨ (![c, 0] : Fin 2 → ℤ) l = 1 := by
      intro l
      fin_cases l
      · rcases hc with hc | hc <;> simp [hc]
      · simp
    exact h5 l
  · intro l hl
    have h5 : ∀ l : Fin 2, isPeriodic (some [true, true]) l = true := by decide
    have := (h5 l).symm.trans hl
    cases this
  · have key : (fun i => ∑ j, (!![0, -1; 1, 0] : Matrix (Fin 2) (Fin 2) F) i j * (cubicCell F 2 names).point 2 m 0 j + (0 : Fin 2 → F) i) =
        (cubicCell F 2 names).point 2 ![y, m (0 : Fin 2)] 0 + (cubicCell F 2 names).shift 2 (fun _ => n) ![c, 0] := by
      rw [cubicCell_point, cubicCell_point, cubicCell_shift]
      funext l
      fin_cases l
      · simp
        rw [← Int.cast_neg, he]; push_cast; ring
      · simp
    have h6 : (fun _ => n : Fin 2 → ℕ) = sizes [n, n] := funext fun l => (hs l).symm
    rw [h6] at key
    exact key

/-- only periods are rotated to periods -/
theorem rotation_period (n : ℕ) (names : List ω) : ∀ x : Fin [n, n].length → F,
    (cubicCell F 2 names).IsPeriod [n, n] (some [true, true]) ((!![0, -1; 1, 0] : Matrix (Fin 2) (Fin 2) F).mulVec x) →
      (cubicCell F 2 names).IsPeriod [n, n] (some [true, true]) x := by
  rintro x ⟨c, -, hc⟩
  let c' : Fin 2 → ℤ := c
  let x' : Fin 2 → F := x
  have hc' : (!![0, -1; 1, 0] : Matrix (Fin 2) (Fin 2) F).mulVec x' = (cubicCell F 2 names).shift 2 (sizes [n, n]) c' := hc
  rw [cubicCell_shift] at hc'
  have e0 := congrFun hc' 0
  have e1 := congrFun hc' 1
  have s0 : (sizes [n, n] : Fin 2 → ℕ) 0 = n := rfl
  have s1 : (sizes [n, n] : Fin 2 → ℕ) 1 = n := rfl
  rw [s0] at e0
  rw [s1] at e1
  simp [Matrix.mulVec, dotProduct, Fin.sum_univ_two] at e0 e1
  refine ⟨![c' 1, -c' 0], fun l hl => ?_, ?_⟩
  · have h5 : ∀ l : Fin 2, isPeriodic (some [true, true]) l = true := by decide
    have := (h5 l).symm.trans hl
    cases this
  · show x' = (cubicCell F 2 names).shift 2 (sizes [n, n]) (![c' 1, -c' 0] : Fin 2 → ℤ)
    rw [cubicCell_shift]
    funext l
    fin_cases l
    · show x' 0 = _
      rw [e1]; simp [s0]
    · show x' 1 = _
      simp [s1]
      rw [← e0, neg_neg]

/-- **C73** (rotations): the rotation by 90 degrees is a symmetry of every periodic `n` by `n` square lattice. -/
theorem C73_rotation [FloorRing F] {names : List ω} (hn : names.Nodup) (dflt : ω) (n : ℕ) {tol : F} (ht : tol < 1) (k : ℕ) :
    ∃ (L : Lattice F ω (List ℤ)) (T : Transformation K) (e : ℤ → ℤ), square n n (some [true, true]) (some names) dflt tol (decimals k) = .ok L ∧
      spaceGroupSymmetry L [[0, -1], [1, 0]] [0, 0] = .ok T ∧ T.Relabels L.len e ∧
      L.Moves (cubicCell F 2 names) [n, n] (some [true, true]) !![0, -1; 1, 0] 0 e := by
  obtain ⟨L, T, e, h1, h2, h3, h4⟩ := C73_space_group (K := K) (N := [n, n]) (periodic := some [true, true]) (cubicCell_wf (F := F) 2 names)
    (fun p h => by cases h; rfl) (cubicCell_primitive (F := F) 2 hn) (cubicCell_resolved (F := F) 2 names ht k (fun _ => True))
    (rotation_mapsOrbitals n names) (rotation_period n names)
  refine ⟨L, T, e, h1, ?_, h3, h4⟩
  rw [← h2]
  congr 1

/-- **C73** (missing images): the answer is a Transformation or ValueError, and it is ValueError exactly if for some orbital neither its image nor a
neighbouring periodic copy of the image has the text of the position of an orbital with the same name. -/
theorem C73_missing {u : UnitCell F ω} {P : (Fin N.length → ℤ) → Prop} (hu : u.WF N.length) (hp : ∀ p, periodic = some p → p.length = N.length)
    (hres : u.Resolved N.length tol render P) (hP : ∀ m, InCells (sizes N) m → P m)
    (R : Matrix (Fin N.length) (Fin N.length) F) (d : Fin N.length → F) : ∃ L : Lattice F ω ν, mkLattice u N periodic tol render = .ok L ∧
    ((∃ T : Transformation K, spaceGroupSymmetry L (List.ofFn fun i => List.ofFn (R i)) (List.ofFn d) = .ok T) ∨
      spaceGroupSymmetry (K := K) L (List.ofFn fun i => List.ofFn (R i)) (List.ofFn d) = .error .valueError) ∧
    (spaceGroupSymmetry (K := K) L (List.ofFn fun i => List.ofFn (R i)) (List.ofFn d) = .error .valueError ↔
      ∃ x ∈ L.orbitals, ∀ c : Fin N.length → ℤ, Near c → Period periodic c → ∀ y ∈ L.orbitals, y.2.1 = x.2.1 →
        render y.1 ≠ render (cleanPosition tol (List.ofFn (R.mulVec (vec N.length x.1) + d + u.shift N.length (sizes N) c)))) := by
  obtain ⟨L, h1, h2⟩ := mkLattice_ok hu hp tol render
  obtain ⟨L', h1', hs⟩ := C53_search (periodic := periodic) hu hp tol render
  obtain rfl : L = L' := Except.ok.inj (h1.symm.trans h1')
  choose r hr1 hr2 hr3 using hs
  have hlab : spaceGroupLabels L (List.ofFn fun i => List.ofFn (R i)) (List.ofFn d) =
      .ok (L.orbitals.map fun x => r (R.mulVec (vec N.length x.1) + d) x.2.1) := by
    refine mapM_ok fun x hx => ?_
    obtain ⟨m, a, ha, hm, ho, hx'⟩ := h2.orbital hu hres hP hx
    have hx1 : x.1 = List.ofFn (u.point N.length m a) := congrArg Prod.fst hx'
    have himg := spaceGroup_image R d (u.point N.length m a)
    have : ∀ {α β γ : Type} (x : Py α) (f : α → Py β) (g : β → Py γ), (do let p ← x; let q ← f p; g q) = (do let q ← (do let p ← x; f p); g q) := by
      intro α β γ x f g; cases x <;> rfl
    rw [this, hx1, himg, ← hr1, vec_ofFn]
    rfl
  have herr : spaceGroupSymmetry (K := K) L (List.ofFn fun i => List.ofFn (R i)) (List.ofFn d) = .error .valueError ↔
      ∃ x ∈ L.orbitals, r (R.mulVec (vec N.length x.1) + d) x.2.1 = -1 := by
    rw [spaceGroupSymmetry, hlab]
    simp only [bind, Except.bind, checkedPermutation]
    split
    · rename_i h
      exact ⟨fun _ => by simpa using h, fun _ => rfl⟩
    · rename_i h
      refine ⟨fun h' => by simp at h', fun h' => absurd (List.mem_map.mpr h') h⟩
  refine ⟨L, h1, ?_, ?_⟩
  · rw [spaceGroupSymmetry, hlab]
    simp only [bind, Except.bind, checkedPermutation]
    split
    · exact Or.inr rfl
    · exact Or.inl ⟨_, rfl⟩
  · rw [herr]
    refine exists_congr fun x => and_congr_right fun _ => ?_
    exact hr2 _ _

/-- a periodic 2 by 3 lattice -/
def rectangle : Py (Lattice ℚ ℕ (List ℤ)) := square 2 3 (some [true, true]) (some [0]) 0 (1 / 1000) (decimals 2)

/-- **C73** does not hold for transformations that are not symmetries: whether different orbitals have different images is not checked.  The rotation by 90
degrees of a periodic 2 by 3 lattice is accepted, although it moves both `(0, 0)` and `(0, 2)` to `(0, 0)`, and it sends `X_0 X_2` to `X_0 X_0`, a string with
a repeated label. -/
theorem C73_refuted : (do
      let L ← rectangle
      .ok (L.orbitals.map fun o => o.1) : Py _) = .ok [[0, 0], [0, 1], [0, 2], [1, 0], [1, 1], [1, 2]] ∧
    (do
      let L ← rectangle
      let T ← spaceGroupSymmetry L [[0, -1], [1, 0]] [0, 0]
      T ⟨[.X, .X], [0, 2], .pauli, .float1⟩ : Py (Operator QI)) =
    .ok ⟨[1], Basis.ofList [⟨[.X, .X], [0, 0], .pauli, .float1⟩], .pauli⟩ := by
  constructor <;> decide +kernel

/-- the rotation of the open 2 by 2 lattice about its corner is rejected -/
example : (do
      let L ← square 2 2 (some [false, false]) (some [0]) 0 (1 / 1000) (decimals 2)
      let _ ← spaceGroupSymmetry (F := ℚ) (K := QI) L [[0, -1], [1, 0]] [0, 0]
      .ok () : Py Unit) = .error .valueError ∧
    (do
      let L ← square 2 2 (some [false, false]) (some [0]) 0 (1 / 1000) (decimals 2)
      let T ← spaceGroupSymmetry (F := ℚ) L [[0, -1], [1, 0]] [1, 0]
      T ⟨[.X, .Y], [0, 1], .pauli, .float1⟩ : Py (Operator QI)) = .ok ⟨[1], Basis.ofList [⟨[.Y, .X], [0, 2], .pauli, .float1⟩], .pauli⟩ := by
  constructor <;> decide +kernel

/-- the hypotheses of the theorems above hold for the kagome lattice -/
example : ∃ (L : Lattice ℝ String (List ℤ)) (T : Transformation ℂ) (e : ℤ → ℤ),
    mkLattice (kagomeCell (Real.sqrt 3) ["up", "down"]) [3, 4] (some [true, false]) (1 / 10 ^ 8) (decimals 8) = .ok L ∧
      spaceGroupSymmetry L [[1, 0], [0, 1]] (List.ofFn (∑ l : Fin 2, ((![2, 0] l : ℤ) : ℝ) • (kagomeCell (Real.sqrt 3) ["up", "down"]).vec 2 l)) = .ok T ∧
      T.Relabels L.len e := by
  have h : (1 : ℝ) ≤ Real.sqrt 3 := by rw [Real.one_le_sqrt]; norm_num
  obtain ⟨L, T, e, h1, h2, h3, -⟩ := C73_translation (K := ℂ) (N := [3, 4]) (periodic := some [true, false]) (tol := 1 / 10 ^ 8) (render := decimals 8)
    (kagomeCell_wf (Real.sqrt 3) ["up", "down"]) (fun p h => by cases h; rfl) (kagomeCell_primitive h (by decide))
    (kagomeCell_resolved h _ (by norm_num) (by norm_num) _) (v := ![2, 0])
    (fun l => by
      have h5 : ∀ l : Fin 2, |(![2, 0] : Fin 2 → ℤ) l| ≤ ((sizes [3, 4] : Fin 2 → ℕ) l : ℤ) := by decide
      exact h5 l)
    (fun l hl => by
      have h5 : ∀ l : Fin 2, isPeriodic (some [true, false]) l = false → (![2, 0] : Fin 2 → ℤ) l = 0 := by decide
      exact h5 l hl)
  refine ⟨L, T, e, h1, ?_, h3⟩
  rw [← h2]
  congr 1

/-! ### lattices with spins -/

section
variable {u : UnitCell F (List Char)} {up dn : List Char}

/-- orbitals of a lattice are found by their positions and names -/
theorem Lattice.Built.indexed {L : Lattice F ω ν} {u : UnitCell F ω} (hu : u.WF N.length) (hp : ∀ p, periodic = some p → p.length = N.length)
    (hprim : u.Primitive N.length) (hres : u.Resolved N.length tol render (InCells (sizes N))) (h : mkLattice u N periodic tol render = .ok L) : L.Indexed := by
  obtain ⟨L', h1, h2⟩ := C53_index (periodic := periodic) hu hp hprim hres
  obtain rfl : L = L' := Except.ok.inj (h.symm.trans h1)
  exact fun i x hx => (h2 i x.1 x.2.1 x.2.2 hx).2

/-- the orbitals of a lattice come in pairs with opposite spins if those of the unit cell do -/
theorem Lattice.Built.spinPairs {L : Lattice F (List Char) ν} (hu : u.WF N.length) (hres : u.Resolved N.length tol render (InCells (sizes N)))
    (h : L.Built u N periodic tol render) (hs : u.Spinful up dn) : L.SpinPairs up dn ∧ ∀ x ∈ L.orbitals, '(' ∉ x.2.1 := by
  constructor
  · intro x hx o ho
    obtain ⟨m, a, ha, hm, hoa, hx'⟩ := h.orbital hu hres (fun _ h => h) hx
    have hob := hs.pairs _ (List.getElem_mem ha) _ hoa o ho
    exact ⟨_, h.orbital_mem hu hres (fun _ h => h) hm ha hob, by rw [hx'], rfl⟩
  · intro x hx
    obtain ⟨m, a, ha, hm, hoa, hx'⟩ := h.orbital hu hres (fun _ h => h) hx
    exact hs.plain _ (List.getElem_mem ha) _ hoa

/-! ### C74 -/

/-- **C74**: `spin_flip_symmetry(lattice, up, dn)` exchanges the operators of every orbital with those of the orbital with the opposite spin at the same
position. -/
theorem C74_spin_flip (hu : u.WF N.length) (hp : ∀ p, periodic = some p → p.length = N.length) (hprim : u.Primitive N.length)
    (hres : u.Resolved N.length tol render (InCells (sizes N))) (hs : u.Spinful up dn) :
    ∃ (L : Lattice F (List Char) ν) (T : Transformation K) (e : ℤ → ℤ), mkLattice u N periodic tol render = .ok L ∧
      spinFlipSymmetry L up dn = .ok T ∧ T.Relabels L.len e ∧ L.Flips up dn e ∧ ∀ i ∈ siteLabels L.len, e (e i) = i := by
  obtain ⟨L, h1, h2⟩ := mkLattice_ok hu hp tol render
  obtain ⟨s1, s2⟩ := h2.spinPairs hu hres hs
  obtain ⟨p, p1, p2, p3, p4, p5⟩ := spinFlipLabels_ok (Lattice.Built.indexed hu hp hprim hres h1) hs.overlap hs.plainUp hs.plainDn s2 s1
  refine ⟨L, labelPermutation (labelsOf p), relabelMap (labelsOf p), h1, ?_, ?_, p4, fun i hi => ?_⟩
  · rw [spinFlipSymmetry, p3]
    exact checkedPermutation_ok p
  · rw [Lattice.len, ← p2]; exact labelPermutation_relabels p1
  · rw [Lattice.len, ← p2] at hi
    obtain ⟨hlt, he⟩ := relabelMap_labelsOf hi
    rw [he, relabelMap_get (p5 _ _ (List.getElem?_eq_getElem hlt))]
    have := hi.1; omega

/-- **C74** (involution): two spin flips are the identity, exactly. -/
theorem C74_involution (hu : u.WF N.length) (hp : ∀ p, periodic = some p → p.length = N.length) (hprim : u.Primitive N.length)
    (hres : u.Resolved N.length tol render (InCells (sizes N))) (hs : u.Spinful up dn) :
    ∃ (L : Lattice F (List Char) ν) (T : Transformation K), mkLattice u N periodic tol render = .ok L ∧ spinFlipSymmetry L up dn = .ok T ∧
      ∀ {t : OpType} {s : OpString}, TypedString t (siteLabels L.len) s → s.Canonical → (T.mul T).Sends s 1 s := by
  obtain ⟨L, h1, h2⟩ := mkLattice_ok hu hp tol render
  obtain ⟨s1, s2⟩ := h2.spinPairs hu hres hs
  obtain ⟨p, p1, p2, p3, p4, p5⟩ := spinFlipLabels_ok (Lattice.Built.indexed hu hp hprim hres h1) hs.overlap hs.plainUp hs.plainDn s2 s1
  refine ⟨L, labelPermutation (labelsOf p), h1, ?_, ?_⟩
  · rw [spinFlipSymmetry, p3]
    exact checkedPermutation_ok p
  · intro t s hs' hc
    rw [Lattice.len, ← p2] at hs'
    have h := ((labelPermutation_signRule (K := K) p1 t).mul (labelPermutation_signRule p1 t)).sends s hs'
    obtain ⟨c1, c2⟩ := relabel_comp hs' (relabelMap_inj p1) (relabelMap_mapsTo p1) (relabelMap_inj p1)
    obtain ⟨d1, d2⟩ := relabel_id (e := relabelMap (labelsOf p) ∘ relabelMap (labelsOf p)) hs' hc (fun i hi => by
      obtain ⟨hlt, he⟩ := relabelMap_labelsOf hi
      rw [Function.comp_apply, he, relabelMap_get (p5 _ _ (List.getElem?_eq_getElem hlt))]
      have := hi.1; omega)
    rw [c1, d1, ← Int.cast_mul, c2, d2, Int.cast_one] at h
    exact h

/-- **C74** (missing partners): if the name with the opposite spin of some orbital does not occur in the lattice, ValueError is raised. -/
theorem C74_missing (hu : u.WF N.length) (hp : ∀ p, periodic = some p → p.length = N.length)
    (hres : u.Resolved N.length tol render (InCells (sizes N))) (ho : OverlapFree up dn) (hup : Plain up) (hdn : Plain dn) {x o' : List Char}
    (hx : ∃ os ∈ u.orbitals, x ∈ os) (hN : ∀ n ∈ N, 0 < n) (hx' : '(' ∉ x) (hsw : Swapped up dn x o') (hno : ∀ os ∈ u.orbitals, o' ∉ os) :
    ∃ L : Lattice F (List Char) ν, mkLattice u N periodic tol render = .ok L ∧ spinFlipSymmetry (K := K) L up dn = .error .valueError := by
  obtain ⟨L, h1, h2⟩ := mkLattice_ok hu hp tol render
  obtain ⟨L', h1', hs⟩ := C53_search (periodic := periodic) hu hp tol render
  obtain rfl : L = L' := Except.ok.inj (h1.symm.trans h1')
  choose r hr1 hr2 hr3 using hs
  refine ⟨L, h1, ?_⟩
  have hlab : spinFlipLabels L up dn = .ok (L.orbitals.map fun x => r (vec N.length x.1) (swapNames x.2.1 up dn)) := by
    refine mapM_ok fun x hx => ?_
    obtain ⟨m, a, ha, hm, ho, hx'⟩ := h2.orbital hu hres (fun _ h => h) hx
    have hx1 : x.1 = List.ofFn (u.point N.length m a) := congrArg Prod.fst hx'
    rw [← hr1, hx1, vec_ofFn]
  rw [spinFlipSymmetry, hlab]
  simp only [bind, Except.bind, checkedPermutation]
  rw [if_pos]
  obtain ⟨os, hos, hxo⟩ := hx
  obtain ⟨a, ha, rfl⟩ := List.getElem_of_mem hos
  have hmem := h2.orbital_mem hu hres (fun _ h => h) (m := 0) (fun l => ⟨le_rfl, by
    have := hN (N[l]) (List.getElem_mem l.2)
    simp only [sizes, Pi.zero_apply]
    rw [List.getD_eq_getElem?_getD, List.getElem?_eq_getElem l.2, Option.getD_some]
    exact_mod_cast this⟩) ha hxo
  refine List.mem_map.mpr ⟨_, hmem, ?_⟩
  simp only
  rw [swapNames_eq ho.apart hup hdn hx' hsw, hr2]
  intro c _ _ orb horb he
  obtain ⟨m, b, hb, hm, hob, -⟩ := h2.orbital hu hres (fun _ h => h) horb
  rw [he] at hob
  exact absurd hob (hno _ (List.getElem_mem hb))

/-! ### C75 -/

lemma szCount_error (up dn : List ℤ) {o : Op} (ha : o ≠ .A ∧ o ≠ .B ∧ o ≠ .D) : ∀ (ops : List Op) (ls : List ℤ) (n : ℕ × ℕ), ops.length ≤ ls.length →
    o ∈ ops → szCount up dn ops ls n = .error .valueError
  | [], _, _, _, h => by simp at h
  | _ :: _, [], _, h, _ => by simp at h
  | p :: ops, l :: ls, n, h, hm => by
    have ih := fun n => szCount_error up dn ha ops ls n (by simpa using h)
    rcases List.mem_cons.mp hm with rfl | hm'
    · cases o <;> simp_all [szCount]
    · cases p <;> simp [szCount, ih _ hm']

/-- **C75**: `spin_parity_symmetry(lattice, up, dn)` reverses the signs of the Majorana operators of the orbitals whose names contain `dn` and of no other
ones; applied to a string of Pauli or fermion operators, or to one with other than the three Majorana operators, it raises ValueError. -/
theorem C75_spin_parity (hu : u.WF N.length) (hp : ∀ p, periodic = some p → p.length = N.length) (hprim : u.Primitive N.length)
    (hres : u.Resolved N.length tol render (InCells (sizes N))) (up dn : List Char) :
    ∃ (L : Lattice F (List Char) ν) (T : Transformation K), mkLattice u N periodic tol render = .ok L ∧ spinParitySymmetry L up dn = .ok T ∧
      (∀ {S : Set ℤ} {s : OpString}, MajoranaString S s → ∃ ε : K, (ε = 1 ∨ ε = -1) ∧ T.Sends s ε s ∧
        ∀ {𝔸 : Type} [Ring 𝔸] [Algebra K 𝔸] (R : MajoranaRep K 𝔸 S), (R.negOn (L.named dn)).den s = ε • R.den s) ∧
      ∀ s : OpString, (s.opType ≠ .majorana ∨ s.ops.length = s.labels.length ∧ ∃ o ∈ s.ops, o ≠ .A ∧ o ≠ .B ∧ o ≠ .D) →
        T s = .error .valueError := by
  obtain ⟨L, h1, h2⟩ := mkLattice_ok hu hp tol render
  have hL := Lattice.Built.indexed hu hp hprim hres h1
  obtain ⟨l1, a1, -⟩ := spinLabels_ok hL up
  obtain ⟨l2, b1, b2⟩ := spinLabels_ok hL dn
  refine ⟨L, szRule l1 l2, h1, by rw [spinParitySymmetry, a1, b1]; rfl, fun {S s} hs => ?_, fun s hs => ?_⟩
  · exact ⟨_, szSign_cases (L.named dn) s, szRule_majorana b2 hs, fun R => R.negOn_den _ hs⟩
  · unfold szRule
    cases h : s.opType with
    | majorana =>
      obtain hs | ⟨hl, o, ho, ha⟩ := hs
      · exact absurd h hs
      · simp only [szCount_error _ _ ha s.ops s.labels (0, 0) hl.le ho]; rfl
    | _ => rfl

/-- **C75** (involution): two spin parities are the identity, exactly. -/
theorem C75_involution (hu : u.WF N.length) (hp : ∀ p, periodic = some p → p.length = N.length) (hprim : u.Primitive N.length)
    (hres : u.Resolved N.length tol render (InCells (sizes N))) (up dn : List Char) :
    ∃ (L : Lattice F (List Char) ν) (T : Transformation K), mkLattice u N periodic tol render = .ok L ∧ spinParitySymmetry L up dn = .ok T ∧
      ∀ {S : Set ℤ} {s : OpString}, MajoranaString S s → (T.mul T).Sends s 1 s := by
  obtain ⟨L, h1, h2⟩ := mkLattice_ok hu hp tol render
  have hL := Lattice.Built.indexed hu hp hprim hres h1
  obtain ⟨l1, a1, -⟩ := spinLabels_ok hL up
  obtain ⟨l2, b1, b2⟩ := spinLabels_ok hL dn
  refine ⟨L, szRule l1 l2, h1, by rw [spinParitySymmetry, a1, b1]; rfl, fun {S s} hs => ?_⟩
  have h := ((szRule_signRule (K := K) (up := l1) b2 S).mul (szRule_signRule (up := l1) b2 S)).sends s (Or.inr ⟨rfl, hs⟩)
  simp only [id] at h
  rwa [sign_mul_self (szSign_cases _ _)] at h

/-! ### C76 -/

/-- the arguments of `time_reversal` that mean a lattice with the spins `up` and `dn` -/
def SpinInfo.Means (info : SpinInfo F ν) (L : Lattice F (List Char) ν) (up dn : List Char) : Prop :=
  info = .named L up dn ∨ (info = .lattice L ∧ up = "Up".toList ∧ dn = "Dn".toList)

theorem SpinInfo.Means.eq {info : SpinInfo F ν} {L : Lattice F (List Char) ν} {up dn : List Char} (h : info.Means L up dn) :
    timeReversalOf (K := K) info = spinfulTimeReversal L up dn := by
  rcases h with rfl | ⟨rfl, rfl, rfl⟩ <;> rfl

/-- what the factors of spinful time reversal do -/
theorem spinful_signRule (hu : u.WF N.length) (hp : ∀ p, periodic = some p → p.length = N.length) (hprim : u.Primitive N.length)
    (hres : u.Resolved N.length tol render (InCells (sizes N))) (hs : u.Spinful up dn) :
    ∃ (L : Lattice F (List Char) ν) (T : Transformation K) (p : List ℕ), mkLattice u N periodic tol render = .ok L ∧
      spinfulTimeReversal L up dn = .ok T ∧ p.length = L.len ∧ IsPermArray p ∧ L.Flips up dn (relabelMap (labelsOf p)) ∧
      (∀ i ∈ siteLabels p.length, relabelMap (labelsOf p) (relabelMap (labelsOf p) i) = i) ∧
      SignRule T .majorana (TypedString .majorana (siteLabels p.length))
        (fun s => trSign K s * szSign K (L.named dn) s * ((relabelSign (relabelMap (labelsOf p)) s : ℤ) : K)) (relabelString (relabelMap (labelsOf p))) ∧
      ∃ l1 l2, T = (Transformation.mul (labelPermutation (labelsOf p)) (szRule l1 l2)).mul timeReversalRule := by
  obtain ⟨L, h1, h2⟩ := mkLattice_ok hu hp tol render
  have hL := Lattice.Built.indexed hu hp hprim hres h1
  obtain ⟨s1, s2⟩ := h2.spinPairs hu hres hs
  obtain ⟨p, p1, p2, p3, p4, p5⟩ := spinFlipLabels_ok hL hs.overlap hs.plainUp hs.plainDn s2 s1
  obtain ⟨l1, a1, -⟩ := spinLabels_ok hL up
  obtain ⟨l2, b1, b2⟩ := spinLabels_ok hL dn
  refine ⟨L, (Transformation.mul (labelPermutation (labelsOf p)) (szRule l1 l2)).mul timeReversalRule, p, h1, ?_, p2, p1, p4, fun i hi => ?_, ?_,
    l1, l2, rfl⟩
  · rw [spinfulTimeReversal, spinFlipSymmetry, p3, spinParitySymmetry, a1, b1]
    simp only [bind, Except.bind, checkedPermutation_ok]
  · obtain ⟨hlt, he⟩ := relabelMap_labelsOf hi
    rw [he, relabelMap_get (p5 _ _ (List.getElem?_eq_getElem hlt))]
    have := hi.1; omega
  · have h := ((labelPermutation_signRule (K := K) p1 .majorana).mul (szRule_signRule (up := l1) b2 (siteLabels p.length))).mul
      (timeReversal_signRule .majorana (siteLabels p.length))
    simp only [id, ← mul_assoc] at h
    exact h

/-- **C76**: `time_reversal(lattice)` and `time_reversal((lattice, up, dn))` act on strings as the antiunitary time reversal of fermions with spin:
`c_↑ ↦ c_↓`, `c_↓ ↦ -c_↑`. -/
theorem C76_time_reversal (hu : u.WF N.length) (hp : ∀ p, periodic = some p → p.length = N.length) (hprim : u.Primitive N.length)
    (hres : u.Resolved N.length tol render (InCells (sizes N))) (hs : u.Spinful up dn) :
    ∃ (L : Lattice F (List Char) ν) (T : Transformation K) (e : ℤ → ℤ), mkLattice u N periodic tol render = .ok L ∧
      (∀ info : SpinInfo F ν, info.Means L up dn → timeReversalOf info = .ok T) ∧ L.Flips up dn e ∧
      ∀ s, MajoranaString (siteLabels L.len) s → ∃ (ε : K) (s' : OpString), (ε = 1 ∨ ε = -1) ∧ T.Sends s ε s' ∧ MajoranaString (siteLabels L.len) s' ∧
        ∀ {𝔸 : Type} [Ring 𝔸] [Algebra K 𝔸] (R : MajoranaRep K 𝔸 (siteLabels L.len)) (τ : Antilinear K 𝔸), τ.ReversesSpinful R e (L.named dn) →
          τ.toFun (R.den s) = ε • R.den s' := by
  obtain ⟨L, T, p, h1, h2, h3, h4, h5, h6, h7, -⟩ := spinful_signRule (K := K) hu hp hprim hres hs
  refine ⟨L, T, relabelMap (labelsOf p), h1, fun info hi => hi.eq.trans h2, h5, fun s hs' => ?_⟩
  rw [← h3] at hs' ⊢
  have ht : TypedString .majorana (siteLabels p.length) s := Or.inr ⟨rfl, hs'⟩
  exact ⟨_, _, h7.sign s ht, h7.sends s ht, hs'.relabel (relabelMap_inj h4) (relabelMap_mapsTo h4),
    fun R τ hτ => τ.spinful R (relabelMap_inj h4) (relabelMap_mapsTo h4) hτ hs'⟩

/-- **C76** (square): time reversal of fermions with spin squares to the fermion parity: strings with an odd number of Majorana operators change their
signs. -/
theorem C76_square (hu : u.WF N.length) (hp : ∀ p, periodic = some p → p.length = N.length) (hprim : u.Primitive N.length)
    (hres : u.Resolved N.length tol render (InCells (sizes N))) (hs : u.Spinful up dn)
    (hone : ∀ os ∈ u.orbitals, ∀ o ∈ os, up <:+: o ↔ ¬ dn <:+: o) :
    ∃ (L : Lattice F (List Char) ν) (T : Transformation K), mkLattice u N periodic tol render = .ok L ∧
      (∀ info : SpinInfo F ν, info.Means L up dn → timeReversalOf info = .ok T) ∧
      ∀ s, MajoranaString (siteLabels L.len) s → s.Canonical →
        (T.mul T).Sends s ((-1) ^ (s.ops.filter fun o => o = .A ∨ o = .B).length) s := by
  obtain ⟨L, T, p, h1, h2, h3, h4, h5, h6, h7, -⟩ := spinful_signRule (K := K) (tol := tol) (periodic := periodic) (render := render) hu hp hprim hres hs
  obtain ⟨L', g1, g2⟩ := mkLattice_ok (periodic := periodic) hu hp tol render
  obtain rfl : L = L' := Except.ok.inj (h1.symm.trans g1)
  refine ⟨L, T, h1, fun info hi => hi.eq.trans h2, fun s hs' hc => ?_⟩
  rw [← h3] at hs'
  have ht : TypedString .majorana (siteLabels p.length) s := Or.inr ⟨rfl, hs'⟩
  have h := (h7.mul h7).sends s ht
  obtain ⟨c1, c2⟩ := relabel_comp ht (relabelMap_inj h4) (relabelMap_mapsTo h4) (relabelMap_inj h4)
  obtain ⟨d1, d2⟩ := relabel_id (e := relabelMap (labelsOf p) ∘ relabelMap (labelsOf p)) ht hc (fun i hi => h6 i hi)
  have hD : ∀ i ∈ siteLabels p.length, relabelMap (labelsOf p) i ∈ L.named dn ↔ i ∉ L.named dn := by
    intro i hi
    obtain ⟨k, rfl⟩ : ∃ k : ℕ, i = k := ⟨i.toNat, by have := hi.1; omega⟩
    have hk : k < L.orbitals.length := by have := hi.2; rw [h3, Lattice.len] at this; omega
    obtain ⟨j, y, e1, e2, -, e4⟩ := h5 k _ (List.getElem?_eq_getElem hk)
    rw [e1]
    have m1 : ∀ (i : ℕ) (x : Orbital F (List Char)), L.orbitals[i]? = some x → ((i : ℤ) ∈ L.named dn ↔ dn <:+: x.2.1) := by
      intro i x hx
      constructor
      · rintro ⟨i', x', hi', hx', hd⟩
        obtain rfl : i = i' := by exact_mod_cast hi'
        rw [hx] at hx'
        cases hx'
        exact hd
      · exact fun hd => ⟨i, x, rfl, hx, hd⟩
    rw [m1 j y e2, m1 k _ (List.getElem?_eq_getElem hk), e4.contains_iff hs.overlap]
    obtain ⟨m, a, ha, hm, hoa, -⟩ := g2.orbital hu hres (fun _ h => h) (List.getElem_mem hk)
    exact hone _ (List.getElem_mem ha) _ hoa
  have hsign : trSign K s * szSign K (L.named dn) s * ((relabelSign (relabelMap (labelsOf p)) s : ℤ) : K) *
      (trSign K (relabelString (relabelMap (labelsOf p)) s) * szSign K (L.named dn) (relabelString (relabelMap (labelsOf p)) s) *
        ((relabelSign (relabelMap (labelsOf p)) (relabelString (relabelMap (labelsOf p)) s) : ℤ) : K)) = (-1) ^ numAB s.ops := by
    rw [trSign_relabel _ hs', ← szSign_relabel (K := K) hD hs']
    have e1 := sign_mul_self (trSign_cases (K := K) s)
    have e2 : ((relabelSign (relabelMap (labelsOf p)) s : ℤ) : K) *
        ((relabelSign (relabelMap (labelsOf p)) (relabelString (relabelMap (labelsOf p)) s) : ℤ) : K) = 1 := by
      rw [← Int.cast_mul, c2, d2, Int.cast_one]
    linear_combination (szSign K (L.named dn) s * szSign K (L.named dn) (relabelString (relabelMap (labelsOf p)) s)) *
      ((((relabelSign (relabelMap (labelsOf p)) s : ℤ) : K) *
        ((relabelSign (relabelMap (labelsOf p)) (relabelString (relabelMap (labelsOf p)) s) : ℤ) : K)) * e1 + e2)
  simp only [hsign, c1, d1] at h
  exact h

/-- **C76** (existence): the antiunitary time reversal of C76 exists for the fermions on the `n` orbitals of a lattice, for every exchange `e` of the orbitals
with and without spin `D`. -/
theorem C76_exists (K : Type) [Field K] [StarRing K] [Coef K] (n : ℕ) {e : ℤ → ℤ} {D : Set ℤ} (hm : Set.MapsTo e (siteLabels n) (siteLabels n))
    (hinv : ∀ i ∈ siteLabels n, e (e i) = i) (hD : ∀ i ∈ siteLabels n, e i ∈ D ↔ i ∉ D) :
    ∃ (R : MajoranaRep K (Matrix (Cfg n) (Cfg n) K) (siteLabels n)) (τ : Antilinear K (Matrix (Cfg n) (Cfg n) K)), τ.ReversesSpinful R e D := by
  have hj : Set.MapsTo id (siteLabels n) (jwLabels (siteLabels n)) := fun i hi => ⟨hi.1, fun k h0 hk => ⟨h0, by have := hi.2; simp only [id] at hk; omega⟩⟩
  exact ⟨(matRep K n).jordanWigner.relabelOn id (Set.injOn_id _) hj,
    exists_reversesSpinful _ _ (fun i hi => conj_reversesFermions K n i (hj hi)) hm hinv hD⟩

/-- **C76** (errors): other arguments raise ValueError, and so do Pauli strings. -/
theorem C76_errors (hu : u.WF N.length) (hp : ∀ p, periodic = some p → p.length = N.length) (hprim : u.Primitive N.length)
    (hres : u.Resolved N.length tol render (InCells (sizes N))) (hs : u.Spinful up dn) :
    timeReversalOf (K := K) (.other : SpinInfo F ν) = .error .valueError ∧
    ∃ (L : Lattice F (List Char) ν) (T : Transformation K), mkLattice u N periodic tol render = .ok L ∧
      (∀ info : SpinInfo F ν, info.Means L up dn → timeReversalOf info = .ok T) ∧
      ∀ {S : Set ℤ} {s : OpString}, PauliString S s → T s = .error .valueError := by
  obtain ⟨L, T, p, h1, h2, h3, h4, h5, h6, h7, l1, l2, rfl⟩ := spinful_signRule (K := K) hu hp hprim hres hs
  refine ⟨rfl, L, _, h1, fun info hi => hi.eq.trans h2, fun {S s} hs' => ?_⟩
  have e1 : (timeReversalRule : Transformation K) s = .ok ⟨[trSign K s], Basis.ofList [s], s.opType⟩ := timeReversal_pauli hs'
  have e2 : (szRule l1 l2 : Transformation K) s = .error .valueError := by unfold szRule; rw [hs'.type]
  obtain ⟨z, hz⟩ : ∃ z : Operator K, mkOperator [] [] (some s.opType) = .ok z := ⟨_, rfl⟩
  simp only [Transformation.mul, productRule, hz, e1, bind, Except.bind, Operator.terms, Basis.ofList, List.zip_cons_cons, List.zip_nil_left, productOuter, e2]
end

/-! ### examples -/

/-- the names of a spinful orbital -/
def spinNames : List (List Char) := ["s Up".toList, "s Dn".toList]

/-- the hypotheses of C74 to C76 hold for cubic lattices with these names -/
theorem cubicCell_spinful (F : Type) [Field F] [LinearOrder F] (d : ℕ) : (cubicCell F d spinNames).Spinful "Up".toList "Dn".toList := by
  have hp : ∀ o ∈ spinNames, '(' ∉ o := by decide
  refine ⟨up_dn_overlapFree, up_dn_plain.1, up_dn_plain.2, ?_, ?_⟩
  · intro os hos o ho
    obtain rfl : os = spinNames := by simpa [cubicCell] using hos
    exact hp o ho
  · intro os hos o ho o' h
    obtain rfl : os = spinNames := by simpa [cubicCell] using hos
    rw [← swapNames_eq up_dn_overlapFree.apart up_dn_plain.1 up_dn_plain.2 (hp o ho) h]
    have : ∀ o ∈ spinNames, swapNames o "Up".toList "Dn".toList ∈ spinNames := by decide +kernel
    exact this o ho

example : (cubicCell ℚ 2 spinNames).WF 2 ∧ (cubicCell ℚ 2 spinNames).Primitive 2 ∧
    (cubicCell ℚ 2 spinNames).Resolved 2 (1 / 1000) (decimals 2) (fun _ => True) ∧
    ∀ os ∈ (cubicCell ℚ 2 spinNames).orbitals, ∀ o ∈ os, "Up".toList <:+: o ↔ ¬ "Dn".toList <:+: o := by
  refine ⟨cubicCell_wf 2 _, cubicCell_primitive 2 (by decide), cubicCell_resolved 2 _ (by norm_num) 2 _, fun os hos o ho => ?_⟩
  obtain rfl : os = spinNames := by simpa [cubicCell] using hos
  have : ∀ o ∈ spinNames, "Up".toList <:+: o ↔ ¬ "Dn".toList <:+: o := by decide
  exact this o ho

/-- a chain of two sites with spin -/
def spinChain : Py (Lattice ℚ (List Char) (List ℤ)) := chain 2 true (some spinNames) [] (1 / 1000) (decimals 2)

/-- `a_0 ↦ a_1`, `a_1 ↦ -a_0`, `b_0 ↦ -b_1`, and `i a_0 b_3 ↦ -i a_1 b_2` up to the orders of the factors -/
example : (do
      let L ← spinChain
      let T ← timeReversalOf (.lattice L)
      let w ← T ⟨[.A], [0], .majorana, .float1⟩
      let x ← T ⟨[.A], [1], .majorana, .float1⟩
      let y ← T ⟨[.B], [0], .majorana, .float1⟩
      let z ← T ⟨[.A, .B], [0, 3], .majorana, .imag⟩
      .ok [w, x, y, z] : Py (List (Operator QI))) =
    .ok [⟨[1], Basis.ofList [⟨[.A], [1], .majorana, .float1⟩], .majorana⟩, ⟨[-1], Basis.ofList [⟨[.A], [0], .majorana, .float1⟩], .majorana⟩,
      ⟨[-1], Basis.ofList [⟨[.B], [1], .majorana, .float1⟩], .majorana⟩, ⟨[-1], Basis.ofList [⟨[.A, .B], [1, 2], .majorana, .imag⟩], .majorana⟩] := by
  decide +kernel

/-- **C74** needs names without parentheses: the lattice with the orbitals `s (Up)` and `s (Dn)` has a partner for every orbital, but ValueError is raised. -/
theorem C74_refuted : (do
      let L ← chain 2 true (some ["s (Up)".toList, "s (Dn)".toList]) [] (1 / 1000) (decimals 2)
      let _ ← spinFlipSymmetry (F := ℚ) (K := QI) L "Up".toList "Dn".toList
      .ok () : Py Unit) = .error .valueError := by
  decide +kernel

end Qosy
