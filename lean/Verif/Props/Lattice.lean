import Verif.Lemmas.LatticeDistance
import Mathlib.Analysis.InnerProductSpace.PiL2
import Mathlib.Algebra.Order.Round
import Mathlib.LinearAlgebra.LinearIndependent.Lemmas
import Mathlib.Tactic.FinCases
import Mathlib.Tactic.NormNum

/-!
# Properties C53, C54: lattices

`UnitCell.point u d m a` is the position of atom `a` in cell `m` of the infinite crystal; a lattice with `N_l` cells in direction `l` has the
cells with `0 ≤ m_l < N_l`; `UnitCell.shift` is the translation by `c_l` full periods.
-/

namespace Qosy
open Finset
variable {F ω ν : Type} [Field F] [LinearOrder F] [IsStrictOrderedRing F] [DecidableEq ω] [DecidableEq ν]
variable {u : UnitCell F ω} {N : List ℕ} {periodic : Option (List Bool)} {tol : F} {render : List F → ν} {P : (Fin N.length → ℤ) → Prop}

/-! ### C53 -/

/-- **C53** (number of orbitals): the product of the numbers of cells times the number of orbitals of a cell. -/
theorem C53_count (hu : u.WF N.length) (hp : ∀ p, periodic = some p → p.length = N.length) (tol : F) (render : List F → ν) :
    ∃ L, mkLattice u N periodic tol render = .ok L ∧ L.len = N.prod * (u.orbitals.map List.length).sum := by
  obtain ⟨L, h1, h2⟩ := mkLattice_ok hu hp tol render
  exact ⟨L, h1, h2.length hu⟩

/-- **C53** (bijection): every orbital of every atom of every cell has exactly one index, and every index below the length is that of
one of them, with its position in the crystal, its name and its cell. -/
theorem C53_bijection (hu : u.WF N.length) (hp : ∀ p, periodic = some p → p.length = N.length) (hprim : u.Primitive N.length)
    (hres : u.Resolved N.length tol render (InCells (sizes N))) : ∃ L, mkLattice u N periodic tol render = .ok L ∧
    (∀ m, InCells (sizes N) m → ∀ a (ha : a < u.orbitals.length), ∀ o ∈ u.orbitals[a],
      ∃! i : ℕ, L.orbitals[i]? = some (List.ofFn (u.point N.length m a), o, List.ofFn fun l => (m l).toNat)) ∧
    ∀ i < L.len, ∃ m, InCells (sizes N) m ∧ ∃ a, ∃ ha : a < u.orbitals.length, ∃ o ∈ u.orbitals[a],
      L.orbitals[i]? = some (List.ofFn (u.point N.length m a), o, List.ofFn fun l => (m l).toNat) := by
  obtain ⟨L, h1, h2⟩ := mkLattice_ok hu hp tol render
  refine ⟨L, h1, fun m hm a ha o ho => ?_, fun i hi => ?_⟩
  · obtain ⟨i, hi, he⟩ := List.getElem_of_mem (h2.orbital_mem hu hres (fun _ h => h) hm ha ho)
    refine ⟨i, List.getElem?_eq_some_iff.mpr ⟨hi, he⟩, fun j hj => ?_⟩
    obtain ⟨hj, he'⟩ := List.getElem?_eq_some_iff.mp hj
    exact ((h2.orbitals_nodup hu hprim hres (fun _ h => h)).getElem_inj_iff).mp (he'.trans he.symm)
  · obtain ⟨m, a, ha, hm, ho, hx⟩ := h2.orbital hu hres (fun _ h => h) (List.getElem_mem hi)
    exact ⟨m, hm, a, ha, _, ho, by rw [List.getElem?_eq_getElem hi, hx]; rfl⟩

/-- **C53** (lookup): looking up the position and the name of the `i`-th orbital returns `i`. -/
theorem C53_index (hu : u.WF N.length) (hp : ∀ p, periodic = some p → p.length = N.length) (hprim : u.Primitive N.length)
    (hres : u.Resolved N.length tol render (InCells (sizes N))) : ∃ L, mkLattice u N periodic tol render = .ok L ∧
    ∀ (i : ℕ) (pos : List F) (o : ω) (cell : List ℕ), L.orbitals[i]? = some (pos, o, cell) → L.position i = .ok pos ∧ L.index pos o = .ok i := by
  obtain ⟨L, h1, h2⟩ := mkLattice_ok hu hp tol render
  refine ⟨L, h1, fun i pos o cell hi => ⟨?_, ?_⟩⟩
  · simp only [Lattice.position, Lattice.orbitalPosition]
    rw [if_neg (by omega), Int.toNat_natCast, pyGet, hi]
    rfl
  · obtain ⟨hlt, hix⟩ := List.getElem?_eq_some_iff.mp hi
    obtain ⟨m, a, ha, hm, ho, hx⟩ := h2.orbital hu hres (fun _ h => h) (x := (pos, o, cell)) (by rw [← hix]; exact List.getElem_mem _)
    obtain ⟨hx1, hx2⟩ := Prod.mk.inj hx
    obtain ⟨bs, hbs⟩ := h2.head
    have hpl : pos.length = N.length := by rw [hx1]; simp
    have hv := vadd_ofFn (vec N.length pos) (b := List.replicate N.length (0 : F)) (by simp)
    rw [ofFn_vec hpl, vec_replicate, add_zero, ofFn_vec hpl] at hv
    rw [Lattice.index, hbs, Lattice.indexLoop]
    simp only [hv, bind, Except.bind]
    obtain ⟨hl1, hl2⟩ := h2.lookup hu hprim hres (fun _ h => h) hm ha ho
    simp only at hl1 hl2
    rw [← hx1] at hl1 hl2
    cases hg : L.indices.get? (L.render (cleanPosition L.tol pos), o) with
    | none => exact absurd hm (hl2 hg)
    | some j =>
      obtain ⟨-, hj⟩ := hl1 j hg
      obtain ⟨hlt', hj'⟩ := List.getElem?_eq_some_iff.mp hj
      have hcell : (pos, o, cellList m) = (pos, o, cell) := by rw [(Prod.mk.inj hx2).2]
      rw [((h2.orbitals_nodup hu hprim hres (fun _ h => h)).getElem_inj_iff).mp (hj'.trans (hcell.trans hix.symm))]

/-- **C53** (search): for any position and name, the answer is -1 exactly if neither the position nor a neighbouring periodic image of it
has the text of the position of an orbital with this name, and otherwise it is the index of such an orbital. -/
theorem C53_search (hu : u.WF N.length) (hp : ∀ p, periodic = some p → p.length = N.length) (tol : F) (render : List F → ν) :
    ∃ L, mkLattice u N periodic tol render = .ok L ∧ ∀ (x : Fin N.length → F) (o : ω), ∃ r, L.index (List.ofFn x) o = .ok r ∧
      (r = -1 ↔ ∀ c : Fin N.length → ℤ, Near c → Period periodic c → ∀ orb ∈ L.orbitals, orb.2.1 = o →
        render orb.1 ≠ render (cleanPosition tol (List.ofFn (x + u.shift N.length (sizes N) c)))) ∧
      (r ≠ -1 → ∃ (i : ℕ) (orb : Orbital F ω) (c : Fin N.length → ℤ), r = i ∧ Near c ∧ Period periodic c ∧ L.orbitals[i]? = some orb ∧ orb.2.1 = o ∧
        render orb.1 = render (cleanPosition tol (List.ofFn (x + u.shift N.length (sizes N) c)))) := by
  obtain ⟨L, h1, h2⟩ := mkLattice_ok hu hp tol render
  refine ⟨L, h1, fun x o => ?_⟩
  obtain ⟨r, hr, hs⟩ := indexLoop_spec (L := L) (N := N) (position := List.ofFn x) (by simp) o L.boundary h2.len
  rw [vec_ofFn, h2.render_eq, h2.tol_eq] at hs
  refine ⟨r, hr, ?_⟩
  rcases hs with ⟨rfl, hn⟩ | ⟨i, rfl, b, hb, hs⟩
  · refine ⟨⟨fun _ c hc1 hc2 orb horb ho he => ?_, fun _ => rfl⟩, fun h => absurd rfl h⟩
    obtain ⟨b, hb, hbv⟩ := (h2.boundary (u.shift N.length (sizes N) c)).mpr ⟨c, hc1, hc2, rfl⟩
    have := hn b hb
    rw [hbv] at this
    exact (h2.dict _).1 this orb horb (by rw [orbitalKey, ho, he])
  · obtain ⟨c, hc1, hc2, hbv⟩ := (h2.boundary (vec N.length b)).mp ⟨b, hb, rfl⟩
    rw [hbv] at hs
    obtain ⟨hlt, hk⟩ := (h2.dict _).2 i hs
    obtain ⟨hk1, hk2⟩ := Prod.mk.inj hk
    refine ⟨⟨fun h => absurd h (by omega), fun h => absurd hk1 (h c hc1 hc2 _ (List.getElem_mem hlt) hk2)⟩, fun _ => ?_⟩
    exact ⟨i, _, c, rfl, hc1, hc2, List.getElem?_eq_getElem hlt, hk2, hk1⟩

/-- **C53** (periodic images): the position of the `i`-th orbital, translated by at most one period in every periodic direction, has
index `i`. -/
theorem C53_periodic (hu : u.WF N.length) (hp : ∀ p, periodic = some p → p.length = N.length) (hprim : u.Primitive N.length)
    (hres : u.Resolved N.length tol render (fun m => ∀ l, -2 * (sizes N l : ℤ) ≤ m l ∧ m l < 3 * (sizes N l : ℤ))) :
    ∃ L, mkLattice u N periodic tol render = .ok L ∧
    ∀ (i : ℕ) (pos : List F) (o : ω) (cell : List ℕ), L.orbitals[i]? = some (pos, o, cell) → ∀ c : Fin N.length → ℤ, Near c → Period periodic c →
      L.index (List.ofFn (vec N.length pos + u.shift N.length (sizes N) c)) o = .ok i := by
  obtain ⟨L, h1, h2⟩ := mkLattice_ok hu hp tol render
  refine ⟨L, h1, fun i pos o cell hi c hc1 hc2 => ?_⟩
  have := h2.index_shift hu hprim hres (c := c) hc2 (fun m hm l => ?_) (fun m c' hm hc' _ l => ?_) hi
  · rw [if_pos hc1] at this; exact this
  · have := hm l; omega
  · have h3 := hm l
    have h4 := hc1 l
    have h5 := hc' l
    simp only
    rcases h4 with h4 | h4 | h4 <;> rcases h5 with h5 | h5 | h5 <;> rw [h4, h5] <;> omega

/-- **C53** (wrapping): positions more than one period away are not wrapped back into the lattice: the position of an orbital translated by
two or more periods in some direction is reported as missing. -/
theorem C53_one_period_only (hu : u.WF N.length) (hp : ∀ p, periodic = some p → p.length = N.length) (hprim : u.Primitive N.length)
    (hres : u.Resolved N.length tol render (fun _ => True)) :
    ∃ L, mkLattice u N periodic tol render = .ok L ∧
    ∀ (i : ℕ) (pos : List F) (o : ω) (cell : List ℕ), L.orbitals[i]? = some (pos, o, cell) → ∀ c : Fin N.length → ℤ, ¬ Near c → Period periodic c →
      L.index (List.ofFn (vec N.length pos + u.shift N.length (sizes N) c)) o = .ok (-1) := by
  obtain ⟨L, h1, h2⟩ := mkLattice_ok hu hp tol render
  refine ⟨L, h1, fun i pos o cell hi c hc1 hc2 => ?_⟩
  have := h2.index_shift hu hprim hres (c := c) hc2 (fun _ _ => trivial) (fun _ _ _ _ _ => trivial) hi
  rw [if_neg hc1] at this; exact this

/-- **C53** (cubic lattices): in `cubic(d, N, periodic, names)` the orbital `o` of the site with integer coordinates `m` has an index `i` with
`position(i) = m`, and looking up any translate of it by full periods gives `i` if it is at most one period away in every direction
and -1 otherwise. -/
theorem C53_cubic [FloorRing F] {names : List ω} (hn : names.Nodup) (dflt : ω) (N : List ℕ) (per : List Bool) (hp : per.length = N.length) {tol : F}
    (ht : tol < 1) (k : ℕ) : ∃ L, cubic N.length N (some per) (some names) dflt tol (decimals k) = .ok L ∧ L.len = N.prod * names.length ∧
    ∀ m, InCells (sizes N) m → ∀ o ∈ names, ∃ i : ℕ, L.position i = .ok (List.ofFn fun l => (m l : F)) ∧
      ∀ c, Period (some per) c → L.index (List.ofFn fun l => ((m l + c l * sizes N l : ℤ) : F)) o = .ok (if Near c then (i : ℤ) else -1) := by
  have hu := cubicCell_wf (F := F) N.length names
  have hprim := cubicCell_primitive (F := F) N.length hn
  have hres := cubicCell_resolved (F := F) N.length names ht k (fun _ => True)
  obtain ⟨L, h1, h2⟩ := mkLattice_ok hu (periodic := some per) (fun p h => by cases h; exact hp) tol (decimals k)
  refine ⟨L, h1, ?_, fun m hm o ho => ?_⟩
  · rw [Lattice.len, h2.length hu]; simp [cubicCell]
  · have hmem := h2.orbital_mem hu hres (fun _ _ => trivial) hm (a := 0) (by simp [cubicCell]) (o := o) ho
    obtain ⟨i, hi, he⟩ := List.getElem_of_mem hmem
    have hi' := List.getElem?_eq_some_iff.mpr ⟨hi, he⟩
    refine ⟨i, ?_, fun c hc => ?_⟩
    · simp only [Lattice.position, Lattice.orbitalPosition]
      rw [if_neg (by omega), Int.toNat_natCast, pyGet, hi', cubicCell_point]
      rfl
    · have := h2.index_shift hu hprim hres hc (fun _ _ => trivial) (fun _ _ _ _ _ => trivial) hi'
      simp only at this
      rw [vec_ofFn, cubicCell_point, cubicCell_shift] at this
      rw [← this]
      congr 2
      funext l
      push_cast; rfl

/-- **C53** (default boundaries): without `periodic_boundaries` all boundaries are open, in `cubic`, `square` and `kagome`; `square` and `chain` are
the cubic lattices in two dimensions and one dimension. -/
theorem C53_open (d : ℕ) (N : List ℕ) (n n1 n2 : ℕ) (periodic : Bool) (r3 : F) (names : Option (List ω)) (dflt : ω) (tol : F) (render : List F → ν) :
    cubic d N none names dflt tol render = cubic d N (some (List.replicate d false)) names dflt tol render ∧
    square n1 n2 none names dflt tol render = cubic 2 [n1, n2] (some [false, false]) names dflt tol render ∧
    (∀ per, square n1 n2 (some per) names dflt tol render = cubic 2 [n1, n2] (some per) names dflt tol render) ∧
    chain n periodic names dflt tol render = cubic 1 [n] (some [periodic]) names dflt tol render ∧
    kagome r3 n1 n2 none names dflt tol render = kagome r3 n1 n2 (some [false, false]) names dflt tol render :=
  ⟨rfl, rfl, fun _ => rfl, rfl, rfl⟩

/-- **C53** (kagome lattices): the same for the three atoms of the kagome lattice. -/
theorem C53_kagome [FloorRing F] {r3 : F} (hr : 0 ≤ r3) (hr2 : r3 ^ 2 = 3) {names : List ω} (hn : names.Nodup) (dflt : ω) (n1 n2 : ℕ) (p1 p2 : Bool)
    {tol : F} (ht : tol < 1 / 4) {k : ℕ} (hk : 0 < k) :
    ∃ L, kagome r3 n1 n2 (some [p1, p2]) (some names) dflt tol (decimals k) = .ok L ∧ L.len = n1 * n2 * (3 * names.length) ∧
    ∀ m, InCells (sizes [n1, n2]) m → ∀ a < 3, ∀ o ∈ names, ∃ i : ℕ, L.position i = .ok (List.ofFn ((kagomeCell r3 names).point 2 m a)) ∧
      ∀ c, Period (some [p1, p2]) c → L.index (List.ofFn ((kagomeCell r3 names).point 2 (fun l => m l + c l * sizes [n1, n2] l) a)) o =
        .ok (if Near c then (i : ℤ) else -1) := by
  have hr1 : 1 ≤ r3 := by nlinarith
  have hu := kagomeCell_wf r3 names
  have hprim := kagomeCell_primitive hr1 hn
  have hres := kagomeCell_resolved hr1 names ht hk (fun _ => True)
  obtain ⟨L, h1, h2⟩ := mkLattice_ok (N := [n1, n2]) hu (periodic := some [p1, p2]) (fun p h => by cases h; rfl) tol (decimals k)
  refine ⟨L, h1, ?_, fun m hm a ha o ho => ?_⟩
  · rw [Lattice.len, h2.length hu]; simp only [kagomeCell, List.prod_cons, List.prod_nil, List.map_cons, List.map_nil, List.sum_cons, List.sum_nil]; ring
  · have hoa : o ∈ (kagomeCell r3 names).orbitals[a]'ha := by
      obtain rfl | rfl | rfl : a = 0 ∨ a = 1 ∨ a = 2 := by omega
      all_goals exact ho
    have hmem := h2.orbital_mem hu hres (fun _ _ => trivial) hm (a := a) ha (o := o) hoa
    obtain ⟨i, hi, he⟩ := List.getElem_of_mem hmem
    have hi' := List.getElem?_eq_some_iff.mpr ⟨hi, he⟩
    refine ⟨i, ?_, fun c hc => ?_⟩
    · simp only [Lattice.position, Lattice.orbitalPosition]
      rw [if_neg (by omega), Int.toNat_natCast, pyGet, hi']
      rfl
    · have := h2.index_shift hu hprim hres hc (fun _ _ => trivial) (fun _ _ _ _ _ => trivial) hi'
      simp only at this
      rw [vec_ofFn, UnitCell.point_add_shift] at this
      exact this

/-- the hypotheses of the theorems above hold for the kagome lattice -/
example : (kagomeCell (Real.sqrt 3) ["up", "down"]).WF 2 ∧ (kagomeCell (Real.sqrt 3) ["up", "down"]).Primitive 2 ∧
    (kagomeCell (Real.sqrt 3) ["up", "down"]).Resolved 2 (1 / 10 ^ 8) (decimals 8) (fun _ => True) := by
  have h : (1 : ℝ) ≤ Real.sqrt 3 := by rw [Real.one_le_sqrt]; norm_num
  exact ⟨kagomeCell_wf _ _, kagomeCell_primitive h (by decide), kagomeCell_resolved h _ (by norm_num) (by norm_num) _⟩

/-- a periodic chain of three sites: site 2, its neighbouring images and a position two periods away -/
example : (do
    let L ← chain 3 true none "" (1 / 10 ^ 8 : ℚ) (decimals 8)
    let a ← L.index [2] ""
    let b ← L.index [5] ""
    let c ← L.index [-1] ""
    let d ← L.index [8] ""
    pure [a, b, c, d] : Py (List ℤ)) = .ok [2, 2, 2, -1] := by decide +kernel

/-! ### C54

`separation x y` is the Euclidean distance of two vectors. -/

section
variable {u : UnitCell ℝ ω} {render : List ℝ → ν} {tol : ℝ}

/-- **C54** (nearest image): the distance of two positions is the smallest Euclidean distance between the second one and an image of the first
one by at most one period in every periodic direction. -/
theorem C54_distance (hu : u.WF N.length) (hp : ∀ p, periodic = some p → p.length = N.length) (tol : ℝ) (render : List ℝ → ν) :
    ∃ L, mkLattice u N periodic tol render = .ok L ∧ ∀ x y : Fin N.length → ℝ, ∃ δ,
      L.distance euclid (.at (List.ofFn x)) (.at (List.ofFn y)) = .ok δ ∧
      (∃ c, Near c ∧ Period periodic c ∧ δ = separation (x + u.shift N.length (sizes N) c) y) ∧
      ∀ c, Near c → Period periodic c → δ ≤ separation (x + u.shift N.length (sizes N) c) y := by
  obtain ⟨L, h1, h2⟩ := mkLattice_ok hu hp tol render
  exact ⟨L, h1, distance_ok h2⟩

/-- **C54** (symmetry, sign, self-distance): distances are symmetric and not negative, at most the Euclidean distance, and zero from a
position to itself. -/
theorem C54_symmetric (hu : u.WF N.length) (hp : ∀ p, periodic = some p → p.length = N.length) (tol : ℝ) (render : List ℝ → ν) :
    ∃ L, mkLattice u N periodic tol render = .ok L ∧ ∀ x y : Fin N.length → ℝ, ∃ δ,
      L.distance euclid (.at (List.ofFn x)) (.at (List.ofFn y)) = .ok δ ∧ L.distance euclid (.at (List.ofFn y)) (.at (List.ofFn x)) = .ok δ ∧
      0 ≤ δ ∧ δ ≤ separation x y ∧ (x = y → δ = 0) := by
  obtain ⟨L, h1, h2⟩ := mkLattice_ok hu hp tol render
  refine ⟨L, h1, fun x y => ?_⟩
  obtain ⟨δ, hδ, ⟨c, hc1, hc2, hc⟩, hmin⟩ := distance_ok h2 x y
  obtain ⟨δ', hδ', ⟨c', hc1', hc2', hc'⟩, hmin'⟩ := distance_ok h2 y x
  have hnear : ∀ c : Fin N.length → ℤ, Near c → Near (-c) := fun c h l => by have := h l; rw [Pi.neg_apply]; omega
  have hper : ∀ c : Fin N.length → ℤ, Period periodic c → Period periodic (-c) := fun c h l hl => by rw [Pi.neg_apply, h l hl, neg_zero]
  have e : δ = δ' := by
    apply le_antisymm
    · rw [hc', separation_shift_comm, ← shift_neg]
      exact hmin _ (hnear _ hc1') (hper _ hc2')
    · rw [hc, separation_shift_comm, ← shift_neg]
      exact hmin' _ (hnear _ hc1) (hper _ hc2)
  have hle : δ ≤ separation x y := by
    have := hmin 0 (fun _ => Or.inr (Or.inl rfl)) (fun _ _ => rfl)
    rwa [shift_zero, add_zero] at this
  have h0 : 0 ≤ δ := by rw [hc]; exact Real.sqrt_nonneg _
  refine ⟨δ, hδ, e ▸ hδ', h0, hle, ?_⟩
  rintro rfl
  refine le_antisymm (hle.trans (le_of_eq ?_)) h0
  rw [separation]; simp

/-- **C54** (indices): the index of an orbital stands for its position. -/
theorem C54_index (L : Lattice ℝ ω ν) (i j : ℕ) {x y : Orbital ℝ ω} (hi : L.orbitals[i]? = some x) (hj : L.orbitals[j]? = some y) :
    L.distance euclid (.orbital i) (.orbital j) = L.distance euclid (.at x.1) (.at y.1) ∧
    L.distance euclid (.orbital i) (.at y.1) = L.distance euclid (.at x.1) (.at y.1) ∧
    L.distance euclid (.at x.1) (.orbital j) = L.distance euclid (.at x.1) (.at y.1) := by
  have h : ∀ (k : ℕ) (z : Orbital ℝ ω), L.orbitals[k]? = some z → L.orbitalPosition k = .ok z.1 := by
    intro k z hz
    rw [Lattice.orbitalPosition, if_neg (by omega), Int.toNat_natCast, pyGet, hz]
    rfl
  simp only [Lattice.distance, Lattice.resolve, h i x hi, h j y hj]
  exact ⟨trivial, trivial, trivial⟩

/-- **C54** (negative indices): an index from `-len` to `-1` counts from the end, in `position` and in `distance`; all other indices that are not indices of orbitals raise
IndexError. -/
theorem C54_negative (L : Lattice ℝ ω ν) (i : ℤ) (p : PosArg ℝ) :
    (-(L.len : ℤ) ≤ i → i < 0 → L.position i = L.position (i + L.len) ∧ L.distance euclid (.orbital i) p = L.distance euclid (.orbital (i + L.len)) p ∧
      L.distance euclid p (.orbital i) = L.distance euclid p (.orbital (i + L.len))) ∧
    (0 ≤ i → i < L.len → ∃ x, L.orbitals[i.toNat]? = some x ∧ L.position i = .ok x.1) ∧
    (i < -(L.len : ℤ) ∨ L.len ≤ i → L.position i = .error .indexError ∧ L.distance euclid (.orbital i) p = .error .indexError) := by
  refine ⟨fun h1 h2 => ?_, fun h1 h2 => ?_, fun h => ?_⟩
  · have : L.orbitalPosition i = L.orbitalPosition (i + L.len) := by
      rw [Lattice.len] at h1
      rw [Lattice.orbitalPosition, Lattice.orbitalPosition, Lattice.len, if_pos h2, if_neg (by omega), if_neg (by omega)]
    simp only [Lattice.position, Lattice.distance, Lattice.resolve, this, and_self]
  · have h3 : i.toNat < L.orbitals.length := by rw [Lattice.len] at h2; omega
    refine ⟨_, List.getElem?_eq_getElem h3, ?_⟩
    rw [Lattice.position, Lattice.orbitalPosition, if_neg (by omega), pyGet, List.getElem?_eq_getElem h3]
    rfl
  · have : L.orbitalPosition i = .error .indexError := by
      rw [Lattice.len] at h
      rw [Lattice.orbitalPosition]
      by_cases h0 : i < 0
      · rw [if_pos h0, if_pos (by omega)]; rfl
      · rw [if_neg h0, pyGet, List.getElem?_eq_none (by omega)]; rfl
    simp only [Lattice.position, Lattice.distance, Lattice.resolve, this]
    exact ⟨trivial, rfl⟩

/-! #### orthogonal lattices -/

/-- **C54** (orthogonal lattices): if the lattice vectors are orthogonal and the two positions lie at most one size of the lattice apart in
every direction, the distance is the smallest Euclidean distance over all periodic images. -/
theorem C54_orthogonal (hu : u.WF N.length) (hp : ∀ p, periodic = some p → p.length = N.length) (ho : u.Orthogonal N.length) (tol : ℝ)
    (render : List ℝ → ν) : ∃ L, mkLattice u N periodic tol render = .ok L ∧ ∀ (x y t : Fin N.length → ℝ),
      x - y = ∑ l, t l • u.vec N.length l → (∀ l, |t l| ≤ sizes N l) → ∃ δ,
      L.distance euclid (.at (List.ofFn x)) (.at (List.ofFn y)) = .ok δ ∧
      (∃ c, Period periodic c ∧ δ = separation (x + u.shift N.length (sizes N) c) y) ∧
      ∀ c, Period periodic c → δ ≤ separation (x + u.shift N.length (sizes N) c) y := by
  obtain ⟨L, h1, h2⟩ := mkLattice_ok hu hp tol render
  exact ⟨L, h1, fun x y t => orthogonal_min h2 ho⟩

/-- **C54** (triangle inequality): under the same conditions distances satisfy the triangle inequality. -/
theorem C54_triangle (hu : u.WF N.length) (hp : ∀ p, periodic = some p → p.length = N.length) (ho : u.Orthogonal N.length) (tol : ℝ)
    (render : List ℝ → ν) : ∃ L, mkLattice u N periodic tol render = .ok L ∧ ∀ (x y z t : Fin N.length → ℝ),
      x - z = ∑ l, t l • u.vec N.length l → (∀ l, |t l| ≤ sizes N l) → ∃ δxz δxy δyz,
      L.distance euclid (.at (List.ofFn x)) (.at (List.ofFn z)) = .ok δxz ∧ L.distance euclid (.at (List.ofFn x)) (.at (List.ofFn y)) = .ok δxy ∧
      L.distance euclid (.at (List.ofFn y)) (.at (List.ofFn z)) = .ok δyz ∧ δxz ≤ δxy + δyz := by
  obtain ⟨L, h1, h2⟩ := mkLattice_ok hu hp tol render
  refine ⟨L, h1, fun x y z t hxz ht => ?_⟩
  obtain ⟨a, ha, -, hmin⟩ := orthogonal_min h2 ho hxz ht
  obtain ⟨b, hb, ⟨c1, -, hc1, rfl⟩, -⟩ := distance_ok h2 x y
  obtain ⟨e, he, ⟨c2, -, hc2, rfl⟩, -⟩ := distance_ok h2 y z
  refine ⟨a, _, _, ha, hb, he, ?_⟩
  have := hmin (c1 + c2) (fun l hl => by rw [Pi.add_apply, hc1 l hl, hc2 l hl, add_zero])
  refine this.trans ?_
  rw [shift_add]
  have e1 : separation (x + u.shift N.length (sizes N) c1) y =
      separation (x + (u.shift N.length (sizes N) c1 + u.shift N.length (sizes N) c2)) (y + u.shift N.length (sizes N) c2) := by
    rw [separation, separation]
    congr 1
    refine Finset.sum_congr rfl fun i _ => ?_
    simp only [Pi.add_apply]; ring
  rw [e1, separation_eq, separation_eq, separation_eq]
  exact dist_triangle _ _ _
end

/-- **C54** (cubic lattices): the distance of two orbitals of `cubic(d, N, periodic, names)` is the smallest Euclidean distance over all periodic
images, and so these distances satisfy the triangle inequality. -/
theorem C54_cubic (names : List ω) (dflt : ω) (N : List ℕ) (per : List Bool) (hp : per.length = N.length) (tol : ℝ) (render : List ℝ → ν) :
    ∃ L, cubic N.length N (some per) (some names) dflt tol render = .ok L ∧ ∀ m n, InCells (sizes N) m → InCells (sizes N) n → ∃ δ,
      L.distance euclid (.at (List.ofFn fun l => (m l : ℝ))) (.at (List.ofFn fun l => (n l : ℝ))) = .ok δ ∧
      (∃ c, Period (some per) c ∧ δ = separation (fun l => (m l + c l * sizes N l : ℝ)) (fun l => n l)) ∧
      ∀ c, Period (some per) c → δ ≤ separation (fun l => (m l + c l * sizes N l : ℝ)) (fun l => n l) := by
  obtain ⟨L, h1, h2⟩ := mkLattice_ok (cubicCell_wf N.length names) (periodic := some per) (fun p h => by cases h; exact hp) tol render
  refine ⟨L, h1, fun m n hm hn => ?_⟩
  have := orthogonal_min h2 (cubicCell_orthogonal _ _) (x := fun l => (m l : ℝ)) (y := fun l => (n l : ℝ)) (t := fun l => (m l : ℝ) - n l)
    (by rw [cubicCell_sum N.length names (fun l => (m l : ℝ) - n l)]; rfl) (fun l => by
      have h3 := hm l
      have h4 := hn l
      rw [abs_le]
      constructor
      · have : -(sizes N l : ℤ) ≤ m l - n l := by omega
        exact_mod_cast this
      · have : m l - n l ≤ (sizes N l : ℤ) := by omega
        exact_mod_cast this)
  simp only [cubicCell_shift] at this
  exact this

/-- non-vacuity: on a periodic chain of five sites the last site is at distance 1 from the first one. -/
example (tol : ℝ) (render : List ℝ → ν) (names : List ω) (dflt : ω) :
    ∃ L, cubic 1 [5] (some [true]) (some names) dflt tol render = .ok L ∧ L.distance euclid (.at [0]) (.at [4]) = .ok 1 := by
  obtain ⟨L, h1, h2⟩ := C54_cubic names dflt [5] [true] rfl tol render
  refine ⟨L, h1, ?_⟩
  obtain ⟨δ, hδ, ⟨c, -, hc⟩, hmin⟩ := h2 (fun _ => 0) (fun _ => 4) (by intro l; fin_cases l; decide) (by intro l; fin_cases l; decide)
  have hs : ∀ c : Fin 1 → ℤ, separation (d := 1) (fun l => ((0 : ℤ) + c l * sizes [5] l : ℝ)) (fun _ => ((4 : ℤ) : ℝ)) = |(5 * c 0 - 4 : ℝ)| := by
    intro c
    rw [separation, Fin.sum_univ_one, Real.sqrt_sq_eq_abs]
    congr 1
    show ((0 : ℤ) + c 0 * ((5 : ℕ) : ℝ) : ℝ) - ((4 : ℤ) : ℝ) = _
    push_cast; ring
  have hδ1 : δ = 1 := by
    apply le_antisymm
    · have := hmin (fun _ => 1) (by intro l hl; fin_cases l; exact absurd hl (by decide))
      refine this.trans (le_of_eq ((hs fun _ => 1).trans ?_))
      norm_num
    · rw [hc]
      refine le_trans ?_ (le_of_eq (hs c).symm)
      have h : 1 ≤ |5 * c 0 - 4| := Int.one_le_abs (by omega)
      exact_mod_cast h
  rw [hδ1] at hδ
  have e0 : (List.ofFn fun _ : Fin 1 => (((0 : ℤ)) : ℝ)) = [0] := by simp
  have e4 : (List.ofFn fun _ : Fin 1 => (((4 : ℤ)) : ℝ)) = [4] := by simp
  rw [← e0, ← e4]
  exact hδ

/-- **C54 refuted** (skewed lattices): "the minimum distance between two positions in the lattice" is false in general.  With lattice vectors
`(1,0)` and `(1,1)`, one cell in the first and four in the second direction, both periodic, the sites `(0,0)` and `(2,2)` get the distance
`√5`, but the image of the first one by two periods in the first direction is at distance 2. -/
theorem C54_refuted (tol : ℝ) (render : List ℝ → ν) (names : List ω) :
    ∃ L, mkLattice ⟨[[1, 0], [1, 1]], [[0, 0]], [names]⟩ [1, 4] (some [true, true]) tol render = .ok L ∧ ∃ δ,
      L.distance euclid (.at [0, 0]) (.at [2, 2]) = .ok δ ∧ δ = Real.sqrt 5 ∧
      ∃ c : Fin 2 → ℤ, Period (some [true, true]) c ∧
        separation (![0, 0] + (⟨[[1, 0], [1, 1]], [[0, 0]], [names]⟩ : UnitCell ℝ ω).shift 2 (sizes [1, 4]) c) ![2, 2] < δ := by
  have hu : (⟨[[1, 0], [1, 1]], [[0, 0]], [names]⟩ : UnitCell ℝ ω).WF 2 := by
    refine ⟨rfl, ?_, rfl, ?_⟩
    · intro v hv
      simp only [List.mem_cons, List.not_mem_nil, or_false] at hv
      rcases hv with rfl | rfl <;> rfl
    · intro v hv
      simp only [List.mem_cons, List.not_mem_nil, or_false] at hv
      rw [hv]; rfl
  set u : UnitCell ℝ ω := ⟨[[1, 0], [1, 1]], [[0, 0]], [names]⟩ with hu'
  have hsh : ∀ c : Fin 2 → ℤ, u.shift 2 (sizes [1, 4]) c = ![(c 0 : ℝ) + 4 * c 1, 4 * c 1] := by
    intro c
    rw [UnitCell.shift, Fin.sum_univ_two]
    funext i
    fin_cases i
    · show (c 0 : ℝ) * ((1 : ℕ) : ℝ) * 1 + (c 1 : ℝ) * ((4 : ℕ) : ℝ) * 1 = (c 0 : ℝ) + 4 * c 1
      push_cast; ring
    · show (c 0 : ℝ) * ((1 : ℕ) : ℝ) * 0 + (c 1 : ℝ) * ((4 : ℕ) : ℝ) * 1 = 4 * c 1
      push_cast; ring
  have hsep : ∀ c : Fin 2 → ℤ, separation (![0, 0] + u.shift 2 (sizes [1, 4]) c) ![2, 2] =
      Real.sqrt ((c 0 + 4 * c 1 - 2) ^ 2 + (4 * c 1 - 2) ^ 2) := by
    intro c
    rw [separation, hsh, Fin.sum_univ_two]
    congr 1
    simp only [Pi.add_apply, Matrix.cons_val_zero, Matrix.cons_val_one]
    ring
  obtain ⟨L, h1, h2⟩ := mkLattice_ok (N := [1, 4]) hu (periodic := some [true, true]) (fun p h => by cases h; rfl) tol render
  obtain ⟨δ, hδ, ⟨c, hc1, hc2, hc⟩, hmin⟩ := distance_ok h2 ![0, 0] ![2, 2]
  have h5 : δ = Real.sqrt 5 := by
    apply le_antisymm
    · have := hmin ![1, 0] (by intro l; fin_cases l <;> decide) (by intro l hl; fin_cases l <;> exact absurd hl (by decide))
      refine this.trans (le_of_eq ?_)
      refine (hsep ![1, 0]).trans ?_
      congr 1
      simp only [Matrix.cons_val_zero, Matrix.cons_val_one]
      norm_num
    · rw [hc]
      refine le_trans ?_ (le_of_eq (hsep c).symm)
      apply Real.sqrt_le_sqrt
      have h0 := hc1 0
      have h1 := hc1 1
      rcases h0 with h0 | h0 | h0 <;> rcases h1 with h1 | h1 | h1 <;> rw [h0, h1] <;> norm_num
  refine ⟨L, h1, δ, hδ, h5, ![2, 0], by intro l hl; fin_cases l <;> exact absurd hl (by decide), ?_⟩
  rw [hsep, h5]
  apply Real.sqrt_lt_sqrt (by positivity)
  simp only [Matrix.cons_val_zero, Matrix.cons_val_one]
  norm_num

end Qosy
