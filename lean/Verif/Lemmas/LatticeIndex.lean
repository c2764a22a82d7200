import Verif.Lemmas.Lattice

/-! # Lattices: looking up orbitals -/

namespace Qosy
open Finset
variable {F ω ν : Type} [Field F] [LinearOrder F] [IsStrictOrderedRing F]

theorem UnitCell.point_inj {u : UnitCell F ω} {d : ℕ} (h : u.Primitive d) {m n : Fin d → ℤ} {a b : ℕ} (ha : a < u.orbitals.length)
    (hb : b < u.orbitals.length) {o : ω} (hoa : o ∈ u.orbitals[a]) (hob : o ∈ u.orbitals[b]) (he : u.point d m a = u.point d n b) :
    a = b ∧ m = n := by
  have h0 : ∀ (k k' : Fin d → ℤ) (c : ℕ), u.point d (k - k') c = u.point d k c - ∑ l, (k' l : F) • u.vec d l := by
    intro k k' c
    simp only [UnitCell.point, Pi.sub_apply, Int.cast_sub, sub_smul, Finset.sum_sub_distrib]
    abel
  have hab : a = b := by
    apply h.distinct (m - n) a b ha hb o hoa hob
    rw [h0, he, ← h0, sub_self]
  subst hab
  refine ⟨rfl, ?_⟩
  have h1 : ∑ l, ((m l : F) - (n l : F)) • u.vec d l = 0 := by
    simp only [sub_smul, Finset.sum_sub_distrib]
    simpa [UnitCell.point, sub_eq_zero] using he
  have h2 := Fintype.linearIndependent_iff.mp h.independent _ h1
  funext l
  have := h2 l
  rw [sub_eq_zero] at this
  exact_mod_cast this

/-- a cell as a list -/
def cellList {d : ℕ} (m : Fin d → ℤ) : List ℕ := List.ofFn fun l => (m l).toNat

theorem cellVec_cellList {d : ℕ} {m : Fin d → ℤ} (h : ∀ l, 0 ≤ m l) : cellVec d (cellList m) = m := by
  funext l
  simp only [cellVec, cellList]
  rw [List.getD_eq_getElem _ _ (by simp), List.getElem_ofFn]
  exact Int.toNat_of_nonneg (h l)

theorem cellList_cellVec {d : ℕ} {n : List ℕ} (h : n.length = d) : cellList (cellVec d n) = n := by
  subst h
  apply List.ext_getElem (by simp [cellList])
  intro i h1 h2
  simp [cellList, cellVec, List.getElem?_eq_getElem h2]

theorem cellList_mem {N : List ℕ} {m : Fin N.length → ℤ} (h : InCells (sizes N) m) : cellList m ∈ gridCells N := by
  rw [mem_gridCells]
  refine ⟨by simp [cellList], fun l hl => ?_⟩
  have := h ⟨l, hl⟩
  simp only [cellList]
  rw [List.getD_eq_getElem _ _ (by simpa using hl), List.getElem_ofFn]
  have h2 : m ⟨l, hl⟩ < (N.getD l 0 : ℕ) := this.2
  omega

theorem inCells_cellVec {N : List ℕ} {n : List ℕ} (h : n ∈ gridCells N) : InCells (sizes N) (cellVec N.length n) := by
  intro l
  have := ((mem_gridCells N n).mp h).2 l l.2
  simp only [cellVec, sizes]
  omega

section
variable [DecidableEq ω] [DecidableEq ν]
variable {L : Lattice F ω ν} {u : UnitCell F ω} {N : List ℕ} {periodic : Option (List Bool)} {tol : F} {render : List F → ν}
  {P : (Fin N.length → ℤ) → Prop}

theorem UnitCell.Resolved.clean {d : ℕ} {P : (Fin d → ℤ) → Prop} (h : u.Resolved d tol render P) {m : Fin d → ℤ} (hm : P m) {a : ℕ}
    (ha : a < u.orbitals.length) : cleanPosition tol (List.ofFn (u.point d m a)) = List.ofFn (u.point d m a) := by
  apply cleanPosition_id
  intro x hx
  rw [List.mem_ofFn] at hx
  obtain ⟨i, rfl⟩ := hx
  exact h.coordinates m hm a ha i

theorem Lattice.Built.orbitals_resolved (h : L.Built u N periodic tol render) (hu : u.WF N.length) (hres : u.Resolved N.length tol render P)
    (hP : ∀ m, InCells (sizes N) m → P m) :
    L.orbitals = (orbitalTriples u N).map fun t => (List.ofFn (u.point N.length (cellVec N.length t.1) t.2.1), t.2.2, t.1) := by
  rw [h.orbitals_eq, latticeOrbitals_eq hu]
  apply List.map_congr_left
  rintro ⟨c, a, o⟩ ht
  obtain ⟨hc, ha, -⟩ := (mem_orbitalTriples u N c a o).mp ht
  simp only
  rw [hres.clean (hP _ (inCells_cellVec hc)) ha]

/-- an entry of the list of orbitals -/
theorem Lattice.Built.orbital (h : L.Built u N periodic tol render) (hu : u.WF N.length) (hres : u.Resolved N.length tol render P)
    (hP : ∀ m, InCells (sizes N) m → P m) {x : Orbital F ω} (hx : x ∈ L.orbitals) :
    ∃ (m : Fin N.length → ℤ) (a : ℕ) (ha : a < u.orbitals.length), InCells (sizes N) m ∧ x.2.1 ∈ u.orbitals[a] ∧
      x = (List.ofFn (u.point N.length m a), x.2.1, cellList m) := by
  rw [h.orbitals_resolved hu hres hP, List.mem_map] at hx
  obtain ⟨⟨c, a, o⟩, ht, rfl⟩ := hx
  obtain ⟨hc, ha, ho⟩ := (mem_orbitalTriples u N c a o).mp ht
  refine ⟨cellVec N.length c, a, ha, inCells_cellVec hc, ?_, ?_⟩
  · rw [List.getD_eq_getElem _ _ ha] at ho; exact ho
  · rw [cellList_cellVec ((mem_gridCells N c).mp hc).1]

theorem Lattice.Built.orbital_mem (h : L.Built u N periodic tol render) (hu : u.WF N.length) (hres : u.Resolved N.length tol render P)
    (hP : ∀ m, InCells (sizes N) m → P m) {m : Fin N.length → ℤ} (hm : InCells (sizes N) m) {a : ℕ} (ha : a < u.orbitals.length) {o : ω}
    (ho : o ∈ u.orbitals[a]) : (List.ofFn (u.point N.length m a), o, cellList m) ∈ L.orbitals := by
  rw [h.orbitals_resolved hu hres hP, List.mem_map]
  refine ⟨(cellList m, a, o), ?_, ?_⟩
  · rw [mem_orbitalTriples]
    exact ⟨cellList_mem hm, ha, by rw [List.getD_eq_getElem _ _ ha]; exact ho⟩
  · rw [cellVec_cellList (fun l => (hm l).1)]

theorem Lattice.Built.orbitals_nodup (h : L.Built u N periodic tol render) (hu : u.WF N.length) (hprim : u.Primitive N.length)
    (hres : u.Resolved N.length tol render P) (hP : ∀ m, InCells (sizes N) m → P m) : L.orbitals.Nodup := by
  rw [h.orbitals_resolved hu hres hP]
  refine (List.nodup_map_iff_inj_on (orbitalTriples_nodup N hprim.names)).mpr ?_
  rintro ⟨c, a, o⟩ ht ⟨c', a', o'⟩ ht' he
  obtain ⟨hc, ha, ho⟩ := (mem_orbitalTriples u N c a o).mp ht
  obtain ⟨hc', ha', ho'⟩ := (mem_orbitalTriples u N c' a' o').mp ht'
  simp only [Prod.mk.injEq] at he
  obtain ⟨h1, rfl, rfl⟩ := he
  rw [List.getD_eq_getElem _ _ ha] at ho
  rw [List.getD_eq_getElem _ _ ha'] at ho'
  have := (UnitCell.point_inj hprim ha ha' ho ho' (List.ofFn_injective h1)).1
  rw [this]

/-- looking up the position of an atom of the infinite crystal -/
theorem Lattice.Built.lookup (h : L.Built u N periodic tol render) (hu : u.WF N.length) (hprim : u.Primitive N.length)
    (hres : u.Resolved N.length tol render P) (hP : ∀ m, InCells (sizes N) m → P m) {m : Fin N.length → ℤ} (hm : P m) {a : ℕ}
    (ha : a < u.orbitals.length) {o : ω} (ho : o ∈ u.orbitals[a]) :
    (∀ i, L.indices.get? (L.render (cleanPosition L.tol (List.ofFn (u.point N.length m a))), o) = some i → InCells (sizes N) m ∧
      L.orbitals[i]? = some (List.ofFn (u.point N.length m a), o, cellList m)) ∧
    (L.indices.get? (L.render (cleanPosition L.tol (List.ofFn (u.point N.length m a))), o) = none → ¬ InCells (sizes N) m) := by
  rw [h.tol_eq, h.render_eq, hres.clean hm ha]
  refine ⟨fun i hi => ?_, fun hn hin => ?_⟩
  · obtain ⟨hlt, hk⟩ := (h.dict _).2 i hi
    obtain ⟨n, b, hb, hn, hob, hx⟩ := h.orbital hu hres hP (List.getElem_mem hlt)
    rw [orbitalKey] at hk
    obtain ⟨hk1, hk2⟩ := Prod.mk.inj hk
    rw [hx] at hk1
    rw [hk2] at hob
    have := hres.render _ _ (hP n hn) hm b hb a ha hk1
    obtain ⟨rfl, rfl⟩ := UnitCell.point_inj hprim hb ha hob ho this
    refine ⟨hn, ?_⟩
    rw [List.getElem?_eq_getElem hlt, hx, hk2]
  · exact (h.dict _).1 hn _ (h.orbital_mem hu hres hP hin ha ho) rfl

theorem vadd_ofFn {d : ℕ} (x : Fin d → F) {b : List F} (hb : b.length = d) : vadd (List.ofFn x) b = .ok (List.ofFn (x + vec d b)) := by
  obtain ⟨r, h1, h2, h3⟩ := vadd_ok (d := d) (p := List.ofFn x) (by simp) hb
  rw [h1, vec_ofFn] at *
  rw [← h3, ofFn_vec h2]

/-- the search loop -/
theorem indexLoop_spec {position : List F} (hp : position.length = N.length) (o : ω) (bs : List (List F)) (hb : ∀ b ∈ bs, b.length = N.length) :
    ∃ r, L.indexLoop position o bs = .ok r ∧
      ((r = -1 ∧ ∀ b ∈ bs, L.indices.get? (L.render (cleanPosition L.tol (List.ofFn (vec N.length position + vec N.length b))), o) = none) ∨
        ∃ i : ℕ, r = i ∧ ∃ b ∈ bs, L.indices.get? (L.render (cleanPosition L.tol (List.ofFn (vec N.length position + vec N.length b))), o) = some i) := by
  induction bs with
  | nil => exact ⟨-1, rfl, Or.inl ⟨rfl, by simp⟩⟩
  | cons b bs ih =>
    have h1 := vadd_ofFn (vec N.length position) (hb b (by simp))
    rw [ofFn_vec hp] at h1
    simp only [Lattice.indexLoop, h1, bind, Except.bind]
    cases hg : L.indices.get? (L.render (cleanPosition L.tol (List.ofFn (vec N.length position + vec N.length b))), o) with
    | some i => exact ⟨i, rfl, Or.inr ⟨i, rfl, b, by simp, hg⟩⟩
    | none =>
      obtain ⟨r, h2, h3⟩ := ih (fun b hb' => hb b (List.mem_cons_of_mem _ hb'))
      refine ⟨r, h2, ?_⟩
      rcases h3 with ⟨rfl, h4⟩ | ⟨i, rfl, b', hb', h4⟩
      · refine Or.inl ⟨rfl, fun b' hb' => ?_⟩
        rcases List.mem_cons.mp hb' with rfl | hb'
        · exact hg
        · exact h4 _ hb'
      · exact Or.inr ⟨i, rfl, b', List.mem_cons_of_mem _ hb', h4⟩

theorem UnitCell.point_add_shift (u : UnitCell F ω) (d : ℕ) (M : Fin d → ℕ) (m c : Fin d → ℤ) (a : ℕ) :
    u.point d m a + u.shift d M c = u.point d (fun l => m l + c l * M l) a := by
  simp only [UnitCell.point, UnitCell.shift, add_assoc, ← Finset.sum_add_distrib, ← add_smul]
  congr 1
  refine Finset.sum_congr rfl fun l _ => ?_
  push_cast; rfl

theorem inCells_unique {d : ℕ} {M : Fin d → ℕ} {m c : Fin d → ℤ} (hm : InCells M m) (hc : InCells M (fun l => m l + c l * M l)) : c = 0 := by
  funext l
  obtain ⟨h1, h2⟩ := hm l
  obtain ⟨h3, h4⟩ := hc l
  show c l = 0
  by_contra h
  rcases lt_or_gt_of_ne h with h | h
  · have : c l * (M l : ℤ) ≤ -1 * M l := mul_le_mul_of_nonneg_right (by omega) (by omega)
    simp only at h3
    omega
  · have : 1 * (M l : ℤ) ≤ c l * M l := mul_le_mul_of_nonneg_right (by omega) (by omega)
    simp only at h4
    omega

/-- searching for a translate of an orbital by full periods -/
theorem Lattice.Built.index_shift (h : L.Built u N periodic tol render) (hu : u.WF N.length) (hprim : u.Primitive N.length)
    (hres : u.Resolved N.length tol render P) {c : Fin N.length → ℤ} (hc : Period periodic c)
    (hP : ∀ m, InCells (sizes N) m → P m)
    (hP' : ∀ m c', InCells (sizes N) m → Near c' → Period periodic c' → P (fun l => m l + (c l + c' l) * sizes N l)) {i : ℕ} {x : Orbital F ω}
    (hi : L.orbitals[i]? = some x) :
    L.index (List.ofFn (vec N.length x.1 + u.shift N.length (sizes N) c)) x.2.1 = .ok (if Near c then (i : ℤ) else -1) := by
  obtain ⟨hlt, hix⟩ := List.getElem?_eq_some_iff.mp hi
  have hmem : x ∈ L.orbitals := by rw [← hix]; exact List.getElem_mem _
  obtain ⟨m, a, ha, hm, ho, hx⟩ := h.orbital hu hres hP hmem
  have hnd := h.orbitals_nodup hu hprim hres hP
  have hx1 : x.1 = List.ofFn (u.point N.length m a) := by rw [hx]
  have hpos : ∀ c' : Fin N.length → ℤ, vec N.length (List.ofFn (vec N.length x.1 + u.shift N.length (sizes N) c)) + u.shift N.length (sizes N) c' =
      u.point N.length (fun l => m l + (c l + c' l) * sizes N l) a := by
    intro c'
    rw [vec_ofFn, hx1, vec_ofFn, UnitCell.point_add_shift, UnitCell.point_add_shift]
    congr 1
    funext l
    ring
  -- what every lookup returns
  have hlook : ∀ b ∈ L.boundary, ∃ c', Near c' ∧ Period periodic c' ∧ vec N.length b = u.shift N.length (sizes N) c' ∧
      (∀ j, L.indices.get? (L.render (cleanPosition L.tol (List.ofFn (vec N.length (List.ofFn (vec N.length x.1 +
        u.shift N.length (sizes N) c)) + vec N.length b))), x.2.1) = some j → j = i ∧ c' = -c) ∧
      (L.indices.get? (L.render (cleanPosition L.tol (List.ofFn (vec N.length (List.ofFn (vec N.length x.1 +
        u.shift N.length (sizes N) c)) + vec N.length b))), x.2.1) = none → c' ≠ -c) := by
    intro b hb
    obtain ⟨c', hc1, hc2, hbv⟩ := (h.boundary (vec N.length b)).mp ⟨b, hb, rfl⟩
    refine ⟨c', hc1, hc2, hbv, ?_⟩
    rw [hbv, hpos c']
    obtain ⟨hl1, hl2⟩ := h.lookup hu hprim hres hP (hP' m c' hm hc1 hc2) ha ho
    refine ⟨fun j hj => ?_, fun hn he => ?_⟩
    · obtain ⟨hin, hoj⟩ := hl1 j hj
      have hz := inCells_unique (c := fun l => c l + c' l) hm hin
      have hcc : c' = -c := by
        funext l
        have := congrFun hz l
        simp only [Pi.zero_apply] at this
        rw [Pi.neg_apply]; omega
      refine ⟨?_, hcc⟩
      have hmm : (fun l => m l + (c l + c' l) * sizes N l) = m := by
        funext l
        have := congrFun hz l
        simp only [Pi.zero_apply] at this
        rw [this]; ring
      rw [hmm] at hoj
      rw [← hx] at hoj
      obtain ⟨hlt', hj'⟩ := List.getElem?_eq_some_iff.mp hoj
      exact (hnd.getElem_inj_iff).mp (hj'.trans hix.symm)
    · apply hl2 hn
      have hmm : (fun l => m l + (c l + c' l) * sizes N l) = m := by
        funext l
        rw [he, Pi.neg_apply]; ring
      rw [hmm]; exact hm
  obtain ⟨r, hr, hspec⟩ := indexLoop_spec (L := L) (N := N) (position := List.ofFn (vec N.length x.1 + u.shift N.length (sizes N) c)) (by simp) x.2.1
    L.boundary h.len
  rw [Lattice.index, hr]
  congr 1
  rcases hspec with ⟨rfl, hnone⟩ | ⟨j, rfl, b, hb, hsome⟩
  · rw [if_neg]
    intro hnear
    have hneg : Near (-c) := fun l => by have := hnear l; rw [Pi.neg_apply]; omega
    have hper : Period periodic (-c) := fun l hl => by rw [Pi.neg_apply, hc l hl, neg_zero]
    obtain ⟨b, hb, hbv⟩ := (h.boundary (u.shift N.length (sizes N) (-c))).mpr ⟨-c, hneg, hper, rfl⟩
    have hn := hnone b hb
    rw [hbv, hpos (-c)] at hn
    apply (h.lookup hu hprim hres hP (hP' m (-c) hm hneg hper) ha ho).2 hn
    have hmm : (fun l => m l + (c l + (-c) l) * sizes N l) = m := by
      funext l
      rw [Pi.neg_apply]; ring
    rw [hmm]; exact hm
  · obtain ⟨c', hc1, -, -, h4, -⟩ := hlook b hb
    obtain ⟨rfl, rfl⟩ := h4 j hsome
    rw [if_pos]
    intro l
    have := hc1 l
    rw [Pi.neg_apply] at this
    omega
end

end Qosy
