import Verif.Spec.Lattice
import Mathlib.Data.List.GetD
import Mathlib.LinearAlgebra.LinearIndependent.Lemmas
import Mathlib.Tactic.Linarith
import Mathlib.Tactic.LinearCombination
import Mathlib.Tactic.Module

/-! # Lattices: the loops of the constructor -/

namespace Qosy
open Finset
variable {F ω ν : Type} [Field F] [LinearOrder F]

/-! ### dictionaries -/

theorem Assoc.get?_set {κ V : Type} [DecidableEq κ] (d : Assoc κ V) (k : κ) (v : V) (k' : κ) :
    (d.set k v).get? k' = if k = k' then some v else d.get? k' := by
  induction d with
  | nil => simp only [Assoc.set, Assoc.get?]
  | cons p d ih =>
    obtain ⟨k0, v0⟩ := p
    by_cases h0 : k0 = k
    · subst h0
      simp only [Assoc.set, Assoc.get?, if_true]
      split <;> rfl
    · simp only [Assoc.set, Assoc.get?, if_neg h0]
      rw [ih]
      by_cases h1 : k0 = k'
      · subst h1
        rw [if_pos rfl, if_pos rfl, if_neg (fun h => h0 h.symm)]
      · rw [if_neg h1, if_neg h1]

/-! ### vectors -/

theorem vec_ofFn {d : ℕ} (f : Fin d → F) : vec d (List.ofFn f) = f := by
  funext i
  simp [vec, List.getD_eq_getElem _ _ (show (i : ℕ) < (List.ofFn f).length by simp)]

theorem ofFn_vec {d : ℕ} {p : List F} (h : p.length = d) : List.ofFn (vec d p) = p := by
  subst h
  apply List.ext_getElem (by simp)
  intro i h1 h2
  simp [vec, List.getElem?_eq_getElem h2]

theorem vec_replicate (d : ℕ) : vec d (List.replicate d (0 : F)) = 0 := by
  funext i
  simp [vec, List.getD_eq_getElem _ _ (show (i : ℕ) < (List.replicate d (0 : F)).length by simp)]

theorem vadd_ok {d : ℕ} {p q : List F} (hp : p.length = d) (hq : q.length = d) :
    ∃ r, vadd p q = .ok r ∧ r.length = d ∧ vec d r = vec d p + vec d q := by
  refine ⟨_, if_pos (hp.trans hq.symm), by simp [hp, hq], ?_⟩
  funext i
  have h1 : (i : ℕ) < p.length := hp ▸ i.2
  have h2 : (i : ℕ) < q.length := hq ▸ i.2
  simp only [vec, Pi.add_apply]
  rw [List.getD_eq_getElem _ _ (by simp; omega), List.getD_eq_getElem _ _ h1, List.getD_eq_getElem _ _ h2, List.getElem_zipWith]

theorem vscale_length (x : F) (p : List F) : (vscale x p).length = p.length := by simp [vscale]

theorem vec_vscale {d : ℕ} (x : F) {p : List F} (hp : p.length = d) : vec d (vscale x p) = x • vec d p := by
  funext i
  have h1 : (i : ℕ) < p.length := hp ▸ i.2
  simp only [vec, Pi.smul_apply, smul_eq_mul, vscale]
  rw [List.getD_eq_getElem _ _ (by simp; omega), List.getD_eq_getElem _ _ h1, List.getElem_map]

theorem cleanPosition_id {tol : F} {p : List F} (h : ∀ x ∈ p, x = 0 ∨ tol < |x|) : cleanPosition tol p = p := by
  rw [cleanPosition]
  conv_rhs => rw [← List.map_id p]
  apply List.map_congr_left
  intro x hx
  rcases h x hx with h | h
  · simp [h]
  · rw [if_pos h]; rfl

theorem cleanPosition_length (tol : F) (p : List F) : (cleanPosition tol p).length = p.length := by simp [cleanPosition]

/-! ### the loops over lattice vectors -/

theorem addVectors_ok {d : ℕ} {vectors : List (List F)} (hd : vectors.length = d) (hv : ∀ v ∈ vectors, v.length = d) (cs : List ℕ) :
    ∀ (k : ℕ) (pos : List F), k + cs.length ≤ d → pos.length = d → ∃ r, addVectors vectors cs k pos = .ok r ∧ r.length = d ∧
      vec d r = vec d pos + ∑ j ∈ range cs.length, ((cs.getD j 0 : ℕ) : F) • vec d (vectors.getD (k + j) []) := by
  induction cs with
  | nil => intro k pos _ hp; exact ⟨pos, rfl, hp, by simp⟩
  | cons c cs ih =>
    intro k pos hk hp
    simp only [List.length_cons] at hk
    have hkv : k < vectors.length := by omega
    have hl := hv _ (List.getElem_mem hkv)
    obtain ⟨q, hq, hql, hqv⟩ := vadd_ok hp ((vscale_length (c : F) vectors[k]).trans hl)
    obtain ⟨r, hr, hrl, hrv⟩ := ih (k + 1) q (by omega) hql
    refine ⟨r, ?_, hrl, ?_⟩
    · simp only [addVectors, pyGet, List.getElem?_eq_getElem hkv, bind, Except.bind, hq]
      exact hr
    · rw [hrv, hqv, vec_vscale _ hl, List.length_cons, Finset.sum_range_succ', add_assoc]
      congr 1
      rw [add_comm]
      congr 1
      · refine Finset.sum_congr rfl fun j _ => ?_
        rw [List.getD_cons_succ, show k + (j + 1) = k + 1 + j by ring]
      · rw [List.getD_cons_zero, add_zero, List.getD_eq_getElem _ _ hkv]

/-- a list of numbers of cells as integers -/
def cellVec (d : ℕ) (n : List ℕ) : Fin d → ℤ := fun l => (n.getD l 0 : ℕ)

theorem addVectors_cell {d : ℕ} {u : UnitCell F ω} (hu : u.WF d) {cell : List ℕ} (hc : cell.length = d) :
    ∃ r, addVectors u.vectors cell 0 (List.replicate d 0) = .ok r ∧ r.length = d ∧ vec d r = ∑ l, (cellVec d cell l : F) • u.vec d l := by
  obtain ⟨r, h1, h2, h3⟩ := addVectors_ok hu.vectors hu.vector cell 0 (List.replicate d 0) (by omega) (by simp)
  refine ⟨r, h1, h2, ?_⟩
  rw [h3, vec_replicate, zero_add, hc, Finset.sum_range]
  refine Finset.sum_congr rfl fun l _ => ?_
  simp only [cellVec, UnitCell.vec, zero_add, Int.cast_natCast]

theorem mem_gridCells (N : List ℕ) (n : List ℕ) : n ∈ gridCells N ↔ n.length = N.length ∧ ∀ l < N.length, n.getD l 0 < N.getD l 0 := by
  induction N generalizing n with
  | nil => simp [gridCells]
  | cons M N ih =>
    simp only [gridCells, List.mem_flatMap, List.mem_range, List.mem_map]
    constructor
    · rintro ⟨i, hi, n', hn', rfl⟩
      rw [ih] at hn'
      refine ⟨by simp [hn'.1], fun l hl => ?_⟩
      cases l with
      | zero => simpa using hi
      | succ l => simpa using hn'.2 l (by simpa using hl)
    · rintro ⟨h1, h2⟩
      cases n with
      | nil => simp at h1
      | cons i n =>
        refine ⟨i, by simpa using h2 0 (by simp), n, ?_, rfl⟩
        rw [ih]
        exact ⟨by simpa using h1, fun l hl => by simpa using h2 (l + 1) (by simpa using hl)⟩

theorem gridCells_nodup (N : List ℕ) : (gridCells N).Nodup := by
  induction N with
  | nil => simp [gridCells]
  | cons M N ih =>
    rw [gridCells, List.nodup_flatMap]
    refine ⟨fun i _ => ih.map (fun a b h => by simpa using h), ?_⟩
    refine List.Pairwise.imp ?_ (List.nodup_range (n := M))
    intro a b hab x hx hx'
    simp only [List.mem_map] at hx hx'
    obtain ⟨y, -, rfl⟩ := hx
    obtain ⟨z, -, hz⟩ := hx'
    exact hab (by simpa using (List.cons.inj hz).1.symm)

theorem gridCells_length (N : List ℕ) : (gridCells N).length = N.prod := by
  induction N with
  | nil => rfl
  | cons M N ih => simp [gridCells, List.length_flatMap, ih]

/-! ### the orbitals -/

/-- the dictionary key of an orbital -/
def orbitalKey (render : List F → ν) (o : Orbital F ω) : ν × ω := (render o.1, o.2.1)

/-- the dictionary maps every key to the last orbital with this key -/
def DictInv [DecidableEq ω] [DecidableEq ν] (render : List F → ν) (orbs : List (Orbital F ω)) (inds : Assoc (ν × ω) ℕ) : Prop :=
  ∀ k, (inds.get? k = none → ∀ o ∈ orbs, orbitalKey render o ≠ k) ∧
    ∀ i, inds.get? k = some i → ∃ h : i < orbs.length, orbitalKey render orbs[i] = k

section
variable [DecidableEq ω] [DecidableEq ν]

theorem DictInv.push {render : List F → ν} {orbs : List (Orbital F ω)} {inds : Assoc (ν × ω) ℕ} (h : DictInv render orbs inds) (o : Orbital F ω) :
    DictInv render (orbs ++ [o]) (inds.set (orbitalKey render o) orbs.length) := by
  intro k
  rw [Assoc.get?_set]
  split
  · rename_i hk
    refine ⟨fun h => by simp at h, fun i hi => ?_⟩
    cases hi
    exact ⟨by simp, by simp [hk]⟩
  · rename_i hk
    refine ⟨fun hn o' ho' => ?_, fun i hi => ?_⟩
    · rcases List.mem_append.mp ho' with h1 | h1
      · exact (h k).1 hn o' h1
      · rw [List.mem_singleton] at h1; subst h1; exact hk
    · obtain ⟨h1, h2⟩ := (h k).2 i hi
      exact ⟨by simp; omega, by rw [List.getElem_append_left h1]; exact h2⟩

theorem addOrbitals_ok {render : List F → ν} (pos : List F) (cell : List ℕ) (names : List ω) :
    ∀ {orbs : List (Orbital F ω)} {inds : Assoc (ν × ω) ℕ}, DictInv render orbs inds →
    ∃ inds', addOrbitals pos (render pos) cell names (orbs, inds) = (orbs ++ names.map fun o => (pos, o, cell), inds') ∧
      DictInv render (orbs ++ names.map fun o => (pos, o, cell)) inds' := by
  induction names with
  | nil => intro orbs inds h; exact ⟨inds, by simp [addOrbitals], by simpa using h⟩
  | cons o names ih =>
    intro orbs inds h
    obtain ⟨inds', h1, h2⟩ := ih (h.push (pos, o, cell))
    refine ⟨inds', ?_, by simpa using h2⟩
    rw [addOrbitals]
    simpa [orbitalKey] using h1

/-- the position of the atom at `atom` in a cell -/
def atomPosition (u : UnitCell F ω) (d : ℕ) (tol : F) (cell : List ℕ) (atom : List F) : List F :=
  cleanPosition tol (List.ofFn (vec d atom + ∑ l, (cellVec d cell l : F) • u.vec d l))

/-- the orbitals of a cell -/
def cellOrbitals (u : UnitCell F ω) (d : ℕ) (tol : F) (cell : List ℕ) (atoms : List (List F × List ω)) : List (Orbital F ω) :=
  atoms.flatMap fun a => a.2.map fun o => (atomPosition u d tol cell a.1, o, cell)

theorem addAtoms_ok {d : ℕ} {u : UnitCell F ω} (hu : u.WF d) (tol : F) (render : List F → ν) {cell : List ℕ} (hc : cell.length = d)
    (atoms : List (List F × List ω)) : (∀ a ∈ atoms, a.1.length = d) →
    ∀ {orbs : List (Orbital F ω)} {inds : Assoc (ν × ω) ℕ}, DictInv render orbs inds →
    ∃ inds', addAtoms d u.vectors tol render cell atoms (orbs, inds) = .ok (orbs ++ cellOrbitals u d tol cell atoms, inds') ∧
      DictInv render (orbs ++ cellOrbitals u d tol cell atoms) inds' := by
  induction atoms with
  | nil => intro _ orbs inds h; exact ⟨inds, by simp [addAtoms, cellOrbitals], by simpa [cellOrbitals] using h⟩
  | cons a atoms ih =>
    intro ha orbs inds h
    obtain ⟨atom, names⟩ := a
    obtain ⟨r, h1, h2, h3⟩ := addVectors_cell hu hc
    have hal : atom.length = d := ha (atom, names) (by simp)
    obtain ⟨q, hq, hql, hqv⟩ := vadd_ok h2 hal
    have hpos : cleanPosition tol q = atomPosition u d tol cell atom := by
      rw [atomPosition, ← h3, add_comm, ← hqv, ofFn_vec hql]
    obtain ⟨inds1, h4, h5⟩ := addOrbitals_ok (render := render) (atomPosition u d tol cell atom) cell names h
    obtain ⟨inds2, h6, h7⟩ := ih (fun a ha' => ha a (List.mem_cons_of_mem _ ha')) h5
    refine ⟨inds2, ?_, by simpa [cellOrbitals] using h7⟩
    simp only [addAtoms, h1, bind, Except.bind, hq, hpos, h4, h6]
    simp [cellOrbitals]

/-- all orbitals of a lattice -/
def latticeOrbitals (u : UnitCell F ω) (d : ℕ) (tol : F) (cells : List (List ℕ)) : List (Orbital F ω) :=
  cells.flatMap fun cell => cellOrbitals u d tol cell (u.positions.zip u.orbitals)

theorem addCells_ok {d : ℕ} {u : UnitCell F ω} (hu : u.WF d) (tol : F) (render : List F → ν) (cells : List (List ℕ)) :
    (∀ c ∈ cells, c.length = d) → ∀ {orbs : List (Orbital F ω)} {inds : Assoc (ν × ω) ℕ}, DictInv render orbs inds →
    ∃ inds', addCells d u tol render cells (orbs, inds) = .ok (orbs ++ latticeOrbitals u d tol cells, inds') ∧
      DictInv render (orbs ++ latticeOrbitals u d tol cells) inds' := by
  induction cells with
  | nil => intro _ orbs inds h; exact ⟨inds, by simp [addCells, latticeOrbitals], by simpa [latticeOrbitals] using h⟩
  | cons c cells ih =>
    intro hc orbs inds h
    obtain ⟨inds1, h1, h2⟩ := addAtoms_ok hu tol render (hc c (by simp)) (u.positions.zip u.orbitals)
      (fun a ha => hu.position _ (List.of_mem_zip ha).1) h
    obtain ⟨inds2, h3, h4⟩ := ih (fun a ha' => hc a (List.mem_cons_of_mem _ ha')) h2
    refine ⟨inds2, ?_, by simpa [latticeOrbitals] using h4⟩
    simp only [addCells, h1, bind, Except.bind, h3]
    simp [latticeOrbitals]
end

/-! ### the boundary vectors -/

theorem mapM_vadd {d : ℕ} {w : List F} (hw : w.length = d) (acc : List (List F)) (h : ∀ b ∈ acc, b.length = d) :
    ∃ r, acc.mapM (fun b => vadd w b) = .ok r ∧ (∀ b ∈ r, b.length = d) ∧ r.map (vec d) = acc.map (fun b => vec d w + vec d b) := by
  induction acc with
  | nil => exact ⟨[], rfl, by simp, rfl⟩
  | cons b acc ih =>
    obtain ⟨r, h1, h2, h3⟩ := ih (fun b hb => h b (List.mem_cons_of_mem _ hb))
    obtain ⟨q, hq, hql, hqv⟩ := vadd_ok hw (h b (by simp))
    refine ⟨q :: r, ?_, ?_, by simp [hqv, h3]⟩
    · rw [List.mapM_cons, hq, h1]; rfl
    · intro b' hb'
      rcases List.mem_cons.mp hb' with rfl | hb'
      · exact hql
      · exact h2 _ hb'

/-- the coefficients of the nearest periodic images -/
def NearImage (c : ℤ) : Prop := c = -1 ∨ c = 0 ∨ c = 1

theorem boundaryVectors_ok {d : ℕ} {vectors : List (List F)} {periodic : List Bool} (hd : vectors.length = d) (hv : ∀ v ∈ vectors, v.length = d)
    (hp : periodic.length = d) (ns : List ℕ) : ∀ (k : ℕ) (acc : List (List F)), k + ns.length ≤ d → (∀ b ∈ acc, b.length = d) →
    ∃ r, boundaryVectors vectors periodic ns k acc = .ok r ∧ (∀ b ∈ r, b.length = d) ∧ acc <+: r ∧
      ∀ x : Fin d → F, (∃ b ∈ r, vec d b = x) ↔ ∃ b ∈ acc, ∃ c : ℕ → ℤ, (∀ j, NearImage (c j)) ∧
        (∀ j < ns.length, periodic.getD (k + j) false = false → c j = 0) ∧
        x = vec d b + ∑ j ∈ range ns.length, ((c j : F) * (ns.getD j 0 : ℕ)) • vec d (vectors.getD (k + j) []) := by
  induction ns with
  | nil =>
    intro k acc _ hacc
    refine ⟨acc, rfl, hacc, List.prefix_refl _, fun x => ⟨?_, ?_⟩⟩
    · rintro ⟨b, hb, rfl⟩; exact ⟨b, hb, 0, fun _ => Or.inr (Or.inl rfl), by simp, by simp⟩
    · rintro ⟨b, hb, c, -, -, rfl⟩; exact ⟨b, hb, by simp⟩
  | cons n ns ih =>
    intro k acc hk hacc
    simp only [List.length_cons] at hk
    have hkv : k < vectors.length := by omega
    have hkp : k < periodic.length := by omega
    have hl := hv _ (List.getElem_mem hkv)
    -- the sum over all directions, split
    have hsplit : ∀ c : ℕ → ℤ, ∑ j ∈ range (n :: ns).length, ((c j : F) * ((n :: ns).getD j 0 : ℕ)) • vec d (vectors.getD (k + j) []) =
        ((c 0 : F) * n) • vec d vectors[k] + ∑ j ∈ range ns.length, ((c (j + 1) : F) * (ns.getD j 0 : ℕ)) • vec d (vectors.getD (k + 1 + j) []) := by
      intro c
      rw [List.length_cons, Finset.sum_range_succ', add_comm]
      congr 1
      · rw [List.getD_cons_zero, add_zero, List.getD_eq_getElem _ _ hkv]
      · refine Finset.sum_congr rfl fun j _ => ?_
        rw [List.getD_cons_succ, show k + (j + 1) = k + 1 + j by ring]
    by_cases hper : periodic[k] = true
    · obtain ⟨plus, hp1, hp2, hp3⟩ := mapM_vadd ((vscale_length (n : F) vectors[k]).trans hl) acc hacc
      obtain ⟨minus, hm1, hm2, hm3⟩ := mapM_vadd ((vscale_length (-1) _).trans ((vscale_length (n : F) vectors[k]).trans hl)) acc hacc
      rw [vec_vscale _ hl] at hp3
      rw [vec_vscale _ ((vscale_length (n : F) vectors[k]).trans hl), vec_vscale _ hl] at hm3
      have hall : ∀ b ∈ acc ++ plus ++ minus, b.length = d := by
        intro b hb
        rcases List.mem_append.mp hb with hb | hb
        · rcases List.mem_append.mp hb with hb | hb
          · exact hacc b hb
          · exact hp2 b hb
        · exact hm2 b hb
      obtain ⟨r, h1, h2, h3, h4⟩ := ih (k + 1) (acc ++ plus ++ minus) (by omega) hall
      refine ⟨r, ?_, h2, List.IsPrefix.trans ⟨plus ++ minus, by simp⟩ h3, fun x => ?_⟩
      · simp only [boundaryVectors, pyGet, List.getElem?_eq_getElem hkp, List.getElem?_eq_getElem hkv, bind, Except.bind, hper, if_true, hp1, hm1]
        exact h1
      · rw [h4 x]
        -- the vectors in the longer list
        have hmem : ∀ y : Fin d → F, (∃ b ∈ acc ++ plus ++ minus, vec d b = y) ↔
            ∃ b ∈ acc, ∃ e : ℤ, NearImage e ∧ y = vec d b + ((e : F) * n) • vec d vectors[k] := by
          intro y
          constructor
          · rintro ⟨b, hb, rfl⟩
            rcases List.mem_append.mp hb with hb | hb
            · rcases List.mem_append.mp hb with hb | hb
              · exact ⟨b, hb, 0, Or.inr (Or.inl rfl), by simp⟩
              · obtain ⟨b', hb', e⟩ := (hp3 ▸ List.mem_map_of_mem hb : vec d b ∈ acc.map _) |> List.mem_map.mp
                exact ⟨b', hb', 1, Or.inr (Or.inr rfl), by rw [← e]; push_cast; rw [one_mul, add_comm]⟩
            · obtain ⟨b', hb', e⟩ := (hm3 ▸ List.mem_map_of_mem hb : vec d b ∈ acc.map _) |> List.mem_map.mp
              exact ⟨b', hb', -1, Or.inl rfl, by rw [← e]; push_cast; rw [smul_smul, add_comm]⟩
          · rintro ⟨b, hb, e, he, rfl⟩
            rcases he with rfl | rfl | rfl
            · obtain ⟨b', hb', e'⟩ := (List.mem_map.mp (hm3 ▸ List.mem_map_of_mem (f := fun b => (-1 : F) • (n : F) • vec d vectors[k] + vec d b) hb))
              exact ⟨b', by simp [hb'], by rw [e']; push_cast; rw [smul_smul, add_comm]⟩
            · exact ⟨b, by simp [hb], by simp⟩
            · obtain ⟨b', hb', e'⟩ := (List.mem_map.mp (hp3 ▸ List.mem_map_of_mem (f := fun b => (n : F) • vec d vectors[k] + vec d b) hb))
              exact ⟨b', by simp [hb'], by rw [e']; push_cast; rw [one_mul, add_comm]⟩
        constructor
        · rintro ⟨b, hb, c, hc1, hc2, rfl⟩
          obtain ⟨b', hb', e, he, hbe⟩ := (hmem (vec d b)).mp ⟨b, hb, rfl⟩
          refine ⟨b', hb', fun j => if j = 0 then e else c (j - 1), fun j => ?_, fun j hj hpj => ?_, ?_⟩
          · dsimp only; split
            · exact he
            · exact hc1 _
          · rcases Nat.eq_zero_or_pos j with rfl | h0
            · rw [add_zero, List.getD_eq_getElem _ _ hkp, hper] at hpj
              exact absurd hpj (by decide)
            · dsimp only
              rw [if_neg (by omega)]
              apply hc2 (j - 1) (by simp at hj; omega)
              rw [show k + 1 + (j - 1) = k + j by omega]; exact hpj
          · rw [hsplit, hbe]
            simp [add_assoc]
        · rintro ⟨b, hb, c, hc1, hc2, rfl⟩
          obtain ⟨b', hb', e⟩ := (hmem (vec d b + ((c 0 : F) * n) • vec d vectors[k])).mpr ⟨b, hb, c 0, hc1 0, rfl⟩
          refine ⟨b', hb', fun j => c (j + 1), fun j => hc1 _, fun j hj hpj => ?_, ?_⟩
          · apply hc2 (j + 1) (by simp; omega)
            rw [show k + (j + 1) = k + 1 + j by omega]; exact hpj
          · rw [hsplit, e, add_assoc]
    · obtain ⟨r, h1, h2, h3, h4⟩ := ih (k + 1) acc (by omega) hacc
      refine ⟨r, ?_, h2, h3, fun x => ?_⟩
      · simp only [boundaryVectors, pyGet, List.getElem?_eq_getElem hkp, bind, Except.bind, hper]
        exact h1
      · rw [h4 x]
        constructor
        · rintro ⟨b, hb, c, hc1, hc2, rfl⟩
          refine ⟨b, hb, fun j => if j = 0 then 0 else c (j - 1), fun j => ?_, fun j hj hpj => ?_, ?_⟩
          · dsimp only; split
            · exact Or.inr (Or.inl rfl)
            · exact hc1 _
          · rcases Nat.eq_zero_or_pos j with rfl | h0
            · rfl
            · dsimp only
              rw [if_neg (by omega)]
              apply hc2 (j - 1) (by simp at hj; omega)
              rw [show k + 1 + (j - 1) = k + j by omega]; exact hpj
          · rw [hsplit]; simp
        · rintro ⟨b, hb, c, hc1, hc2, rfl⟩
          have hc0 : c 0 = 0 := hc2 0 (by simp) (by rw [add_zero, List.getD_eq_getElem _ _ hkp]; simpa using hper)
          refine ⟨b, hb, fun j => c (j + 1), fun j => hc1 _, fun j hj hpj => ?_, ?_⟩
          · apply hc2 (j + 1) (by simp; omega)
            rw [show k + (j + 1) = k + 1 + j by omega]; exact hpj
          · rw [hsplit, hc0]; simp

/-! ### the constructor -/

section
variable [DecidableEq ω] [DecidableEq ν]

/-- What the constructor stores. -/
structure Lattice.Built (L : Lattice F ω ν) (u : UnitCell F ω) (N : List ℕ) (periodic : Option (List Bool)) (tol : F) (render : List F → ν) :
    Prop where
  tol_eq : L.tol = tol
  render_eq : L.render = render
  orbitals_eq : L.orbitals = latticeOrbitals u N.length tol (gridCells N)
  dict : DictInv render L.orbitals L.indices
  head : ∃ bs, L.boundary = List.replicate N.length 0 :: bs
  len : ∀ b ∈ L.boundary, b.length = N.length
  boundary : ∀ x : Fin N.length → F, (∃ b ∈ L.boundary, vec N.length b = x) ↔ ∃ c : Fin N.length → ℤ, Near c ∧ Period periodic c ∧
    x = u.shift N.length (sizes N) c

theorem mkLattice_ok {u : UnitCell F ω} {N : List ℕ} (hu : u.WF N.length) {periodic : Option (List Bool)}
    (hp : ∀ p, periodic = some p → p.length = N.length) (tol : F) (render : List F → ν) :
    ∃ L, mkLattice u N periodic tol render = .ok L ∧ L.Built u N periodic tol render := by
  have hcells : ∀ c ∈ gridCells N, c.length = N.length := fun c hc => ((mem_gridCells N c).mp hc).1
  have h0 : DictInv render ([] : List (Orbital F ω)) ([] : Assoc (ν × ω) ℕ) := by
    intro k; exact ⟨fun _ o ho => by simp at ho, fun i hi => by simp [Assoc.get?] at hi⟩
  obtain ⟨inds, h1, h2⟩ := addCells_ok hu tol render (gridCells N) hcells h0
  have hper : (periodic.getD (List.replicate N.length false)).length = N.length := by
    cases periodic with
    | none => simp
    | some p => exact hp p rfl
  obtain ⟨bs, h3, h4, h5, h6⟩ := boundaryVectors_ok (F := F) hu.vectors hu.vector hper N 0 [List.replicate N.length 0] (by omega) (by simp)
  rw [List.nil_append] at h1 h2
  refine ⟨⟨u, N, periodic.getD (List.replicate N.length false), tol, render,
    latticeOrbitals u N.length tol (gridCells N), inds, bs⟩, ?_, ⟨rfl, rfl, rfl, h2, ?_, h4, fun x => ?_⟩⟩
  · simp only [mkLattice, h1, h3, bind, Except.bind]
  · obtain ⟨t, rfl⟩ := h5
    exact ⟨t, rfl⟩
  · have hpl : ∀ l < N.length, (periodic.getD (List.replicate N.length false)).getD l false = isPeriodic periodic l := by
      intro l hl
      cases periodic with
      | none => simp [isPeriodic, hl]
      | some p => rfl
    show (∃ b ∈ bs, vec N.length b = x) ↔ _
    rw [h6 x]
    simp only [List.mem_singleton, exists_eq_left, vec_replicate, zero_add]
    constructor
    · rintro ⟨c, hc1, hc2, rfl⟩
      refine ⟨fun l => c l, fun l => hc1 l, fun l hl => hc2 l l.2 (by rw [hpl l l.2]; exact hl), ?_⟩
      rw [Finset.sum_range, UnitCell.shift]
      rfl
    · rintro ⟨c, hc1, hc2, rfl⟩
      refine ⟨fun l => if h : l < N.length then c ⟨l, h⟩ else 0, fun l => ?_, fun l hl hpl' => ?_, ?_⟩
      · dsimp only; split
        · exact hc1 _
        · exact Or.inr (Or.inl rfl)
      · dsimp only; rw [dif_pos hl]
        exact hc2 ⟨l, hl⟩ (by rw [← hpl l hl]; exact hpl')
      · rw [Finset.sum_range, UnitCell.shift]
        refine Finset.sum_congr rfl fun l _ => ?_
        dsimp only; rw [dif_pos l.2]; rfl

theorem Lattice.Built.length {L : Lattice F ω ν} {u : UnitCell F ω} {N : List ℕ} {periodic : Option (List Bool)} {tol : F} {render : List F → ν}
    (h : L.Built u N periodic tol render) (hu : u.WF N.length) : L.orbitals.length = N.prod * (u.orbitals.map List.length).sum := by
  rw [h.orbitals_eq, latticeOrbitals, List.length_flatMap]
  have : ∀ c : List ℕ, (cellOrbitals u N.length tol c (u.positions.zip u.orbitals)).length = (u.orbitals.map List.length).sum := by
    intro c
    rw [cellOrbitals, List.length_flatMap]
    congr 1
    simp only [List.length_map]
    calc _ = ((u.positions.zip u.orbitals).map Prod.snd).map List.length := by rw [List.map_map]; rfl
      _ = _ := by rw [List.map_snd_zip (by rw [hu.positions])]
  simp only [this, List.map_const', List.sum_replicate, gridCells_length, smul_eq_mul]

/-- the orbitals as triples: cell, atom, name -/
def orbitalTriples (u : UnitCell F ω) (N : List ℕ) : List (List ℕ × ℕ × ω) :=
  (gridCells N).flatMap fun c => (List.range u.orbitals.length).flatMap fun a => (u.orbitals.getD a []).map fun o => (c, a, o)

theorem mem_orbitalTriples (u : UnitCell F ω) (N : List ℕ) (c : List ℕ) (a : ℕ) (o : ω) :
    (c, a, o) ∈ orbitalTriples u N ↔ c ∈ gridCells N ∧ a < u.orbitals.length ∧ o ∈ u.orbitals.getD a [] := by
  simp only [orbitalTriples, List.mem_flatMap, List.mem_range, List.mem_map, Prod.mk.injEq]
  constructor
  · rintro ⟨c', hc, a', ha, o', ho, rfl, rfl, rfl⟩; exact ⟨hc, ha, ho⟩
  · rintro ⟨hc, ha, ho⟩; exact ⟨c, hc, a, ha, o, ho, rfl, rfl, rfl⟩

theorem orbitalTriples_nodup {u : UnitCell F ω} (N : List ℕ) (hn : ∀ l ∈ u.orbitals, l.Nodup) : (orbitalTriples u N).Nodup := by
  rw [orbitalTriples, List.nodup_flatMap]
  refine ⟨fun c _ => ?_, (gridCells_nodup N).imp ?_⟩
  · rw [List.nodup_flatMap]
    refine ⟨fun a ha => ?_, (List.nodup_range).imp ?_⟩
    · refine List.Nodup.map (fun x y h => by simpa using h) ?_
      rw [List.getD_eq_getElem _ _ (List.mem_range.mp ha)]
      exact hn _ (List.getElem_mem _)
    · intro a b hab x hx hy
      simp only [List.mem_map] at hx hy
      obtain ⟨o, -, rfl⟩ := hx
      obtain ⟨o', -, h⟩ := hy
      exact hab (by simpa using (Prod.mk.inj (Prod.mk.inj h).2).1.symm)
  · intro a b hab x hx hy
    simp only [List.mem_flatMap, List.mem_map] at hx hy
    obtain ⟨_, -, o, -, rfl⟩ := hx
    obtain ⟨_, -, o', -, h⟩ := hy
    exact hab (Prod.mk.inj h).1.symm

theorem latticeOrbitals_eq {u : UnitCell F ω} {N : List ℕ} (hu : u.WF N.length) (tol : F) :
    latticeOrbitals u N.length tol (gridCells N) = (orbitalTriples u N).map
      fun t => (cleanPosition tol (List.ofFn (u.point N.length (cellVec N.length t.1) t.2.1)), t.2.2, t.1) := by
  have hz : u.positions.zip u.orbitals = (List.range u.orbitals.length).map fun a => (u.positions.getD a [], u.orbitals.getD a []) := by
    apply List.ext_getElem (by simp [hu.positions])
    intro i h1 h2
    simp only [List.length_zip, hu.positions, Nat.min_self] at h1
    simp only [List.getElem_zip, List.getElem_map, List.getElem_range]
    rw [List.getD_eq_getElem _ _ (hu.positions ▸ h1), List.getD_eq_getElem _ _ h1]
  rw [latticeOrbitals, orbitalTriples, List.map_flatMap]
  congr 1
  funext c
  rw [cellOrbitals, hz, List.map_flatMap, List.flatMap_map]
  congr 1
  funext a
  rw [List.map_map]
  rfl

end

end Qosy
