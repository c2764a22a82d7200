import Verif.Spec.SpaceGroupAlgebra
import Verif.Lemmas.SpaceGroup
import Verif.Lemmas.PermGroup

/-! # Lemmas: composing symmetries of a lattice -/

namespace Qosy
open Coef
variable {F ω ν : Type} [Field F] [LinearOrder F]

section
variable [DecidableEq ω] {u : UnitCell F ω} {N : List ℕ} {periodic : Option (List Bool)}

theorem UnitCell.IsPeriod.zero : u.IsPeriod N periodic 0 := ⟨0, fun _ _ => rfl, by simp [UnitCell.shift]⟩

theorem UnitCell.IsPeriod.add {x y : Fin N.length → F} (hx : u.IsPeriod N periodic x) (hy : u.IsPeriod N periodic y) : u.IsPeriod N periodic (x + y) := by
  obtain ⟨c, c1, rfl⟩ := hx
  obtain ⟨c', c2, rfl⟩ := hy
  exact ⟨c + c', fun l hl => by rw [Pi.add_apply, c1 l hl, c2 l hl, add_zero], (u.shift_add _ _ _ _).symm⟩

theorem UnitCell.IsPeriod.neg {x : Fin N.length → F} (hx : u.IsPeriod N periodic x) : u.IsPeriod N periodic (-x) := by
  obtain ⟨c, c1, rfl⟩ := hx
  exact ⟨-c, fun l hl => by rw [Pi.neg_apply, c1 l hl, neg_zero], (u.shift_neg _ _ _).symm⟩

theorem Lattice.Moves.comp {L : Lattice F ω ν} {R R' : Matrix (Fin N.length) (Fin N.length) F} {d d' : Fin N.length → F} {e e' : ℤ → ℤ}
    (hR : ∀ x, u.IsPeriod N periodic x → u.IsPeriod N periodic (R.mulVec x)) (h : L.Moves u N periodic R d e) (h' : L.Moves u N periodic R' d' e') :
    L.Moves u N periodic (R * R') (R.mulVec d' + d) (e ∘ e') := by
  intro i x hi
  obtain ⟨j, y, j1, j2, j3, j4⟩ := h' i x hi
  obtain ⟨k, z, k1, k2, k3, k4⟩ := h j y j2
  refine ⟨k, z, by rw [Function.comp_apply, j1, k1], k2, k3.trans j3, ?_⟩
  have : (R * R').mulVec (vec N.length x.1) + (R.mulVec d' + d) - vec N.length z.1 =
      R.mulVec (R'.mulVec (vec N.length x.1) + d' - vec N.length y.1) + (R.mulVec (vec N.length y.1) + d - vec N.length z.1) := by
    rw [Matrix.mulVec_sub, Matrix.mulVec_add, Matrix.mulVec_mulVec]; abel
  rw [this]
  exact (hR _ j4).add k4

theorem Lattice.Moves.shift {L : Lattice F ω ν} {R : Matrix (Fin N.length) (Fin N.length) F} {d d' : Fin N.length → F} {e : ℤ → ℤ}
    (hd : u.IsPeriod N periodic (d - d')) (h : L.Moves u N periodic R d e) : L.Moves u N periodic R d' e := by
  intro i x hi
  obtain ⟨j, y, j1, j2, j3, j4⟩ := h i x hi
  refine ⟨j, y, j1, j2, j3, ?_⟩
  have : R.mulVec (vec N.length x.1) + d' - vec N.length y.1 = (R.mulVec (vec N.length x.1) + d - vec N.length y.1) + -(d - d') := by abel
  rw [this]
  exact j4.add hd.neg

theorem Lattice.Moves.one (L : Lattice F ω ν) : L.Moves u N periodic 1 0 id := fun i x hi =>
  ⟨i, x, rfl, hi, rfl, by rw [Matrix.one_mulVec, add_zero, sub_self]; exact .zero⟩

theorem Lattice.Moves.iterate {L : Lattice F ω ν} {R : Matrix (Fin N.length) (Fin N.length) F} {d : Fin N.length → F} {e : ℤ → ℤ}
    (hR : ∀ x, u.IsPeriod N periodic x → u.IsPeriod N periodic (R.mulVec x)) (h : L.Moves u N periodic R d e) :
    ∀ n, L.Moves u N periodic (R ^ n) (iteratedShift R d n) (e^[n])
  | 0 => by rw [pow_zero]; exact .one L
  | n + 1 => by
    rw [pow_succ', Function.iterate_succ']
    exact h.comp hR (h.iterate hR n)
end

section
variable [IsStrictOrderedRing F] [DecidableEq ω] [DecidableEq ν]
variable {L : Lattice F ω ν} {u : UnitCell F ω} {N : List ℕ} {periodic : Option (List Bool)} {tol : F} {render : List F → ν}

/-- orbitals with the same name whose positions differ by a period are the same -/
theorem Lattice.Built.orbital_unique (h : L.Built u N periodic tol render) (hu : u.WF N.length) (hprim : u.Primitive N.length)
    (hres : u.Resolved N.length tol render (fun _ => True)) {i j : ℕ} {x y : Orbital F ω} (hi : L.orbitals[i]? = some x) (hj : L.orbitals[j]? = some y)
    (ho : x.2.1 = y.2.1) (hper : u.IsPeriod N periodic (vec N.length x.1 - vec N.length y.1)) : i = j := by
  obtain ⟨hi', rfl⟩ := List.getElem?_eq_some_iff.mp hi
  obtain ⟨hj', rfl⟩ := List.getElem?_eq_some_iff.mp hj
  clear hi hj
  rename' hi' => hi, hj' => hj
  obtain ⟨m, a, ha, hm, hoa, hx⟩ := h.orbital hu hres (fun _ _ => trivial) (List.getElem_mem hi)
  obtain ⟨m', b, hb, hm', hob, hx'⟩ := h.orbital hu hres (fun _ _ => trivial) (List.getElem_mem hj)
  obtain ⟨c', hc', he⟩ := hper
  have e5 : vec N.length (L.orbitals[i]).1 = u.point N.length m a := by
    rw [show (L.orbitals[i]).1 = List.ofFn (u.point N.length m a) from congrArg Prod.fst hx, vec_ofFn]
  have e6 : vec N.length (L.orbitals[j]).1 = u.point N.length m' b := by
    rw [show (L.orbitals[j]).1 = List.ofFn (u.point N.length m' b) from congrArg Prod.fst hx', vec_ofFn]
  rw [e5, e6, sub_eq_iff_eq_add', UnitCell.point_add_shift] at he
  rw [← ho] at hob
  obtain ⟨rfl, hmm⟩ := UnitCell.point_inj hprim ha hb hoa hob he
  have hc0 := inCells_unique hm' (hmm ▸ hm)
  have : m = m' := by
    rw [hmm, hc0]
    funext l; simp
  subst this
  have hnd := h.orbitals_nodup hu hprim hres (fun _ _ => trivial)
  refine (hnd.getElem_inj_iff (hi := hi) (hj := hj)).mp ?_
  rw [hx, hx', ho]

theorem Lattice.Built.moves_unique (h : L.Built u N periodic tol render) (hu : u.WF N.length) (hprim : u.Primitive N.length)
    (hres : u.Resolved N.length tol render (fun _ => True)) {R : Matrix (Fin N.length) (Fin N.length) F} {d : Fin N.length → F} {e e' : ℤ → ℤ}
    (he : L.Moves u N periodic R d e) (he' : L.Moves u N periodic R d e') : ∀ l ∈ siteLabels L.len, e l = e' l := by
  intro l hl
  obtain ⟨i, rfl⟩ := Int.eq_ofNat_of_zero_le hl.1
  have hi : i < L.orbitals.length := by have := hl.2; simp only [Lattice.len] at this; omega
  obtain ⟨j, y, j1, j2, j3, j4⟩ := he i _ (List.getElem?_eq_getElem hi)
  obtain ⟨k, z, k1, k2, k3, k4⟩ := he' i _ (List.getElem?_eq_getElem hi)
  rw [j1, k1, h.orbital_unique hu hprim hres j2 k2 (j3.trans k3.symm)]
  have := k4.add j4.neg
  convert this using 1
  abel

variable {K : Type} [Field K] [StarRing K] [Coef K]

theorem Lattice.Built.symmetry (h : L.Built u N periodic tol render) (hu : u.WF N.length) (hprim : u.Primitive N.length)
    (hres : u.Resolved N.length tol render (fun _ => True)) {R : Matrix (Fin N.length) (Fin N.length) F} {d : Fin N.length → F}
    (hs : u.IsSymmetry N periodic R d) : ∃ p : List ℕ, IsPermArray p ∧ p.length = L.len ∧
      spaceGroupSymmetry (K := K) L (List.ofFn fun i => List.ofFn (R i)) (List.ofFn d) = .ok (labelPermutation (labelsOf p)) ∧
      L.Moves u N periodic R d (relabelMap (labelsOf p)) := by
  obtain ⟨p, p1, p2, p3, p4⟩ := spaceGroupLabels_ok h hu hprim hres hs.maps (fun x => (hs.periods x).mp)
  refine ⟨p, p1, p2, ?_, fun i x hi => ?_⟩
  · rw [spaceGroupSymmetry, p3]
    exact checkedPermutation_ok p
  · obtain ⟨j, y, c, q1, q2, q3, q4, q5⟩ := p4 i x hi
    exact ⟨j, y, relabelMap_get q1, q2, q3, c, q4, by rw [q5]; abel⟩
end

section
variable {K : Type} [Field K] [StarRing K] [Coef K] {n : ℕ} {t : OpType}

/-- a relabelling of `n` orbitals as a rule -/
def RelabelRule (T : Transformation K) (t : OpType) (n : ℕ) (e : ℤ → ℤ) : Prop :=
  Set.InjOn e (siteLabels n) ∧ Set.MapsTo e (siteLabels n) (siteLabels n) ∧
    SignRule T t (TypedString t (siteLabels n)) (fun s => ((relabelSign e s : ℤ) : K)) (relabelString e)

theorem RelabelRule.perm {p : List ℕ} (hp : IsPermArray p) (hl : p.length = n) (t : OpType) :
    RelabelRule (labelPermutation (labelsOf p) : Transformation K) t n (relabelMap (labelsOf p)) := by
  subst hl
  exact ⟨relabelMap_inj hp, relabelMap_mapsTo hp, labelPermutation_signRule hp t⟩

theorem RelabelRule.mul {T T' : Transformation K} {e e' : ℤ → ℤ} (h : RelabelRule T t n e) (h' : RelabelRule T' t n e') :
    RelabelRule (T.mul T') t n (e ∘ e') := by
  obtain ⟨h1, h2, h3⟩ := h
  obtain ⟨k1, k2, k3⟩ := h'
  have m := h3.mul k3
  refine ⟨h1.comp k1 k2, h2.comp k2, m.type, fun s hs => ?_, fun s _ => intSign (relabelSign_cases _ s), fun s hs => ?_⟩
  · obtain ⟨c1, c2⟩ := relabel_comp hs k1 k2 h1
    have := m.sends s hs
    rwa [c1, ← Int.cast_mul, c2] at this
  · obtain ⟨c1, -⟩ := relabel_comp hs k1 k2 h1
    rw [← c1]
    exact m.mem s hs

theorem RelabelRule.congr {T T' : Transformation K} {e e' : ℤ → ℤ} (h : RelabelRule T t n e) (h' : RelabelRule T' t n e')
    (he : ∀ l ∈ siteLabels n, e l = e' l) {s : OpString} (hs : TypedString t (siteLabels n) s) : T s = T' s := by
  obtain ⟨c1, c2⟩ := relabel_congr (s := s) (fun l hl => he l (hs.mem l hl))
  rw [show T s = _ from h.2.2.sends s hs, show T' s = _ from h'.2.2.sends s hs, c1, c2]

theorem RelabelRule.id {T : Transformation K} {e : ℤ → ℤ} (h : RelabelRule T t n e) (he : ∀ l ∈ siteLabels n, e l = l) {s : OpString}
    (hs : TypedString t (siteLabels n) s) (hc : s.Canonical) : T.Sends s 1 s := by
  have := h.2.2.sends s hs
  obtain ⟨c1, c2⟩ := relabel_id hs hc he
  rwa [c1, c2, Int.cast_one] at this

theorem RelabelRule.powLoop {T : Transformation K} {e : ℤ → ℤ} (h : RelabelRule T t n e) : ∀ (k m : ℕ) {U : Transformation K}, RelabelRule U t n (e^[m]) →
    RelabelRule (powLoop T k U) t n (e^[m + k])
  | 0, _, _, hU => hU
  | k + 1, m, _, hU => by
    have := RelabelRule.powLoop h k (m + 1) (hU.mul h)
    rwa [show m + 1 + k = m + (k + 1) by omega] at this

theorem RelabelRule.pow {T : Transformation K} {e : ℤ → ℤ} (h : RelabelRule T t n e) {k : ℕ} (hk : 0 < k) :
    RelabelRule (Qosy.powLoop T ((k : ℤ).toNat - 1) T) t n (e^[k]) := by
  have := h.powLoop (k - 1) 1 h
  rw [show 1 + (k - 1) = k by omega] at this
  simpa using this
end

end Qosy
