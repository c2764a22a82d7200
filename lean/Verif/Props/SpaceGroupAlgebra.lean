import Verif.Lemmas.SpaceGroupAlgebra
import Verif.Props.SpaceGroup
import Verif.Props.SymmetryMatrix

/-! # C108: the symmetries of a lattice are represented -/

namespace Qosy
open Coef
variable {F ω ν : Type} [Field F] [LinearOrder F] [IsStrictOrderedRing F] [DecidableEq ω] [DecidableEq ν]
variable {K : Type} [Field K] [StarRing K] [Coef K]
variable {N : List ℕ} {periodic : Option (List Bool)} {tol : F} {render : List F → ν} {u : UnitCell F ω}

/-- **C108** (products): if the symmetry `R'', d''` is the product of `R, d` and `R', d'`, up to periods, then its Transformation is the product of their
Transformations: on all strings, with `*` and with two calls of `apply`, and on Operators. -/
theorem C108_product (hu : u.WF N.length) (hp : ∀ p, periodic = some p → p.length = N.length) (hprim : u.Primitive N.length)
    (hres : u.Resolved N.length tol render (fun _ => True)) {R R' R'' : Matrix (Fin N.length) (Fin N.length) F} {d d' d'' : Fin N.length → F}
    (h : u.IsSymmetry N periodic R d) (h' : u.IsSymmetry N periodic R' d') (h'' : u.IsSymmetry N periodic R'' d'')
    (hR : R'' = R * R') (hd : u.IsPeriod N periodic (R.mulVec d' + d - d'')) :
    ∃ (L : Lattice F ω ν) (T T' T'' : Transformation K), mkLattice u N periodic tol render = .ok L ∧
      spaceGroupSymmetry L (List.ofFn fun i => List.ofFn (R i)) (List.ofFn d) = .ok T ∧
      spaceGroupSymmetry L (List.ofFn fun i => List.ofFn (R' i)) (List.ofFn d') = .ok T' ∧
      spaceGroupSymmetry L (List.ofFn fun i => List.ofFn (R'' i)) (List.ofFn d'') = .ok T'' ∧
      (∀ t s, TypedString t (siteLabels L.len) s → (T.mul T') s = T'' s) ∧
      ∀ t A, A.On t (TypedString t (siteLabels L.len)) → ∃ B C D, T'.apply A = .ok B ∧ T.apply B = .ok C ∧ T''.apply A = .ok D ∧ ∀ s, C.coef s = D.coef s := by
  obtain ⟨L, h1, h2⟩ := mkLattice_ok hu hp tol render
  obtain ⟨p, p1, p2, p3, p4⟩ := h2.symmetry (K := K) hu hprim hres h
  obtain ⟨q, q1, q2, q3, q4⟩ := h2.symmetry (K := K) hu hprim hres h'
  obtain ⟨r, r1, r2, r3, r4⟩ := h2.symmetry (K := K) hu hprim hres h''
  have e : ∀ l ∈ siteLabels L.len, (relabelMap (labelsOf p) ∘ relabelMap (labelsOf q)) l = relabelMap (labelsOf r) l :=
    h2.moves_unique hu hprim hres (hR ▸ (p4.comp (fun x => (h.periods x).mpr) q4).shift hd) r4
  have str : ∀ t s, TypedString t (siteLabels L.len) s →
      (Transformation.mul (labelPermutation (labelsOf p)) (labelPermutation (labelsOf q) : Transformation K)) s = labelPermutation (labelsOf r) s := fun t s hs =>
    ((RelabelRule.perm p1 p2 t).mul (RelabelRule.perm q1 q2 t)).congr (RelabelRule.perm r1 r2 t) e hs
  refine ⟨L, _, _, _, h1, p3, q3, r3, str, fun t A hA => ?_⟩
  have hP := (RelabelRule.perm (K := K) p1 p2 t).2.2
  have hQ := (RelabelRule.perm (K := K) q1 q2 t).2.2
  obtain ⟨B, b1, -⟩ := apply_ok hQ.maps hA
  obtain ⟨D, C, d1, c1, -, -, e⟩ := mul_apply hP.maps hQ.maps (hP.noDrop hQ) hA b1
  refine ⟨B, C, D, b1, c1, ?_, fun s => (e s).symm⟩
  rw [← d1]
  exact apply_eq_of_eq fun x hx => (str t _ (hA.mem _ (mem_terms hx))).symm

/-- **C108** (commuting symmetries): if two symmetries commute up to periods then so do their Transformations. -/
theorem C108_commute (hu : u.WF N.length) (hp : ∀ p, periodic = some p → p.length = N.length) (hprim : u.Primitive N.length)
    (hres : u.Resolved N.length tol render (fun _ => True)) {R R' : Matrix (Fin N.length) (Fin N.length) F} {d d' : Fin N.length → F}
    (h : u.IsSymmetry N periodic R d) (h' : u.IsSymmetry N periodic R' d') (hR : R * R' = R' * R)
    (hd : u.IsPeriod N periodic ((R.mulVec d' + d) - (R'.mulVec d + d'))) :
    ∃ (L : Lattice F ω ν) (T T' : Transformation K), mkLattice u N periodic tol render = .ok L ∧
      spaceGroupSymmetry L (List.ofFn fun i => List.ofFn (R i)) (List.ofFn d) = .ok T ∧
      spaceGroupSymmetry L (List.ofFn fun i => List.ofFn (R' i)) (List.ofFn d') = .ok T' ∧
      ∀ t s, TypedString t (siteLabels L.len) s → (T.mul T') s = (T'.mul T) s := by
  obtain ⟨L, h1, h2⟩ := mkLattice_ok hu hp tol render
  obtain ⟨p, p1, p2, p3, p4⟩ := h2.symmetry (K := K) hu hprim hres h
  obtain ⟨q, q1, q2, q3, q4⟩ := h2.symmetry (K := K) hu hprim hres h'
  refine ⟨L, _, _, h1, p3, q3, fun t s hs => ?_⟩
  refine ((RelabelRule.perm p1 p2 t).mul (RelabelRule.perm q1 q2 t)).congr ((RelabelRule.perm q1 q2 t).mul (RelabelRule.perm p1 p2 t)) ?_ hs
  exact h2.moves_unique hu hprim hres ((p4.comp (fun x => (h.periods x).mpr) q4).shift hd) (hR ▸ q4.comp (fun x => (h'.periods x).mpr) p4)

/-- **C108** (powers): if the `n`-th power of a symmetry is a translation by a period then the `n`-th power of its Transformation is the identity. -/
theorem C108_power (hu : u.WF N.length) (hp : ∀ p, periodic = some p → p.length = N.length) (hprim : u.Primitive N.length)
    (hres : u.Resolved N.length tol render (fun _ => True)) {R : Matrix (Fin N.length) (Fin N.length) F} {d : Fin N.length → F}
    (h : u.IsSymmetry N periodic R d) {n : ℕ} (hn : 0 < n) (hR : R ^ n = 1) (hd : u.IsPeriod N periodic (iteratedShift R d n)) :
    ∃ (L : Lattice F ω ν) (T P : Transformation K), mkLattice u N periodic tol render = .ok L ∧
      spaceGroupSymmetry L (List.ofFn fun i => List.ofFn (R i)) (List.ofFn d) = .ok T ∧ T.pow n = .ok P ∧
      ∀ t s, TypedString t (siteLabels L.len) s → s.Canonical → P.Sends s 1 s := by
  obtain ⟨L, h1, h2⟩ := mkLattice_ok hu hp tol render
  obtain ⟨p, p1, p2, p3, p4⟩ := h2.symmetry (K := K) hu hprim hres h
  refine ⟨L, _, _, h1, p3, by rw [Transformation.pow, if_neg (by omega)], fun t s hs hc => ?_⟩
  refine ((RelabelRule.perm p1 p2 t).pow hn).id (fun l hl => ?_) hs hc
  refine (h2.moves_unique hu hprim hres ((hR ▸ p4.iterate (fun x => (h.periods x).mpr) n : L.Moves u N periodic 1 _ _).shift (d' := 0) (by simpa using hd))
    (.one L) l hl)

/-- **C108** (identity): a translation by a period is the identity. -/
theorem C108_identity (hu : u.WF N.length) (hp : ∀ p, periodic = some p → p.length = N.length) (hprim : u.Primitive N.length)
    (hres : u.Resolved N.length tol render (fun _ => True)) {d : Fin N.length → F} (h : u.IsSymmetry N periodic 1 d) (hd : u.IsPeriod N periodic d) :
    ∃ (L : Lattice F ω ν) (T : Transformation K), mkLattice u N periodic tol render = .ok L ∧
      spaceGroupSymmetry L (List.ofFn fun i => List.ofFn ((1 : Matrix (Fin N.length) (Fin N.length) F) i)) (List.ofFn d) = .ok T ∧
      ∀ t s, TypedString t (siteLabels L.len) s → s.Canonical → T.Sends s 1 s := by
  obtain ⟨L, T, P, h1, h2, h3, h4⟩ := C108_power (K := K) hu hp hprim hres h one_pos (pow_one 1) (by simpa [iteratedShift] using hd)
  rw [Transformation.pow, if_neg (by omega)] at h3
  obtain rfl := Except.ok.inj h3
  exact ⟨L, T, h1, h2, h4⟩

/-! ### translations -/

theorem translation_isSymmetry (u : UnitCell F ω) {v : Fin N.length → ℤ} (hv : CellTranslation N periodic v) :
    u.IsSymmetry N periodic 1 (u.translation N v) :=
  ⟨translation_mapsOrbitals u hv.1 hv.2, fun x => by rw [Matrix.one_mulVec]⟩

theorem translation_add (u : UnitCell F ω) (v w : Fin N.length → ℤ) : u.translation N (v + w) = u.translation N v + u.translation N w := by
  simp [UnitCell.translation, add_smul, Finset.sum_add_distrib]

/-- **C108** (translations): translations commute, and the product of the translations by `v` and `w` is the translation by `v + w`. -/
theorem C108_translations (hu : u.WF N.length) (hp : ∀ p, periodic = some p → p.length = N.length) (hprim : u.Primitive N.length)
    (hres : u.Resolved N.length tol render (fun _ => True)) : ∃ L : Lattice F ω ν, mkLattice u N periodic tol render = .ok L ∧
      ∃ T : (Fin N.length → ℤ) → Transformation K, (∀ v, CellTranslation N periodic v →
        spaceGroupSymmetry L (List.ofFn fun i => List.ofFn ((1 : Matrix (Fin N.length) (Fin N.length) F) i)) (List.ofFn (u.translation N v)) = .ok (T v)) ∧
      ∀ t s, TypedString t (siteLabels L.len) s → ∀ v w, CellTranslation N periodic v → CellTranslation N periodic w →
        ((T v).mul (T w)) s = ((T w).mul (T v)) s ∧ (CellTranslation N periodic (v + w) → ((T v).mul (T w)) s = T (v + w) s) := by
  classical
  obtain ⟨L, h1, h2⟩ := mkLattice_ok hu hp tol render
  have ex : ∀ v : Fin N.length → ℤ, ∃ T : Transformation K, CellTranslation N periodic v →
      spaceGroupSymmetry L (List.ofFn fun i => List.ofFn ((1 : Matrix (Fin N.length) (Fin N.length) F) i)) (List.ofFn (u.translation N v)) = .ok T := by
    intro v
    by_cases hv : CellTranslation N periodic v
    · obtain ⟨p, -, -, p3, -⟩ := h2.symmetry (K := K) hu hprim hres (translation_isSymmetry u hv)
      exact ⟨_, fun _ => p3⟩
    · exact ⟨fun _ => .error .valueError, fun h => absurd h hv⟩
  choose T hT using ex
  refine ⟨L, h1, T, hT, fun t s hs v w hv hw => ⟨?_, fun hvw => ?_⟩⟩
  · obtain ⟨L', A, B, k1, k2, k3, k4⟩ := C108_commute (K := K) (tol := tol) (render := render) hu hp hprim hres (translation_isSymmetry u hv) (translation_isSymmetry u hw) rfl (by
      rw [Matrix.one_mulVec, Matrix.one_mulVec, add_comm, sub_self]; exact .zero)
    obtain rfl : L = L' := Except.ok.inj (h1.symm.trans k1)
    obtain rfl : T v = A := Except.ok.inj ((hT v hv).symm.trans k2)
    obtain rfl : T w = B := Except.ok.inj ((hT w hw).symm.trans k3)
    exact k4 t s hs
  · obtain ⟨L', A, B, C, k1, k2, k3, k4, k5, -⟩ := C108_product (K := K) (tol := tol) (render := render) hu hp hprim hres (translation_isSymmetry u hv) (translation_isSymmetry u hw)
      (translation_isSymmetry u hvw) (one_mul 1).symm (by
      rw [Matrix.one_mulVec, translation_add, add_comm, sub_self]; exact .zero)
    obtain rfl : L = L' := Except.ok.inj (h1.symm.trans k1)
    obtain rfl : T v = A := Except.ok.inj ((hT v hv).symm.trans k2)
    obtain rfl : T w = B := Except.ok.inj ((hT w hw).symm.trans k3)
    obtain rfl : T (v + w) = C := Except.ok.inj ((hT _ hvw).symm.trans k4)
    exact k5 t s hs

/-- **C108** (order of a translation): on a ring of `n` cells, `n` translations by one cell are the identity. -/
theorem C108_ring (hu : u.WF N.length) (hp : ∀ p, periodic = some p → p.length = N.length) (hprim : u.Primitive N.length)
    (hres : u.Resolved N.length tol render (fun _ => True)) (l : Fin N.length) (hl : isPeriodic periodic l = true) (hN : 0 < sizes N l) :
    ∃ (L : Lattice F ω ν) (T P : Transformation K), mkLattice u N periodic tol render = .ok L ∧
      spaceGroupSymmetry L (List.ofFn fun i => List.ofFn ((1 : Matrix (Fin N.length) (Fin N.length) F) i)) (List.ofFn (u.vec N.length l)) = .ok T ∧
      T.pow (sizes N l) = .ok P ∧ ∀ t s, TypedString t (siteLabels L.len) s → s.Canonical → P.Sends s 1 s := by
  have hv : CellTranslation N periodic (Pi.single l 1) := by
    refine ⟨fun k => ?_, fun k hk => ?_⟩
    · by_cases e : k = l
      · subst e
        rw [Pi.single_eq_same, abs_one]
        exact_mod_cast hN
      · simp [e]
    · by_cases e : k = l
      · subst e; simp [hl] at hk
      · simp [e]
  have ht : u.translation N (Pi.single l 1) = u.vec N.length l := by
    rw [UnitCell.translation, Finset.sum_eq_single l]
    · simp
    · intro k _ e; simp [e]
    · simp
  have hi : ∀ n, iteratedShift (1 : Matrix (Fin N.length) (Fin N.length) F) (u.vec N.length l) n = (n : F) • u.vec N.length l := by
    intro n
    induction n with
    | zero => simp [iteratedShift]
    | succ n ih => rw [iteratedShift, ih, Matrix.one_mulVec, Nat.cast_succ, add_smul, one_smul]
  refine C108_power hu hp hprim hres (ht ▸ translation_isSymmetry u hv) hN (one_pow _) ?_
  rw [hi]
  refine ⟨Pi.single l 1, hv.2, ?_⟩
  rw [UnitCell.shift, Finset.sum_eq_single l]
  · simp
  · intro k _ e; simp [e]
  · simp

/-! ### rotations -/

theorem rotation_isSymmetry (n : ℕ) (names : List ω) :
    (cubicCell F 2 names).IsSymmetry [n, n] (some [true, true]) (!![0, -1; 1, 0] : Matrix (Fin 2) (Fin 2) F) 0 := by
  refine ⟨rotation_mapsOrbitals n names, fun x => ⟨rotation_period n names x, ?_⟩⟩
  rintro ⟨c, -, rfl⟩
  let c' : Fin 2 → ℤ := c
  refine ⟨(![-c' 1, c' 0] : Fin 2 → ℤ), fun l hl => ?_, ?_⟩
  · have h5 : ∀ l : Fin 2, isPeriodic (some [true, true]) l = true := by decide
    have := (h5 l).symm.trans hl
    cases this
  · show (!![0, -1; 1, 0] : Matrix (Fin 2) (Fin 2) F).mulVec ((cubicCell F 2 names).shift 2 (sizes [n, n]) c') =
      (cubicCell F 2 names).shift 2 (sizes [n, n]) (![-c' 1, c' 0] : Fin 2 → ℤ)
    have s0 : (sizes [n, n] : Fin 2 → ℕ) 0 = n := rfl
    have s1 : (sizes [n, n] : Fin 2 → ℕ) 1 = n := rfl
    rw [cubicCell_shift, cubicCell_shift]
    funext l
    fin_cases l <;> simp [Matrix.mulVec, dotProduct, Fin.sum_univ_two, s0, s1]

/-- **C108** (rotations): four rotations of a periodic `n` by `n` square lattice by 90 degrees are the identity. -/
theorem C108_rotation [FloorRing F] {names : List ω} (hn : names.Nodup) (dflt : ω) (n : ℕ) {tol : F} (ht : tol < 1) (k : ℕ) :
    ∃ (L : Lattice F ω (List ℤ)) (T P : Transformation K), square n n (some [true, true]) (some names) dflt tol (decimals k) = .ok L ∧
      spaceGroupSymmetry L [[0, -1], [1, 0]] [0, 0] = .ok T ∧ T.pow 4 = .ok P ∧
      ∀ t s, TypedString t (siteLabels L.len) s → s.Canonical → P.Sends s 1 s := by
  have r4 : (!![0, -1; 1, 0] : Matrix (Fin 2) (Fin 2) F) ^ 4 = 1 := by
    rw [show (4 : ℕ) = 2 + 2 from rfl, pow_add, pow_two]
    ext i j; fin_cases i <;> fin_cases j <;> simp [Matrix.mul_apply, Fin.sum_univ_two]
  obtain ⟨L, T, P, h1, h2, h3, h4⟩ := C108_power (K := K) (N := [n, n]) (periodic := some [true, true]) (cubicCell_wf (F := F) 2 names)
    (fun p h => by cases h; rfl) (cubicCell_primitive (F := F) 2 hn) (cubicCell_resolved (F := F) 2 names ht k (fun _ => True))
    (rotation_isSymmetry n names) (n := 4) (by norm_num) r4 (by
      have : ∀ m, iteratedShift (!![0, -1; 1, 0] : Matrix (Fin 2) (Fin 2) F) 0 m = 0 := fun m => by
        induction m with
        | zero => rfl
        | succ m ih => rw [iteratedShift, ih, Matrix.mulVec_zero, add_zero]
      exact (this 4).symm ▸ .zero)
  refine ⟨L, T, P, h1, ?_, h3, h4⟩
  rw [← h2]
  congr 1

/-! ### matrices -/

private theorem mapM_congr_mem {α β : Type} {f g : α → Py β} : ∀ {l : List α}, (∀ x ∈ l, f x = g x) → l.mapM f = l.mapM g
  | [], _ => rfl
  | x :: l, h => by
    rw [List.mapM_cons, List.mapM_cons, h x (by simp), mapM_congr_mem fun y hy => h y (by simp [hy])]

private theorem symmetryMatrix_congr {b : Basis} {T T' : Transformation K} (h : ∀ s ∈ b.strs, T s = T' s) : symmetryMatrix b T = symmetryMatrix b T' := by
  rw [symmetryMatrix, symmetryMatrix, mapM_congr_mem fun e he => by rw [h e.1 (List.fst_mem_of_mem_zipIdx he)]]

/-- **C108** (matrices): the symmetry matrices of a basis closed under the symmetries multiply like the symmetries. -/
theorem C108_matrix (hu : u.WF N.length) (hp : ∀ p, periodic = some p → p.length = N.length) (hprim : u.Primitive N.length)
    (hres : u.Resolved N.length tol render (fun _ => True)) {R R' R'' : Matrix (Fin N.length) (Fin N.length) F} {d d' d'' : Fin N.length → F}
    (h : u.IsSymmetry N periodic R d) (h' : u.IsSymmetry N periodic R' d') (h'' : u.IsSymmetry N periodic R'' d'')
    (hR : R'' = R * R') (hd : u.IsPeriod N periodic (R.mulVec d' + d - d'')) :
    ∃ (L : Lattice F ω ν) (T T' T'' : Transformation K), mkLattice u N periodic tol render = .ok L ∧
      spaceGroupSymmetry L (List.ofFn fun i => List.ofFn (R i)) (List.ofFn d) = .ok T ∧
      spaceGroupSymmetry L (List.ofFn fun i => List.ofFn (R' i)) (List.ofFn d') = .ok T' ∧
      spaceGroupSymmetry L (List.ofFn fun i => List.ofFn (R'' i)) (List.ofFn d'') = .ok T'' ∧
      ∀ (t : OpType) (b : Basis), b.Inv → (∀ s ∈ b.strs, TypedString t (siteLabels L.len) s) →
        (∀ s ∈ b.strs, ∀ O, T s = .ok O ∨ T' s = .ok O → ∀ s' ∈ O.basis.strs, s' ∈ b.strs) →
        ∃ M M' M'', symmetryMatrix b T = .ok M ∧ symmetryMatrix b T' = .ok M' ∧ symmetryMatrix b T'' = .ok M'' ∧
          ∀ i j (_ : i < b.strs.length) (_ : j < b.strs.length), M''.get i j = ∑ k : Fin b.strs.length, M.get i k * M'.get k j := by
  obtain ⟨L, h1, h2⟩ := mkLattice_ok hu hp tol render
  obtain ⟨p, p1, p2, p3, p4⟩ := h2.symmetry (K := K) hu hprim hres h
  obtain ⟨q, q1, q2, q3, q4⟩ := h2.symmetry (K := K) hu hprim hres h'
  obtain ⟨r, r1, r2, r3, r4⟩ := h2.symmetry (K := K) hu hprim hres h''
  have e : ∀ l ∈ siteLabels L.len, (relabelMap (labelsOf p) ∘ relabelMap (labelsOf q)) l = relabelMap (labelsOf r) l :=
    h2.moves_unique hu hprim hres (hR ▸ (p4.comp (fun x => (h.periods x).mpr) q4).shift hd) r4
  refine ⟨L, _, _, _, h1, p3, q3, r3, fun t b hb hs hcl => ?_⟩
  have hP := (RelabelRule.perm (K := K) p1 p2 t).2.2
  have hQ := (RelabelRule.perm (K := K) q1 q2 t).2.2
  have str : ∀ s ∈ b.strs, (Transformation.mul (labelPermutation (labelsOf p)) (labelPermutation (labelsOf q) : Transformation K)) s = labelPermutation (labelsOf r) s := fun s hs' =>
    ((RelabelRule.perm p1 p2 t).mul (RelabelRule.perm q1 q2 t)).congr (RelabelRule.perm r1 r2 t) e (hs s hs')
  have hP' : SignRule (labelPermutation (labelsOf p) : Transformation K) t (· ∈ b.strs) _ _ :=
    ⟨fun s h => hP.type s (hs s h), fun s h => hP.sends s (hs s h), fun s h => hP.sign s (hs s h),
      fun s h => hcl s h _ (.inl (hP.sends s (hs s h))) _ (by simp [Basis.ofList])⟩
  have hQ' : SignRule (labelPermutation (labelsOf q) : Transformation K) t (· ∈ b.strs) _ _ :=
    ⟨fun s h => hQ.type s (hs s h), fun s h => hQ.sends s (hs s h), fun s h => hQ.sign s (hs s h),
      fun s h => hcl s h _ (.inr (hQ.sends s (hs s h))) _ (by simp [Basis.ofList])⟩
  obtain ⟨M, M', M'', m1, m2, m3, m4⟩ := C41_mul hb hP'.maps hQ'.maps (hP'.noDrop hQ') (hP'.significant) (hQ'.significant) ((hP'.mul hQ').significant)
  refine ⟨M, M', M'', m1, m2, ?_, m4⟩
  rw [← m3]
  exact (symmetryMatrix_congr str).symm

/-! ### the hypotheses are met -/

/-- a ring of four sites: the translation by one cell and its square -/
example : CellTranslation [4] (some [true]) (fun _ => 1) ∧ CellTranslation [4] (some [true]) (fun _ => 1 + 1) ∧
    (cubicCell ℚ 1 ["A"]).WF 1 ∧ (cubicCell ℚ 1 ["A"]).Primitive 1 ∧ (cubicCell ℚ 1 ["A"]).Resolved 1 0 (decimals 8) (fun _ => True) := by
  refine ⟨?_, ?_, cubicCell_wf 1 _, cubicCell_primitive 1 (by simp), cubicCell_resolved 1 _ (by norm_num) 8 _⟩
  · unfold CellTranslation Period; decide
  · unfold CellTranslation Period; decide

end Qosy
