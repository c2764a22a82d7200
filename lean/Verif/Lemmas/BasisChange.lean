import Verif.Spec.BasisChange
import Verif.Lemmas.Adjoint

/-! # Lemmas for C106 -/

namespace Qosy
open Coef
variable {K : Type} [Field K] [StarRing K] [Coef K]
variable {𝔸 : Type} [Ring 𝔸] [Algebra K 𝔸]

omit [StarRing K] [Coef K] in
theorem BasisArg.den_eq (x : BasisArg K) (d : OpString → 𝔸) : x.den d = x.elementTerms.map (denT d) := by
  cases x with
  | strings b => simp [BasisArg.den, BasisArg.elementTerms, denT]
  | operators l => simp [BasisArg.den, BasisArg.elementTerms, Operator.den]

omit [StarRing K] [Coef K] in
theorem BasisArg.den_length (x : BasisArg K) (d : OpString → 𝔸) : (x.den d).length = x.size := by
  rw [x.den_eq, List.length_map]; rfl

omit [StarRing K] [Coef K] in
theorem BasisArg.den_getD (x : BasisArg K) (d : OpString → 𝔸) {j : ℕ} (hj : j < x.size) : ((x.den d)[j]?).getD 0 = denT d (x.elementTerms.getD j []) := by
  rw [x.den_eq, List.getElem?_map, List.getElem?_eq_getElem hj, List.getD_eq_getElem _ _ hj]; rfl

omit [StarRing K] [Coef K] in
theorem coefT_flatMap {α : Type} (l : List α) (g : α → List (K × OpString)) (s : OpString) : coefT (l.flatMap g) s = (l.map fun a => coefT (g a) s).sum := by
  induction l with
  | nil => simp
  | cons a l ih => rw [List.flatMap_cons, coefT_append, ih, List.map_cons, List.sum_cons]

theorem list_range_sum {M : Type} [AddCommMonoid M] (f : ℕ → M) (n : ℕ) : ((List.range n).map f).sum = ∑ k ∈ Finset.range n, f k := by
  induction n with
  | zero => simp
  | succ n ih => rw [List.range_succ, List.map_append, List.sum_append, ih, Finset.sum_range_succ]; simp

omit [StarRing K] [Coef K] in
theorem LinearCombinations.den {x y : BasisArg K} {U : ℕ → ℕ → K} (h : LinearCombinations x y U) (d : OpString → 𝔸) {j : ℕ} (hj : j < y.size) :
    ((y.den d)[j]?).getD 0 = ∑ k ∈ Finset.range x.size, U k j • ((x.den d)[k]?).getD 0 := by
  rw [y.den_getD d hj, denT_congr d (b := (List.range x.size).flatMap fun k => (x.elementTerms.getD k []).map fun t => (U k j * t.1, t.2)) (fun s => ?_)]
  · rw [denT_flatMap]
    simp only [denT_map_smul]
    rw [list_range_sum]
    exact Finset.sum_congr rfl fun k hk => by rw [x.den_getD d (Finset.mem_range.mp hk)]
  · rw [coefT_flatMap]
    simp only [coefT_map_smul]
    rw [list_range_sum]
    exact h j hj s

/-- the columns of the Liouvillian matrix are linear in the elements of the basis -/
theorem StrAlg.liouvillian_change [Nontrivial 𝔸] (R : StrAlg K 𝔸) {mode : Mode} {x y : BasisArg K} {o : 𝔸} {U : ℕ → ℕ → K} (h : LinearCombinations x y U)
    {L L' : Mat K} {ext ext' : Basis} (hL : LiouvilleOK R.den R.Str mode (x.den R.den).length (fun j => ((x.den R.den)[j]?).getD 0) o L ext)
    (hL' : LiouvilleOK R.den R.Str mode (y.den R.den).length (fun j => ((y.den R.den)[j]?).getD 0) o L' ext') {j : ℕ} (hj : j < y.size) (s : OpString) :
    L'.coefAt ext' j s = ∑ k ∈ Finset.range x.size, U k j * L.coefAt ext k s := by
  rw [← coefT_colTerms hL'.ext_inv.2]
  rw [R.coefT_eq (us := (List.range x.size).flatMap fun k => (colTerms L ext k).map fun t => (U k j * t.1, t.2))
    (fun t ht => hL'.ext_str _ (mem_colTerms ht)) (fun t ht => by
      obtain ⟨k, -, hu⟩ := List.mem_flatMap.mp ht
      obtain ⟨v, hv, rfl⟩ := List.mem_map.mp hu
      exact hL.ext_str v.2 (mem_colTerms hv)) (by
      rw [denT_colTerms, hL'.col j (by rw [y.den_length]; exact hj), h.den R.den hj, denT_flatMap, list_range_sum]
      simp only [denT_map_smul, denT_colTerms]
      rw [Finset.sum_range, bracketOf_sum_left, Finset.sum_range]
      exact Finset.sum_congr rfl fun k _ => by rw [hL.col k (by rw [x.den_length]; exact k.2), bracketOf_smul_left])]
  rw [coefT_flatMap]
  simp only [coefT_map_smul, coefT_colTerms hL.ext_inv.2]
  rw [list_range_sum]

/-- the commutant matrix is the matrix of inner products of the columns of the Liouvillian matrix -/
theorem commutant_coefAt {L C : Mat K} {ext : Basis} (hn : ext.strs.Nodup) (hr : L.nrows = ext.len)
    (hC : ∀ i j, C.get i j = ∑ k : Fin L.nrows, star (L.get k i) * L.get k j) (S : Finset OpString) (hS : ∀ s ∈ ext.strs, s ∈ S) (i j : ℕ) :
    C.get i j = ∑ s ∈ S, star (L.coefAt ext i s) * L.coefAt ext j s := by
  have e : ∑ s ∈ S, star (L.coefAt ext i s) * L.coefAt ext j s = ∑ s ∈ ext.strs.toFinset, star (L.coefAt ext i s) * L.coefAt ext j s := by
    symm
    apply Finset.sum_subset (fun s hs => hS s (List.mem_toFinset.mp hs))
    intro s _ hs
    rw [List.mem_toFinset] at hs
    simp [Mat.coefAt, hs]
  rw [e, List.sum_toFinset _ hn, hC]
  have e2 : (ext.strs.map fun s => star (L.coefAt ext i s) * L.coefAt ext j s) = (List.range ext.strs.length).map fun k => star (L.get k i) * L.get k j := by
    refine List.ext_getElem (by simp) fun k h1 h2 => ?_
    simp only [List.getElem_map, List.getElem_range, Mat.coefAt, List.getElem_mem, if_true]
    rw [hn.idxOf_getElem]
  rw [e2, list_range_sum, Finset.sum_range, show L.nrows = ext.strs.length from hr]

theorem StrAlg.commutant_change [Nontrivial 𝔸] (R : StrAlg K 𝔸) (mode : Mode) {x y : BasisArg K} (hx : x.All R.Str) (hnx : x ≠ .operators [])
    (hy : y.All R.Str) (hny : y ≠ .operators []) {O : Operator K} (hO : ∀ s ∈ O.basis.strs, R.Str s) {U : ℕ → ℕ → K} (h : LinearCombinations x y U) :
    ∃ L ext L' ext' C C', liouvillianMatrix x O mode = .ok (L, ext) ∧ liouvillianMatrix y O mode = .ok (L', ext') ∧
      commutantMatrix x O mode = .ok (C, ext) ∧ commutantMatrix y O mode = .ok (C', ext') ∧
      (∀ j < y.size, ∀ s, L'.coefAt ext' j s = ∑ k ∈ Finset.range x.size, U k j * L.coefAt ext k s) ∧
      ∀ i < y.size, ∀ j < y.size, C'.get i j = ∑ k ∈ Finset.range x.size, ∑ l ∈ Finset.range x.size, star (U k i) * C.get k l * U l j := by
  obtain ⟨L, C, ext, a1, a2, a3, -, -, a6⟩ := R.commutant_ok mode hx hnx hO
  obtain ⟨L', C', ext', b1, b2, b3, -, -, b6⟩ := R.commutant_ok mode hy hny hO
  have key := fun j (hj : j < y.size) s => R.liouvillian_change h a3 b3 hj s
  refine ⟨L, ext, L', ext', C, C', a1, b1, a2, b2, key, fun i hi j hj => ?_⟩
  classical
  let S : Finset OpString := ext.strs.toFinset ∪ ext'.strs.toFinset
  rw [commutant_coefAt b3.ext_inv.2 b3.nrows b6 S (fun s hs => by simp [S, hs])]
  simp only [commutant_coefAt a3.ext_inv.2 a3.nrows a6 S (fun s hs => by simp [S, hs]), key i hi, key j hj, star_sum, star_mul', Finset.sum_mul, Finset.mul_sum]
  have swap : ∀ (f : OpString → ℕ → ℕ → K), ∑ s ∈ S, ∑ l ∈ Finset.range x.size, ∑ k ∈ Finset.range x.size, f s k l =
      ∑ k ∈ Finset.range x.size, ∑ l ∈ Finset.range x.size, ∑ s ∈ S, f s k l := by
    intro f
    rw [Finset.sum_comm]
    rw [Finset.sum_congr rfl fun l _ => Finset.sum_comm]
    exact Finset.sum_comm
  rw [swap]
  refine Finset.sum_congr rfl fun k _ => Finset.sum_congr rfl fun l _ => Finset.sum_congr rfl fun s _ => ?_
  ring

end Qosy
