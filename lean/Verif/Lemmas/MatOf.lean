import Verif.Lemmas.Matrix
import Verif.Spec.Matrix
import Mathlib.LinearAlgebra.Matrix.ToLin
import Mathlib.LinearAlgebra.Basis.VectorSpace

/-! # Sparse matrices from matrices, and generalized inverses -/

namespace Qosy
variable {K : Type} [Field K] [StarRing K] [Coef K]

/-- the sparse matrix that stores all entries -/
def Mat.ofMatrix {m n : ℕ} (M : Matrix (Fin m) (Fin n) K) : Mat K :=
  ⟨m, n, (List.finRange m).flatMap (fun i : Fin m => (List.finRange n).map (fun j : Fin n => (i.val, j.val, M i j)))⟩

theorem Mat.ofMatrix_wf {m n : ℕ} (M : Matrix (Fin m) (Fin n) K) : (Mat.ofMatrix M).WF := by
  intro e he
  obtain ⟨i, -, he⟩ := List.mem_flatMap.mp he
  obtain ⟨j, -, rfl⟩ := List.mem_map.mp he
  exact ⟨i.2, j.2⟩

theorem sum_finRange {M : Type} [AddCommMonoid M] {n : ℕ} (f : Fin n → M) : ((List.finRange n).map f).sum = ∑ i, f i := by
  rw [← List.ofFn_eq_map, List.sum_ofFn]

theorem tget_flatMap {α : Type} (l : List α) (f : α → List (ℕ × ℕ × K)) (i j : ℕ) :
    tget (l.flatMap f) i j = (l.map (fun x => tget (f x) i j)).sum := by
  induction l with
  | nil => rfl
  | cons x l ih => rw [List.flatMap_cons, tget_append, ih, List.map_cons, List.sum_cons]

theorem Mat.ofMatrix_get {m n : ℕ} (M : Matrix (Fin m) (Fin n) K) (i : Fin m) (j : Fin n) : (Mat.ofMatrix M).get i j = M i j := by
  rw [Mat.get_eq, Mat.ofMatrix, tget_flatMap, sum_finRange, Finset.sum_eq_single i]
  · rw [tget, List.map_map, sum_finRange, Finset.sum_eq_single j]
    · simp
    · intro k _ hk
      have : ¬ ((k : ℕ) = (j : ℕ)) := fun h => hk (Fin.ext h)
      simp [this]
    · simp
  · intro k _ hk
    apply tget_eq_zero
    intro e he
    obtain ⟨l, -, rfl⟩ := List.mem_map.mp he
    left; exact fun h => hk (Fin.ext h)
  · simp

/-- every matrix has a generalized inverse -/
theorem exists_generalizedInverse {m n : ℕ} (C : Matrix (Fin m) (Fin n) K) : ∃ P : Matrix (Fin n) (Fin m) K, C * P * C = C := by
  let f := Matrix.toLin' C
  obtain ⟨g, hg⟩ := f.rangeRestrict.exists_rightInverse_of_surjective f.range_rangeRestrict
  obtain ⟨h, hh⟩ := LinearMap.exists_extend g
  refine ⟨LinearMap.toMatrix' h, ?_⟩
  have key : f ∘ₗ h ∘ₗ f = f := by
    ext1 x
    apply LinearMap.ext
    intro y
    simp only [LinearMap.comp_apply]
    have e1 : h (f (LinearMap.single K (fun _ => K) x y)) = g (f.rangeRestrict (LinearMap.single K (fun _ => K) x y)) := by
      rw [← hh]; rfl
    rw [e1]
    have e2 := LinearMap.congr_fun hg (f.rangeRestrict (LinearMap.single K (fun _ => K) x y))
    exact congrArg Subtype.val e2
  have := congrArg LinearMap.toMatrix' key
  rw [LinearMap.toMatrix'_comp, LinearMap.toMatrix'_comp] at this
  simp only [f, LinearMap.toMatrix'_toLin'] at this
  rw [Matrix.mul_assoc]
  exact this

/-- a function with the contract of a pseudo-inverse exists -/
theorem exists_pinv (K : Type) [Field K] [StarRing K] [Coef K] : ∃ pinv : Mat K → Py (Mat K), ∀ C : Mat K, C.WF → ∃ P, pinv C = .ok P ∧ P.WF ∧ P.nrows = C.ncols ∧
    P.ncols = C.nrows ∧ C.toMatrix * P.rect C.ncols C.nrows * C.toMatrix = C.toMatrix := by
  refine ⟨fun C => .ok (Mat.ofMatrix (exists_generalizedInverse C.toMatrix).choose), fun C _ => ⟨_, rfl, Mat.ofMatrix_wf _, rfl, rfl, ?_⟩⟩
  have e : (Mat.ofMatrix (exists_generalizedInverse C.toMatrix).choose).rect C.ncols C.nrows = (exists_generalizedInverse C.toMatrix).choose := by
    ext i j; exact Mat.ofMatrix_get _ i j
  rw [e]
  exact (exists_generalizedInverse C.toMatrix).choose_spec

end Qosy
