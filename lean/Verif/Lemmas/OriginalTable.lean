import Verif.Lemmas.LadderTable
import Verif.Spec.LadderOriginal

/-! # Exact numerical routines for `_ladder_operators_original`, used in examples -/

namespace Qosy
open Coef RealOps

/-- an executable form of `|d| ≤ 1e-8 + 1e-5 |b|` -/
def closeTo (d b : QI) : Bool :=
  let x := d.re * d.re + d.im * d.im - (1 / 10 ^ 8) ^ 2 - (1 / 10 ^ 5) ^ 2 * (b.re * b.re + b.im * b.im)
  decide (x ≤ 0 ∨ x * x ≤ 4 * (1 / 10 ^ 8) ^ 2 * (1 / 10 ^ 5) ^ 2 * (b.re * b.re + b.im * b.im))

theorem closeTo_iff (d b : QI) : closeTo d b = true ↔ ‖toC d‖ ≤ 1 / 10 ^ 8 + 1 / 10 ^ 5 * ‖toC b‖ := by
  have hd : ‖toC d‖ ^ 2 = ((d.re * d.re + d.im * d.im : ℚ) : ℝ) := QI.norm_toC d
  have hb : ‖toC b‖ ^ 2 = ((b.re * b.re + b.im * b.im : ℚ) : ℝ) := QI.norm_toC b
  have hd0 := norm_nonneg (toC d)
  have hb0 := norm_nonneg (toC b)
  generalize ‖toC d‖ = u at *
  generalize ‖toC b‖ = w at *
  simp only [closeTo, decide_eq_true_eq]
  rw [← Rat.cast_le (K := ℝ), ← Rat.cast_le (K := ℝ) (q := 4 * (1 / 10 ^ 8) ^ 2 * (1 / 10 ^ 5) ^ 2 * (b.re * b.re + b.im * b.im))]
  rw [Rat.cast_mul, Rat.cast_sub, Rat.cast_sub, Rat.cast_mul, Rat.cast_mul, ← hd, ← hb]
  push_cast
  have e : u ≤ 1 / 10 ^ 8 + 1 / 10 ^ 5 * w ↔ u ^ 2 ≤ (1 / 10 ^ 8 + 1 / 10 ^ 5 * w) ^ 2 := (sq_le_sq₀ hd0 (by positivity)).symm
  have e2 : u ^ 2 ≤ (1 / 10 ^ 8 + 1 / 10 ^ 5 * w) ^ 2 ↔ u ^ 2 - (1 / 10 ^ 8) ^ 2 - (1 / 10 ^ 5) ^ 2 * w ^ 2 ≤ 2 * (1 / 10 ^ 8) * (1 / 10 ^ 5) * w := by
    constructor <;> intro h <;> nlinarith
  rw [e, e2]
  generalize u ^ 2 - (1 / 10 ^ 8) ^ 2 - (1 / 10 ^ 5) ^ 2 * w ^ 2 = x
  have hc : 0 ≤ 2 * (1 / 10 ^ 8) * (1 / 10 ^ 5) * w := by positivity
  have e3 : 4 * (1 / 10 ^ 8) ^ 2 * (1 / 10 ^ 5) ^ 2 * w ^ 2 = (2 * (1 / 10 ^ 8) * (1 / 10 ^ 5) * w) ^ 2 := by ring
  rw [e3, ← sq]
  constructor
  · rintro (h | h)
    · exact h.trans hc
    · exact (le_abs_self x).trans (abs_le_of_sq_le_sq h hc)
  · intro h
    by_cases hx : x ≤ 0
    · exact .inl hx
    · exact .inr (by nlinarith)

/-- `np.allclose` -/
def exactAllclose (M N : Mat QI) : Bool := (List.range M.nrows).all fun i => (List.range M.ncols).all fun j => closeTo (M.get i j - N.get i j) (N.get i j)

/-- routines that know the results for some matrices and raise an exception for all others -/
def originalTable (eighs eigs : EigTable) : OriginalNumerics QI :=
  { tableNumerics [] eighs [] with sqrt := fun x => if x = 1 then .ok 1 else .error .valueError, eig := tableGet eigs, allclose := exactAllclose }

/-- a decidable form of `IsEig`, with the inverse of the matrix of eigenvectors -/
def checkEig (e : Mat QI × (List QI × List (List QI))) (dual : List (List QI)) : Bool :=
  decide (e.2.1.length = e.1.nrows) && decide (e.2.2.length = e.1.nrows) && e.2.2.all (fun v => decide (v.length = e.1.nrows)) &&
    e.2.2.all (fun v => decide (∑ j : Fin e.1.nrows, star (v.getD j 0) * v.getD j 0 = 1)) &&
    (e.2.1.zip e.2.2).all (fun p => (List.range e.1.nrows).all (fun i => decide (∑ j : Fin e.1.nrows, e.1.get i j * p.2.getD j 0 = p.1 * p.2.getD i 0))) &&
    (List.range e.1.nrows).all (fun i => (List.range e.1.nrows).all (fun j =>
      decide (∑ k : Fin e.1.nrows, (e.2.2.getD k []).getD i 0 * (dual.getD k []).getD j 0 = if i = j then 1 else 0)))

theorem checkEig_ok {M : Mat QI} {r : List QI × List (List QI)} {dual : List (List QI)} (h : checkEig (M, r) dual = true) : IsEig M r := by
  simp only [checkEig, Bool.and_eq_true, List.all_eq_true, decide_eq_true_eq, List.mem_range] at h
  obtain ⟨⟨⟨⟨⟨h1, h2⟩, h3⟩, h4⟩, h5⟩, h6⟩ := h
  exact ⟨h1, h2, h3, h4, h5, fun _ => ⟨dual, fun i j hi hj => h6 i hi j hj⟩⟩

theorem originalTable_ok {eighs eigs : EigTable} (h1 : eighs.all checkEigh = true) (h2 : ∀ e ∈ eigs, ∃ dual, checkEig e dual = true) : IsOriginalNumerics (originalTable eighs eigs) where
  ladder := { tableNumerics_ok (svds := []) (eighs := eighs) (pinvs := []) (by simp) h1 (by simp) with
    sqrt := fun x y _ _ h => by
      simp only [originalTable] at h
      split at h
      · rename_i hx
        cases h
        refine ⟨by decide +kernel, ?_, by rw [hx]; decide +kernel⟩
        have : toR (1 : QI) = ((1 : QI).re : ℝ) := rfl
        rw [this]; exact_mod_cast (by decide +kernel : (0 : ℚ) ≤ (1 : QI).re)
      · cases h }
  eig M r _ h := let ⟨_, hd⟩ := h2 _ (tableGet_ok h); checkEig_ok hd
  allclose M N _ _ := by
    show exactAllclose M N = true ↔ _
    simp only [exactAllclose, List.all_eq_true, List.mem_range, closeTo_iff, IsAllclose]
    exact ⟨fun h i j hi hj => h i hi j hj, fun h i hi j hj => h i j hi hj⟩

theorem originalTable_orthogonal {eighs eigs : EigTable} (h : eigs.all (fun e => checkOrtho e.1.nrows e.2.2) = true) : OrthogonalEig (originalTable eighs eigs) :=
  fun M r _ hr => (checkOrtho_ok (List.all_eq_true.mp h _ (tableGet_ok hr))).orthogonal

end Qosy
