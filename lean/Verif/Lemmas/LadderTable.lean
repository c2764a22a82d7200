import Verif.Spec.Ladder
import Verif.Lemmas.DiagNumerics

/-! # Exact numerical routines given by tables, used in examples -/

namespace Qosy
open Coef RealOps

/-- the entry of a table -/
def tableGet {α β : Type} [DecidableEq α] (t : List (α × β)) (x : α) : Py β :=
  match t.find? (fun e => decide (e.1 = x)) with
  | some e => .ok e.2
  | none => .error .valueError

theorem tableGet_ok {α β : Type} [DecidableEq α] {t : List (α × β)} {x : α} {y : β} (h : tableGet t x = .ok y) : (x, y) ∈ t := by
  unfold tableGet at h
  split at h
  · rename_i e he
    have h1 := List.mem_of_find?_eq_some he
    have h2 := List.find?_some he
    simp only [decide_eq_true_eq] at h2
    cases h
    rwa [← h2]
  · cases h

instance : DecidablePred (IsReal : QI → Prop) := fun x => inferInstanceAs (Decidable (star x = x))

abbrev EigTable := List (Mat QI × (List QI × List (List QI)))

/-- routines that know the results for some matrices and raise an exception for all others -/
def tableNumerics (svds eighs : EigTable) (pinvs : List (Mat QI × Mat QI)) : LadderNumerics QI where
  svd := tableGet svds
  eigh := tableGet eighs
  pinv := tableGet pinvs
  argsort := diagArgsort
  sqrt := fun x => if IsReal (ratSqrt x) ∧ 0 ≤ (ratSqrt x).re ∧ ratSqrt x ^ 2 = x then .ok (ratSqrt x) else .error .valueError
  sparsify := fun _ => .error .valueError

/-- a decidable form of `OrthonormalVectors` -/
def checkOrtho (n : ℕ) (l : List (List QI)) : Bool :=
  l.all (fun v => decide (v.length = n)) && l.all (fun v => decide (∑ j : Fin n, star (v.getD j 0) * v.getD j 0 = 1)) &&
    decide (l.Pairwise (fun v w => ∑ j : Fin n, star (v.getD j 0) * w.getD j 0 = 0))

theorem checkOrtho_ok {n : ℕ} {l : List (List QI)} (h : checkOrtho n l = true) : OrthonormalVectors n l := by
  simp only [checkOrtho, Bool.and_eq_true, List.all_eq_true, decide_eq_true_eq] at h
  exact ⟨h.1.1, h.1.2, h.2⟩

def checkSvd (e : Mat QI × (List QI × List (List QI))) : Bool :=
  decide (e.2.1.length = min e.1.nrows e.1.ncols) && decide (e.2.2.length = e.1.ncols) && checkOrtho e.1.ncols e.2.2 &&
    (List.range e.2.2.length).all (fun i => (List.range e.1.ncols).all (fun j =>
      decide (∑ k : Fin e.1.nrows, star (e.1.get k j) * ∑ l : Fin e.1.ncols, e.1.get k l * (e.2.2.getD i []).getD l 0 = e.2.1.getD i 0 ^ 2 * (e.2.2.getD i []).getD j 0)))

theorem checkSvd_ok {M : Mat QI} {r : List QI × List (List QI)} (h : checkSvd (M, r) = true) : IsSvd M r := by
  simp only [checkSvd, Bool.and_eq_true, List.all_eq_true, decide_eq_true_eq, List.mem_range] at h
  obtain ⟨⟨⟨h1, h2⟩, h3⟩, h4⟩ := h
  refine ⟨h1, h2, checkOrtho_ok h3, fun i v hv j hj => ?_⟩
  obtain ⟨hi, rfl⟩ := List.getElem?_eq_some_iff.mp hv
  have := h4 i hi j hj
  rwa [List.getD_eq_getElem _ _ hi] at this

def checkEigh (e : Mat QI × (List QI × List (List QI))) : Bool :=
  decide (e.2.1.length = e.1.nrows) && decide (e.2.1.length = e.2.2.length) && checkOrtho e.1.nrows e.2.2 &&
    (e.2.1.zip e.2.2).all (fun p => (List.range e.1.nrows).all (fun i => decide (∑ j : Fin e.1.nrows, e.1.get i j * p.2.getD j 0 = p.1 * p.2.getD i 0))) &&
    e.2.1.all (fun x => decide (IsReal x)) &&
    (decide (∃ i : Fin e.1.nrows, ∃ j : Fin e.1.nrows, ¬ IsReal (e.1.get i j)) || e.2.2.all (fun v => v.all (fun x => decide (IsReal x))))

theorem checkEigh_ok {M : Mat QI} {r : List QI × List (List QI)} (h : checkEigh (M, r) = true) : IsEigenpairs M M.nrows r ∧ r.1.length = M.nrows := by
  simp only [checkEigh, Bool.and_eq_true, Bool.or_eq_true, List.all_eq_true, decide_eq_true_eq, List.mem_range] at h
  obtain ⟨⟨⟨⟨⟨h1, h2⟩, h3⟩, h4⟩, h5⟩, h6⟩ := h
  have h3' := checkOrtho_ok h3
  refine ⟨⟨h2, h3'.dim, h3'.unit, h3'.orthogonal, h4, h5, fun hr => ?_⟩, h1⟩
  rcases h6 with ⟨i, j, hij⟩ | h6
  · exact absurd (hr i j i.2 j.2) hij
  · exact h6

theorem tableNumerics_ok {svds eighs : EigTable} {pinvs : List (Mat QI × Mat QI)} (h1 : svds.all checkSvd = true) (h2 : eighs.all checkEigh = true)
    (h3 : ∀ e ∈ pinvs, e.2.nrows = e.1.ncols ∧ e.2.ncols = e.1.nrows ∧ ∀ v : ℕ → QI, ∀ i, i < e.1.nrows → e.1.mulVec (e.2.mulVec (e.1.mulVec v)) i = e.1.mulVec v i) :
    IsLadderNumerics (tableNumerics svds eighs pinvs) where
  svd M r h := checkSvd_ok (List.all_eq_true.mp h1 _ (tableGet_ok h))
  eigh M r _ h := checkEigh_ok (List.all_eq_true.mp h2 _ (tableGet_ok h))
  pinv M P h := h3 _ (tableGet_ok h)
  argsort := diagArgsort_ok
  sqrt x y _ _ h := by
    simp only [tableNumerics] at h
    split at h
    · rename_i hh
      cases h
      refine ⟨hh.1, ?_, hh.2.2⟩
      have : toR (ratSqrt x) = ((ratSqrt x).re : ℝ) := rfl
      rw [this]; exact_mod_cast hh.2.1
    · cases h
  sparsify n l r _ h := by cases h

/-- a decidable form of the contract of `pinv` -/
def checkPinv (e : Mat QI × Mat QI) : Bool :=
  decide (e.2.nrows = e.1.ncols) && decide (e.2.ncols = e.1.nrows) &&
    (List.range e.1.nrows).all (fun i => (List.range e.1.ncols).all (fun j =>
      decide (∑ k : Fin e.1.ncols, ∑ l : Fin e.2.ncols, e.1.get i k * e.2.get k l * e.1.get l j = e.1.get i j)))

theorem checkPinv_ok {e : Mat QI × Mat QI} (h : checkPinv e = true) : e.2.nrows = e.1.ncols ∧ e.2.ncols = e.1.nrows ∧
    ∀ v : ℕ → QI, ∀ i, i < e.1.nrows → e.1.mulVec (e.2.mulVec (e.1.mulVec v)) i = e.1.mulVec v i := by
  simp only [checkPinv, Bool.and_eq_true, List.all_eq_true, decide_eq_true_eq, List.mem_range] at h
  obtain ⟨⟨h1, h2⟩, h3⟩ := h
  refine ⟨h1, h2, fun v i hi => ?_⟩
  have e1 : e.1.mulVec (e.2.mulVec (e.1.mulVec v)) i = ∑ j : Fin e.1.ncols, (∑ k : Fin e.1.ncols, ∑ l : Fin e.2.ncols, e.1.get i k * e.2.get k l * e.1.get l j) * v j := by
    simp only [Mat.mulVec, Finset.mul_sum, Finset.sum_mul]
    calc _ = ∑ k : Fin e.1.ncols, ∑ j : Fin e.1.ncols, ∑ l : Fin e.2.ncols, e.1.get i k * (e.2.get k l * (e.1.get l j * v j)) := Finset.sum_congr rfl fun k _ => Finset.sum_comm
      _ = ∑ j : Fin e.1.ncols, ∑ k : Fin e.1.ncols, ∑ l : Fin e.2.ncols, e.1.get i k * (e.2.get k l * (e.1.get l j * v j)) := Finset.sum_comm
      _ = _ := Finset.sum_congr rfl fun j _ => Finset.sum_congr rfl fun k _ => Finset.sum_congr rfl fun l _ => by ring
  rw [e1, Mat.mulVec]
  exact Finset.sum_congr rfl fun j _ => by rw [h3 i hi j j.2]

/-- the same routines with a `sparsify` that changes nothing -/
def LadderNumerics.plain (num : LadderNumerics QI) : LadderNumerics QI := { num with sparsify := fun l => .ok l }

theorem plain_ok {num : LadderNumerics QI} (h : IsLadderNumerics num) : IsLadderNumerics num.plain where
  svd := h.svd
  eigh := h.eigh
  pinv := h.pinv
  argsort := h.argsort
  sqrt := h.sqrt
  sparsify n l r hl hr := by
    cases hr
    have hself : ∀ v ∈ l, IsColumnCombination n l v := by
      intro v hv
      obtain ⟨i, hi, rfl⟩ := List.getElem_of_mem hv
      refine ⟨fun k => if k = i then 1 else 0, fun j _ => ?_⟩
      rw [Finset.sum_eq_single ⟨i, hi⟩]
      · simp
      · intro b _ hb
        have : (b : ℕ) ≠ i := fun e => hb (Fin.ext e)
        simp [this]
      · simp
    exact ⟨rfl, fun w hw => ⟨hl.dim w hw, hl.unit w hw, hself w hw⟩, hself⟩

end Qosy
