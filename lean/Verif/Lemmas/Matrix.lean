import Verif.Spec.Matrix
import Verif.Lemmas.Operator

/-! # Lemmas about sparse matrices -/

namespace Qosy
variable {K : Type} [Field K] [StarRing K] [CoefOps K]

/-- the entry of a list of coordinate triples -/
def tget (D : List (ℕ × ℕ × K)) (i j : ℕ) : K := (D.map (fun e => if e.1 = i ∧ e.2.1 = j then e.2.2 else 0)).sum

theorem Mat.get_eq (M : Mat K) (i j : ℕ) : M.get i j = tget M.data i j := rfl

@[simp] theorem tget_nil (i j : ℕ) : tget ([] : List (ℕ × ℕ × K)) i j = 0 := rfl

@[simp] theorem tget_cons (e : ℕ × ℕ × K) (D : List (ℕ × ℕ × K)) (i j : ℕ) :
    tget (e :: D) i j = (if e.1 = i ∧ e.2.1 = j then e.2.2 else 0) + tget D i j := rfl

@[simp] theorem tget_append (D E : List (ℕ × ℕ × K)) (i j : ℕ) : tget (D ++ E) i j = tget D i j + tget E i j := by
  simp [tget]

/-- all coordinates are inside the shape -/
def Mat.WF (M : Mat K) : Prop := ∀ e ∈ M.data, e.1 < M.nrows ∧ e.2.1 < M.ncols

theorem tget_eq_zero {D : List (ℕ × ℕ × K)} {i j : ℕ} (h : ∀ e ∈ D, e.1 ≠ i ∨ e.2.1 ≠ j) : tget D i j = 0 := by
  induction D with
  | nil => rfl
  | cons e D ih =>
    rw [tget_cons, ih (fun f hf => h f (List.mem_cons_of_mem _ hf)), if_neg, add_zero]
    have := h e (List.mem_cons_self ..)
    tauto

theorem mkCsr_ok {D : List (ℕ × ℕ × K)} {m n : ℕ} (h : ∀ e ∈ D, e.1 < m ∧ e.2.1 < n) : mkCsr D m n = .ok ⟨m, n, D⟩ := by
  rw [mkCsr, if_pos]
  rw [List.all_eq_true]
  intro e he
  simp [h e he]

theorem Mat.add_ok {M N : Mat K} (h1 : M.nrows = N.nrows) (h2 : M.ncols = N.ncols) :
    M.add N = .ok ⟨M.nrows, M.ncols, M.data ++ N.data⟩ := by
  rw [Mat.add, if_neg (by simp [h1, h2])]

@[simp] theorem Mat.smul_get (c : K) (M : Mat K) (i j : ℕ) : (M.smul c).get i j = c * M.get i j := by
  rw [Mat.get_eq, Mat.get_eq, Mat.smul]
  induction M.data with
  | nil => simp
  | cons e D ih =>
    rw [List.map_cons, tget_cons, tget_cons, ih, mul_add]
    split <;> simp

theorem Mat.smul_wf {c : K} {M : Mat K} (h : M.WF) : (M.smul c).WF := by
  intro e he
  obtain ⟨f, hf, rfl⟩ := List.mem_map.mp he
  exact h f hf

@[simp] theorem Mat.getH_get (M : Mat K) (i j : ℕ) : M.getH.get i j = star (M.get j i) := by
  rw [Mat.get_eq, Mat.get_eq, Mat.getH]
  induction M.data with
  | nil => simp
  | cons e D ih =>
    rw [List.map_cons, tget_cons, tget_cons, ih, star_add]
    congr 1
    by_cases h : e.1 = j ∧ e.2.1 = i
    · rw [if_pos ⟨h.2, h.1⟩, if_pos h]
    · rw [if_neg (fun k => h ⟨k.2, k.1⟩), if_neg h, star_zero]

theorem Mat.getH_wf {M : Mat K} (h : M.WF) : M.getH.WF := by
  intro e he
  obtain ⟨f, hf, rfl⟩ := List.mem_map.mp he
  exact ⟨(h f hf).2, (h f hf).1⟩

theorem tget_row (D : List (ℕ × ℕ × K)) (r c : ℕ) (v : K) (i j : ℕ) :
    tget ((D.filter (fun f => decide (f.1 = c))).map (fun f => (r, f.2.1, v * f.2.2))) i j = if r = i then v * tget D c j else 0 := by
  induction D with
  | nil => simp
  | cons f D ih =>
    by_cases hf : f.1 = c
    · rw [List.filter_cons_of_pos (by simpa using hf), List.map_cons, tget_cons, ih, tget_cons]
      by_cases hr : r = i
      · by_cases hj : f.2.1 = j <;> simp [hr, hf, hj, mul_add]
      · simp [hr]
    · rw [List.filter_cons_of_neg (by simpa using hf), ih, tget_cons]
      simp [hf]

theorem tget_dot {D E : List (ℕ × ℕ × K)} {n : ℕ} (h : ∀ e ∈ D, e.2.1 < n) (i j : ℕ) :
    tget (D.flatMap (fun e => (E.filter (fun f => decide (f.1 = e.2.1))).map (fun f => (e.1, f.2.1, e.2.2 * f.2.2)))) i j =
      ∑ k : Fin n, tget D i k * tget E k j := by
  induction D with
  | nil => simp
  | cons e D ih =>
    rw [List.flatMap_cons, tget_append, ih (fun f hf => h f (List.mem_cons_of_mem _ hf)), tget_row]
    simp only [tget_cons, add_mul, Finset.sum_add_distrib]
    congr 1
    have hk := h e (List.mem_cons_self ..)
    rw [Finset.sum_eq_single (⟨e.2.1, hk⟩ : Fin n)]
    · by_cases h1 : e.1 = i <;> simp [h1]
    · intro k _ hne
      have : e.2.1 ≠ k := fun h => hne (Fin.ext h.symm)
      simp [this]
    · simp

theorem Mat.dot_ok {M N : Mat K} (hM : M.WF) (hN : N.WF) (h : M.ncols = N.nrows) :
    ∃ P : Mat K, M.dot N = .ok P ∧ P.nrows = M.nrows ∧ P.ncols = N.ncols ∧ P.WF ∧
      ∀ i j, P.get i j = ∑ k : Fin M.ncols, M.get i k * N.get k j := by
  refine ⟨_, if_neg (not_not.mpr h), rfl, rfl, ?_, ?_⟩
  · intro e he
    obtain ⟨f, hf, hf'⟩ := List.mem_flatMap.mp he
    obtain ⟨g, hg, rfl⟩ := List.mem_map.mp hf'
    exact ⟨(hM f hf).1, (hN g (List.mem_of_mem_filter hg)).2⟩
  · intro i j
    exact tget_dot (fun e he => (hM e he).2) i j

/-- a sum of scalar multiples of matrices -/
theorem matSum_ok {α : Type} {m n : ℕ} (c : α → K) (f : α → Py (Mat K)) :
    ∀ (l : List α) (L : Mat K), L.nrows = m → L.ncols = n → L.WF →
      (∀ t ∈ l, ∃ M, f t = .ok M ∧ M.nrows = m ∧ M.ncols = n ∧ M.WF) →
    ∃ L', l.foldlM (fun L t => do let M ← f t; L.add (M.smul (c t))) L = Except.ok L' ∧ L'.nrows = m ∧ L'.ncols = n ∧ L'.WF ∧
      ∀ i j, L'.get i j = L.get i j + (l.map (fun t => match f t with | .ok M => c t * M.get i j | .error _ => 0)).sum := by
  intro l
  induction l with
  | nil => intro L h1 h2 h3 _; exact ⟨L, rfl, h1, h2, h3, by simp⟩
  | cons t l ih =>
    intro L h1 h2 h3 hf
    obtain ⟨M, k1, k2, k3, k4⟩ := hf t (List.mem_cons_self ..)
    have hw : (⟨L.nrows, L.ncols, L.data ++ (M.smul (c t)).data⟩ : Mat K).WF := by
      intro e he
      rcases List.mem_append.mp he with he | he
      · exact h3 e he
      · have := Mat.smul_wf k4 e he
        simpa [h1, h2, k2, k3, Mat.smul] using this
    obtain ⟨L', g1, g2, g3, g4, g5⟩ := ih ⟨L.nrows, L.ncols, L.data ++ (M.smul (c t)).data⟩ h1 h2 hw
      (fun t' h' => hf t' (List.mem_cons_of_mem _ h'))
    refine ⟨L', ?_, g2, g3, g4, ?_⟩
    · rw [List.foldlM_cons, k1]
      simp only [bind, Except.bind]
      rw [Mat.add_ok (by simp [Mat.smul, h1, k2]) (by simp [Mat.smul, h2, k3])]
      exact g1
    · intro i j
      rw [g5, Mat.get_eq, tget_append, ← Mat.get_eq, ← Mat.get_eq (M.smul (c t)), Mat.smul_get, List.map_cons, List.sum_cons, k1]
      simp only [add_assoc]

end Qosy
