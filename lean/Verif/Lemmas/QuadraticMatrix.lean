import Verif.Lemmas.QuadraticConversion

/-! # The matrices of quadratic Hamiltonians -/

namespace Qosy
open Coef
variable {K : Type} [Field K] [StarRing K] [Coef K]

/-- a matrix assembled from the entries of the terms -/
theorem entries_matrix {f : K → OpString → Py (List (Int × Int × K))} {ts : List (K × OpString)} {m n : ℕ} {g : K × OpString → List (Int × Int × K)}
    (hg : ∀ t ∈ ts, f t.1 t.2 = .ok (g t)) (hr : ∀ t ∈ ts, ∀ e ∈ g t, (0 ≤ e.1 ∧ e.1 < m) ∧ 0 ≤ e.2.1 ∧ e.2.1 < n) :
    ∃ M : Mat K, (do let data ← entriesLoop f ts []; mkCsrInt data m n) = .ok M ∧ M.nrows = m ∧ M.ncols = n ∧
      (∀ i j, M.get i j = (ts.map (fun t => tget (natEntries (g t)) i j)).sum) ∧
      ∀ {𝔸 : Type} [Ring 𝔸] [Algebra K 𝔸] (F : ℕ → ℕ → 𝔸),
        ∑ i ∈ Finset.range m, ∑ j ∈ Finset.range n, M.get i j • F i j = (ts.map (fun t => formOf F (natEntries (g t)))).sum := by
  have hall : ∀ e ∈ ts.flatMap g, (0 ≤ e.1 ∧ e.1 < m) ∧ 0 ≤ e.2.1 ∧ e.2.1 < n := by
    intro e he
    obtain ⟨t, ht, he⟩ := List.mem_flatMap.mp he
    exact hr t ht e he
  refine ⟨⟨m, n, natEntries (ts.flatMap g)⟩, ?_, rfl, rfl, ?_, ?_⟩
  · rw [entriesLoop_ok ts [] hg]
    simp only [bind, Except.bind, List.nil_append]
    exact mkCsrInt_ok hall
  · intro i j
    show tget (natEntries (ts.flatMap g)) i j = _
    rw [natEntries_flatMap, tget_flatMap_terms]
  · intro 𝔸 _ _ F
    show ∑ i ∈ Finset.range m, ∑ j ∈ Finset.range n, tget (natEntries (ts.flatMap g)) i j • F i j = _
    rw [form_sum F _ (by
      intro e he
      obtain ⟨x, hx, rfl⟩ := List.mem_map.mp he
      have := hall x hx
      simp only; omega), natEntries_flatMap, formOf_flatMap]

theorem sum_map_smul_left {𝔸 : Type} [Ring 𝔸] [Algebra K 𝔸] {α : Type} (c : K) (f : α → 𝔸) : ∀ l : List α, (l.map (fun x => c • f x)).sum = c • (l.map f).sum
  | [] => by simp
  | x :: l => by simp only [List.map_cons, List.sum_cons, smul_add, sum_map_smul_left c f l]

theorem sum_neg_sum (l : List (K × OpString)) (f g : K × OpString → K) (h : ∀ t ∈ l, f t = -g t) : (l.map f).sum = -(l.map g).sum := by
  induction l with
  | nil => simp
  | cons x l ih =>
    simp only [List.map_cons, List.sum_cons]
    rw [ih (fun t ht => h t (List.mem_cons_of_mem _ ht)), h x (by simp)]
    ring

theorem star_sum' (l : List (K × OpString)) (f g : K × OpString → K) (h : ∀ t ∈ l, f t = star (g t)) : (l.map f).sum = star (l.map g).sum := by
  induction l with
  | nil => simp
  | cons x l ih =>
    simp only [List.map_cons, List.sum_cons, star_add]
    rw [ih (fun t ht => h t (List.mem_cons_of_mem _ ht)), h x (by simp)]

/-- the matrix of a quadratic Majorana operator -/
theorem quadratic_majorana {n : ℕ} {ts : List (K × OpString)} (hts : ∀ t ∈ ts, QuadraticMajorana n t.2) (hreal : ∀ t ∈ ts, star t.1 = t.1) :
    ∃ M : Mat K, (do let data ← entriesLoop quadraticEntries ts []; mkCsrInt data (2 * n) (2 * n)) = .ok M ∧ M.nrows = 2 * n ∧ M.ncols = 2 * n ∧
      (∀ i j, M.get i j = -M.get j i) ∧ (∀ i j, star (M.get i j) = M.get i j) ∧
      ∀ {𝔸 : Type} [Ring 𝔸] [Algebra K 𝔸] (R : MajoranaRep K 𝔸 (siteLabels n)),
        denT R.den ts = ∑ i ∈ Finset.range (2 * n), ∑ j ∈ Finset.range (2 * n), (I / 4 * M.get i j) • (R.γ i * R.γ j) := by
  have hex : ∀ t : K × OpString, ∃ es, t ∈ ts → _ := fun t => by
    by_cases ht : t ∈ ts
    · obtain ⟨es, h⟩ := quadraticEntries_ok t.1 (hts t ht)
      exact ⟨es, fun _ => h⟩
    · exact ⟨[], fun h => absurd h ht⟩
  choose g hg using hex
  obtain ⟨M, h1, h2, h3, h4, h5⟩ := entries_matrix (f := quadraticEntries) (ts := ts) (m := 2 * n) (n := 2 * n) (g := g)
    (fun t ht => (hg t ht).1) (fun t ht e he => (hg t ht).2.1 e he)
  refine ⟨M, h1, h2, h3, ?_, ?_, ?_⟩
  · intro i j
    rw [h4, h4]
    exact sum_neg_sum _ _ _ (fun t ht => (hg t ht).2.2.1 i j)
  · intro i j
    rw [h4]
    exact (star_sum' _ _ _ (fun t ht => ((hg t ht).2.2.2.1 i j).symm)).symm
  · intro 𝔸 _ _ R
    simp only [mul_smul, ← Finset.smul_sum]
    rw [h5, denT, ← sum_map_smul_left]
    congr 1
    apply List.map_congr_left
    intro t ht
    rw [(hg t ht).2.2.2.2 R, smul_smul, reOf_real (hreal t ht)]
    congr 1
    have hI : (I : K) ≠ 0 := I_ne_zero
    field_simp

/-- the matrix of a hopping Hamiltonian -/
theorem hopping_matrix {n : ℕ} {ts : List (K × OpString)} (hts : ∀ t ∈ ts, Hopping n t.2) (hreal : ∀ t ∈ ts, star t.1 = t.1) :
    ∃ M : Mat K, (do let data ← entriesLoop tightBindingEntries ts []; mkCsrInt data n n) = .ok M ∧ M.nrows = n ∧ M.ncols = n ∧
      (∀ i j, M.get i j = star (M.get j i)) ∧
      ∀ {𝔸 : Type} [Ring 𝔸] [Algebra K 𝔸] [StarRing 𝔸] [StarModule K 𝔸] (R : MajoranaRep K 𝔸 (siteLabels n)),
        (∀ i ∈ siteLabels n, star (R.a i) = R.a i ∧ star (R.b i) = R.b i) →
        denT R.fden ts = ∑ i ∈ Finset.range n, ∑ j ∈ Finset.range n, M.get i j • (R.cdag i * R.c j) := by
  have hex : ∀ t : K × OpString, ∃ es, t ∈ ts → _ := fun t => by
    by_cases ht : t ∈ ts
    · obtain ⟨es, h⟩ := tightBindingEntries_ok (hreal t ht) (hts t ht)
      exact ⟨es, fun _ => h⟩
    · exact ⟨[], fun h => absurd h ht⟩
  choose g hg using hex
  obtain ⟨M, h1, h2, h3, h4, h5⟩ := entries_matrix (f := tightBindingEntries) (ts := ts) (m := n) (n := n) (g := g)
    (fun t ht => (hg t ht).1) (fun t ht e he => (hg t ht).2.1 e he)
  refine ⟨M, h1, h2, h3, ?_, ?_⟩
  · intro i j
    rw [h4, h4]
    exact star_sum' _ _ _ (fun t ht => (hg t ht).2.2.1 i j)
  · intro 𝔸 _ _ _ _ R hR
    rw [h5, denT]
    congr 1
    apply List.map_congr_left
    intro t ht
    rw [(hg t ht).2.2.2 R hR]

/-- the Bogoliubov-de Gennes matrix -/
theorem bdg_matrix {n : ℕ} {ts : List (K × OpString)} (hts : ∀ t ∈ ts, Hopping n t.2 ∨ Pairing n t.2) (hreal : ∀ t ∈ ts, star t.1 = t.1) :
    ∃ M : Mat K, (do let data ← entriesLoop (bdgEntries n) ts []; mkCsrInt data (2 * n) (2 * n)) = .ok M ∧ M.nrows = 2 * n ∧ M.ncols = 2 * n ∧
      (∀ i j, M.get i j = star (M.get j i)) ∧
      (∀ i j, i < 2 * n → j < 2 * n → M.get (halfSwap n i) (halfSwap n j) = -star (M.get i j)) ∧
      ∀ {𝔸 : Type} [Ring 𝔸] [Algebra K 𝔸] [StarRing 𝔸] [StarModule K 𝔸] (R : MajoranaRep K 𝔸 (siteLabels n)),
        (∀ i ∈ siteLabels n, star (R.a i) = R.a i ∧ star (R.b i) = R.b i) →
        denT R.fden ts = (1 / 2 : K) • ∑ i ∈ Finset.range (2 * n), ∑ j ∈ Finset.range (2 * n), M.get i j • (R.nambuDag n i * R.nambu n j) +
          (1 / 2 * ∑ i ∈ Finset.range n, M.get i i) • 1 := by
  have hex : ∀ t : K × OpString, ∃ es, t ∈ ts → BdgOK n t.1 t.2 es := fun t => by
    by_cases ht : t ∈ ts
    · rcases hts t ht with h | h
      · obtain ⟨es, h⟩ := bdgEntries_hopping (hreal t ht) h
        exact ⟨es, fun _ => h⟩
      · obtain ⟨es, h⟩ := bdgEntries_pairing (hreal t ht) h
        exact ⟨es, fun _ => h⟩
    · exact ⟨[], fun h => absurd h ht⟩
  choose g hg using hex
  obtain ⟨M, h1, h2, h3, h4, h5⟩ := entries_matrix (f := bdgEntries n) (ts := ts) (m := 2 * n) (n := 2 * n) (g := g)
    (fun t ht => (hg t ht).ok) (fun t ht e he => (hg t ht).range e he)
  refine ⟨M, h1, h2, h3, ?_, ?_, ?_⟩
  · intro i j
    rw [h4, h4]
    exact star_sum' _ _ _ (fun t ht => (hg t ht).herm i j)
  · intro i j hi hj
    rw [h4, h4, ← star_sum' ts _ _ (fun t ht => rfl)]
    exact sum_neg_sum _ _ _ (fun t ht => (hg t ht).ph i j hi hj)
  · intro 𝔸 _ _ _ _ R hR
    rw [h5]
    have hd : ∑ i ∈ Finset.range n, M.get i i = (ts.map (fun t => ∑ k ∈ Finset.range n, tget (natEntries (g t)) k k)).sum := by
      simp only [h4]
      clear h1 h2 h3 h4 h5 hg hts hreal
      induction ts with
      | nil => simp
      | cons t ts ih => simp only [List.map_cons, List.sum_cons, Finset.sum_add_distrib, ih]
    rw [hd, List.map_congr_left (fun t ht => (hg t ht).form R hR)]
    clear h1 h2 h3 h4 h5 hd hg hts hreal
    induction ts with
    | nil => simp [denT]
    | cons t ts ih =>
      rw [denT, List.map_cons, List.sum_cons, ← denT, ih]
      simp only [List.map_cons, List.sum_cons, smul_add, smul_sub, mul_add, add_smul, smul_smul]
      rw [show (1 / 2 * (2 * t.1) : K) = t.1 by field_simp]
      abel

/-! ### errors -/

theorem mkCsrInt_err {es : List (Int × Int × K)} {m n : ℕ} {e : Int × Int × K} (he : e ∈ es) (h : ¬ (0 ≤ e.1 ∧ e.1 < m)) :
    mkCsrInt es m n = .error .valueError := by
  rw [mkCsrInt]
  split
  · rename_i hall
    rw [List.all_eq_true] at hall
    have h0 := hall e he
    simp only [Bool.and_eq_true, decide_eq_true_eq] at h0
    rw [mkCsr, if_neg]
    intro hall'
    rw [List.all_eq_true] at hall'
    have h1 := hall' _ (List.mem_map_of_mem he)
    simp only [Bool.and_eq_true, decide_eq_true_eq] at h1
    apply h
    omega
  · rfl

/-- a term whose entries are outside the matrix, or that is not supported, makes the whole construction fail -/
theorem entries_error {f : K → OpString → Py (List (Int × Int × K))} {ts : List (K × OpString)} {m n : ℕ}
    (h : ∀ t ∈ ts, (∃ es, f t.1 t.2 = .ok es) ∨ f t.1 t.2 = .error .valueError)
    (hbad : ∃ t ∈ ts, f t.1 t.2 = .error .valueError ∨ ∃ es, f t.1 t.2 = .ok es ∧ ∃ e ∈ es, ¬ (0 ≤ e.1 ∧ e.1 < m)) :
    (do let data ← entriesLoop f ts []; mkCsrInt data m n) = (.error .valueError : Py (Mat K)) := by
  by_cases herr : ∃ t ∈ ts, f t.1 t.2 = .error .valueError
  · rw [entriesLoop_err ts [] h herr]; rfl
  · have hall : ∀ t ∈ ts, ∃ es, f t.1 t.2 = .ok es := fun t ht => (h t ht).resolve_right (fun h' => herr ⟨t, ht, h'⟩)
    have hex : ∀ t : K × OpString, ∃ es, t ∈ ts → f t.1 t.2 = .ok es := fun t => by
      by_cases ht : t ∈ ts
      · obtain ⟨es, h⟩ := hall t ht; exact ⟨es, fun _ => h⟩
      · exact ⟨[], fun h => absurd h ht⟩
    choose g hg using hex
    obtain ⟨t, ht, h1 | ⟨es, h1, e, he, h2⟩⟩ := hbad
    · exact absurd ⟨t, ht, h1⟩ herr
    · rw [entriesLoop_ok ts [] hg]
      simp only [bind, Except.bind, List.nil_append]
      have : es = g t := by rw [hg t ht] at h1; exact (Except.ok.inj h1).symm
      exact mkCsrInt_err (List.mem_flatMap.mpr ⟨t, ht, this ▸ he⟩) h2

theorem majoranaIndex_bad {n : ℕ} {l : ℤ} (hl : l ∉ siteLabels n) (op : Op) : ¬ (0 ≤ majoranaIndex op l ∧ majoranaIndex op l < (2 * n : ℕ)) := by
  intro h
  apply hl
  rw [majoranaIndex] at h
  constructor <;> (split at h <;> omega)

/-- what `diagonalize_quadratic` does with a Majorana string that is not quadratic or not within the orbitals -/
theorem quadraticEntries_cases {n : ℕ} (c : K) {s : OpString} (hs : MajoranaString Set.univ s) :
    ((∃ es, quadraticEntries c s = .ok es) ∨ quadraticEntries c s = .error .valueError) ∧
    (¬ QuadraticMajorana n s → quadraticEntries c s = .error .valueError ∨
      ∃ es, quadraticEntries c s = .ok es ∧ ∃ e ∈ es, ¬ (0 ≤ e.1 ∧ e.1 < (2 * n : ℕ))) := by
  have hlen := hs.len
  rcases hl : s.labels with _ | ⟨l, _ | ⟨m, _ | ⟨k, r⟩⟩⟩ <;> rcases ho : s.ops with _ | ⟨p, _ | ⟨q, _ | ⟨p', r'⟩⟩⟩ <;> rw [ho, hl] at hlen <;>
    first | (exfalso; simp at hlen; done) | skip
  · rw [quadraticEntries, quadraticIndices, ho]; exact ⟨Or.inr rfl, fun _ => Or.inl rfl⟩
  · have hp := hs.ops p (by rw [ho]; simp)
    rcases hp with rfl | rfl | rfl
    · rw [quadraticEntries, quadraticIndices, ho]; exact ⟨Or.inr rfl, fun _ => Or.inl rfl⟩
    · rw [quadraticEntries, quadraticIndices, ho]; exact ⟨Or.inr rfl, fun _ => Or.inl rfl⟩
    · have e : quadraticEntries c s = .ok [(2 * l, 2 * l + 1, 1 / 2 * 4 * reOf c * -1), (2 * l + 1, 2 * l, -1 / 2 * 4 * reOf c * -1)] := by
        rw [quadraticEntries, quadraticIndices, ho, hl]; rfl
      refine ⟨Or.inl ⟨_, e⟩, fun hn => Or.inr ⟨_, e, _, List.mem_cons_self .., ?_⟩⟩
      have hl' : l ∉ siteLabels n := by
        intro h
        apply hn
        refine ⟨⟨hs.type, hs.ops, hs.len, hs.nodup, ?_, hs.pref⟩, Or.inl ho⟩
        rw [hl]; simpa using h
      exact majoranaIndex_bad hl' .A
  · have hp := hs.ops p (by rw [ho]; simp)
    have hq := hs.ops q (by rw [ho]; simp)
    by_cases hD : p = .D ∨ q = .D
    · have e : quadraticEntries c s = .error .valueError := by
        rw [quadraticEntries, quadraticIndices, ho]
        rcases hD with rfl | rfl
        · simp only
          rw [if_neg (by simp)]; rfl
        · rcases hp with rfl | rfl | rfl
          all_goals
            simp only
            rw [if_neg (by simp)]; rfl
      exact ⟨Or.inr e, fun _ => Or.inl e⟩
    · push Not at hD
      have hp' : p = .A ∨ p = .B := by rcases hp with h | h | h <;> simp_all
      have hq' : q = .A ∨ q = .B := by rcases hq with h | h | h <;> simp_all
      have e : quadraticEntries c s = .ok [(majoranaIndex p l, majoranaIndex q m, 1 / 2 * 4 * reOf c * 1),
          (majoranaIndex q m, majoranaIndex p l, -1 / 2 * 4 * reOf c * 1)] := by
        rw [quadraticEntries, quadraticIndices, ho, hl]
        rcases hp' with rfl | rfl <;> rcases hq' with rfl | rfl <;> rfl
      refine ⟨Or.inl ⟨_, e⟩, fun hn => Or.inr ⟨_, e, ?_⟩⟩
      by_cases h1 : l ∈ siteLabels n
      · have h2 : m ∉ siteLabels n := by
          intro h2
          apply hn
          refine ⟨⟨hs.type, hs.ops, hs.len, hs.nodup, ?_, hs.pref⟩, Or.inr ⟨p, q, ho, hp', hq'⟩⟩
          rw [hl]; simp [h1, h2]
        exact ⟨_, List.mem_cons_of_mem _ (List.mem_cons_self ..), majoranaIndex_bad h2 q⟩
      · exact ⟨_, List.mem_cons_self .., majoranaIndex_bad h1 p⟩
  · have e : quadraticEntries c s = .error .valueError := by
      rw [quadraticEntries, quadraticIndices, ho]
      cases p <;> rfl
    exact ⟨Or.inr e, fun _ => Or.inl e⟩

/-- the same for hopping Hamiltonians -/
theorem tightBindingEntries_cases {n : ℕ} (c : K) {s : OpString} (hs : FermionString Set.univ s) :
    ((∃ es, tightBindingEntries c s = .ok es) ∨ tightBindingEntries c s = .error .valueError) ∧
    (s.ops ≠ [.CDag, .C] ∨ (∃ l ∈ s.labels, l ∉ siteLabels n) → tightBindingEntries c s = .error .valueError ∨
      ∃ es, tightBindingEntries c s = .ok es ∧ ∃ e ∈ es, ¬ (0 ≤ e.1 ∧ e.1 < (n : ℕ))) := by
  by_cases ho : s.ops = [.CDag, .C]
  · obtain ⟨i, j, hl⟩ : ∃ l m, s.labels = [l, m] := List.length_eq_two.mp (by rw [← hs.len, ho]; rfl)
    have e : tightBindingEntries c s = .ok (if i = j then [(i, j, reOf (c * s.pref.val))] else [(i, j, c * s.pref.val), (j, i, star (c * s.pref.val))]) := by
      rw [tightBindingEntries, ho]
      simp only [hl, pyGet, bind, Except.bind, List.getElem?_cons_zero, List.getElem?_cons_succ]
      split <;> rfl
    refine ⟨Or.inl ⟨_, e⟩, ?_⟩
    rintro (h | ⟨l, hl', h⟩)
    · exact absurd ho h
    · refine Or.inr ⟨_, e, ?_⟩
      rw [hl] at hl'
      simp only [List.mem_cons, List.not_mem_nil, or_false] at hl'
      by_cases hij : i = j
      · subst hij
        rw [if_pos rfl]
        refine ⟨_, List.mem_cons_self .., ?_⟩
        rcases hl' with rfl | rfl <;> exact h
      · rw [if_neg hij]
        rcases hl' with rfl | rfl
        · exact ⟨_, List.mem_cons_self .., h⟩
        · exact ⟨_, List.mem_cons_of_mem _ (List.mem_cons_self ..), h⟩
  · have e : tightBindingEntries c s = .error .valueError := by
      unfold tightBindingEntries
      split
      · rename_i h; exact absurd h ho
      · rfl
    exact ⟨Or.inr e, fun _ => Or.inl e⟩

/-- the same for Bogoliubov-de Gennes Hamiltonians -/
theorem bdgEntries_cases {n : ℕ} (c : K) {s : OpString} (hs : FermionString Set.univ s) :
    ((∃ es, bdgEntries n c s = .ok es) ∨ bdgEntries n c s = .error .valueError) ∧
    ((s.ops ≠ [.CDag, .C] ∧ s.ops ≠ [.CDag, .CDag]) ∨ (∃ l ∈ s.labels, l ∉ siteLabels n) → bdgEntries n c s = .error .valueError ∨
      ∃ es, bdgEntries n c s = .ok es ∧ ∃ e ∈ es, ¬ (0 ≤ e.1 ∧ e.1 < (2 * n : ℕ))) := by
  have hout : ∀ l : ℤ, l ∉ siteLabels n → ¬ (0 ≤ l ∧ l < (2 * n : ℕ)) ∨ ¬ (0 ≤ l + n ∧ l + n < (2 * n : ℕ)) := by
    intro l hl
    by_contra hcon
    push Not at hcon
    apply hl
    constructor <;> omega
  by_cases ho : s.ops = [.CDag, .C]
  · obtain ⟨i, j, hl⟩ : ∃ l m, s.labels = [l, m] := List.length_eq_two.mp (by rw [← hs.len, ho]; rfl)
    have e : bdgEntries n c s = .ok (if i ≠ j then [(i, j, c * s.pref.val), (j, i, star (c * s.pref.val)), (i + n, j + n, -star (c * s.pref.val)),
        (j + n, i + n, -(c * s.pref.val))] else [(i, i, c * s.pref.val), (i + n, i + n, -star (c * s.pref.val))]) := by
      rw [bdgEntries, ho]
      simp only [hl, pyGet, bind, Except.bind, List.getElem?_cons_zero, List.getElem?_cons_succ]
      split <;> rfl
    refine ⟨Or.inl ⟨_, e⟩, ?_⟩
    rintro (h | ⟨l, hl', h⟩)
    · exact absurd ho h.1
    · refine Or.inr ⟨_, e, ?_⟩
      rw [hl] at hl'
      simp only [List.mem_cons, List.not_mem_nil, or_false] at hl'
      by_cases hij : i = j
      · subst hij
        rw [if_neg (by simp)]
        have hli : l = i := by rcases hl' with h | h <;> exact h
        subst hli
        rcases hout l h with h | h
        · exact ⟨_, List.mem_cons_self .., h⟩
        · exact ⟨_, List.mem_cons_of_mem _ (List.mem_cons_self ..), h⟩
      · rw [if_pos hij]
        rcases hl' with rfl | rfl
        · rcases hout l h with h | h
          · exact ⟨_, List.mem_cons_self .., h⟩
          · exact ⟨_, List.mem_cons_of_mem _ (List.mem_cons_of_mem _ (List.mem_cons_self ..)), h⟩
        · rcases hout l h with h | h
          · exact ⟨_, List.mem_cons_of_mem _ (List.mem_cons_self ..), h⟩
          · exact ⟨_, List.mem_cons_of_mem _ (List.mem_cons_of_mem _ (List.mem_cons_of_mem _ (List.mem_cons_self ..))), h⟩
  · by_cases ho' : s.ops = [.CDag, .CDag]
    · obtain ⟨i, j, hl⟩ : ∃ l m, s.labels = [l, m] := List.length_eq_two.mp (by rw [← hs.len, ho']; rfl)
      have hij : i ≠ j := by
        have := hs.cdag_nodup
        simpa [OpString.cdagLabels, ho', hl] using this
      have e : bdgEntries n c s = .ok [(i, j + n, c * s.pref.val), (j, i + n, -(c * s.pref.val)), (i + n, j, -star (c * s.pref.val)),
          (j + n, i, star (c * s.pref.val))] := by
        rw [bdgEntries, ho']
        simp only [hl, pyGet, bind, Except.bind, List.getElem?_cons_zero, List.getElem?_cons_succ, if_pos hij]
        rfl
      refine ⟨Or.inl ⟨_, e⟩, ?_⟩
      rintro (h | ⟨l, hl', h⟩)
      · exact absurd ho' h.2
      · refine Or.inr ⟨_, e, ?_⟩
        rw [hl] at hl'
        simp only [List.mem_cons, List.not_mem_nil, or_false] at hl'
        rcases hl' with rfl | rfl
        · rcases hout l h with h | h
          · exact ⟨_, List.mem_cons_self .., h⟩
          · exact ⟨_, List.mem_cons_of_mem _ (List.mem_cons_of_mem _ (List.mem_cons_self ..)), h⟩
        · rcases hout l h with h | h
          · exact ⟨_, List.mem_cons_of_mem _ (List.mem_cons_self ..), h⟩
          · exact ⟨_, List.mem_cons_of_mem _ (List.mem_cons_of_mem _ (List.mem_cons_of_mem _ (List.mem_cons_self ..))), h⟩
    · have e : bdgEntries n c s = .error .valueError := by
        unfold bdgEntries
        split
        · rename_i h; exact absurd h ho
        · rename_i h; exact absurd h ho'
        · rfl
      exact ⟨Or.inr e, fun _ => Or.inl e⟩

end Qosy
