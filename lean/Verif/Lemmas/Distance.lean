import Verif.Model.Distance
import Verif.Lemmas.Cliques
import Verif.Lemmas.Cluster
import Verif.Lemmas.Heap

/-! # Distance bases -/

namespace Qosy

variable {D : Type} [LinearOrder D] [Add D] [Zero D]

theorem orbitalsWithin_ok (dist : ℕ → ℕ → D) (n : ℕ) (bound : D) (i : ℕ) :
    ∀ (allowed : List ℕ) (l0 : List ℕ), (∀ j ∈ allowed, j < n) →
      allowed.foldlM (fun l j =>
        if n ≤ j then Except.error PyErr.indexError
        else if distanceEntry dist i j ≤ bound ∧ j ≠ i then Except.ok (l ++ [j]) else Except.ok l) l0 =
        .ok (l0 ++ allowed.filter (fun j => decide (distanceEntry dist i j ≤ bound ∧ j ≠ i))) := by
  intro allowed
  induction allowed with
  | nil => intro l0 _; simp; rfl
  | cons j js ih =>
    intro l0 h
    have hj : ¬ n ≤ j := by have := h j (List.mem_cons_self ..); omega
    rw [List.foldlM_cons, if_neg hj]
    by_cases hc : distanceEntry dist i j ≤ bound ∧ j ≠ i
    · rw [if_pos hc, List.filter_cons_of_pos (by simpa using hc)]
      simp only [bind, Except.bind]
      rw [ih _ (fun x hx => h x (List.mem_cons_of_mem _ hx)), List.append_assoc]; rfl
    · rw [if_neg hc, List.filter_cons_of_neg (by simpa using hc)]
      simp only [bind, Except.bind]
      rw [ih _ (fun x hx => h x (List.mem_cons_of_mem _ hx))]

theorem mapM_ok {α β : Type} {f : α → Py β} {g : α → β} : ∀ {l : List α}, (∀ x ∈ l, f x = .ok (g x)) → l.mapM f = .ok (l.map g) := by
  intro l
  induction l with
  | nil => intro _; rfl
  | cons x xs ih =>
    intro h
    rw [List.mapM_cons, h x (List.mem_cons_self ..)]
    simp only [bind, Except.bind, ih (fun y hy => h y (List.mem_cons_of_mem _ hy))]
    rfl

/-- every clique lies in a maximal one -/
theorem exists_maximal {adj : List (List ℕ)} {V : Set ℕ} {n : ℕ} (hV : ∀ v ∈ V, v < n) :
    ∀ (k : ℕ) (S : Finset ℕ), IsCliqueSet adj V S → n ≤ k + S.card → ∃ T, IsMaximalCliqueSet adj V T ∧ S ⊆ T := by
  intro k
  induction k with
  | zero =>
    intro S hS hk
    refine ⟨S, ⟨hS, ?_⟩, Finset.Subset.refl _⟩
    intro T hT hST
    refine (Finset.eq_of_subset_of_card_le hST ?_).symm
    have : T ⊆ Finset.range n := fun x hx => Finset.mem_range.mpr (hV x (hT.2.1 x hx))
    have := Finset.card_le_card this
    rw [Finset.card_range] at this
    omega
  | succ k ih =>
    intro S hS hk
    by_cases hmax : ∀ T, IsCliqueSet adj V T → S ⊆ T → T = S
    · exact ⟨S, ⟨hS, hmax⟩, Finset.Subset.refl _⟩
    · push Not at hmax
      obtain ⟨T, hT, hST, hne⟩ := hmax
      have : S.card < T.card := Finset.card_lt_card (Finset.ssubset_iff_subset_ne.mpr ⟨hST, fun e => hne e.symm⟩)
      obtain ⟨U, hU, hTU⟩ := ih T hT (by omega)
      exact ⟨U, hU, hST.trans hTU⟩

theorem distance_fold {k : KArg} {t : OpType} {Q : OpString → Prop}
    (hcl : ∀ labels : List ℤ, labels.Nodup → ∃ b, clusterBasis k labels t = .ok b ∧ ∀ s, s ∈ b.strs ↔ Q s ∧ ∀ x ∈ s.labels, x ∈ labels) :
    ∀ (cs : List (List ℤ)) (b0 : Basis), (∀ c ∈ cs, c.Nodup) → b0.Inv →
      ∃ b, cs.foldlM (fun total c => do
        let b ← clusterBasis k c t
        Except.ok (total.iadd b)) b0 = .ok b ∧ b.Inv ∧ ∀ s, s ∈ b.strs ↔ s ∈ b0.strs ∨ Q s ∧ ∃ c ∈ cs, ∀ x ∈ s.labels, x ∈ c := by
  intro cs
  induction cs with
  | nil => intro b0 _ h; exact ⟨b0, rfl, h, by simp⟩
  | cons c cs ih =>
    intro b0 h hinv
    obtain ⟨b1, h1, h2⟩ := hcl c (h c (List.mem_cons_self ..))
    have hinv' := hinv.iadd b1
    have hstr : ∀ s, s ∈ (b0.iadd b1).strs ↔ s ∈ b0.strs ∨ s ∈ b1.strs := by
      intro s
      rw [hinv.1, Basis.iadd_ofList hinv.2, Basis.ofList_strs, mem_unionList, Basis.ofList_strs]
    obtain ⟨b, g1, g2, g3⟩ := ih (b0.iadd b1) (fun x hx => h x (List.mem_cons_of_mem _ hx)) hinv'
    refine ⟨b, ?_, g2, ?_⟩
    · rw [List.foldlM_cons, h1]; exact g1
    · intro s
      rw [g3, hstr, h2, or_assoc]
      refine or_congr Iff.rfl ?_
      constructor
      · rintro (⟨a1, a2⟩ | ⟨a1, c', hc', a2⟩)
        · exact ⟨a1, c, List.mem_cons_self .., a2⟩
        · exact ⟨a1, c', List.mem_cons_of_mem _ hc', a2⟩
      · rintro ⟨a1, c', hc', a2⟩
        rcases List.mem_cons.mp hc' with rfl | hc'
        · exact Or.inl ⟨a1, a2⟩
        · exact Or.inr ⟨a1, c', hc', a2⟩

theorem emptyBasis_inv : emptyBasis.Inv := Basis.Inv.ofList (l := []) List.nodup_nil

theorem distanceEntry_symm (dist : ℕ → ℕ → D) (i j : ℕ) : distanceEntry dist i j = distanceEntry dist j i := by
  unfold distanceEntry
  rcases lt_trichotomy i j with h | h | h
  · simp [h, h.not_gt]
  · simp [h]
  · simp [h, h.not_gt]

/-- the general form: `Q` describes the strings of the type, apart from where they are -/
theorem distanceBasis_ok {o : SetOracle} (ho : o.Valid) {lim n : ℕ} (hlim : n ≤ lim) (dist : ℕ → ℕ → D) {k : KArg} (R tol : D) {t : OpType}
    {Q : OpString → Prop} (hQ : ∀ s, Q s → s.labels ≠ [])
    (hcl : ∀ labels : List ℤ, labels.Nodup → ∃ b, clusterBasis k labels t = .ok b ∧ ∀ s, s ∈ b.strs ↔ Q s ∧ ∀ x ∈ s.labels, x ∈ labels)
    (allowed : Option (List ℕ)) (hall : ∀ l, allowed = some l → ∀ i ∈ l, i < n) (incl : Bool) :
    ∃ b, distanceBasis o lim n dist k R t allowed incl tol = .ok b ∧ b.Inv ∧
      ∀ s, s ∈ b.strs ↔ Q s ∧ (∀ x ∈ s.labels, ∃ i, i < n ∧ (∀ l, allowed = some l → i ∈ l) ∧ x = (i : ℤ)) ∧
        ∀ i j : ℕ, (i : ℤ) ∈ s.labels → (j : ℤ) ∈ s.labels → i < j → dist i j ≤ R + tol := by
  set al := allowed.getD (List.range n) with hal
  have hal1 : ∀ i, i ∈ al ↔ i < n ∧ ∀ l, allowed = some l → i ∈ l := by
    intro i
    cases allowed with
    | none => simp [hal]
    | some l =>
      simp only [hal, Option.getD_some, Option.some.injEq]
      exact ⟨fun h => ⟨hall l rfl i h, fun l' e => e ▸ h⟩, fun h => h.2 l rfl⟩
  have hwithin : (List.range n).mapM (orbitalsWithin dist n (R + tol) al) =
      .ok ((List.range n).map (fun i => al.filter (fun j => decide (distanceEntry dist i j ≤ R + tol ∧ j ≠ i)))) := by
    apply mapM_ok
    intro i _
    rw [orbitalsWithin, orbitalsWithin_ok dist n (R + tol) i al [] (fun j hj => ((hal1 j).mp hj).1), List.nil_append]
  set adj := (List.range n).map (fun i => al.filter (fun j => decide (distanceEntry dist i j ≤ R + tol ∧ j ≠ i))) with hadj
  have hlen : adj.length = n := by simp [hadj]
  have hA : ∀ i j, Adjacent adj i j ↔ i < n ∧ j ∈ al ∧ distanceEntry dist i j ≤ R + tol ∧ j ≠ i := by
    intro i j
    unfold Adjacent
    rw [hadj, List.getElem?_map]
    by_cases hi : i < n
    · simp [hi]
    · simp [hi]
  have hg : GoodTest adj (fun v => decide (v ∈ al)) := by
    refine ⟨?_, ?_, ?_⟩
    · intro v w h
      rw [hA] at h
      exact ⟨by simpa using h.2.1, ((hal1 w).mp h.2.1).1.trans_eq hlen.symm⟩
    · intro v w hv hw
      simp only [decide_eq_true_eq] at hv hw
      rw [hA, hA, distanceEntry_symm dist v w]
      have h1 := ((hal1 v).mp hv).1
      have h2 := ((hal1 w).mp hw).1
      constructor
      · rintro ⟨_, _, a, b⟩; exact ⟨h2, hv, a, b.symm⟩
      · rintro ⟨_, _, a, b⟩; exact ⟨h1, hw, a, b.symm⟩
    · intro v h; rw [hA] at h; exact h.2.2.2 rfl
  obtain ⟨out, h1, h2, h3⟩ := maximalCliques_ok ho hg (hlen.le.trans hlim)
  set sorted := ((out.filter (fun (c : List ℕ) => c.all (fun v => decide (v ∈ al)))).map orbitalLabels).insertionSort (fun a b => compare a b ≤ 0) with hsorted
  have hmems : ∀ c, c ∈ sorted ↔ ∃ c' ∈ out.filter (fun (c : List ℕ) => c.all (fun v => decide (v ∈ al))), orbitalLabels c' = c := by
    intro c
    rw [hsorted, List.mem_insertionSort, List.mem_map]
  obtain ⟨b, g1, g2, g3⟩ := distance_fold hcl sorted emptyBasis (by
    intro c hc
    obtain ⟨c', hc', rfl⟩ := (hmems c).mp hc
    exact (h2 c' (List.mem_filter.mp hc').1).map (fun a b h => by simpa using h)) emptyBasis_inv
  refine ⟨b, ?_, g2, ?_⟩
  · show (do
      let within ← (List.range n).mapM (orbitalsWithin dist n (R + tol) al)
      let cliques ← maximalCliques o lim within
      (((cliques.filter (fun (c : List ℕ) => c.all (fun v => decide (v ∈ al)))).map orbitalLabels).insertionSort (fun a b => compare a b ≤ 0)).foldlM (fun (total : Basis) c => do
        let b ← clusterBasis k c t
        Except.ok (total.iadd b)) emptyBasis) = _
    rw [hwithin]
    simp only [bind, Except.bind, h1]
    exact g1
  · intro s
    rw [g3]
    have hemp : s ∉ emptyBasis.strs := by simp [emptyBasis]
    simp only [hemp, false_or]
    refine and_congr_right fun hs => ?_
    constructor
    · rintro ⟨c, hc, hsub⟩
      obtain ⟨c', hc', rfl⟩ := (hmems c).mp hc
      have hmc := ((h3.mem c'.toFinset).mp (List.mem_map_of_mem hc')).1
      have hlab : ∀ i : ℕ, (i : ℤ) ∈ orbitalLabels c' → i ∈ c'.toFinset := by
        intro i hi
        simp only [orbitalLabels, List.mem_map] at hi
        obtain ⟨a, ha, e⟩ := hi
        have : a = i := by simpa using e
        subst this; simpa using ha
      constructor
      · intro x hx
        have := hsub x hx
        simp only [orbitalLabels, List.mem_map] at this
        obtain ⟨a, ha, rfl⟩ := this
        have hav := hmc.2.1 a (by simpa using ha)
        have hav2 : a ∈ al := by simpa using hav.2
        exact ⟨a, ((hal1 a).mp hav2).1, ((hal1 a).mp hav2).2, rfl⟩
      · intro i j hi hj hij
        have := hmc.2.2 i (hlab i (hsub _ hi)) j (hlab j (hsub _ hj)) (by omega)
        rw [hA] at this
        have h4 := this.2.2.1
        rw [distanceEntry, if_pos hij] at h4
        exact h4
    · rintro ⟨a1, a2⟩
      -- the orbitals of the string
      have hS : ∀ i : ℕ, i ∈ (s.labels.map Int.toNat).toFinset ↔ (i : ℤ) ∈ s.labels := by
        intro i
        rw [List.mem_toFinset, List.mem_map]
        constructor
        · rintro ⟨x, hx, rfl⟩
          obtain ⟨i, _, _, rfl⟩ := a1 x hx
          simpa using hx
        · intro h; exact ⟨(i : ℤ), h, by simp⟩
      have hclq : IsCliqueSet adj {v | v < adj.length ∧ (fun v => decide (v ∈ al)) v = true} (s.labels.map Int.toNat).toFinset := by
        have hmem : ∀ i : ℕ, (i : ℤ) ∈ s.labels → i < n ∧ i ∈ al := by
          intro i hi
          obtain ⟨j, g1, g2, e⟩ := a1 _ hi
          have : i = j := by simpa using e
          subst this
          exact ⟨g1, (hal1 i).mpr ⟨g1, g2⟩⟩
        refine ⟨?_, ?_, ?_⟩
        · obtain ⟨x, hx⟩ := List.exists_mem_of_ne_nil _ (hQ s hs)
          exact ⟨x.toNat, by rw [List.mem_toFinset]; exact List.mem_map_of_mem hx⟩
        · intro i hi
          rw [hS] at hi
          have := hmem i hi
          exact ⟨by rw [hlen]; exact this.1, by simpa using this.2⟩
        · intro i hi j hj hij
          rw [hS] at hi hj
          rw [hA]
          refine ⟨(hmem i hi).1, (hmem j hj).2, ?_, hij.symm⟩
          rcases lt_or_gt_of_ne hij with h | h
          · rw [distanceEntry, if_pos h]; exact a2 i j hi hj h
          · rw [distanceEntry_symm, distanceEntry, if_pos h]; exact a2 j i hj hi h
      obtain ⟨T, hT, hST⟩ := exists_maximal (n := n) (fun v hv => by have := hv.1; omega) n _ hclq (by omega)
      obtain ⟨c', hc', e⟩ := List.mem_map.mp ((h3.mem T).mpr hT)
      refine ⟨orbitalLabels c', (hmems _).mpr ⟨c', hc', rfl⟩, ?_⟩
      intro x hx
      obtain ⟨i, _, _, rfl⟩ := a1 x hx
      have : i ∈ T := hST ((hS i).mpr hx)
      rw [← e, List.mem_toFinset] at this
      exact List.mem_map_of_mem this

end Qosy
