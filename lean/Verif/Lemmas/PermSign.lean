import Verif.Model.Tools
import Verif.Spec.Perm
import Verif.Spec.Sorting
import Mathlib.GroupTheory.Perm.Cycle.Concrete
import Mathlib.GroupTheory.Perm.Fin

/-! # `sign` is the sign of a permutation -/

namespace Qosy

variable {n : ℕ}

theorem permArray_length (σ : Equiv.Perm (Fin n)) : (permArray σ).length = n := by simp [permArray]

theorem permArray_get (σ : Equiv.Perm (Fin n)) (i : Fin n) : (permArray σ)[(i : ℕ)]? = some (σ i : ℕ) := by
  simp [permArray]

theorem permArray_isPermArray (σ : Equiv.Perm (Fin n)) : IsPermArray (permArray σ) := by
  unfold IsPermArray
  rw [permArray_length]
  apply List.Perm.symm
  apply List.perm_of_nodup_nodup_toFinset_eq List.nodup_range
  · rw [permArray, List.nodup_ofFn]
    intro a b h; exact σ.injective (Fin.ext h)
  · ext k
    simp only [permArray, List.mem_toFinset, List.mem_range, List.mem_ofFn]
    constructor
    · intro hk; exact ⟨σ.symm ⟨k, hk⟩, by simp⟩
    · rintro ⟨i, rfl⟩; exact (σ i).2

theorem IsPermArray.exists_perm {p : List ℕ} (h : IsPermArray p) :
    ∃ σ : Equiv.Perm (Fin p.length), p = permArray σ := by
  have hlt : ∀ i : Fin p.length, p[i] < p.length := fun i => by
    have := h.mem_iff.mp (List.getElem_mem i.2)
    simpa using this
  have hnd : p.Nodup := h.nodup_iff.mpr List.nodup_range
  let f : Fin p.length → Fin p.length := fun i => ⟨p[i], hlt i⟩
  have hf : Function.Injective f := by
    intro a b hab
    have := (List.nodup_iff_injective_get.mp hnd) (a₁ := a) (a₂ := b) (by simpa [f] using hab)
    exact this
  refine ⟨Equiv.ofBijective f (Finite.injective_iff_bijective.mp hf), ?_⟩
  apply List.ext_getElem
  · simp [permArray]
  · intro i h1 h2
    simp [permArray, f]

/-- one more step of the walk along a cycle -/
theorem signCycle_spec (σ : Equiv.Perm (Fin n)) (V : List ℕ)
    (hV : ∀ x : Fin n, ((σ x : ℕ) ∈ V → (x : ℕ) ∈ V)) :
    ∀ (fuel : ℕ) (l : List (Fin n)) (x0 last : Fin n),
      l.head? = some x0 → l.getLast? = some last → l.Nodup →
      (∀ x ∈ l, (x : ℕ) ∉ V) →
      (∀ i (h : i + 1 < l.length), l[i + 1] = σ l[i]) → n < fuel + l.length →
      ∃ l' : List (Fin n), signCycle (permArray σ) fuel (l.reverse.map Fin.val ++ V) (σ last : ℕ) l.length
          = .ok (l'.reverse.map Fin.val ++ V, l'.length) ∧
        l'.head? = some x0 ∧ (∃ last', l'.getLast? = some last' ∧ σ last' = x0) ∧ l'.Nodup ∧
        (∀ x ∈ l', (x : ℕ) ∉ V) ∧ (∀ i (h : i + 1 < l'.length), l'[i + 1] = σ l'[i]) := by
  intro fuel
  induction fuel with
  | zero =>
    intro l x0 last h0 h1 hnd hlV hch hf
    have := List.Nodup.length_le_card hnd
    simp at this; omega
  | succ fuel ih =>
    intro l x0 last h0 h1 hnd hlV hch hf
    by_cases hmem : (σ last : ℕ) ∈ l.reverse.map Fin.val ++ V
    · refine ⟨l, by simp only [signCycle]; rw [if_pos hmem], h0, ⟨last, h1, ?_⟩, hnd, hlV, hch⟩
      have hlast : last ∈ l := List.mem_of_getLast? h1
      have hnV : (σ last : ℕ) ∉ V := fun h => hlV _ hlast (hV _ h)
      have hml : σ last ∈ l := by
        rcases List.mem_append.mp hmem with h | h
        · simp only [List.mem_map, List.mem_reverse] at h
          obtain ⟨y, hy, hy'⟩ := h
          rwa [← Fin.ext hy']
        · exact absurd h hnV
      obtain ⟨i, hi, hiσ⟩ := List.getElem_of_mem hml
      rcases Nat.eq_zero_or_pos i with rfl | hpos
      · rw [← hiσ]
        have : l[0] = x0 := by
          rw [List.head?_eq_getElem?, List.getElem?_eq_getElem hi] at h0
          exact Option.some.inj h0
        exact this
      · exfalso
        obtain ⟨k, rfl⟩ : ∃ k, i = k + 1 := ⟨i - 1, by omega⟩
        rw [hch k hi] at hiσ
        have e := σ.injective hiσ
        rw [List.getLast?_eq_getElem?, List.getElem?_eq_getElem (by omega)] at h1
        have h1' := Option.some.inj h1
        rw [← h1'] at e
        have := (List.Nodup.getElem_inj_iff hnd).mp e
        omega
    · have hstep : signCycle (permArray σ) (fuel + 1) (l.reverse.map Fin.val ++ V) (σ last : ℕ) l.length
          = signCycle (permArray σ) fuel (((l ++ [σ last]).reverse.map Fin.val) ++ V) (σ (σ last) : ℕ)
            (l ++ [σ last]).length := by
        rw [signCycle, if_neg hmem, permArray_get]; simp
      have hnotl : σ last ∉ l := fun h => hmem (List.mem_append.mpr (Or.inl (List.mem_map_of_mem (List.mem_reverse.mpr h))))
      have hnotV : (σ last : ℕ) ∉ V := fun h => hmem (List.mem_append.mpr (Or.inr h))
      rw [hstep]
      apply ih
      · cases l <;> simp_all
      · simp
      · rw [List.nodup_append]; refine ⟨hnd, by simp, ?_⟩
        intro a ha b hb; simp at hb; subst hb; rintro rfl; exact hnotl ha
      · intro x hx
        rcases List.mem_append.mp hx with h | h
        · exact hlV x h
        · simp at h; subst h; exact hnotV
      · intro i h
        simp only [List.length_append, List.length_singleton] at h
        by_cases hi : i + 1 < l.length
        · rw [List.getElem_append_left hi, List.getElem_append_left (by omega), hch i hi]
        · have : i + 1 = l.length := by omega
          rw [List.getElem_append_right (by omega), List.getElem_append_left (by omega)]
          simp only [List.getElem_singleton]
          rw [List.getLast?_eq_getElem?, List.getElem?_eq_getElem (by omega)] at h1
          have h1' := Option.some.inj h1
          rw [← h1']; congr 2; omega
      · simp; omega

theorem sign_formPerm (l : List (Fin n)) (hnd : l.Nodup) (hne : l ≠ []) :
    (Equiv.Perm.sign l.formPerm : ℤ) = if l.length % 2 = 0 then -1 else 1 := by
  rcases Nat.lt_or_ge l.length 2 with h | h
  · match l, hne, h with
    | [x], _, _ => simp
  · rw [(List.isCycle_formPerm hnd h).sign, List.support_formPerm_of_nodup l hnd (by rintro x rfl; simp at h),
      List.toFinset_card_of_nodup hnd]
    split
    · rename_i he
      rw [← Nat.even_iff] at he
      simp [he.neg_one_pow]
    · rename_i he
      have : l.length % 2 = 1 := by omega
      rw [← Nat.odd_iff] at this
      simp [this.neg_one_pow]

theorem formPerm_cycle (σ : Equiv.Perm (Fin n)) {l : List (Fin n)} {x0 last : Fin n} (h0 : l.head? = some x0)
    (h1 : l.getLast? = some last) (h2 : σ last = x0) (hnd : l.Nodup)
    (hch : ∀ i (h : i + 1 < l.length), l[i + 1] = σ l[i]) : ∀ x ∈ l, l.formPerm x = σ x := by
  intro x hx
  obtain ⟨i, hi, rfl⟩ := List.getElem_of_mem hx
  rw [List.formPerm_apply_getElem _ hnd]
  by_cases h : i + 1 < l.length
  · rw [← hch i h]; congr 1; exact Nat.mod_eq_of_lt h
  · have e : i + 1 = l.length := by omega
    rw [List.head?_eq_getElem?, List.getElem?_eq_getElem (by omega)] at h0
    rw [List.getLast?_eq_getElem?, List.getElem?_eq_getElem (by omega)] at h1
    have h0' := Option.some.inj h0
    have h1' := Option.some.inj h1
    have e1 : l[i] = last := by rw [← h1']; congr 1; omega
    rw [e1, h2, ← h0']
    congr 1
    rw [e, Nat.mod_self]

/-- the state of the outer loop: `π` is `σ` on the visited indices and the identity elsewhere -/
theorem signLoop_spec (σ : Equiv.Perm (Fin n)) : ∀ (inds : List ℕ), (∀ i ∈ inds, i < n) →
    ∀ (V : List ℕ) (sgn : ℤ) (π : Equiv.Perm (Fin n)),
      (∀ x : Fin n, ((σ x : ℕ) ∈ V ↔ (x : ℕ) ∈ V)) → (∀ x : Fin n, (x : ℕ) ∈ V → π x = σ x) →
      (∀ x : Fin n, (x : ℕ) ∉ V → π x = x) → (Equiv.Perm.sign π : ℤ) = sgn →
      (∀ x : Fin n, (x : ℕ) ∉ V → (x : ℕ) ∈ inds) →
      signLoop (permArray σ) inds V sgn = .ok (Equiv.Perm.sign σ : ℤ) := by
  intro inds
  induction inds with
  | nil =>
    intro _ V sgn π hV h1 h2 hs hall
    have : π = σ := by
      ext x
      by_cases h : (x : ℕ) ∈ V
      · rw [h1 x h]
      · have := hall x h; simp at this
    rw [signLoop, ← this, hs]
  | cons ind inds ih =>
    intro hlt V sgn π hV h1 h2 hs hall
    have hlt' : ∀ i ∈ inds, i < n := fun i hi => hlt i (List.mem_cons_of_mem _ hi)
    rw [signLoop]
    by_cases hmem : ind ∈ V
    · rw [if_pos hmem]
      apply ih hlt' V sgn π hV h1 h2 hs
      intro x hx
      rcases List.mem_cons.mp (hall x hx) with h | h
      · rw [← h] at hmem; exact absurd hmem hx
      · exact h
    · rw [if_neg hmem]
      have hi : ind < n := hlt ind (List.mem_cons_self ..)
      let x0 : Fin n := ⟨ind, hi⟩
      obtain ⟨l, e1, e2, ⟨last, e3, e4⟩, e5, e6, e7⟩ := signCycle_spec σ V (fun x h => (hV x).mp h) n [x0] x0 x0
        rfl rfl (by simp) (by simpa [x0] using hmem) (by simp) (by simp)
      have hget : (permArray σ)[ind]? = some (σ x0 : ℕ) := permArray_get σ x0
      have hcyc := formPerm_cycle σ e2 e3 e4 e5 e7
      have e1' : signCycle (permArray σ) (permArray σ).length (ind :: V) (σ x0 : ℕ) 1 =
        .ok (l.reverse.map Fin.val ++ V, l.length) := by
        rw [permArray_length]; exact e1
      simp only [hget, e1', bind, Except.bind]
      have hmemV' : ∀ x : Fin n, (x : ℕ) ∈ l.reverse.map Fin.val ++ V ↔ x ∈ l ∨ (x : ℕ) ∈ V := by
        intro x
        simp only [List.mem_append, List.mem_map, List.mem_reverse]
        constructor
        · rintro (⟨y, hy, hxy⟩ | h)
          · rw [Fin.ext hxy] at hy; exact Or.inl hy
          · exact Or.inr h
        · rintro (h | h)
          · exact Or.inl ⟨x, h, rfl⟩
          · exact Or.inr h
      have hlσ : ∀ x, σ x ∈ l ↔ x ∈ l := by
        intro x
        constructor
        · intro h
          have := (List.mem_toFinset).mpr h
          by_contra hx
          -- the permutation `formPerm l` maps `l` onto `l`
          obtain ⟨y, hy⟩ := l.formPerm.surjective (σ x)
          by_cases hyl : y ∈ l
          · rw [hcyc y hyl] at hy
            rw [σ.injective hy] at hyl; exact hx hyl
          · rw [List.formPerm_apply_of_notMem hyl] at hy
            rw [hy] at hyl; exact hyl h
        · intro h; rw [← hcyc x h]; exact List.formPerm_apply_mem_of_mem h
      apply ih hlt' _ _ (π * l.formPerm)
      · intro x
        rw [hmemV', hmemV', hlσ, hV]
      · intro x hx
        rw [Equiv.Perm.mul_apply]
        by_cases hxl : x ∈ l
        · rw [hcyc x hxl]
          exact h2 _ (e6 _ ((hlσ x).mpr hxl))
        · rw [List.formPerm_apply_of_notMem hxl]
          exact h1 x (((hmemV' x).mp hx).resolve_left hxl)
      · intro x hx
        rw [hmemV'] at hx
        push Not at hx
        rw [Equiv.Perm.mul_apply, List.formPerm_apply_of_notMem hx.1, h2 x hx.2]
      · rw [Equiv.Perm.sign_mul, Units.val_mul, hs, sign_formPerm l e5 (by rintro rfl; simp at e2)]
        split <;> simp
      · intro x hx
        rw [hmemV'] at hx
        push Not at hx
        rcases List.mem_cons.mp (hall x hx.2) with h | h
        · exfalso
          have : x = x0 := Fin.ext h
          rw [this] at hx
          exact hx.1 (List.mem_of_mem_head? e2)
        · exact h

theorem sign_permArray (σ : Equiv.Perm (Fin n)) : sign (permArray σ) = .ok (Equiv.Perm.sign σ : ℤ) := by
  rw [sign, permArray_length]
  apply signLoop_spec σ (List.range n) (by simp) [] 1 1 <;> simp

/-- inversions of a finite sequence, as a product over pairs -/
theorem inversions_ofFn : ∀ {n : ℕ} (f : Fin n → ℤ),
    ((-1 : ℤ)) ^ inversions (List.ofFn f) = ∏ i, ∏ j ∈ Finset.Ioi i, (if f j < f i then -1 else 1) := by
  intro n
  induction n with
  | zero => intro f; simp [inversions]
  | succ n ih =>
    intro f
    rw [List.ofFn_succ, inversions, pow_add, ih, Fin.prod_univ_succ]
    congr 1
    · have : Finset.Ioi (0 : Fin (n + 1)) = Finset.univ.map (Fin.succEmb n) := by
        ext x; simp [Fin.exists_succ_eq, Fin.pos_iff_ne_zero]
      rw [this, Finset.prod_map]
      show _ = ∏ x : Fin n, (if f x.succ < f 0 then (-1 : ℤ) else 1)
      rw [Finset.prod_ite, Finset.prod_const, Finset.prod_const_one, mul_one]
      congr 1
      have : ∀ {m : ℕ} (g : Fin m → ℤ) (p : ℤ → Bool), (List.ofFn g).countP p = (Finset.univ.filter (fun i => p (g i) = true)).card := by
        intro m
        induction m with
        | zero => intro g p; simp
        | succ m ih =>
          intro g p
          rw [List.ofFn_succ, List.countP_cons, ih, Fin.univ_succ, Finset.filter_cons]
          split <;> simp [Finset.filter_map, Function.comp_def, *]
      rw [this]; simp
    · refine Finset.prod_congr rfl fun i _ => ?_
      have : Finset.Ioi i.succ = (Finset.Ioi i).map (Fin.succEmb n) := by
        ext x
        simp only [Finset.mem_Ioi, Finset.mem_map, Fin.coe_succEmb]
        constructor
        · intro h
          obtain ⟨y, rfl⟩ := Fin.exists_succ_eq.mpr (Fin.ne_zero_of_lt h)
          exact ⟨y, by simpa using h, rfl⟩
        · rintro ⟨y, hy, rfl⟩; simpa using hy
      rw [this, Finset.prod_map]; rfl

theorem sign_eq_inversions (σ : Equiv.Perm (Fin n)) :
    (Equiv.Perm.sign σ : ℤ) = (-1) ^ inversions ((permArray σ).map (fun k : ℕ => (k : ℤ))) := by
  have : (permArray σ).map (fun k : ℕ => (k : ℤ)) = List.ofFn (fun i => ((σ i : ℕ) : ℤ)) := by
    rw [permArray, List.map_ofFn]; rfl
  rw [this, inversions_ofFn, Equiv.Perm.sign_eq_prod_prod_Ioi]
  push_cast
  refine Finset.prod_congr rfl fun i _ => Finset.prod_congr rfl fun j hj => ?_
  have hne : σ i ≠ σ j := fun h => absurd (σ.injective h) (ne_of_lt (Finset.mem_Ioi.mp hj))
  have hne' : (σ i : ℕ) ≠ σ j := fun h => hne (Fin.ext h)
  by_cases h : σ i < σ j
  · have : ¬ (((σ j : ℕ) : ℤ) < (σ i : ℕ)) := by have : (σ i : ℕ) < σ j := h; omega
    simp only [h, this, if_true, if_false]; simp
  · have : (((σ j : ℕ) : ℤ) < (σ i : ℕ)) := by have : ¬ ((σ i : ℕ) < σ j) := h; omega
    simp only [h, this, if_true, if_false]; simp

end Qosy
