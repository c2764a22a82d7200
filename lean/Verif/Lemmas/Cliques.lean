import Verif.Spec.Graph
import Mathlib.Data.Finset.Image
import Mathlib.Data.List.Nodup

/-! # The Bron-Kerbosch algorithm -/

namespace Qosy

/-! ### sets as lists -/

theorem mem_setAdd {s : List ℕ} {v x : ℕ} : x ∈ setAdd s v ↔ x ∈ s ∨ x = v := by
  unfold setAdd; split
  · constructor
    · exact Or.inl
    · rintro (h | rfl) <;> assumption
  · simp

theorem nodup_setAdd {s : List ℕ} (h : s.Nodup) (v : ℕ) : (setAdd s v).Nodup := by
  unfold setAdd; split
  · exact h
  · rename_i hv
    rw [List.nodup_append]
    exact ⟨h, by simp, by intro a ha b hb e; simp at hb; subst hb; subst e; exact hv ha⟩

theorem mem_setInter {s t : List ℕ} {x : ℕ} : x ∈ setInter s t ↔ x ∈ s ∧ x ∈ t := by simp [setInter]
theorem nodup_setInter {s : List ℕ} (h : s.Nodup) (t : List ℕ) : (setInter s t).Nodup := h.filter _

theorem setUnion_eq_nil {s t : List ℕ} : setUnion s t = [] ↔ s = [] ∧ t = [] := by
  unfold setUnion
  rw [List.append_eq_nil_iff]
  constructor
  · rintro ⟨rfl, h⟩; simpa using h
  · rintro ⟨rfl, rfl⟩; simp

theorem mem_setUnion {s t : List ℕ} {x : ℕ} : x ∈ setUnion s t ↔ x ∈ s ∨ x ∈ t := by
  unfold setUnion
  rw [List.mem_append, List.mem_filter]
  by_cases h : x ∈ s <;> simp [h]

theorem mem_setOf {l : List ℕ} {x : ℕ} : x ∈ setOf l ↔ x ∈ l := by
  have key : ∀ (l s : List ℕ), x ∈ l.foldl setAdd s ↔ x ∈ s ∨ x ∈ l := by
    intro l
    induction l with
    | nil => simp
    | cons y ys ih =>
      intro s
      rw [List.foldl_cons, ih, mem_setAdd, List.mem_cons, or_assoc]
  rw [setOf, key]; simp

theorem toFinset_setAdd {s : List ℕ} {v : ℕ} : (setAdd s v).toFinset = insert v s.toFinset := by
  ext x; simp [mem_setAdd, or_comm]

/-! ### valid sets -/

/-- the cliques `S` a call with candidates `P` and excluded vertices `X` has to report -/
def VC (A : ℕ → ℕ → Prop) (P X : List ℕ) (S : Finset ℕ) : Prop :=
  (∀ x ∈ S, x ∈ P) ∧ (∀ a ∈ S, ∀ b ∈ S, a ≠ b → A a b) ∧ ∀ w, w ∈ P ∨ w ∈ X → w ∉ S → ∃ s ∈ S, ¬ A w s

theorem VC.congr {A : ℕ → ℕ → Prop} {P X P' X' : List ℕ} {S : Finset ℕ} (hP : ∀ x, x ∈ P ↔ x ∈ P') (hX : ∀ x, x ∈ X ↔ x ∈ X') :
    VC A P X S ↔ VC A P' X' S := by
  unfold VC; simp only [hP, hX]

theorem VC.inter {A : ℕ → ℕ → Prop} {P X Q Y : List ℕ} {v : ℕ} (hv : v ∈ P) (hQ : ∀ x, x ∈ Q ↔ x ∈ P ∧ A v x) (hY : ∀ x, x ∈ Y ↔ x ∈ X ∧ A v x)
    (hs : ∀ w, w ∈ P ∨ w ∈ X → (A v w ↔ A w v)) (hl : ¬ A v v) (S : Finset ℕ) :
    VC A Q Y S ↔ v ∉ S ∧ VC A P X (insert v S) := by
  constructor
  · rintro ⟨h1, h2, h3⟩
    have hvS : v ∉ S := fun h => hl ((hQ v).mp (h1 v h)).2
    refine ⟨hvS, ?_, ?_, ?_⟩
    · intro x hx
      rcases Finset.mem_insert.mp hx with rfl | hx
      · exact hv
      · exact ((hQ x).mp (h1 x hx)).1
    · intro a ha b hb hab
      rcases Finset.mem_insert.mp ha with rfl | ha' <;> rcases Finset.mem_insert.mp hb with rfl | hb'
      · exact absurd rfl hab
      · exact ((hQ b).mp (h1 b hb')).2
      · have := (hQ a).mp (h1 a ha')
        exact (hs a (Or.inl this.1)).mp this.2
      · exact h2 a ha' b hb' hab
    · intro w hw hwS
      rw [Finset.mem_insert, not_or] at hwS
      by_cases hvw : A v w
      · obtain ⟨s, hs1, hs2⟩ := h3 w (by rcases hw with h | h; exact Or.inl ((hQ w).mpr ⟨h, hvw⟩); exact Or.inr ((hY w).mpr ⟨h, hvw⟩)) hwS.2
        exact ⟨s, Finset.mem_insert_of_mem hs1, hs2⟩
      · exact ⟨v, Finset.mem_insert_self .., fun h => hvw ((hs w hw).mpr h)⟩
  · rintro ⟨hvS, h1, h2, h3⟩
    refine ⟨?_, ?_, ?_⟩
    · intro x hx
      have hxv : v ≠ x := fun e => hvS (e ▸ hx)
      exact (hQ x).mpr ⟨h1 x (Finset.mem_insert_of_mem hx), h2 v (Finset.mem_insert_self ..) x (Finset.mem_insert_of_mem hx) hxv⟩
    · intro a ha b hb hab
      exact h2 a (Finset.mem_insert_of_mem ha) b (Finset.mem_insert_of_mem hb) hab
    · intro w hw hwS
      have hvw : A v w := by rcases hw with h | h; exact ((hQ w).mp h).2; exact ((hY w).mp h).2
      have hw' : w ∈ P ∨ w ∈ X := by rcases hw with h | h; exact Or.inl ((hQ w).mp h).1; exact Or.inr ((hY w).mp h).1
      have hne : w ≠ v := by rintro rfl; exact hl hvw
      obtain ⟨s, hs1, hs2⟩ := h3 w hw' (by rw [Finset.mem_insert, not_or]; exact ⟨hne, hwS⟩)
      rcases Finset.mem_insert.mp hs1 with rfl | hs1
      · exact absurd ((hs w hw').mp hvw) hs2
      · exact ⟨s, hs1, hs2⟩

theorem VC.move {A : ℕ → ℕ → Prop} {P X Q Y : List ℕ} {v : ℕ} (hv : v ∈ P) (hQ : ∀ x, x ∈ Q ↔ x ∈ P ∧ x ≠ v) (hY : ∀ x, x ∈ Y ↔ x ∈ X ∨ x = v)
    (S : Finset ℕ) : VC A Q Y S ↔ VC A P X S ∧ v ∉ S := by
  have hdom : ∀ w, (w ∈ Q ∨ w ∈ Y) ↔ (w ∈ P ∨ w ∈ X) := by
    intro w
    rw [hQ, hY]
    by_cases e : w = v
    · subst e; simp [hv]
    · simp [e]
  constructor
  · rintro ⟨h1, h2, h3⟩
    refine ⟨⟨fun x hx => ((hQ x).mp (h1 x hx)).1, h2, fun w hw => h3 w ((hdom w).mpr hw)⟩, fun h => ((hQ v).mp (h1 v h)).2 rfl⟩
  · rintro ⟨⟨h1, h2, h3⟩, hvS⟩
    exact ⟨fun x hx => (hQ x).mpr ⟨h1 x hx, fun e => hvS (e ▸ hx)⟩, h2, fun w hw => h3 w ((hdom w).mp hw)⟩

/-! ### lists reporting a family of sets, each once -/

/-- `out` lists exactly the sets in `F`, each once and without repeated elements -/
structure Lists (out : List (List ℕ)) (F : Finset ℕ → Prop) : Prop where
  nodup : (out.map List.toFinset).Nodup
  each : ∀ c ∈ out, c.Nodup
  mem : ∀ e, e ∈ out.map List.toFinset ↔ F e

theorem Lists.nil {F : Finset ℕ → Prop} (h : ∀ e, ¬ F e) : Lists [] F := ⟨by simp, by simp, by simpa using h⟩

theorem Lists.append {a b : List (List ℕ)} {F G H : Finset ℕ → Prop} (ha : Lists a F) (hb : Lists b G) (hd : ∀ e, F e → ¬ G e)
    (hH : ∀ e, H e ↔ F e ∨ G e) : Lists (a ++ b) H := by
  refine ⟨?_, ?_, ?_⟩
  · rw [List.map_append, List.nodup_append]
    refine ⟨ha.nodup, hb.nodup, ?_⟩
    intro x hx y hy e
    subst e
    exact hd x ((ha.mem x).mp hx) ((hb.mem x).mp hy)
  · intro c hc
    rcases List.mem_append.mp hc with h | h
    · exact ha.each c h
    · exact hb.each c h
  · intro e
    rw [List.map_append, List.mem_append, ha.mem, hb.mem, hH]

theorem Lists.congr {a : List (List ℕ)} {F G : Finset ℕ → Prop} (h : Lists a F) (hFG : ∀ e, F e ↔ G e) : Lists a G :=
  ⟨h.nodup, h.each, fun e => by rw [h.mem, hFG]⟩

/-! ### the algorithm -/

section alg
variable {adj : List (List ℕ)} {o : SetOracle}

/-- a set of vertices on which adjacency is symmetric and loop-free -/
structure Good (adj : List (List ℕ)) (D : ℕ → Prop) : Prop where
  range : ∀ v, D v → v < adj.length
  symm : ∀ v w, D v → D w → (Adjacent adj v w ↔ Adjacent adj w v)
  loop : ∀ v, D v → ¬ Adjacent adj v v

theorem pyGet_adj {v : ℕ} (h : v < adj.length) : ∃ l, pyGet adj v = .ok l ∧ ∀ w, w ∈ l ↔ Adjacent adj v w := by
  refine ⟨adj[v], by simp [pyGet, h], ?_⟩
  intro w
  simp [Adjacent, List.getElem?_eq_getElem h]

/-- what one call reports -/
def BKSpec (adj : List (List ℕ)) (rec : List ℕ → List ℕ → List ℕ → Py (List (List ℕ))) (D : ℕ → Prop) (lim : ℕ) : Prop :=
  ∀ R P X : List ℕ, R.Nodup → P.Nodup → X.Nodup → (∀ x, x ∈ P → x ∉ X) → (∀ x, x ∈ P ∨ x ∈ X → D x ∧ x ∉ R) → P.length < lim →
    ∃ out, rec R P X = .ok out ∧ Lists out (fun e => ∃ S, VC (Adjacent adj) P X S ∧ e = R.toFinset ∪ S)

theorem bkBody_ok {D : ℕ → Prop} {rec : List ℕ → List ℕ → List ℕ → Py (List (List ℕ))} {lim : ℕ}
    (hrec : BKSpec adj rec D lim) {R P X : List ℕ} {out : List (List ℕ)} {v : ℕ} (hR : R.Nodup) (hP : P.Nodup) (hX : X.Nodup)
    (hPX : ∀ x, x ∈ P → x ∉ X) (hv : v ∈ P) (hvr : v < adj.length) (hloop : ¬ Adjacent adj v v)
    (hD : ∀ x, Adjacent adj v x → x ∈ P ∨ x ∈ X → D x) (hdR : ∀ x, x ∈ P ∨ x ∈ X → x ∉ R)
    (hlim : P.length ≤ lim) :
    ∃ Q Y o1, bkBody adj rec R (P, X, out) v = .ok (P.erase v, setAdd X v, out ++ o1) ∧
      (∀ x, x ∈ Q ↔ x ∈ P ∧ Adjacent adj v x) ∧ (∀ x, x ∈ Y ↔ x ∈ X ∧ Adjacent adj v x) ∧
      Lists o1 (fun e => ∃ S, VC (Adjacent adj) Q Y S ∧ e = insert v R.toFinset ∪ S) := by
  obtain ⟨l, hl, hmem⟩ := pyGet_adj hvr
  have hQ : ∀ x, x ∈ setInter P l ↔ x ∈ P ∧ Adjacent adj v x := fun x => by rw [mem_setInter, hmem]
  have hY : ∀ x, x ∈ setInter X l ↔ x ∈ X ∧ Adjacent adj v x := fun x => by rw [mem_setInter, hmem]
  obtain ⟨o1, h1, h2⟩ := hrec (setAdd R v) (setInter P l) (setInter X l) (nodup_setAdd hR v) (nodup_setInter hP l) (nodup_setInter hX l)
    (by intro x hx hx'; rw [hQ] at hx; rw [hY] at hx'; exact hPX x hx.1 hx'.1)
    (by
      intro x hx
      have hx' : (x ∈ P ∨ x ∈ X) ∧ Adjacent adj v x := by
        rcases hx with h | h
        · rw [hQ] at h; exact ⟨Or.inl h.1, h.2⟩
        · rw [hY] at h; exact ⟨Or.inr h.1, h.2⟩
      refine ⟨hD x hx'.2 hx'.1, ?_⟩
      rw [mem_setAdd, not_or]
      refine ⟨hdR x hx'.1, ?_⟩
      rintro rfl
      exact hloop hx'.2)
    (by
      have : (setInter P l).length < P.length := by
        apply lt_of_le_of_ne (List.length_filter_le _ _)
        intro e
        have : setInter P l = P := (List.filter_sublist (p := fun x => decide (x ∈ l)) (l := P)).eq_of_length e
        have h3 : v ∈ setInter P l := by rw [this]; exact hv
        exact hloop ((hQ v).mp h3).2
      omega)
  refine ⟨_, _, o1, ?_, hQ, hY, ?_⟩
  · simp only [bkBody, hl, h1, bind, Except.bind, setRemove, if_pos hv]
  · rw [toFinset_setAdd] at h2
    exact h2

theorem bkLoop_ok {D : ℕ → Prop} (hG : Good adj D) {rec : List ℕ → List ℕ → List ℕ → Py (List (List ℕ))} {lim : ℕ} (hrec : BKSpec adj rec D lim)
    {R : List ℕ} (hR : R.Nodup) {u : ℕ} (hu : u < adj.length) :
    ∀ (vs P X : List ℕ) (out : List (List ℕ)), P.Nodup → X.Nodup → (∀ x, x ∈ P → x ∉ X) → (∀ x, x ∈ P ∨ x ∈ X → D x ∧ x ∉ R) →
      P.length ≤ lim → vs.Nodup → (∀ v ∈ vs, v ∈ P) →
      ∃ P' X' o1, vs.foldlM (fun (st : BKState) v => do
        let adjU ← pyGet adj u
        if v ∈ adjU then Except.ok st
        else bkBody adj rec R st v) (P, X, out) = .ok (P', X', out ++ o1) ∧
        Lists o1 (fun e => ∃ S, VC (Adjacent adj) P X S ∧ (∃ v ∈ vs, ¬ Adjacent adj u v ∧ v ∈ S) ∧ e = R.toFinset ∪ S) := by
  obtain ⟨l, hl, hmem⟩ := pyGet_adj hu
  intro vs
  induction vs with
  | nil =>
    intro P X out _ _ _ _ _ _ _
    exact ⟨P, X, [], by simp; rfl, Lists.nil (by rintro e ⟨S, _, ⟨v, hv, _⟩, _⟩; simp at hv)⟩
  | cons v vs ih =>
    intro P X out hP hX hPX hPXD hlen hvs hsub
    rw [List.nodup_cons] at hvs
    have hvP := hsub v (List.mem_cons_self ..)
    by_cases huv : Adjacent adj u v
    · obtain ⟨P', X', o1, h1, h2⟩ := ih P X out hP hX hPX hPXD hlen hvs.2 (fun w hw => hsub w (List.mem_cons_of_mem _ hw))
      refine ⟨P', X', o1, ?_, h2.congr ?_⟩
      · rw [List.foldlM_cons, hl]
        simp only [bind, Except.bind, (hmem v).mpr huv, if_true]
        simp only [hl, bind, Except.bind] at h1
        exact h1
      · intro e
        constructor
        · rintro ⟨S, g1, ⟨w, hw, g2⟩, g3⟩; exact ⟨S, g1, ⟨w, List.mem_cons_of_mem _ hw, g2⟩, g3⟩
        · rintro ⟨S, g1, ⟨w, hw, g2, g2'⟩, g3⟩
          rcases List.mem_cons.mp hw with rfl | hw
          · exact absurd huv g2
          · exact ⟨S, g1, ⟨w, hw, g2, g2'⟩, g3⟩
    · have hDv := (hPXD v (Or.inl hvP))
      obtain ⟨Q, Y, o1, k1, k2, k3, k4⟩ := bkBody_ok (out := out) hrec hR hP hX hPX hvP (hG.range v hDv.1) (hG.loop v hDv.1)
        (fun x _ hx => (hPXD x hx).1) (fun x hx => (hPXD x hx).2) hlen
      have herase : ∀ x, x ∈ P.erase v ↔ x ∈ P ∧ x ≠ v := fun x => by rw [hP.mem_erase_iff, and_comm]
      obtain ⟨P', X', o2, h1, h2⟩ := ih (P.erase v) (setAdd X v) (out ++ o1) (hP.erase v) (nodup_setAdd hX v)
        (by intro x hx hx'; rw [herase] at hx; rw [mem_setAdd] at hx'; rcases hx' with h | h; exact hPX x hx.1 h; exact hx.2 h)
        (by
          intro x hx
          rw [herase, mem_setAdd] at hx
          rcases hx with h | h | rfl
          · exact hPXD x (Or.inl h.1)
          · exact hPXD x (Or.inr h)
          · exact hPXD x (Or.inl hvP))
        (by have := List.length_erase_le (a := v) (l := P); omega) hvs.2
        (by
          intro w hw
          rw [herase]
          refine ⟨hsub w (List.mem_cons_of_mem _ hw), ?_⟩
          rintro rfl; exact hvs.1 hw)
      have hmove : ∀ S, VC (Adjacent adj) (P.erase v) (setAdd X v) S ↔ VC (Adjacent adj) P X S ∧ v ∉ S :=
        VC.move hvP herase (fun x => mem_setAdd)
      have hinter : ∀ S, VC (Adjacent adj) Q Y S ↔ v ∉ S ∧ VC (Adjacent adj) P X (insert v S) :=
        VC.inter hvP k2 k3 (fun w hw => hG.symm v w hDv.1 (hPXD w hw).1) (hG.loop v hDv.1)
      refine ⟨P', X', o1 ++ o2, ?_, Lists.append k4 h2 ?_ ?_⟩
      · rw [List.foldlM_cons, hl]
        have hnm : v ∉ l := fun h => huv ((hmem v).mp h)
        simp only [bind, Except.bind, hnm, if_false, k1]
        simp only [hl, bind, Except.bind] at h1
        rw [← List.append_assoc]
        exact h1
      · rintro e ⟨S, g1, rfl⟩ ⟨S', g2, _, g3⟩
        rw [hmove] at g2
        have : v ∈ insert v R.toFinset ∪ S := by simp
        rw [g3] at this
        rcases Finset.mem_union.mp this with h | h
        · exact hDv.2 (List.mem_toFinset.mp h)
        · exact g2.2 h
      · intro e
        constructor
        · rintro ⟨S, g1, ⟨w, hw, g2, g2'⟩, rfl⟩
          by_cases hvS : v ∈ S
          · left
            refine ⟨S.erase v, (hinter _).mpr ⟨Finset.notMem_erase v S, by rw [Finset.insert_erase hvS]; exact g1⟩, ?_⟩
            rw [Finset.insert_union, ← Finset.union_insert, Finset.insert_erase hvS]
          · right
            rcases List.mem_cons.mp hw with rfl | hw
            · exact absurd g2' hvS
            · exact ⟨S, (hmove S).mpr ⟨g1, hvS⟩, ⟨w, hw, g2, g2'⟩, rfl⟩
        · rintro (⟨S, g1, rfl⟩ | ⟨S, g1, ⟨w, hw, g2, g2'⟩, rfl⟩)
          · rw [hinter] at g1
            refine ⟨insert v S, g1.2, ⟨v, List.mem_cons_self .., huv, Finset.mem_insert_self ..⟩, ?_⟩
            rw [Finset.insert_union, Finset.union_insert]
          · exact ⟨S, ((hmove S).mp g1).1, ⟨w, List.mem_cons_of_mem _ hw, g2, g2'⟩, rfl⟩

theorem bronKerbosch_ok (ho : o.Valid) {D : ℕ → Prop} (hG : Good adj D) (lim : ℕ) : BKSpec adj (bronKerbosch adj o lim) D lim := by
  induction lim with
  | zero => intro R P X _ _ _ _ _ h; omega
  | succ lim ih =>
    intro R P X hR hP hX hPX hPXD hlen
    by_cases h0 : P.length = 0 ∧ X.length = 0
    · refine ⟨[o.toList R], by simp [bronKerbosch, h0], ?_⟩
      have hp := ho.toList_perm R hR
      have e1 : (o.toList R).toFinset = R.toFinset := List.toFinset_eq_of_perm _ _ hp
      have hP0 : P = [] := List.eq_nil_of_length_eq_zero h0.1
      have hX0 : X = [] := List.eq_nil_of_length_eq_zero h0.2
      subst hP0 hX0
      refine ⟨by simp, by intro c hc; simp at hc; subst hc; exact hp.nodup_iff.mpr hR, ?_⟩
      intro e
      simp only [List.map_cons, List.map_nil, List.mem_singleton, e1]
      constructor
      · rintro rfl
        exact ⟨∅, ⟨by simp, by simp, by simp⟩, by simp⟩
      · rintro ⟨S, ⟨h1, _, _⟩, rfl⟩
        have : S = ∅ := Finset.eq_empty_of_forall_notMem (fun x hx => by simpa using h1 x hx)
        simp [this]
    · have hne : setUnion P X ≠ [] := by
        rw [Ne, setUnion_eq_nil]
        rintro ⟨rfl, rfl⟩
        exact h0 ⟨rfl, rfl⟩
      have hu := ho.first_mem R (setUnion P X) hne
      set u := o.first R (setUnion P X) with hudef
      rw [mem_setUnion] at hu
      have hDu := (hPXD u hu).1
      have hperm := ho.enum_perm R P hP
      obtain ⟨P', X', o1, h1, h2⟩ := bkLoop_ok hG ih hR (hG.range u hDu) (o.enum R P) P X [] hP hX hPX hPXD (by omega)
        (hperm.nodup_iff.mpr hP) (fun v hv => hperm.mem_iff.mp hv)
      refine ⟨o1, ?_, h2.congr ?_⟩
      · rw [bronKerbosch, if_neg h0]
        show (do let st ← List.foldlM _ (P, X, []) (o.enum R P); Except.ok st.2.2) = _
        rw [h1]
        rfl
      · intro e
        constructor
        · rintro ⟨S, g1, _, g3⟩; exact ⟨S, g1, g3⟩
        · rintro ⟨S, g1, g3⟩
          refine ⟨S, g1, ?_, g3⟩
          by_cases huS : u ∈ S
          · exact ⟨u, hperm.mem_iff.mpr (g1.1 u huS), hG.loop u hDu, huS⟩
          · obtain ⟨s, hs1, hs2⟩ := g1.2.2 u hu huS
            exact ⟨s, hperm.mem_iff.mpr (g1.1 s hs1), hs2, hs1⟩

/-- `D`-vertices given by a test, every neighbour passes it -/
structure GoodTest (adj : List (List ℕ)) (g : ℕ → Bool) : Prop where
  nbr : ∀ v w, Adjacent adj v w → g w = true ∧ w < adj.length
  symm : ∀ v w, g v = true → g w = true → (Adjacent adj v w ↔ Adjacent adj w v)
  loop : ∀ v, ¬ Adjacent adj v v

theorem topLoop_ok (ho : o.Valid) {g : ℕ → Bool} (hg : GoodTest adj g) {lim : ℕ} :
    ∀ (vs P X : List ℕ) (out : List (List ℕ)), P.Nodup → X.Nodup → (∀ x, x ∈ P → x ∉ X) → (∀ x, x ∈ P ∨ x ∈ X → x < adj.length) →
      P.length ≤ lim → vs.Nodup → (∀ v ∈ vs, v ∈ P) →
      ∃ P' X' o1, vs.foldlM (bkBody adj (bronKerbosch adj o lim) []) (P, X, out) = .ok (P', X', out ++ o1) ∧
        (∀ c ∈ o1, c.Nodup) ∧
        Lists (o1.filter (fun c => c.all g)) (fun S => VC (Adjacent adj) (P.filter g) (X.filter g) S ∧ ∃ v ∈ vs, v ∈ S) := by
  have hG : Good adj (fun v => g v = true ∧ v < adj.length) :=
    ⟨fun v h => h.2, fun v w h1 h2 => hg.symm v w h1.1 h2.1, fun v _ => hg.loop v⟩
  intro vs
  induction vs with
  | nil =>
    intro P X out _ _ _ _ _ _ _
    exact ⟨P, X, [], by simp; rfl, by simp, Lists.nil (by rintro e ⟨_, v, hv, _⟩; simp at hv)⟩
  | cons v vs ih =>
    intro P X out hP hX hPX hran hlen hvs hsub
    rw [List.nodup_cons] at hvs
    have hvP := hsub v (List.mem_cons_self ..)
    obtain ⟨Q, Y, o1, k1, k2, k3, k4⟩ := bkBody_ok (out := out) (bronKerbosch_ok ho hG lim) List.nodup_nil hP hX hPX hvP (hran v (Or.inl hvP)) (hg.loop v)
        (fun x hx _ => hg.nbr v x hx) (by simp) hlen
    have herase : ∀ x, x ∈ P.erase v ↔ x ∈ P ∧ x ≠ v := fun x => by rw [hP.mem_erase_iff, and_comm]
    obtain ⟨P', X', o2, h1, hnd, h2⟩ := ih (P.erase v) (setAdd X v) (out ++ o1) (hP.erase v) (nodup_setAdd hX v)
      (by intro x hx hx'; rw [herase] at hx; rw [mem_setAdd] at hx'; rcases hx' with h | h; exact hPX x hx.1 h; exact hx.2 h)
      (by
        intro x hx
        rw [herase, mem_setAdd] at hx
        rcases hx with h | h | rfl
        · exact hran x (Or.inl h.1)
        · exact hran x (Or.inr h)
        · exact hran x (Or.inl hvP))
      (by have := List.length_erase_le (a := v) (l := P); omega) hvs.2
      (by
        intro w hw
        rw [herase]
        refine ⟨hsub w (List.mem_cons_of_mem _ hw), ?_⟩
        rintro rfl; exact hvs.1 hw)
    have hvQ : ∀ S, VC (Adjacent adj) Q Y S → ∀ x ∈ insert v S, x = v ∨ g x = true := by
      intro S hS x hx
      rcases Finset.mem_insert.mp hx with rfl | hx
      · exact Or.inl rfl
      · exact Or.inr (hg.nbr v x ((k2 x).mp (hS.1 x hx)).2).1
    have hall : ∀ c : List ℕ, c.all g = true ↔ ∀ x ∈ c.toFinset, g x = true := by intro c; simp
    refine ⟨P', X', o1 ++ o2, ?_, ?_, ?_⟩
    · rw [List.foldlM_cons, k1, ← List.append_assoc]
      exact h1
    · intro c hc
      rcases List.mem_append.mp hc with h | h
      · exact k4.each c h
      · exact hnd c h
    rw [List.filter_append]
    by_cases hgv : g v = true
    · have hf : o1.filter (fun c => c.all g) = o1 := by
        rw [List.filter_eq_self]
        intro c hc
        rw [hall]
        obtain ⟨S, hS, e⟩ := (k4.mem c.toFinset).mp (List.mem_map_of_mem hc)
        rw [e]
        intro x hx
        have hx' : x ∈ insert v S := by simpa using hx
        rcases hvQ S hS x hx' with rfl | h
        · exact hgv
        · exact h
      rw [hf]
      have hfe : ∀ x, x ∈ (P.erase v).filter g ↔ x ∈ P.filter g ∧ x ≠ v := by
        intro x; simp only [List.mem_filter, herase]; tauto
      have hfa : ∀ x, x ∈ (setAdd X v).filter g ↔ x ∈ X.filter g ∨ x = v := by
        intro x; simp only [List.mem_filter, mem_setAdd]
        by_cases e : x = v
        · subst e; simp [hgv]
        · simp [e]
      have hvf : v ∈ P.filter g := List.mem_filter.mpr ⟨hvP, hgv⟩
      have hmove : ∀ S, VC (Adjacent adj) ((P.erase v).filter g) ((setAdd X v).filter g) S ↔ VC (Adjacent adj) (P.filter g) (X.filter g) S ∧ v ∉ S :=
        VC.move hvf hfe hfa
      have hinter : ∀ S, VC (Adjacent adj) Q Y S ↔ v ∉ S ∧ VC (Adjacent adj) (P.filter g) (X.filter g) (insert v S) := by
        apply VC.inter hvf
        · intro x; rw [k2, List.mem_filter]
          exact ⟨fun h => ⟨⟨h.1, (hg.nbr v x h.2).1⟩, h.2⟩, fun h => ⟨h.1.1, h.2⟩⟩
        · intro x; rw [k3, List.mem_filter]
          exact ⟨fun h => ⟨⟨h.1, (hg.nbr v x h.2).1⟩, h.2⟩, fun h => ⟨h.1.1, h.2⟩⟩
        · intro w hw
          refine hg.symm v w hgv ?_
          rcases hw with h | h <;> exact (List.mem_filter.mp h).2
        · exact hg.loop v
      refine Lists.append k4 h2 ?_ ?_
      · rintro e ⟨S, g1, rfl⟩ ⟨g2, _⟩
        rw [hmove] at g2
        exact g2.2 (by simp)
      · intro e
        constructor
        · rintro ⟨g1, w, hw, g2⟩
          by_cases hvS : v ∈ e
          · left
            refine ⟨e.erase v, (hinter _).mpr ⟨Finset.notMem_erase v e, by rw [Finset.insert_erase hvS]; exact g1⟩, ?_⟩
            rw [Finset.insert_union, ← Finset.union_insert, Finset.insert_erase hvS]; simp
          · right
            rcases List.mem_cons.mp hw with rfl | hw
            · exact absurd g2 hvS
            · exact ⟨(hmove _).mpr ⟨g1, hvS⟩, w, hw, g2⟩
        · rintro (⟨S, g1, rfl⟩ | ⟨g1, w, hw, g2⟩)
          · rw [hinter] at g1
            have : insert v (List.toFinset []) ∪ S = insert v S := by simp
            rw [this]
            exact ⟨g1.2, v, List.mem_cons_self .., Finset.mem_insert_self ..⟩
          · exact ⟨((hmove _).mp g1).1, w, List.mem_cons_of_mem _ hw, g2⟩
    · have hf : o1.filter (fun c => c.all g) = [] := by
        rw [List.filter_eq_nil_iff]
        intro c hc
        rw [hall]
        obtain ⟨S, hS, e⟩ := (k4.mem c.toFinset).mp (List.mem_map_of_mem hc)
        rw [e]
        intro h
        exact hgv (h v (by simp))
      rw [hf, List.nil_append]
      have h3 : ∀ S, VC (Adjacent adj) ((P.erase v).filter g) ((setAdd X v).filter g) S ↔ VC (Adjacent adj) (P.filter g) (X.filter g) S := by
        intro S
        apply VC.congr
        · intro x; simp only [List.mem_filter, herase]
          constructor
          · rintro ⟨⟨h1, h2⟩, h3⟩; exact ⟨h1, h3⟩
          · rintro ⟨h1, h3⟩; exact ⟨⟨h1, by rintro rfl; exact hgv h3⟩, h3⟩
        · intro x; simp only [List.mem_filter, mem_setAdd]
          constructor
          · rintro ⟨h1 | rfl, h3⟩
            · exact ⟨h1, h3⟩
            · exact absurd h3 hgv
          · rintro ⟨h1, h3⟩; exact ⟨Or.inl h1, h3⟩
      refine h2.congr ?_
      intro S
      rw [h3]
      refine and_congr_right fun hS => ?_
      constructor
      · rintro ⟨w, hw, h⟩; exact ⟨w, List.mem_cons_of_mem _ hw, h⟩
      · rintro ⟨w, hw, h⟩
        rcases List.mem_cons.mp hw with rfl | hw
        · exact absurd (List.mem_filter.mp (hS.1 w h)).2 hgv
        · exact ⟨w, hw, h⟩

end alg

theorem adjacent_map_setOf {adj : List (List ℕ)} {i j : ℕ} : Adjacent (adj.map setOf) i j ↔ Adjacent adj i j := by
  unfold Adjacent
  rw [List.getElem?_map]
  cases adj[i]? with
  | none => simp
  | some l => simp [mem_setOf]

theorem isMaximal_iff {adj : List (List ℕ)} {V : Set ℕ} (hsymm : ∀ v ∈ V, ∀ w ∈ V, (Adjacent adj v w ↔ Adjacent adj w v)) {P : List ℕ} (hP : ∀ x, x ∈ P ↔ x ∈ V) (S : Finset ℕ) :
    (VC (Adjacent adj) P [] S ∧ ∃ v, v ∈ S) ↔ IsMaximalCliqueSet adj V S := by
  constructor
  · rintro ⟨⟨h1, h2, h3⟩, hne⟩
    refine ⟨⟨hne, fun x hx => (hP x).mp (h1 x hx), h2⟩, ?_⟩
    rintro T ⟨_, t1, t2⟩ hST
    refine (Finset.Subset.antisymm hST ?_).symm
    intro w hw
    by_contra hwS
    obtain ⟨s, hs1, hs2⟩ := h3 w (Or.inl ((hP w).mpr (t1 w hw))) hwS
    exact hs2 (t2 w hw s (hST hs1) (by rintro rfl; exact hwS hs1))
  · rintro ⟨⟨hne, h1, h2⟩, h3⟩
    refine ⟨⟨fun x hx => (hP x).mpr (h1 x hx), h2, ?_⟩, hne⟩
    intro w hw hwS
    have hwV : w ∈ V := by rcases hw with h | h; exact (hP w).mp h; simp at h
    by_contra hc
    push Not at hc
    have := h3 (insert w S) ⟨⟨w, Finset.mem_insert_self ..⟩, ?_, ?_⟩ (Finset.subset_insert ..)
    · exact hwS (this ▸ Finset.mem_insert_self ..)
    · intro x hx
      rcases Finset.mem_insert.mp hx with rfl | hx
      · exact hwV
      · exact h1 x hx
    · intro a ha b hb hab
      rcases Finset.mem_insert.mp ha with rfl | ha' <;> rcases Finset.mem_insert.mp hb with rfl | hb'
      · exact absurd rfl hab
      · exact hc b hb'
      · exact (hsymm b hwV a (h1 a ha')).mp (hc a ha')
      · exact h2 a ha' b hb' hab

/-- the reported cliques of good vertices are the maximal cliques of the induced graph -/
theorem maximalCliques_ok {o : SetOracle} (ho : o.Valid) {adj : List (List ℕ)} {g : ℕ → Bool} (hg : GoodTest adj g) {lim : ℕ} (hlim : adj.length ≤ lim) :
    ∃ out, maximalCliques o lim adj = .ok out ∧ (∀ c ∈ out, c.Nodup) ∧
      Lists (out.filter (fun c => c.all g)) (fun S => IsMaximalCliqueSet adj {v | v < adj.length ∧ g v = true} S) := by
  have hA : ∀ i j, Adjacent (adj.map setOf) i j ↔ Adjacent adj i j := fun i j => adjacent_map_setOf
  have hAf : Adjacent (adj.map setOf) = Adjacent adj := by funext i j; exact propext (hA i j)
  have hg' : GoodTest (adj.map setOf) g := ⟨fun v w h => by simpa using hg.nbr v w ((hA v w).mp h), fun v w h1 h2 => by rw [hA, hA]; exact hg.symm v w h1 h2, fun v => by rw [hA]; exact hg.loop v⟩
  have hperm : ((o.argsort (adj.map List.length)).reverse).Perm (List.range adj.length) := by
    have := ho.argsort_perm (adj.map List.length)
    rw [List.length_map] at this
    exact (List.reverse_perm _).trans this
  obtain ⟨P', X', o1, h1, h2, h3⟩ := topLoop_ok ho hg' (lim := lim) (o.argsort (adj.map List.length)).reverse (List.range adj.length) [] []
    List.nodup_range List.nodup_nil (by simp) (by simp) (by simpa using hlim) (hperm.nodup_iff.mpr List.nodup_range) (fun v hv => hperm.mem_iff.mp hv)
  refine ⟨o1, ?_, h2, h3.congr ?_⟩
  · show (do let st ← List.foldlM _ (List.range adj.length, [], []) _; Except.ok st.2.2) = _
    rw [h1]; rfl
  · intro S
    rw [hAf, List.filter_nil]
    rw [← isMaximal_iff (P := (List.range adj.length).filter g)
      (fun v hv w hw => hg.symm v w hv.2 hw.2) (by simp)]
    refine and_congr_right fun hS => ?_
    constructor
    · rintro ⟨v, _, h⟩; exact ⟨v, h⟩
    · rintro ⟨v, h⟩
      exact ⟨v, hperm.mem_iff.mpr (List.mem_filter.mp (hS.1 v h)).1, h⟩

end Qosy
