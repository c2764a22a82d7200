import Verif.Lemmas.Sends
import Verif.Lemmas.PermSign
import Verif.Spec.Perm
import Verif.Props.Tools

/-! # Label permutations form a group action -/

namespace Qosy
open Coef
variable {K : Type} [Field K] [StarRing K] [Coef K]
variable {S T U : Set ℤ} {t : OpType}

theorem TypedString.type {s : OpString} (h : TypedString t S s) : s.opType = t := by
  rcases h with ⟨rfl, h⟩ | ⟨rfl, h⟩
  · exact h.type
  · exact h.type

theorem TypedString.either {s : OpString} (h : TypedString t S s) : PauliString S s ∨ MajoranaString S s :=
  h.imp And.right And.right

theorem TypedString.mem {s : OpString} (h : TypedString t S s) : ∀ l ∈ s.labels, l ∈ S := by
  rcases h with ⟨rfl, h⟩ | ⟨rfl, h⟩
  · exact h.mem
  · exact h.mem

theorem TypedString.relabel {e : ℤ → ℤ} {s : OpString} (h : TypedString t S s) (he : Set.InjOn e S) (hT : Set.MapsTo e S T) :
    TypedString t T (relabelString e s) := by
  rcases h with ⟨rfl, h⟩ | ⟨rfl, h⟩
  · exact Or.inl ⟨rfl, h.relabel he hT⟩
  · exact Or.inr ⟨rfl, h.relabel he hT⟩

theorem TypedString.relabel_canonical {e : ℤ → ℤ} {s : OpString} (h : TypedString t S s) (he : Set.InjOn e S) : (relabelString e s).Canonical := by
  rcases h with ⟨rfl, h⟩ | ⟨rfl, h⟩
  · exact relabelString_canonical h.len (h.nodup.map_on (fun x hx y hy hxy => he (h.mem x hx) (h.mem y hy) hxy))
  · exact relabelString_canonical h.len (h.nodup.map_on (fun x hx y hy hxy => he (h.mem x hx) (h.mem y hy) hxy))

theorem relabel_congr {e e' : ℤ → ℤ} {s : OpString} (h : ∀ l ∈ s.labels, e l = e' l) :
    relabelString e s = relabelString e' s ∧ relabelSign e s = relabelSign e' s := by
  have : s.labels.map e = s.labels.map e' := List.map_congr_left h
  simp only [relabelString, relabelSign, this, and_self]

/-- relabelling twice -/
theorem relabel_comp {e₁ e₂ : ℤ → ℤ} {s : OpString} (hs : TypedString t S s) (h1 : Set.InjOn e₁ S) (hT : Set.MapsTo e₁ S T) (h2 : Set.InjOn e₂ T) :
    relabelString e₂ (relabelString e₁ s) = relabelString (e₂ ∘ e₁) s ∧
    relabelSign e₁ s * relabelSign e₂ (relabelString e₁ s) = relabelSign (e₂ ∘ e₁) s := by
  have hU : Set.MapsTo e₂ T Set.univ := fun _ _ => trivial
  have hc : Set.InjOn (e₂ ∘ e₁) S := h2.comp h1 hT
  have hcU : Set.MapsTo (e₂ ∘ e₁) S Set.univ := fun _ _ => trivial
  have c1 := (hs.relabel h1 hT).relabel_canonical h2
  have c2 := hs.relabel_canonical hc
  have hfin : ∀ {𝔸 : Type} [Ring 𝔸] [Algebra QI 𝔸] [Nontrivial 𝔸] (R : StrAlg QI 𝔸), R.Str (relabelString e₂ (relabelString e₁ s)) →
      R.Str (relabelString (e₂ ∘ e₁) s) → ((relabelSign e₁ s : ℤ) : QI) • ((relabelSign e₂ (relabelString e₁ s) : ℤ) : QI) • R.den (relabelString e₂ (relabelString e₁ s))
        = ((relabelSign (e₂ ∘ e₁) s : ℤ) : QI) • R.den (relabelString (e₂ ∘ e₁) s) →
      relabelString e₂ (relabelString e₁ s) = relabelString (e₂ ∘ e₁) s ∧
      relabelSign e₁ s * relabelSign e₂ (relabelString e₁ s) = relabelSign (e₂ ∘ e₁) s := by
    intro 𝔸 _ _ _ R m1 m2 h
    have hz : ((relabelSign e₁ s : ℤ) : QI) * ((relabelSign e₂ (relabelString e₁ s) : ℤ) : QI) ≠ 0 := by
      rcases relabelSign_cases e₁ s with h1 | h1 <;> rcases relabelSign_cases e₂ (relabelString e₁ s) with h2 | h2 <;> simp [h1, h2]
    rw [smul_smul] at h
    have h' : R.den (relabelString e₂ (relabelString e₁ s)) = ((((relabelSign e₁ s : ℤ) : QI) * ((relabelSign e₂ (relabelString e₁ s) : ℤ) : QI))⁻¹ *
        ((relabelSign (e₂ ∘ e₁) s : ℤ) : QI)) • R.den (relabelString (e₂ ∘ e₁) s) := by
      rw [mul_smul, ← h, smul_smul, inv_mul_cancel₀ hz, one_smul]
    obtain ⟨e1, e2⟩ := R.same_string m1 m2 c1 c2 h'
    refine ⟨e1, ?_⟩
    rw [inv_mul_eq_one₀ hz, ← Int.cast_mul] at e2
    haveI : CharZero QI := Coef.charZero
    exact Int.cast_injective e2
  rcases hs with ⟨rfl, hs⟩ | ⟨rfl, hs⟩
  · apply hfin (waveRep QI).strAlg ((hs.relabel h1 hT).relabel h2 hU) (hs.relabel hc hcU)
    have a1 := ((waveRep QI).relabelOn e₂ h2 hU).den_relabel h1 hT hs
    rw [(waveRep QI).den_relabel h2 hU (hs.relabel h1 hT)] at a1
    rw [show (waveRep QI).strAlg.den = (waveRep QI).den from rfl, ← a1, ← (waveRep QI).den_relabel hc hcU hs]
    rfl
  · apply hfin (waveMajorana QI).strAlg ((hs.relabel h1 hT).relabel h2 hU) (hs.relabel hc hcU)
    have a1 := ((waveMajorana QI).relabelOn e₂ h2 hU).den_relabel h1 hT hs
    rw [(waveMajorana QI).den_relabel h2 hU (hs.relabel h1 hT)] at a1
    rw [show (waveMajorana QI).strAlg.den = (waveMajorana QI).den from rfl, ← a1, ← (waveMajorana QI).den_relabel hc hcU hs]
    rfl

theorem labelsOf_nodup {p : List ℕ} (h : IsPermArray p) : (labelsOf p).Nodup := by
  rw [labelsOf, List.nodup_map_iff (fun a b h => by simpa using h)]
  exact h.nodup_iff.mpr List.nodup_range

theorem labelsOf_length (p : List ℕ) : (labelsOf p).length = p.length := by simp [labelsOf]

theorem mem_siteLabels {n : ℕ} {l : ℤ} : l ∈ siteLabels n ↔ 0 ≤ l ∧ l < n := Iff.rfl

theorem relabelMap_labelsOf {p : List ℕ} {l : ℤ} (hl : l ∈ siteLabels p.length) :
    ∃ h : l.toNat < p.length, relabelMap (labelsOf p) l = (p[l.toNat] : ℤ) := by
  have h : l.toNat < p.length := by have := hl.1; have := hl.2; omega
  refine ⟨h, ?_⟩
  simp [relabelMap, labelsOf, h]

theorem relabelMap_mapsTo {p : List ℕ} (hp : IsPermArray p) :
    Set.MapsTo (relabelMap (labelsOf p)) (siteLabels p.length) (siteLabels p.length) := by
  intro l hl
  obtain ⟨h, e⟩ := relabelMap_labelsOf hl
  rw [e]
  have := hp.mem_iff.mp (List.getElem_mem h)
  rw [List.mem_range] at this
  exact ⟨by omega, by omega⟩

theorem relabelMap_inj {p : List ℕ} (hp : IsPermArray p) : Set.InjOn (relabelMap (labelsOf p)) (siteLabels p.length) := by
  have := relabelMap_injOn (labelsOf_nodup hp)
  rwa [labelsOf_length] at this

theorem compose_isPermArray {p q r : List ℕ} (hp : IsPermArray p) (hq : IsPermArray q) (hl : p.length = q.length)
    (hr : composePermutations p q = .ok r) : IsPermArray r ∧ r.length = q.length ∧
      ∀ l ∈ siteLabels q.length, relabelMap (labelsOf r) l = relabelMap (labelsOf p) (relabelMap (labelsOf q) l) := by
  obtain ⟨τ, hτ⟩ := hq.exists_perm
  obtain ⟨σ, hσ⟩ := hp.exists_perm
  obtain ⟨r', h1, h2, h3⟩ := (C26_compose_entries p q).1 (fun i hi => by
    have := hq.mem_iff.mp hi; rw [List.mem_range] at this; omega)
  rw [hr] at h1
  obtain rfl : r = r' := by simpa using h1
  refine ⟨?_, h2, ?_⟩
  · have hσ' : ∃ σ' : Equiv.Perm (Fin q.length), p = permArray σ' := by
      clear hτ h3 h2 hr
      obtain ⟨σ, hσ⟩ := hp.exists_perm
      generalize p.length = n at *
      subst hl
      exact ⟨σ, hσ⟩
    obtain ⟨σ', hσ'⟩ := hσ'
    have := C26_compose σ' τ
    rw [← hσ', ← hτ, hr] at this
    obtain rfl := Except.ok.inj this
    exact permArray_isPermArray _
  · intro l hl'
    obtain ⟨k1, e1⟩ := relabelMap_labelsOf (p := r) (l := l) (by rw [h2]; exact hl')
    obtain ⟨k2, e2⟩ := relabelMap_labelsOf hl'
    obtain ⟨k3, e3⟩ := relabelMap_labelsOf (p := p) (l := relabelMap (labelsOf q) l) (by rw [hl]; exact relabelMap_mapsTo hq hl')
    rw [e1, e3]
    have h4 := h3 l.toNat k2
    rw [List.getElem?_eq_getElem k1] at h4
    simp only [e2, Int.toNat_natCast] at k3 ⊢
    rw [List.getElem?_eq_getElem k3] at h4
    rw [Option.some.inj h4]

/-- label permutations send strings to plus or minus strings -/
theorem labelPermutation_sends {p : List ℕ} (hp : IsPermArray p) {s : OpString} (hs : TypedString t (siteLabels p.length) s) :
    (labelPermutation (labelsOf p) : Transformation K).Sends s ((relabelSign (relabelMap (labelsOf p)) s : ℤ) : K)
      (relabelString (relabelMap (labelsOf p)) s) := by
  apply permutationRule_ok (labelsOf_nodup hp)
  rw [labelsOf_length]; exact hs.either

theorem intSign {n : ℤ} (h : n = 1 ∨ n = -1) : ((n : ℤ) : K) = 1 ∨ ((n : ℤ) : K) = -1 := by rcases h with rfl | rfl <;> simp

theorem labelPermutation_signRule {p : List ℕ} (hp : IsPermArray p) (t : OpType) :
    SignRule (labelPermutation (labelsOf p) : Transformation K) t (TypedString t (siteLabels p.length))
      (fun s => ((relabelSign (relabelMap (labelsOf p)) s : ℤ) : K)) (relabelString (relabelMap (labelsOf p))) :=
  ⟨fun _ h => h.type, fun _ h => labelPermutation_sends hp h, fun s _ => intSign (relabelSign_cases _ s),
    fun _ h => h.relabel (relabelMap_inj hp) (relabelMap_mapsTo hp)⟩

theorem timeReversal_sends {s : OpString} (hs : TypedString t S s) : (timeReversal : Transformation K).Sends s (trSign K s) s := by
  rcases hs.either with h | h
  · exact timeReversal_pauli h
  · exact timeReversal_majorana h

theorem timeReversal_signRule (t : OpType) (S : Set ℤ) :
    SignRule (timeReversal : Transformation K) t (TypedString t S) (trSign K) id :=
  ⟨fun _ h => h.type, fun _ h => timeReversal_sends h, fun s _ => trSign_cases s, fun _ h => h⟩

theorem particleHole_signRule (S : Set ℤ) :
    SignRule (particleHole : Transformation K) .majorana (MajoranaString S) (phSign K) id :=
  ⟨fun _ h => h.type, fun _ h => particleHole_majorana h, fun s _ => phSign_cases s, fun _ h => h⟩

/-- the identity relabelling -/
theorem relabel_id {e : ℤ → ℤ} {s : OpString} (hs : TypedString t S s) (hc : s.Canonical) (he : ∀ l ∈ S, e l = l) :
    relabelString e s = s ∧ relabelSign e s = 1 := by
  obtain ⟨h1, h2⟩ := relabel_congr (e := e) (e' := id) (s := s) (fun l hl => he l (hs.mem l hl))
  rw [h1, h2]
  have key : ∀ (ops : List Op) (labels : List ℤ), ops.length = labels.length → labels.Pairwise (· < ·) →
      sortPair (ops.zip labels) = ops.zip labels ∧
      inversions (((ops.zip labels).filter (fun x => x.1 = .A ∨ x.1 = .B)).map Prod.snd) = 0 := by
    intro ops labels hl hp
    have hsnd : (ops.zip labels).map Prod.snd = labels := List.map_snd_zip (by omega)
    constructor
    · symm
      apply eq_sortPair (List.Perm.refl _)
      · rw [hsnd]; exact hp.imp (fun h => ne_of_lt h)
      · rw [hsnd]; exact hp.imp (fun h => le_of_lt h)
    · have : ((((ops.zip labels).filter (fun x => x.1 = .A ∨ x.1 = .B)).map Prod.snd)).Pairwise (· < ·) := by
        have h := List.filter_sublist (p := fun x : Op × ℤ => decide (x.1 = .A ∨ x.1 = .B)) (l := ops.zip labels)
        have h2 := h.map Prod.snd
        rw [hsnd] at h2
        exact hp.sublist h2
      revert this
      generalize (((ops.zip labels).filter (fun x => x.1 = .A ∨ x.1 = .B)).map Prod.snd) = v
      intro hv
      induction v with
      | nil => rfl
      | cons a v ih =>
        rw [List.pairwise_cons] at hv
        rw [inversions, ih hv.2]
        simp only [Nat.add_zero, List.countP_eq_zero]
        intro x hx
        have := hv.1 x hx
        simp; omega
  rcases hs with ⟨rfl, hs⟩ | ⟨rfl, hs⟩
  · obtain ⟨k1, k2⟩ := key s.ops s.labels hs.len hc.1
    have hz : s.ops.zip s.labels = s.word := rfl
    refine ⟨?_, by simp [relabelSign, hs.type]⟩
    have hpref : s.pref = .float1 := hc.2.resolve_left (by have := hs.pref; simpa using this)
    simp only [relabelString, List.map_id, k1, hs.type, reduceCtorEq, false_and, if_false]
    rw [List.map_fst_zip (by have := hs.len; omega), List.map_snd_zip (by have := hs.len; omega), ← hs.type, ← hpref]
  · obtain ⟨k1, k2⟩ := key s.ops s.labels hs.len hc.1
    refine ⟨?_, by simp only [relabelSign, hs.type, if_true, List.map_id, k2, pow_zero]⟩
    have hp := hs.pref
    rw [← numAB] at hp
    have hpref : (if (numAB s.ops).choose 2 % 2 = 1 then Pref.imag else .float1) = s.pref := by
      split
      · rename_i h; exact (hp.mpr h).symm
      · rename_i h; exact (hc.2.resolve_left (fun h' => h (hp.mp h'))).symm
    simp only [relabelString, List.map_id, k1, hs.type, true_and]
    rw [hpref, List.map_fst_zip (by have := hs.len; omega), List.map_snd_zip (by have := hs.len; omega), ← hs.type]

/-- `apply` only looks at the images of the strings of the Operator -/
theorem apply_eq_of_eq {T U : Transformation K} {A : Operator K} (h : ∀ x ∈ A.terms, T x.2 = U x.2) : T.apply A = U.apply A := by
  have key : ∀ (ts : List (K × OpString)), (∀ x ∈ ts, T x.2 = U x.2) → ∀ N, applyLoop T ts N = applyLoop U ts N := by
    intro ts
    induction ts with
    | nil => intro _ N; rfl
    | cons x ts ih =>
      intro h N
      obtain ⟨c, s⟩ := x
      have hx : T s = U s := h (c, s) (List.mem_cons_self ..)
      simp only [applyLoop, hx]
      congr 1; funext r; congr 1; funext cr; congr 1; funext R
      exact ih (fun x hx => h x (List.mem_cons_of_mem _ hx)) R
  unfold Transformation.apply
  congr 1; funext z
  exact key _ h z

end Qosy
