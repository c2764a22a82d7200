import Verif.Lemmas.PermGroup
import Verif.Lemmas.Antiunitary
import Verif.Spec.Fermion

/-! # Properties C36-C40: transformations -/

namespace Qosy
open Coef
variable {K : Type} [Field K] [StarRing K] [Coef K]
variable {𝔸 : Type} [Ring 𝔸] [Algebra K 𝔸] {S T : Set ℤ} {t : OpType}

/-- a Majorana representation on any set of labels -/
def majoranaOn (K : Type) [Field K] [StarRing K] [Coef K] (S : Set ℤ) : MajoranaRep K (Module.End K (Conf → K)) S :=
  (waveMajorana K).relabelOn id (fun _ _ _ _ h => h) (fun _ _ => trivial)

/-! ## C36 -/

/-- **C36** (Pauli): `label_permutation(perm).apply(s)` is one string with coefficient 1 that denotes `s` with relabelled site
operators, in every representation. -/
theorem C36_pauli {perm : List ℤ} (hp : perm.Nodup) {s : OpString} (hs : PauliString (siteLabels perm.length) s) :
    ∃ s', (labelPermutation perm : Transformation K).Sends s 1 s' ∧ s'.Canonical ∧
      ∀ {T : Set ℤ} (hT : Set.MapsTo (relabelMap perm) (siteLabels perm.length) T), PauliString T s' ∧
      ∀ {𝔸 : Type} [Ring 𝔸] [Algebra K 𝔸] (R : PauliRep K 𝔸 T), (R.relabelOn (relabelMap perm) (relabelMap_injOn hp) hT).den s = R.den s' := by
  have he := relabelMap_injOn hp
  have h1 := permutationRule_ok (K := K) hp (Or.inl hs)
  have hsgn : relabelSign (relabelMap perm) s = 1 := by simp [relabelSign, hs.type]
  rw [hsgn, Int.cast_one] at h1
  refine ⟨_, h1, relabelString_canonical hs.len (hs.nodup.map_on (fun x hx y hy hxy => he (hs.mem x hx) (hs.mem y hy) hxy)), ?_⟩
  intro T hT
  refine ⟨hs.relabel he hT, ?_⟩
  intro 𝔸 _ _ R
  rw [R.den_relabel he hT hs, hsgn, Int.cast_one, one_smul]

/-- **C36** (Majorana): the same, with the sign from reordering anticommuting operators. -/
theorem C36_majorana {perm : List ℤ} (hp : perm.Nodup) {s : OpString} (hs : MajoranaString (siteLabels perm.length) s) :
    ∃ (ε : K) (s' : OpString), (labelPermutation perm : Transformation K).Sends s ε s' ∧ (ε = 1 ∨ ε = -1) ∧ s'.Canonical ∧
      ∀ {T : Set ℤ} (hT : Set.MapsTo (relabelMap perm) (siteLabels perm.length) T), MajoranaString T s' ∧
      ∀ {𝔸 : Type} [Ring 𝔸] [Algebra K 𝔸] (R : MajoranaRep K 𝔸 T),
        (R.relabelOn (relabelMap perm) (relabelMap_injOn hp) hT).den s = ε • R.den s' := by
  have he := relabelMap_injOn hp
  have h1 := permutationRule_ok (K := K) hp (Or.inr hs)
  refine ⟨_, _, h1, ?_, relabelString_canonical hs.len (hs.nodup.map_on (fun x hx y hy hxy => he (hs.mem x hx) (hs.mem y hy) hxy)), ?_⟩
  · rcases relabelSign_cases (relabelMap perm) s with h | h <;> simp [h]
  · intro T hT
    refine ⟨hs.relabel he hT, ?_⟩
    intro 𝔸 _ _ R
    rw [R.den_relabel he hT hs]

/-- **C36**: products are preserved: if `product(A, B) = (c, C)` and `A ↦ a A'`, `B ↦ b B'`, `C ↦ k C'` under the permutation, then
`product(A', B') = (c', C')` with `a b c' = c k`. -/
theorem C36_product {perm : List ℤ} (hp : perm.Nodup) {t : OpType} {A B C A' B' C' : OpString}
    (hA : TypedString t (siteLabels perm.length) A) (hB : TypedString t (siteLabels perm.length) B) {c a b k : K}
    (hC : productS A B = .ok (c, some C))
    (hA' : (labelPermutation perm : Transformation K).Sends A a A') (hB' : (labelPermutation perm : Transformation K).Sends B b B')
    (hC' : (labelPermutation perm : Transformation K).Sends C k C') :
    ∃ c', productS A' B' = .ok (c', some C') ∧ a * b * c' = c * k := by
  have he := relabelMap_injOn hp
  have hT : Set.MapsTo (relabelMap perm) (siteLabels perm.length) Set.univ := fun _ _ => trivial
  have uniq : ∀ {s : OpString} (_ : PauliString (siteLabels perm.length) s ∨ MajoranaString (siteLabels perm.length) s) {x : K} {s' : OpString},
      (labelPermutation perm : Transformation K).Sends s x s' → x = ((relabelSign (relabelMap perm) s : ℤ) : K) ∧ s' = relabelString (relabelMap perm) s := by
    intro s hs x s' h
    have h1 := permutationRule_ok (K := K) hp hs
    rw [Transformation.Sends, show labelPermutation perm s = _ from h] at h1
    simp only [Except.ok.injEq, Operator.mk.injEq, List.cons.injEq, and_true, Basis.ofList, Basis.mk.injEq, List.zipIdx_singleton,
      Prod.mk.injEq] at h1
    exact ⟨h1.1, h1.2.1⟩
  have hne : ∀ s : OpString, ((relabelSign (relabelMap perm) s : ℤ) : K) ≠ 0 := by
    intro s; rcases relabelSign_cases (relabelMap perm) s with h | h <;> simp [h]
  rcases hA with ⟨rfl, hA⟩ | ⟨rfl, hA⟩
  · obtain hB : PauliString (siteLabels perm.length) B := by
      rcases hB with ⟨-, hB⟩ | ⟨h, -⟩
      · exact hB
      · simp at h
    obtain ⟨hCs, c', h1, h2⟩ := StrAlg.transport (R' := ((waveRep K).relabelOn (relabelMap perm) he hT).strAlg) (R := (waveRep K).strAlg)
      (ε := fun s => ((relabelSign (relabelMap perm) s : ℤ) : K)) (f := relabelString (relabelMap perm)) (fun s _ => hne s)
      (fun s (hs : PauliString _ s) => ⟨hs.relabel he hT, relabelString_canonical hs.len (hs.nodup.map_on (fun x hx y hy hxy => he (hs.mem x hx) (hs.mem y hy) hxy))⟩)
      (fun s hs => (waveRep K).den_relabel he hT hs) hA hB hC
    obtain ⟨rfl, rfl⟩ := uniq (Or.inl hA) hA'
    obtain ⟨rfl, rfl⟩ := uniq (Or.inl hB) hB'
    obtain ⟨rfl, rfl⟩ := uniq (Or.inl hCs) hC'
    exact ⟨c', h1, h2⟩
  · obtain hB : MajoranaString (siteLabels perm.length) B := by
      rcases hB with ⟨h, -⟩ | ⟨-, hB⟩
      · simp at h
      · exact hB
    obtain ⟨hCs, c', h1, h2⟩ := StrAlg.transport (R' := ((waveMajorana K).relabelOn (relabelMap perm) he hT).strAlg) (R := (waveMajorana K).strAlg)
      (ε := fun s => ((relabelSign (relabelMap perm) s : ℤ) : K)) (f := relabelString (relabelMap perm)) (fun s _ => hne s)
      (fun s (hs : MajoranaString _ s) => ⟨hs.relabel he hT, relabelString_canonical hs.len (hs.nodup.map_on (fun x hx y hy hxy => he (hs.mem x hx) (hs.mem y hy) hxy))⟩)
      (fun s hs => (waveMajorana K).den_relabel he hT hs) hA hB hC
    obtain ⟨rfl, rfl⟩ := uniq (Or.inr hA) hA'
    obtain ⟨rfl, rfl⟩ := uniq (Or.inr hB) hB'
    obtain ⟨rfl, rfl⟩ := uniq (Or.inr hCs) hC'
    exact ⟨c', h1, h2⟩

/-- **C36** (Operators): for a permutation array, `apply` on a Pauli Operator is the relabelling of the operator it denotes. -/
theorem C36_pauli_operators {p : List ℕ} (hp : IsPermArray p) (R : PauliRep K 𝔸 (siteLabels p.length)) {A : Operator K}
    (hA : A.On .pauli (PauliString (siteLabels p.length))) :
    ∃ B, (labelPermutation (labelsOf p)).apply A = .ok B ∧ B.On .pauli (PauliString (siteLabels p.length)) ∧
      B.den R.den = A.den (R.relabelOn (relabelMap (labelsOf p)) (relabelMap_inj hp) (relabelMap_mapsTo hp)).den := by
  have hV : TypedString .pauli (siteLabels p.length) = PauliString (siteLabels p.length) := by
    funext s; simp [TypedString]
  have h := labelPermutation_signRule (K := K) hp .pauli
  rw [hV] at h
  refine apply_den h.maps hA R.den _ (fun s hs => ?_)
  rw [Sends.image (h.sends s hs), R.den_relabel (relabelMap_inj hp) (relabelMap_mapsTo hp) hs]
  simp [denT]

/-- **C36** (Operators): the same for Majorana Operators. -/
theorem C36_majorana_operators {p : List ℕ} (hp : IsPermArray p) (R : MajoranaRep K 𝔸 (siteLabels p.length)) {A : Operator K}
    (hA : A.On .majorana (MajoranaString (siteLabels p.length))) :
    ∃ B, (labelPermutation (labelsOf p)).apply A = .ok B ∧ B.On .majorana (MajoranaString (siteLabels p.length)) ∧
      B.den R.den = A.den (R.relabelOn (relabelMap (labelsOf p)) (relabelMap_inj hp) (relabelMap_mapsTo hp)).den := by
  have hV : TypedString .majorana (siteLabels p.length) = MajoranaString (siteLabels p.length) := by
    funext s; simp [TypedString]
  have h := labelPermutation_signRule (K := K) hp .majorana
  rw [hV] at h
  refine apply_den h.maps hA R.den _ (fun s hs => ?_)
  rw [Sends.image (h.sends s hs), R.den_relabel (relabelMap_inj hp) (relabelMap_mapsTo hp) hs]
  simp [denT]

/-- **C36** (errors): strings that are not of Pauli or Majorana type give ValueError; the first label past the end gives IndexError. -/
theorem C36_errors (perm : List ℤ) (s : OpString) :
    (¬ (s.opType = .pauli ∨ s.opType = .majorana) → labelPermutation (K := K) perm s = .error .valueError) ∧
    (s.opType = .pauli ∨ s.opType = .majorana → (∀ l ∈ s.labels, 0 ≤ l) → (∃ l ∈ s.labels, (perm.length : ℤ) ≤ l) →
      labelPermutation (K := K) perm s = .error .indexError) := by
  constructor
  · intro h
    unfold labelPermutation permutationRule
    rw [if_pos h]
  · intro h hpos hex
    unfold labelPermutation permutationRule
    rw [if_neg (not_not.mpr h)]
    have : s.labels.mapM (npGet perm) = .error .indexError := by
      revert hpos hex
      generalize s.labels = ls
      induction ls with
      | nil => simp
      | cons l ls ih =>
        intro hpos hex
        have hl := hpos l (List.mem_cons_self ..)
        rw [List.mapM_cons]
        by_cases hlt : (perm.length : ℤ) ≤ l
        · have : npGet perm l = .error .indexError := by
            unfold npGet pyGet
            simp only [if_neg (not_lt.mpr hl)]
            rw [List.getElem?_eq_none (by omega)]
          rw [this]; rfl
        · have : ∃ y, npGet perm l = .ok y := by
            unfold npGet pyGet
            simp only [if_neg (not_lt.mpr hl)]
            rw [List.getElem?_eq_getElem (by omega)]
            exact ⟨_, rfl⟩
          obtain ⟨y, hy⟩ := this
          rw [hy]
          simp only [bind, Except.bind]
          rw [ih (fun x hx => hpos x (List.mem_cons_of_mem _ hx))]
          obtain ⟨x, hx, hx'⟩ := hex
          rcases List.mem_cons.mp hx with rfl | hx
          · exact absurd hx' hlt
          · exact ⟨x, hx, hx'⟩
    rw [this]; rfl

private def xy : OpString := ⟨[.X, .Y], [0, 2], .pauli, .float1⟩
private def ab : OpString := ⟨[.A, .B], [0, 2], .majorana, .imag⟩

example : PauliString (siteLabels 3) xy := ⟨rfl, by decide, rfl, by decide, by simp [xy, siteLabels], by decide⟩
example : MajoranaString (siteLabels 3) ab := ⟨rfl, by decide, rfl, by decide, by simp [ab, siteLabels], by decide⟩
example : labelPermutation (K := QI) [2, 0, 1] xy = .ok ⟨[1], Basis.ofList [⟨[.Y, .X], [1, 2], .pauli, .float1⟩], .pauli⟩ := by decide +kernel
example : labelPermutation (K := QI) [2, 0, 1] ab = .ok ⟨[-1], Basis.ofList [⟨[.B, .A], [1, 2], .majorana, .imag⟩], .majorana⟩ := by decide +kernel
/-- negative labels count from the end -/
example : labelPermutation (K := QI) [2, 0, 1] ⟨[.X], [-1], .pauli, .float1⟩ = labelPermutation [2, 0, 1] ⟨[.X], [2], .pauli, .float1⟩ := by
  decide +kernel
example : IsPermArray [2, 0, 1] := by unfold IsPermArray; decide

/-! ## C37 -/

/-- **C37**: the permutation that acts like `q` followed by `p` is `compose_permutations(p, q)`, on every string, exactly; the
product of the two Transformations does the same. -/
theorem C37_compose {p q r : List ℕ} (hp : IsPermArray p) (hq : IsPermArray q) (hl : p.length = q.length)
    (hr : composePermutations p q = .ok r) {s : OpString} (hs : TypedString t (siteLabels q.length) s) :
    ∃ B C : Operator K, labelPermutation (labelsOf q) s = .ok B ∧ (labelPermutation (labelsOf p)).apply B = .ok C ∧
      labelPermutation (labelsOf r) s = .ok C ∧ (Transformation.mul (labelPermutation (labelsOf p)) (labelPermutation (labelsOf q))) s = .ok C := by
  obtain ⟨r1, r2, r3⟩ := compose_isPermArray hp hq hl hr
  have h1 := labelPermutation_sends (K := K) hq hs
  have hs' := hs.relabel (relabelMap_inj hq) (relabelMap_mapsTo hq)
  have h2 := labelPermutation_sends (K := K) hp (s := relabelString (relabelMap (labelsOf q)) s) (t := t) (by rw [hl]; exact hs')
  have h3 := labelPermutation_sends (K := K) r1 (s := s) (t := t) (by rw [r2]; exact hs)
  obtain ⟨c1, c2⟩ := relabel_comp hs (relabelMap_inj hq) (relabelMap_mapsTo hq) (by rw [← hl]; exact relabelMap_inj hp)
  obtain ⟨d1, d2⟩ := relabel_congr (s := s) (e := relabelMap (labelsOf r)) (e' := relabelMap (labelsOf p) ∘ relabelMap (labelsOf q))
    (fun l hl' => r3 l (hs.mem l hl'))
  rw [d1, d2, ← c1, ← c2] at h3
  have t1 : (relabelString (relabelMap (labelsOf q)) s).opType = s.opType := rfl
  have t2 : (relabelString (relabelMap (labelsOf p)) (relabelString (relabelMap (labelsOf q)) s)).opType = s.opType := rfl
  have h4 := Sends.apply_single h2 t2 ((relabelSign (relabelMap (labelsOf q)) s : ℤ) : K)
  refine ⟨_, _, h1, h4, ?_, ?_⟩
  · rw [show labelPermutation (labelsOf r) s = _ from h3, Int.cast_mul, t1]
  · exact Sends.mul h1 h2 t1 t2 (sign_kept (sign_mul (intSign (relabelSign_cases _ _)) (intSign (relabelSign_cases _ _))))

/-- **C37** (Operators): the same on Operators, up to the order of the strings. -/
theorem C37_compose_operators {p q r : List ℕ} (hp : IsPermArray p) (hq : IsPermArray q) (hl : p.length = q.length)
    (hr : composePermutations p q = .ok r) {A : Operator K} (hA : A.On t (TypedString t (siteLabels q.length))) :
    ∃ B C D : Operator K, (labelPermutation (labelsOf q)).apply A = .ok B ∧ (labelPermutation (labelsOf p)).apply B = .ok C ∧
      (labelPermutation (labelsOf r)).apply A = .ok D ∧ ∀ s, C.coef s = D.coef s := by
  have hQ := labelPermutation_signRule (K := K) hq t
  have hP := labelPermutation_signRule (K := K) hp t
  rw [hl] at hP
  obtain ⟨B, b1, -⟩ := apply_ok hQ.maps hA
  obtain ⟨D, C, d1, c1, -, -, e⟩ := mul_apply hP.maps hQ.maps (hP.noDrop hQ) hA b1
  refine ⟨B, C, D, b1, c1, ?_, fun s => (e s).symm⟩
  rw [← d1]
  apply apply_eq_of_eq
  intro x hx
  obtain ⟨_, C', -, -, h1, h2⟩ := C37_compose (K := K) hp hq hl hr (hA.mem _ (mem_terms hx))
  rw [h1, h2]

/-- **C37**: the identity permutation fixes every string with ascending labels. -/
theorem C37_identity {n : ℕ} {s : OpString} (hs : TypedString t (siteLabels n) s) (hc : s.Canonical) :
    (labelPermutation (labelsOf (List.range n)) : Transformation K).Sends s 1 s := by
  have hp : IsPermArray (List.range n) := by simp [IsPermArray]
  have h := labelPermutation_sends (K := K) hp (s := s) (t := t) (by simpa using hs)
  obtain ⟨h1, h2⟩ := relabel_id (e := relabelMap (labelsOf (List.range n))) hs hc (fun l hl => by
    obtain ⟨_, e⟩ := relabelMap_labelsOf (p := List.range n) (l := l) (by simpa using hl)
    rw [e, List.getElem_range]
    have := hl.1; omega)
  rwa [h1, h2, Int.cast_one] at h

/-- **C37**: a permutation is undone by the inverse permutation, exactly. -/
theorem C37_inverse {n : ℕ} (σ : Equiv.Perm (Fin n)) {s : OpString} (hs : TypedString t (siteLabels n) s) (hc : s.Canonical) :
    ∃ B : Operator K, labelPermutation (labelsOf (permArray σ)) s = .ok B ∧
      (labelPermutation (labelsOf (permArray σ⁻¹))).apply B = .ok ⟨[1], Basis.ofList [s], t⟩ := by
  have hlen : ∀ τ : Equiv.Perm (Fin n), (permArray τ).length = n := fun τ => by simp [permArray]
  have hr : composePermutations (permArray σ⁻¹) (permArray σ) = .ok (List.range n) := (C26_group σ σ σ).2.2.2.2.2
  obtain ⟨B, C, h1, h2, h3, -⟩ := C37_compose (K := K) (permArray_isPermArray σ⁻¹) (permArray_isPermArray σ) (by rw [hlen, hlen]) hr
    (s := s) (t := t) (by rw [hlen]; exact hs)
  refine ⟨B, h1, ?_⟩
  rw [h2, ← h3, show labelPermutation _ s = _ from C37_identity (K := K) hs hc, hs.type]

example : composePermutations [1, 2, 0] [0, 2, 1] = .ok [1, 0, 2] := by decide +kernel
example : xy.Canonical := ⟨by decide, by decide⟩
/-- a string with unsorted labels is sorted by the identity permutation -/
example : labelPermutation (K := QI) [0, 1, 2] ⟨[.B, .A], [2, 0], .majorana, .imag⟩ = .ok ⟨[-1], Basis.ofList [ab], .majorana⟩ := by decide +kernel

/-! ## C38 -/

/-- **C38** (Pauli): `time_reversal().apply(s)` is `s` times the sign with which any antilinear automorphism that flips all spins acts
on it: `(-1)^n` for `n` spin operators. -/
theorem C38_pauli {s : OpString} (hs : PauliString S s) :
    (timeReversal : Transformation K).Sends s ((-1) ^ s.ops.length) s ∧
    ∀ {𝔸 : Type} [Ring 𝔸] [Algebra K 𝔸] (R : PauliRep K 𝔸 S) (τ : Antilinear K 𝔸), τ.ReversesSpins R →
      τ.toFun (R.den s) = ((-1) ^ s.ops.length : K) • R.den s := by
  have e : trSign K s = (-1) ^ s.ops.length := by simp [trSign, hs.type]
  rw [← e]
  exact ⟨timeReversal_pauli hs, fun R τ hτ => τ.pauli R hτ hs⟩

/-- **C38** (Majorana): the same for spinless fermions. -/
theorem C38_majorana {s : OpString} (hs : MajoranaString S s) :
    ∃ ε : K, (ε = 1 ∨ ε = -1) ∧ (timeReversal : Transformation K).Sends s ε s ∧
    ∀ {𝔸 : Type} [Ring 𝔸] [Algebra K 𝔸] (R : MajoranaRep K 𝔸 S) (τ : Antilinear K 𝔸), τ.ReversesFermions R →
      τ.toFun (R.den s) = ε • R.den s :=
  ⟨trSign K s, trSign_cases s, timeReversal_majorana hs, fun R τ hτ => τ.majorana R hτ hs⟩

theorem on_den_map {A B : Operator K} {V : OpString → Prop} {T : Transformation K} {ε : OpString → K} (h : SignRule T t V ε id) (hA : A.On t V)
    (hreal : ∀ x ∈ A.terms, star x.1 = x.1) (hB : T.apply A = .ok B) (d : OpString → 𝔸) (τ : Antilinear K 𝔸)
    (hd : ∀ s, V s → τ.toFun (d s) = ε s • d s) : B.den d = τ.toFun (A.den d) := by
  rw [apply_denT h.maps hA hB, Operator.den, denT, map_list_sum, List.map_map]
  congr 1
  apply List.map_congr_left
  intro x hx
  have hs := hA.mem _ (mem_terms hx)
  rw [Sends.image (h.sends _ hs), Function.comp, τ.smul, hreal x hx, hd _ hs]
  simp [denT]

/-- **C38** (Operators): on Operators with real coefficients `time_reversal().apply` is the antilinear automorphism. -/
theorem C38_operators_pauli (R : PauliRep K 𝔸 S) (τ : Antilinear K 𝔸) (hτ : τ.ReversesSpins R) {A : Operator K} (hA : A.On .pauli (PauliString S))
    (hreal : ∀ x ∈ A.terms, star x.1 = x.1) :
    ∃ B, (timeReversal : Transformation K).apply A = .ok B ∧ B.On .pauli (PauliString S) ∧ B.den R.den = τ.toFun (A.den R.den) := by
  have hV : TypedString .pauli S = PauliString S := by funext s; simp [TypedString]
  have h := timeReversal_signRule (K := K) .pauli S
  rw [hV] at h
  obtain ⟨B, h1, h2, -⟩ := apply_ok h.maps hA
  exact ⟨B, h1, h2, on_den_map h hA hreal h1 R.den τ (fun s hs => τ.pauli R hτ hs)⟩

/-- **C38** (Operators): the same for Majorana Operators. -/
theorem C38_operators_majorana (R : MajoranaRep K 𝔸 S) (τ : Antilinear K 𝔸) (hτ : τ.ReversesFermions R) {A : Operator K}
    (hA : A.On .majorana (MajoranaString S)) (hreal : ∀ x ∈ A.terms, star x.1 = x.1) :
    ∃ B, (timeReversal : Transformation K).apply A = .ok B ∧ B.On .majorana (MajoranaString S) ∧ B.den R.den = τ.toFun (A.den R.den) := by
  have hV : TypedString .majorana S = MajoranaString S := by funext s; simp [TypedString]
  have h := timeReversal_signRule (K := K) .majorana S
  rw [hV] at h
  obtain ⟨B, h1, h2, -⟩ := apply_ok h.maps hA
  exact ⟨B, h1, h2, on_den_map h hA hreal h1 R.den τ (fun s hs => τ.majorana R hτ hs)⟩

theorem sign_star {x : K} (h : x = 1 ∨ x = -1) : star x = x := by rcases h with rfl | rfl <;> simp

/-- **C38** (products): if `product(A, B) = (c, C)` and `A`, `B`, `C` have signs `a`, `b`, `k` under time reversal then
`a b c = conj(c) k`: the product of the images is the image of the product with a conjugated coefficient. -/
theorem C38_product {A B C : OpString} (hA : TypedString t S A) (hB : TypedString t S B) {c a b k : K}
    (hC : productS A B = .ok (c, some C)) (hA' : (timeReversal : Transformation K).Sends A a A)
    (hB' : (timeReversal : Transformation K).Sends B b B) (hC' : (timeReversal : Transformation K).Sends C k C) :
    a * b * c = star c * k := by
  have uniq : ∀ {s : OpString} (_ : TypedString t S s) {x : K}, (timeReversal : Transformation K).Sends s x s → x = trSign K s := by
    intro s hs x h
    have h1 := timeReversal_sends (K := K) hs
    rw [Transformation.Sends, show timeReversal s = _ from h] at h1
    simpa using h1
  have hV : ∀ s, TypedString t S s → TypedString t Set.univ s := by
    rintro s (⟨h, hs⟩ | ⟨h, hs⟩)
    · exact Or.inl ⟨h, hs.type, hs.ops, hs.len, hs.nodup, fun _ _ => trivial, hs.pref⟩
    · exact Or.inr ⟨h, hs.type, hs.ops, hs.len, hs.nodup, fun _ _ => trivial, hs.pref⟩
  have core : ∀ {𝔸 : Type} [Ring 𝔸] [Algebra K 𝔸] [Nontrivial 𝔸] (P : StrAlg K 𝔸) (Q : StrAlg K (Twist 𝔸)), P.Str A → P.Str B → Q.Str A → Q.Str B →
      (∀ s, P.Str s → Q.den s = Twist.of (trSign K s • P.den s)) →
      trSign K A * trSign K B * c = star c * trSign K C := by
    intro 𝔸 _ _ _ P Q pA pB qA qB hden
    obtain ⟨c₁, c₂, C₁, r⟩ := P.core A B pA pB
    have e := r.prod
    rw [hC] at e
    simp only [Except.ok.injEq, Prod.mk.injEq, Option.some.injEq] at e
    obtain ⟨rfl, rfl⟩ := e
    obtain ⟨d₁, d₂, D, q⟩ := Q.core A B qA qB
    have e := q.prod
    rw [hC] at e
    simp only [Except.ok.injEq, Prod.mk.injEq, Option.some.injEq] at e
    obtain ⟨rfl, rfl⟩ := e
    have h1 := q.ab
    rw [hden A pA, hden B pB, hden C r.str, Twist.smul_of, ← map_mul] at h1
    have h2 := Twist.of.injective h1
    rw [smul_mul_smul_comm, r.ab, smul_smul, smul_smul] at h2
    exact P.smul_inj r.str h2
  have tA := uniq hA hA'
  have tB := uniq hB hB'
  subst tA tB
  have hfin : ∀ (_ : TypedString t S C), trSign K A * trSign K B * c = star c * trSign K C →
      trSign K A * trSign K B * c = star c * k := by
    intro hCs h
    rw [uniq hCs hC', h]
  rcases hA with ⟨rfl, hA⟩ | ⟨rfl, hA⟩
  · obtain hB : PauliString S B := by
      rcases hB with ⟨-, hB⟩ | ⟨h, -⟩
      · exact hB
      · simp at h
    have key : ∀ {s}, PauliString S s → PauliString Set.univ s := fun hs => ⟨hs.type, hs.ops, hs.len, hs.nodup, fun _ _ => trivial, hs.pref⟩
    obtain ⟨_, _, C₁, r⟩ := (waveOn K S).strAlg.core A B hA hB
    have e := r.prod
    rw [hC] at e
    simp only [Except.ok.injEq, Prod.mk.injEq, Option.some.injEq] at e
    obtain ⟨rfl, rfl⟩ := e
    exact hfin (Or.inl ⟨rfl, r.str⟩) (core (waveOn K S).strAlg (waveOn K S).reversed.strAlg hA hB hA hB (fun s hs => (waveOn K S).reversed_den hs))
  · obtain hB : MajoranaString S B := by
      rcases hB with ⟨h, -⟩ | ⟨-, hB⟩
      · simp at h
      · exact hB
    obtain ⟨_, _, C₁, r⟩ := (majoranaOn K S).strAlg.core A B hA hB
    have e := r.prod
    rw [hC] at e
    simp only [Except.ok.injEq, Prod.mk.injEq, Option.some.injEq] at e
    obtain ⟨rfl, rfl⟩ := e
    exact hfin (Or.inr ⟨rfl, r.str⟩) (core (majoranaOn K S).strAlg (majoranaOn K S).reversed.strAlg hA hB hA hB
      (fun s hs => (majoranaOn K S).reversed_den hs))

/-- **C38**: time reversal is an involution on strings. -/
theorem C38_involution {s : OpString} (hs : TypedString t S s) :
    ∃ B, (timeReversal : Transformation K) s = .ok B ∧ (timeReversal : Transformation K).apply B = .ok ⟨[1], Basis.ofList [s], t⟩ := by
  have h := timeReversal_sends (K := K) hs
  refine ⟨_, h, ?_⟩
  rw [Sends.apply_single h rfl, sign_mul_self (trSign_cases s), hs.type]

/-- reversal of fermions fixes creation and annihilation operators -/
theorem C38_fermions (R : MajoranaRep K 𝔸 S) (τ : Antilinear K 𝔸) (hτ : τ.ReversesFermions R) {i : ℤ} (hi : i ∈ S) :
    τ.toFun (R.c i) = R.c i ∧ τ.toFun (R.cdag i) = R.cdag i := by
  obtain ⟨h1, h2⟩ := hτ i hi
  constructor <;> simp [MajoranaRep.c, MajoranaRep.cdag, τ.smul, h1, h2]

/-- antilinear automorphisms as in the theorems above exist, for any number of sites -/
theorem C38_exists (K : Type) [Field K] [StarRing K] [Coef K] (n : ℕ) :
    (∃ τ : Antilinear K (Matrix (Cfg n) (Cfg n) K), τ.ReversesSpins (matRep K n)) ∧
    (∃ τ : Antilinear K (Matrix (Cfg n) (Cfg n) K), τ.ReversesFermions (matRep K n).jordanWigner) :=
  ⟨exists_reversesSpins K n, _, conj_reversesFermions K n⟩

/-- With complex coefficients `apply` is linear, not antilinear (the code warns about this): `i X ↦ -i X`. -/
theorem C38_complex_coefficients {n : ℕ} (hn : 0 < n) (τ : Antilinear K (Matrix (Cfg n) (Cfg n) K)) (hτ : τ.ReversesSpins (matRep K n)) :
    ∃ A B : Operator K, A.On .pauli (PauliString (siteLabels n)) ∧ (timeReversal : Transformation K).apply A = .ok B ∧
      B.den (matRep K n).den ≠ τ.toFun (A.den (matRep K n).den) := by
  let s : OpString := ⟨[.X], [0], .pauli, .float1⟩
  have h0 : (0 : ℤ) ∈ siteLabels n := ⟨le_rfl, by omega⟩
  have hs : PauliString (siteLabels n) s := ⟨rfl, by simp [s], rfl, by simp [s], by simpa [s] using h0, by simp [s]⟩
  have h := (C38_pauli (K := K) hs).1
  refine ⟨⟨[I], Basis.ofList [s], .pauli⟩, _, ⟨single_wf I rfl, rfl, by simpa [Basis.ofList] using hs⟩, Sends.apply_single h rfl I, ?_⟩
  have hd : (matRep K n).den s = matX 0 := by
    simp [PauliRep.den, s, wordProd, Pref.val, PauliRep.site]; rfl
  simp only [Operator.den, Operator.terms, Basis.ofList, denT, List.zip_cons_cons, List.zip_nil_left, List.map_cons, List.map_nil,
    List.sum_cons, List.sum_nil, add_zero, hd, τ.smul]
  rw [show τ.toFun (matX 0) = -matX 0 from (hτ 0 h0).1]
  intro hc
  have := congrFun (congrFun hc (fun _ => false)) (Cfg.flip 0 (fun _ => false))
  simp [matX, mono, s] at this
  have h2 : (2 : K) * I = 0 := by linear_combination -this
  rcases mul_eq_zero.mp h2 with h3 | h3
  · exact two_ne_zero' h3
  · exact I_ne_zero h3

example : timeReversal (K := QI) xy = .ok ⟨[1], Basis.ofList [xy], .pauli⟩ := by decide +kernel
example : timeReversal (K := QI) ⟨[.X], [0], .pauli, .float1⟩ = .ok ⟨[-1], Basis.ofList [⟨[.X], [0], .pauli, .float1⟩], .pauli⟩ := by decide +kernel
example : timeReversal (K := QI) ab = .ok ⟨[1], Basis.ofList [ab], .majorana⟩ := by decide +kernel
example : productS (K := QI) ⟨[.X], [0], .pauli, .float1⟩ ⟨[.Y], [0], .pauli, .float1⟩ = .ok (I, some ⟨[.Z], [0], .pauli, .float1⟩) := by decide +kernel

/-! ## C39 -/

/-- **C39**: `particle_hole().apply(s)` is `s` times the sign with which the substitution `a ↦ a, b ↦ -b` (that is `c ↔ c†`) acts. -/
theorem C39_majorana {s : OpString} (hs : MajoranaString S s) :
    ∃ ε : K, (ε = 1 ∨ ε = -1) ∧ (particleHole : Transformation K).Sends s ε s ∧
    ∀ {𝔸 : Type} [Ring 𝔸] [Algebra K 𝔸] (R : MajoranaRep K 𝔸 S), R.particleHole.den s = ε • R.den s :=
  ⟨phSign K s, phSign_cases s, particleHole_majorana hs, fun R => R.particleHole_den hs⟩

/-- **C39** (Operators) -/
theorem C39_operators (R : MajoranaRep K 𝔸 S) {A : Operator K} (hA : A.On .majorana (MajoranaString S)) :
    ∃ B, (particleHole : Transformation K).apply A = .ok B ∧ B.On .majorana (MajoranaString S) ∧ B.den R.den = A.den R.particleHole.den := by
  have h := particleHole_signRule (K := K) S
  refine apply_den h.maps hA R.den _ (fun s hs => ?_)
  rw [Sends.image (h.sends s hs), R.particleHole_den hs]
  simp [denT]

/-- **C39** (products): the signs are multiplicative. -/
theorem C39_product {A B C : OpString} (hA : MajoranaString S A) (hB : MajoranaString S B) {c a b k : K}
    (hC : productS A B = .ok (c, some C)) (hA' : (particleHole : Transformation K).Sends A a A)
    (hB' : (particleHole : Transformation K).Sends B b B) (hC' : (particleHole : Transformation K).Sends C k C) : a * b = k := by
  have uniq : ∀ {s : OpString} (_ : MajoranaString S s) {x : K}, (particleHole : Transformation K).Sends s x s → x = phSign K s := by
    intro s hs x h
    have h1 := particleHole_majorana (K := K) hs
    rw [Transformation.Sends, show particleHole s = _ from h] at h1
    simpa using h1
  let P := (majoranaOn K S)
  obtain ⟨c₁, c₂, C₁, r⟩ := P.strAlg.core A B hA hB
  obtain ⟨d₁, d₂, D, q⟩ := P.particleHole.strAlg.core A B hA hB
  have e := r.prod
  rw [hC] at e
  simp only [Except.ok.injEq, Prod.mk.injEq, Option.some.injEq] at e
  obtain ⟨rfl, rfl⟩ := e
  have e := q.prod
  rw [hC] at e
  simp only [Except.ok.injEq, Prod.mk.injEq, Option.some.injEq] at e
  obtain ⟨rfl, rfl⟩ := e
  rw [uniq hA hA', uniq hB hB', uniq r.str hC']
  have h1 : P.particleHole.den A * P.particleHole.den B = c • P.particleHole.den C := q.ab
  rw [P.particleHole_den hA, P.particleHole_den hB, P.particleHole_den r.str, smul_mul_smul_comm,
    show P.den A * P.den B = c • P.den C from r.ab, smul_smul, smul_smul] at h1
  have h2 := P.strAlg.smul_inj r.str h1
  rw [mul_comm c] at h2
  exact mul_right_cancel₀ r.phase.ne_zero h2

/-- **C39**: particle-hole is an involution, and it only acts on Majorana strings. -/
theorem C39_involution {s : OpString} (hs : MajoranaString S s) :
    ∃ B, (particleHole : Transformation K) s = .ok B ∧ (particleHole : Transformation K).apply B = .ok ⟨[1], Basis.ofList [s], .majorana⟩ := by
  have h := particleHole_majorana (K := K) hs
  refine ⟨_, h, ?_⟩
  rw [Sends.apply_single h rfl, sign_mul_self (phSign_cases s), hs.type]

theorem C39_errors (s : OpString) (h : s.opType ≠ .majorana) : (particleHole : Transformation K) s = .error .valueError := by
  unfold particleHole particleHoleRule
  cases ht : s.opType <;> simp_all

/-- the particle-hole transformation exchanges creation and annihilation operators -/
theorem C39_fermions (R : MajoranaRep K 𝔸 S) (i : ℤ) :
    R.particleHole.c i = R.cdag i ∧ R.particleHole.cdag i = R.c i := by
  constructor <;> simp [MajoranaRep.c, MajoranaRep.cdag, MajoranaRep.particleHole, sub_eq_add_neg]

example : particleHole (K := QI) ab = .ok ⟨[-1], Basis.ofList [ab], .majorana⟩ := by decide +kernel
example : particleHole (K := QI) ⟨[.D], [1], .majorana, .float1⟩ = .ok ⟨[-1], Basis.ofList [⟨[.D], [1], .majorana, .float1⟩], .majorana⟩ := by
  decide +kernel

/-! ## C40 -/

/-- **C40**: `(T * U).apply(A)` is `T.apply(U.apply(A))`, provided no product of coefficients is small enough to be dropped. -/
theorem C40_mul {V : OpString → Prop} {T U : Transformation K} (hT : T.Maps t V) (hU : U.Maps t V) (hd : NoDrop T U V) {A : Operator K}
    (hA : A.On t V) : ∃ B C D, U.apply A = .ok B ∧ (T.mul U).apply A = .ok C ∧ T.apply B = .ok D ∧ ∀ s, C.coef s = D.coef s := by
  obtain ⟨B, b1, -⟩ := apply_ok hU hA
  obtain ⟨C, D, h1, h2, -, -, h3⟩ := mul_apply hT hU hd hA b1
  exact ⟨B, C, D, b1, h1, h2, h3⟩

/-- **C40**: the same for a single string: `(T * U).apply(s)` is `T.apply(U.apply(s))`. -/
theorem C40_mul_string {V : OpString → Prop} {T U : Transformation K} (hT : T.Maps t V) (hU : U.Maps t V) (hd : NoDrop T U V) {s : OpString}
    (hs : V s) : ∃ B C D, U s = .ok B ∧ (T.mul U) s = .ok C ∧ T.apply B = .ok D ∧ ∀ s, C.coef s = D.coef s := by
  obtain ⟨B, b1, b2, b3, b4⟩ := hU.ok s hs
  obtain ⟨C, c1, -, c3⟩ := mul_ok hT hU hd hs b1
  obtain ⟨D, d1, -, d3⟩ := apply_ok hT (A := B) ⟨b2, b3, b4⟩
  exact ⟨B, C, D, b1, c1, d1, fun s => by rw [c3, d3]⟩

/-- **C40**: the product of Transformations is associative. -/
theorem C40_assoc {V : OpString → Prop} {T U W : Transformation K} (hT : T.Maps t V) (hU : U.Maps t V) (hW : W.Maps t V) (h1 : NoDrop T U V)
    (h2 : NoDrop U W V) (h3 : NoDrop (T.mul U) W V) (h4 : NoDrop T (U.mul W) V) {A : Operator K} (hA : A.On t V) :
    ∃ B C, ((T.mul U).mul W).apply A = .ok B ∧ (T.mul (U.mul W)).apply A = .ok C ∧ ∀ s, B.coef s = C.coef s := by
  obtain ⟨A₁, a1, a2, -⟩ := apply_ok hW hA
  obtain ⟨A₂, a3, a4, -⟩ := apply_ok hU a2
  obtain ⟨B, B', b1, b2, b3, b4, b5⟩ := mul_apply (mul_maps hT hU h1) hW h3 hA a1
  obtain ⟨D, D', d1, d2, d3, d4, d5⟩ := mul_apply hT hU h1 a2 a3
  rw [b2] at d1
  obtain rfl : B' = D := by simpa using d1
  obtain ⟨E, E', e1, e2, e3, e4, e5⟩ := mul_apply hU hW h2 hA a1
  rw [a3] at e2
  obtain rfl : A₂ = E' := by simpa using e2
  obtain ⟨F, F', f1, f2, f3, f4, f5⟩ := mul_apply hT (mul_maps hU hW h2) h4 hA e1
  refine ⟨B, F, b1, f1, fun s => ?_⟩
  rw [b5, d5, f5]
  exact (apply_congr hT e3 a4 e5 f2 d2 s).symm

/-- **C40**: `T ** n` raises ValueError for `n ≤ 0`. -/
theorem C40_pow_errors (T : Transformation K) {n : ℤ} (h : n ≤ 0) : T.pow n = .error .valueError := by
  unfold Transformation.pow; rw [if_pos h]

theorem iterate_congr {V : OpString → Prop} {T : Transformation K} (hT : T.Maps t V) : ∀ (n : ℕ) {A B : Operator K}, A.On t V → B.On t V → (∀ s, A.coef s = B.coef s) →
    ∃ C D, T.iterate n A = .ok C ∧ T.iterate n B = .ok D ∧ C.On t V ∧ D.On t V ∧ ∀ s, C.coef s = D.coef s
  | 0, A, B, hA, hB, h => ⟨A, B, rfl, rfl, hA, hB, h⟩
  | n + 1, A, B, hA, hB, h => by
    obtain ⟨A', a1, a2, -⟩ := apply_ok hT hA
    obtain ⟨B', b1, b2, -⟩ := apply_ok hT hB
    obtain ⟨C, D, k⟩ := iterate_congr hT n a2 b2 (apply_congr hT hA hB h a1 b1)
    refine ⟨C, D, ?_, ?_, k.2.2⟩
    · rw [Transformation.iterate, a1]; exact k.1
    · rw [Transformation.iterate, b1]; exact k.2.1

theorem powLoop_spec {V : OpString → Prop} {T : Transformation K} (hT : T.Maps t V) : ∀ (n k : ℕ) (P : Transformation K), P.Maps t V →
    (∀ j, NoDrop (powLoop T j P) T V) → (∀ A : Operator K, A.On t V → ∃ C D, P.apply A = .ok C ∧ T.iterate k A = .ok D ∧ C.On t V ∧ D.On t V ∧ ∀ s, C.coef s = D.coef s) →
    ∀ A : Operator K, A.On t V → ∃ C D, (powLoop T n P).apply A = .ok C ∧ T.iterate (n + k) A = .ok D ∧ C.On t V ∧ D.On t V ∧ ∀ s, C.coef s = D.coef s
  | 0, k, P, hP, hd, h => by simpa [powLoop] using h
  | n + 1, k, P, hP, hd, h => by
    have hPT := mul_maps hP hT (hd 0)
    have := powLoop_spec hT n (k + 1) (P.mul T) hPT (fun j => hd (j + 1)) (by
      intro A hA
      obtain ⟨A', a1, a2, -⟩ := apply_ok hT hA
      obtain ⟨C, C', c1, c2, c3, c4, c5⟩ := mul_apply hP hT (hd 0) hA a1
      obtain ⟨E, D, e1, e2, e3, e4, e5⟩ := h A' a2
      rw [c2] at e1
      obtain rfl : C' = E := by simpa using e1
      refine ⟨C, D, c1, ?_, c3, e4, fun s => by rw [c5, e5]⟩
      rw [Transformation.iterate, a1]; exact e2)
    rw [powLoop, show n + 1 + k = n + (k + 1) by ring]
    exact this

/-- **C40**: `T ** n` is `n` applications of `T`, provided no coefficient is dropped on the way. -/
theorem C40_pow {V : OpString → Prop} {T : Transformation K} (hT : T.Maps t V) (hd : ∀ (m : ℤ) (P : Transformation K), T.pow m = .ok P → NoDrop P T V)
    {n : ℕ} (hn : 0 < n) {A : Operator K} (hA : A.On t V) :
    ∃ P C D, T.pow n = .ok P ∧ P.apply A = .ok C ∧ T.iterate n A = .ok D ∧ ∀ s, C.coef s = D.coef s := by
  have hp : ∀ m : ℕ, T.pow ((m : ℤ) + 1) = .ok (powLoop T m T) := by
    intro m; unfold Transformation.pow
    rw [if_neg (by omega)]
    congr 2
  obtain ⟨m, rfl⟩ : ∃ m, n = m + 1 := ⟨n - 1, by omega⟩
  obtain ⟨C, D, h1, h2, -, -, h3⟩ := powLoop_spec hT m 1 T hT (fun j => hd _ _ (hp j)) (by
    intro A hA
    obtain ⟨A', a1, a2, -⟩ := apply_ok hT hA
    refine ⟨A', A', a1, ?_, a2, a2, fun _ => rfl⟩
    simp [Transformation.iterate, a1, bind, Except.bind]) A hA
  exact ⟨_, C, D, by rw [Nat.cast_add, Nat.cast_one]; exact hp m, h1, h2, h3⟩

theorem SignRule.powLoop {V : OpString → Prop} {T : Transformation K} {ε : OpString → K} {f : OpString → OpString} (hT : SignRule T t V ε f) :
    ∀ (n : ℕ) (P : Transformation K) (ε' : OpString → K) (f' : OpString → OpString), SignRule P t V ε' f' →
      ∃ ε'' f'', SignRule (Qosy.powLoop T n P) t V ε'' f''
  | 0, _, _, _, h => ⟨_, _, h⟩
  | n + 1, _, _, _, h => SignRule.powLoop hT n _ _ _ (h.mul hT)

/-- **C40**: nothing is ever dropped for label permutations, time reversal and particle-hole: the hypotheses above hold for them, for
their products and for their powers. -/
theorem C40_builtin {V : OpString → Prop} {T : Transformation K} {ε : OpString → K} {f : OpString → OpString} (hT : SignRule T t V ε f) :
    T.Maps t V ∧ (∀ (m : ℤ) (P : Transformation K), T.pow m = .ok P → NoDrop P T V) ∧
    ∀ {U : Transformation K} {ε' : OpString → K} {f' : OpString → OpString}, SignRule U t V ε' f' → NoDrop T U V ∧ U.Maps t V ∧
      ∃ ε'' f'', SignRule (T.mul U) t V ε'' f'' := by
  refine ⟨hT.maps, ?_, fun hU => ⟨hT.noDrop hU, hU.maps, _, _, hT.mul hU⟩⟩
  intro m P hP
  unfold Transformation.pow at hP
  split at hP
  · simp at hP
  · obtain rfl := Except.ok.inj hP
    obtain ⟨_, _, h⟩ := hT.powLoop (m.toNat - 1) _ _ _ hT
    exact h.noDrop hT

/-- the transformation that multiplies strings by `1e-7` -/
private def tiny : Transformation QI := fun s => mkOperator [⟨1 / 10 ^ 7, 0⟩] [s] (some s.opType)

/-- Products of coefficients below `1e-12` are dropped by `*`: for a Transformation that scales strings by `1e-7`, `(T * T).apply(s)` is zero
although `T.apply(T.apply(s))` is not. -/
theorem C40_dropped : ∃ (T : Transformation QI) (s : OpString) (B C D : Operator QI), T s = .ok B ∧ T.apply B = .ok C ∧ (T.mul T) s = .ok D ∧
    C.coef s = ⟨1 / 10 ^ 14, 0⟩ ∧ D.coef s = 0 :=
  ⟨tiny, xy, ⟨[⟨1 / 10 ^ 7, 0⟩], Basis.ofList [xy], .pauli⟩, ⟨[⟨1 / 10 ^ 14, 0⟩], Basis.ofList [xy], .pauli⟩, ⟨[], Basis.ofList [], .pauli⟩,
    by decide +kernel, by decide +kernel, by decide +kernel, by decide +kernel, by decide +kernel⟩

/-- the hypotheses are met by the built-in transformations -/
example : SignRule (labelPermutation (labelsOf [2, 0, 1]) : Transformation QI) .majorana (TypedString .majorana (siteLabels 3))
    (fun s => ((relabelSign (relabelMap (labelsOf [2, 0, 1])) s : ℤ) : QI)) (relabelString (relabelMap (labelsOf [2, 0, 1]))) :=
  labelPermutation_signRule (p := [2, 0, 1]) (by unfold IsPermArray; decide) .majorana
example : SignRule (timeReversal : Transformation QI) .majorana (TypedString .majorana (siteLabels 3)) (trSign QI) id := timeReversal_signRule _ _
example : SignRule (particleHole : Transformation QI) .majorana (MajoranaString (siteLabels 3)) (phSign QI) id := particleHole_signRule _
example : ((labelPermutation [1, 2, 0]).pow 3).bind (fun P => P xy) = .ok (⟨[1], Basis.ofList [xy], .pauli⟩ : Operator QI) := by decide +kernel

end Qosy
