import Verif.Lemmas.Adjoint
import Verif.Props.Operator

/-! # Liouvillian matrices and structure constants form the adjoint representation (C103) -/

namespace Qosy
open Coef

variable {K : Type} [Field K] [StarRing K] [Coef K]

private theorem exists_alg {t : OpType} (ht : t = .pauli ∨ t = .majorana) :
    ∃ R : StrAlg K (Module.End K (Conf → K)), R.type = t ∧ ∀ S s, TypedString t S s → R.Str s := by
  rcases ht with rfl | rfl
  · exact ⟨(waveRep K).strAlg, rfl, fun S s h => (h.resolve_right (by simp)).2.mono (Set.subset_univ S)⟩
  · exact ⟨(waveMajorana K).strAlg, rfl, fun S s h => (h.resolve_left (by simp)).2.mono (Set.subset_univ S)⟩

/-- **C103** (commutators): let `X = commutator(A, B)` with no term below the tolerance.  The Liouvillian matrix of `X` is the difference of the products of
the Liouvillian matrices of `A` and `B`, one after the other in the two orders, string by string and for every basis. -/
theorem C103_commutator {t : OpType} (ht : t = .pauli ∨ t = .majorana) {S : Set ℤ} {b : Basis} (hb : ∀ s ∈ b.strs, TypedString t S s) {A B X : Operator K}
    (hA : A.On t (TypedString t S)) (hB : B.On t (TypedString t S)) (hX : commutatorO A B = .ok X) (hc : NothingCut .commutator A B) :
    ∃ N g L e M f P L' e' M' f' Q, liouvillianMatrix (.strings b) X .commutator = .ok (N, g) ∧
      liouvillianMatrix (.strings b) A .commutator = .ok (L, e) ∧ liouvillianMatrix (.strings e) B .commutator = .ok (M, f) ∧ M.dot L = .ok P ∧
      liouvillianMatrix (.strings b) B .commutator = .ok (L', e') ∧ liouvillianMatrix (.strings e') A .commutator = .ok (M', f') ∧ M'.dot L' = .ok Q ∧
      ∀ j < b.strs.length, ∀ s, N.coefAt g j s = P.coefAt f j s - Q.coefAt f' j s := by
  obtain ⟨R, rfl, h⟩ := exists_alg (K := K) ht
  have hA' : ∀ s ∈ A.basis.strs, R.Str s := fun s hs => h S s (hA.mem s hs)
  have hB' : ∀ s ∈ B.basis.strs, R.Str s := fun s hs => h S s (hB.mem s hs)
  obtain ⟨C, c1, -, -, c4, c5⟩ := R.operator .commutator (tol := 1 / 10 ^ 16) (by norm_num) hA.wf hB.wf hA' hB' hA.type hB.type
  obtain rfl : X = C := Except.ok.inj (hX.symm.trans c1)
  refine R.jacobi (fun s hs => h S s (hb s hs)) hA' hB' (fun s hs => (c4 s hs).1) ?_
  rw [c5]
  exact R.kept_exact .commutator fun ta hta tb htb => by simpa using hc ta hta tb htb

/-- **C103** (linearity): the Liouvillian matrix depends linearly on the Operator, in all three modes. -/
theorem C103_linear {t : OpType} (ht : t = .pauli ∨ t = .majorana) {S : Set ℤ} (mode : Mode) {b : Basis} (hb : ∀ s ∈ b.strs, TypedString t S s) {A B X : Operator K}
    (hA : ∀ s ∈ A.basis.strs, TypedString t S s) (hB : ∀ s ∈ B.basis.strs, TypedString t S s) (hX : ∀ s ∈ X.basis.strs, TypedString t S s)
    {x y : K} (h : ∀ s, X.coef s = x * A.coef s + y * B.coef s) :
    ∃ N g L e M f, liouvillianMatrix (.strings b) X mode = .ok (N, g) ∧ liouvillianMatrix (.strings b) A mode = .ok (L, e) ∧
      liouvillianMatrix (.strings b) B mode = .ok (M, f) ∧ ∀ j < b.strs.length, ∀ s, N.coefAt g j s = x * L.coefAt e j s + y * M.coefAt f j s := by
  obtain ⟨R, rfl, hR⟩ := exists_alg (K := K) ht
  have hb' : ∀ s ∈ b.strs, R.Str s := fun s hs => hR S s (hb s hs)
  have hA' : ∀ s ∈ A.basis.strs, R.Str s := fun s hs => hR S s (hA s hs)
  have hB' : ∀ s ∈ B.basis.strs, R.Str s := fun s hs => hR S s (hB s hs)
  have hX' : ∀ s ∈ X.basis.strs, R.Str s := fun s hs => hR S s (hX s hs)
  obtain ⟨N, g, n1, -, -, -, n5, n6, n7⟩ := R.liouvillian_strings mode hb' hX'
  obtain ⟨L, e, l1, -, -, -, l5, l6, l7⟩ := R.liouvillian_strings mode hb' hA'
  obtain ⟨M, f, m1, -, -, -, m5, m6, m7⟩ := R.liouvillian_strings mode hb' hB'
  refine ⟨N, g, L, e, M, f, n1, l1, m1, fun j hj s => ?_⟩
  rw [R.coefAt_eq (hb' _ (List.getElem_mem hj)) hX' n5 n6 (n7 j hj), R.coefAt_eq (hb' _ (List.getElem_mem hj)) hA' l5 l6 (l7 j hj),
    R.coefAt_eq (hb' _ (List.getElem_mem hj)) hB' m5 m6 (m7 j hj)]
  have hd : X.den (fun u => scEntry K mode b.strs[j] u s) = x • A.den (fun u => scEntry K mode b.strs[j] u s) + y • B.den (fun u => scEntry K mode b.strs[j] u s) := by
    have := denT_congr (fun u => scEntry K mode b.strs[j] u s) (a := X.terms) (b := (A.terms.map fun t => (x * t.1, t.2)) ++ B.terms.map fun t => (y * t.1, t.2)) (fun u => by
      rw [coefT_append, coefT_map_smul, coefT_map_smul]; exact h u)
    rw [denT_append, denT_map_smul, denT_map_smul] at this
    exact this
  exact hd

/-- **C103** (self-adjoint): the entries of the Liouvillian matrix of an Operator with real coefficients between strings of the basis are imaginary and form a
Hermitian matrix. -/
theorem C103_hermitian {t : OpType} (ht : t = .pauli ∨ t = .majorana) {S : Set ℤ} {b : Basis} (hb : ∀ s ∈ b.strs, TypedString t S s ∧ s.Canonical) {O : Operator K}
    (hO : ∀ s ∈ O.basis.strs, TypedString t S s) (hr : ∀ x ∈ O.coeffs, star x = x) :
    ∃ L ext, liouvillianMatrix (.strings b) O .commutator = .ok (L, ext) ∧ ∀ i (hi : i < b.strs.length) j (hj : j < b.strs.length),
      star (L.coefAt ext j b.strs[i]) = -L.coefAt ext j b.strs[i] ∧ L.coefAt ext i b.strs[j] = star (L.coefAt ext j b.strs[i]) := by
  obtain ⟨R, rfl, hR⟩ := exists_alg (K := K) ht
  have hb' : ∀ s ∈ b.strs, R.Str s ∧ s.Canonical := fun s hs => ⟨hR S s (hb s hs).1, (hb s hs).2⟩
  have hO' : ∀ s ∈ O.basis.strs, R.Str s := fun s hs => hR S s (hO s hs)
  obtain ⟨L, ext, l1, -, -, -, l5, l6, l7⟩ := R.liouvillian_strings .commutator (fun s hs => (hb' s hs).1) hO'
  refine ⟨L, ext, l1, fun i hi j hj => ?_⟩
  rw [R.coefAt_eq (hb' _ (List.getElem_mem hj)).1 hO' l5 l6 (l7 j hj), R.coefAt_eq (hb' _ (List.getElem_mem hi)).1 hO' l5 l6 (l7 i hi), star_list_sum]
  have key : ∀ u ∈ O.terms, star (u.1 * scEntry K .commutator b.strs[j] u.2 b.strs[i]) = -(u.1 * scEntry K .commutator b.strs[j] u.2 b.strs[i]) ∧
      u.1 * scEntry K .commutator b.strs[i] u.2 b.strs[j] = star (u.1 * scEntry K .commutator b.strs[j] u.2 b.strs[i]) := by
    intro u hu
    have hx : star u.1 = u.1 := hr _ (List.of_mem_zip hu).1
    obtain ⟨k1, k2⟩ := R.scEntry_star (K := K) (hb' _ (List.getElem_mem hj)) (hO' _ (mem_terms hu)) (hb' _ (List.getElem_mem hi))
    rw [star_mul', hx, k1, k2]
    exact ⟨by ring, by ring⟩
  constructor
  · rw [List.map_congr_left (fun t ht => (key t ht).1)]
    induction O.terms with
    | nil => simp
    | cons t l ih => simp only [List.map_cons, List.sum_cons, ih, neg_add]
  · exact congrArg _ (List.map_congr_left fun t ht => (key t ht).2)

/-- **C103** (structure constants): the constants returned by `structure_constants(basis, basis)` are antisymmetric in the two strings, antisymmetric under
exchange with the third, and satisfy the Jacobi identity if the basis contains all commutators. -/
theorem C103_structure_constants {t : OpType} (ht : t = .pauli ∨ t = .majorana) {S : Set ℤ} {tol : ℚ} (h0 : 0 < tol) (h1 : tol ≤ 1) {b : Basis} (hn : b.strs.Nodup)
    (hb : ∀ s ∈ b.strs, TypedString t S s ∧ s.Canonical) :
    ∃ N ext, structureConstants b b .commutator tol = .ok (N, ext) ∧
      (∀ i < b.strs.length, ∀ k < b.strs.length, ∀ s, structureConstant b N ext k i s = -(structureConstant b N ext i k s : K)) ∧
      (∀ i (hi : i < b.strs.length), ∀ k < b.strs.length, ∀ l (hl : l < b.strs.length),
        structureConstant b N ext l k b.strs[i] = -(structureConstant b N ext i k b.strs[l] : K)) ∧
      ((∀ s ∈ ext.strs, s ∈ b.strs) → ∀ i < b.strs.length, ∀ k < b.strs.length, ∀ l < b.strs.length, ∀ s,
        ∑ m : Fin b.strs.length, ((structureConstant b N ext i k b.strs[m] * structureConstant b N ext m l s : K) +
          structureConstant b N ext k l b.strs[m] * structureConstant b N ext m i s + structureConstant b N ext l i b.strs[m] * structureConstant b N ext m k s) = 0) := by
  obtain ⟨R, rfl, hR⟩ := exists_alg (K := K) ht
  have hs : ∀ s ∈ b.strs, R.Str s := fun s hm => hR S s (hb s hm).1
  obtain ⟨N, ext, g1, g2, g3⟩ := R.structure_entry .commutator h0 h1 hs hs
  have f : ∀ i (hi : i < b.strs.length) k (hk : k < b.strs.length) s, structureConstant b N ext i k s = scEntry K .commutator b.strs[i] b.strs[k] s := by
    intro i hi k hk s
    obtain ⟨M, m1, m2⟩ := g2 i hi _ (List.getElem_mem hk)
    rw [structureConstant, List.getElem?_eq_getElem hk, Option.bind_some, m1]
    exact m2 s
  have str : ∀ i (hi : i < b.strs.length), R.Str b.strs[i] := fun i hi => hs _ (List.getElem_mem hi)
  refine ⟨N, ext, g1, fun i hi k hk s => ?_, fun i hi k hk l hl => ?_, fun hcl i hi k hk l hl s => ?_⟩
  · rw [f k hk i hi, f i hi k hk]; exact R.scEntry_swap (str i hi) (str k hk) s
  · rw [f l hl k hk, f i hi k hk]
    exact (R.scEntry_star ⟨str i hi, (hb _ (List.getElem_mem hi)).2⟩ (str k hk) ⟨str l hl, (hb _ (List.getElem_mem hl)).2⟩).2
  · rw [Finset.sum_add_distrib, Finset.sum_add_distrib]
    have e : ∀ i (hi : i < b.strs.length) k (hk : k < b.strs.length) l (hl : l < b.strs.length),
        ∑ m : Fin b.strs.length, structureConstant b N ext i k b.strs[m] * structureConstant b N ext m l s = coefT (scTerms2 K b.strs[i] b.strs[k] b.strs[l]) s := by
      intro i hi k hk l hl
      rw [← sum_scEntry hn (fun t ht => hcl _ (g3 _ (List.getElem_mem hi) _ (List.getElem_mem hk) t ht))]
      exact Finset.sum_congr rfl fun m _ => by rw [f i hi k hk, f m m.2 l hl]; rfl
    rw [e i hi k hk l hl, e k hk l hl i hi, e l hl i hi k hk]
    exact R.scTerms2_jacobi (str i hi) (str k hk) (str l hl) s

/-! ### Non-vacuity -/

private def xyz : Basis := Basis.ofList [⟨[.X], [0], .pauli, .float1⟩, ⟨[.Y], [0], .pauli, .float1⟩, ⟨[.Z], [0], .pauli, .float1⟩]

private theorem xyz_valid : ∀ s ∈ xyz.strs, TypedString .pauli Set.univ s ∧ s.Canonical := by
  intro s hs
  simp only [xyz, Basis.ofList, List.mem_cons, List.not_mem_nil, or_false] at hs
  rcases hs with rfl | rfl | rfl <;> exact ⟨Or.inl ⟨rfl, rfl, by simp, rfl, by simp, by simp, by simp⟩, by simp [OpString.Canonical]⟩

-- the three Pauli operators of a site contain all their commutators
example : ∃ N ext, structureConstants (K := QI) xyz xyz .commutator = .ok (N, ext) ∧ ext.strs = [⟨[.Z], [0], .pauli, .float1⟩, ⟨[.Y], [0], .pauli, .float1⟩, ⟨[.X], [0], .pauli, .float1⟩] ∧
    structureConstant xyz N ext 0 1 ⟨[.Z], [0], .pauli, .float1⟩ = 2 * I ∧ structureConstant xyz N ext 0 1 ⟨[.X], [0], .pauli, .float1⟩ = 0 := by
  refine ⟨((structureConstants (K := QI) xyz xyz .commutator).toOption.get (by decide +kernel)).1, ((structureConstants (K := QI) xyz xyz .commutator).toOption.get (by decide +kernel)).2, by decide +kernel, by decide +kernel, by decide +kernel, by decide +kernel⟩
example := C103_structure_constants (K := QI) (t := .pauli) (Or.inl rfl) (tol := 1 / 10 ^ 12) (by norm_num) (by norm_num) (b := xyz) (by decide) xyz_valid

private def oXZ : Operator QI := ⟨[3, -1], Basis.ofList [⟨[.X], [0], .pauli, .float1⟩, ⟨[.Z], [0], .pauli, .float1⟩], .pauli⟩
private def oY : Operator QI := ⟨[2], Basis.ofList [⟨[.Y], [0], .pauli, .float1⟩], .pauli⟩

private theorem xyz_mem {s : OpString} (h : s ∈ xyz.strs) : TypedString .pauli Set.univ s := (xyz_valid s h).1

private theorem oXZ_on : oXZ.On .pauli (TypedString .pauli Set.univ) :=
  ⟨Operator.WF.mk' (by decide) rfl (by decide), rfl, fun s hs => xyz_mem (by
    simp only [oXZ, Basis.ofList, List.mem_cons, List.not_mem_nil, or_false] at hs
    rcases hs with rfl | rfl <;> decide)⟩

private theorem oY_on : oY.On .pauli (TypedString .pauli Set.univ) :=
  ⟨Operator.WF.mk' (by decide) rfl (by decide), rfl, fun s hs => xyz_mem (by
    simp only [oY, Basis.ofList, List.mem_cons, List.not_mem_nil, or_false] at hs
    rcases hs with rfl; decide)⟩

example : ∃ X, commutatorO oXZ oY = .ok X ∧ X.coeffs ≠ [] ∧ NothingCut .commutator oXZ oY := by
  refine ⟨(commutatorO oXZ oY).toOption.get (by decide +kernel), by decide +kernel, by decide +kernel, fun ta hta tb htb => Or.inr ?_⟩
  simp only [oXZ, oY, Operator.terms, Basis.ofList, List.zip_cons_cons, List.zip_nil_left, List.mem_cons, List.not_mem_nil, or_false] at hta htb
  rcases hta with rfl | rfl <;> rcases htb with rfl <;> simp [bracketFactor, map_ofNat] <;> norm_num
example := C103_hermitian (K := QI) (t := .pauli) (Or.inl rfl) (b := xyz) xyz_valid (O := oXZ) (fun s hs => oXZ_on.mem s hs) (by decide +kernel)
example := C103_linear (K := QI) (t := .pauli) (Or.inl rfl) .anticommutator (b := xyz) (fun s hs => xyz_mem hs) (A := oXZ) (B := oXZ) (X := oXZ) oXZ_on.mem oXZ_on.mem oXZ_on.mem
  (x := 2) (y := -1) (fun s => by ring)

end Qosy
