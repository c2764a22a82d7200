import Verif.Lemmas.Cluster
import Verif.Spec.Linear

/-! # Property C18: `cluster_basis` -/

namespace Qosy

/-- the number of strings: `∑ binomial(n, m) 3^m` over the allowed `m`, plus one for the identity -/
def clusterCount (k : KArg) (n : ℕ) (incl : Bool) : ℕ :=
  (if incl then 1 else 0) + ∑ m ∈ Finset.Icc 1 n, if k.allows m then n.choose m * 3 ^ m else 0

/-- **C18** (Pauli): `cluster_basis` succeeds and lists, without repetitions, exactly the Pauli strings (labels in increasing
order) on an allowed number of orbitals of the cluster, and the identity iff asked for; the number of strings. -/
theorem C18_pauli {k : KArg} (hk : k.Ok) {labels : List ℤ} (hl : labels.Nodup) (incl : Bool) :
    ∃ b, clusterBasis k labels .pauli incl = .ok b ∧ IndexedSet b ∧ b.strs.length = clusterCount k labels.length incl ∧
      ∀ s, s ∈ b.strs ↔ (incl = true ∧ s = identityString .pauli) ∨
        (s.labels ≠ [] ∧ k.allows s.labels.length ∧ PauliString {x | x ∈ labels} s ∧ s.Canonical) := by
  obtain ⟨allowed, h1, h2, h3⟩ := KArg.allowedList_ok hk
  obtain ⟨strs, k1, k2, k3, k4⟩ := spin_cluster (t := .pauli) (Or.inl rfl) rfl (mk := fun o l => ⟨o, l, .pauli, .float1⟩)
    (fun o l _ => mkOpString_pauli o l) (fun _ _ => ⟨rfl, rfl⟩) rfl h1 h2 hl incl
  refine ⟨_, k1, (Basis.Inv.ofList k2).indexedSet, ?_, ?_⟩
  · rw [Basis.ofList_strs, k4, clusterCount]; simp only [h3]
  · intro s
    rw [Basis.ofList_strs, k3]
    refine or_congr Iff.rfl ⟨?_, ?_⟩
    · rintro ⟨ls, ops, g1, g2, g3, g4, g5, g6, rfl⟩
      refine ⟨g1, (h3 _).mp g2, ⟨rfl, ?_, g5, g3.imp ne_of_lt, g4, by simp⟩, g3, Or.inr rfl⟩
      simpa [pauliOps] using g6
    · rintro ⟨g1, g2, g3, g4, g5⟩
      refine ⟨s.labels, s.ops, g1, (h3 _).mpr g2, g4, g3.mem, g3.len, by simpa [pauliOps] using g3.ops, ?_⟩
      have := g3.type
      have hp : s.pref = .float1 := g5.resolve_left g3.pref
      cases s; simp_all

/-- **C18** (Majorana) -/
theorem C18_majorana {k : KArg} (hk : k.Ok) {labels : List ℤ} (hl : labels.Nodup) (incl : Bool) :
    ∃ b, clusterBasis k labels .majorana incl = .ok b ∧ IndexedSet b ∧ b.strs.length = clusterCount k labels.length incl ∧
      ∀ s, s ∈ b.strs ↔ (incl = true ∧ s = identityString .majorana) ∨
        (s.labels ≠ [] ∧ k.allows s.labels.length ∧ MajoranaString {x | x ∈ labels} s ∧ s.Canonical) := by
  obtain ⟨allowed, h1, h2, h3⟩ := KArg.allowedList_ok hk
  obtain ⟨strs, k1, k2, k3, k4⟩ := spin_cluster (t := .majorana) (Or.inr rfl) rfl
    (mk := fun o l => ⟨o, l, .majorana, if (numAB o).choose 2 % 2 = 1 then .imag else .float1⟩)
    (fun o l h => mkOpString_majorana h) (fun _ _ => ⟨rfl, rfl⟩) rfl h1 h2 hl incl
  refine ⟨_, k1, (Basis.Inv.ofList k2).indexedSet, ?_, ?_⟩
  · rw [Basis.ofList_strs, k4, clusterCount]; simp only [h3]
  · intro s
    rw [Basis.ofList_strs, k3]
    refine or_congr Iff.rfl ⟨?_, ?_⟩
    · rintro ⟨ls, ops, g1, g2, g3, g4, g5, g6, rfl⟩
      refine ⟨g1, (h3 _).mp g2, ⟨rfl, ?_, g5, g3.imp ne_of_lt, g4, ?_⟩, g3, ?_⟩
      · simpa [majoranaOps] using g6
      · show (if (numAB ops).choose 2 % 2 = 1 then Pref.imag else Pref.float1) = .imag ↔ (numAB ops).choose 2 % 2 = 1
        by_cases h : (numAB ops).choose 2 % 2 = 1
        · rw [if_pos h]; simp [h]
        · rw [if_neg h]; simp [h]
      · simp only; split <;> simp
    · rintro ⟨g1, g2, g3, g4, g5⟩
      refine ⟨s.labels, s.ops, g1, (h3 _).mpr g2, g4, g3.mem, g3.len, by simpa [majoranaOps] using g3.ops, ?_⟩
      have h1 := g3.type
      have h2 : s.pref = .imag ↔ (numAB s.ops).choose 2 % 2 = 1 := g3.pref
      obtain ⟨o, l, t, p⟩ := s
      simp only at h1 h2 g5
      subst h1
      rcases g5 with rfl | rfl
      · rw [if_pos (h2.mp rfl)]
      · rw [if_neg (fun h => by simpa using h2.mpr h)]

/-- **C18** (Fermion): `cluster_basis` succeeds and lists exactly the documented strings, without repetitions.  The
annihilation operators of the strings that are not number operators come in *increasing* order of their labels (the
documentation shows them in decreasing order). -/
theorem C18_fermion {k : KArg} (hk : k.Ok) {labels : List ℤ} (hl : labels.Nodup) (incl : Bool) :
    ∃ b, clusterBasis k labels .fermion incl = .ok b ∧ IndexedSet b ∧
      ∀ s, s ∈ b.strs ↔ (incl = true ∧ s = identityString .fermion) ∨ IsClusterFermion k labels s := by
  obtain ⟨allowed, h1, h2, h3⟩ := KArg.allowedList_ok hk
  obtain ⟨strs, k1, k2, k3⟩ := fermion_cluster h1 h2 hl incl
  refine ⟨_, k1, (Basis.Inv.ofList k2).indexedSet, ?_⟩
  intro s
  rw [Basis.ofList_strs, k3]
  simp only [IsClusterFermion, h3]

/-- **C18** (errors): unknown operator types, other types of `k`, empty lists and negative numbers raise ValueError. -/
theorem C18_errors (k : KArg) (labels : List ℤ) (s : List Char) (incl : Bool) :
    clusterBasis k labels (.other s) incl = .error .valueError ∧
    ∀ t, ¬ k.Ok → clusterBasis k labels t incl = .error .valueError := by
  have hinit : ∀ t, ∃ st, clusterInit t incl = .ok st := by
    intro t
    cases incl
    · exact ⟨_, rfl⟩
    · cases t <;> exact ⟨_, rfl⟩
  constructor
  · obtain ⟨st, h⟩ := hinit (.other s)
    simp only [clusterBasis, h, bind, Except.bind, clusterLoop]
    cases h1 : k.allowedList with
    | error e => cases k <;> simp_all [KArg.allowedList]
    | ok l =>
      cases l with
      | nil => rfl
      | cons x xs => simp [npMax]
  · intro t hk
    obtain ⟨st, h⟩ := hinit t
    simp only [clusterBasis, h, bind, Except.bind]
    cases k with
    | int k =>
      have : (k + 1).toNat = 0 := by simp only [KArg.Ok] at hk; omega
      simp [KArg.allowedList, this, npMax]
    | list l =>
      have : l = [] := by simpa [KArg.Ok] using hk
      simp [KArg.allowedList, this, npMax]
    | other => rfl

/-! ### Non-vacuity -/

example : ∃ b, clusterBasis (.int 2) [4, 1, 2] .pauli = .ok b ∧ IndexedSet b ∧ b.strs.length = 36 := by
  obtain ⟨b, h1, h2, h3, _⟩ := C18_pauli (k := .int 2) (by simp [KArg.Ok]) (labels := [4, 1, 2]) (by decide) false
  exact ⟨b, h1, h2, by rw [h3]; decide⟩

example : (clusterBasis (.list [2]) [4, 1] .majorana).toOption.map (fun b => b.strs.length) = some 9 := by decide +kernel

example : (clusterBasis (.int 2) [1, 2] .fermion true).toOption.map (fun b => b.strs.length) = some 16 := by decide +kernel

end Qosy
