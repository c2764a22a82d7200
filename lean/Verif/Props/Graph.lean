import Verif.Lemmas.Distance
import Verif.Lemmas.Components
import Verif.Props.Cluster
import Mathlib.Tactic.IntervalCases

/-! # Properties C19-C21: distance bases, maximal cliques, connected components -/

namespace Qosy

/-! ### C20 -/

/-- **C20**: for a simple undirected graph and a recursion limit of at least the number of vertices, whatever the orders of
iteration over sets, `maximal_cliques` returns lists without repeated vertices that are pairwise different as sets; as sets,
they are exactly the maximal cliques. -/
theorem C20_maximal_cliques {adj : List (List ℕ)} (hadj : SimpleGraphLists adj) {o : SetOracle} (ho : o.Valid) {lim : ℕ}
    (hlim : adj.length ≤ lim) :
    ∃ out, maximalCliques o lim adj = .ok out ∧ (∀ c ∈ out, c.Nodup) ∧ (out.map List.toFinset).Nodup ∧
      ∀ S, S ∈ out.map List.toFinset ↔ IsMaximalCliqueSet adj {v | v < adj.length} S := by
  obtain ⟨out, h1, h2, h3⟩ := maximalCliques_ok ho (g := fun _ => true)
    ⟨fun v w h => ⟨rfl, hadj.range v w h⟩, fun v w _ _ => ⟨hadj.symm v w, hadj.symm w v⟩, hadj.loopless⟩ hlim
  have e : out.filter (fun (c : List ℕ) => c.all (fun _ => true)) = out := by
    rw [List.filter_eq_self]; intro c _; simp
  rw [e] at h3
  exact ⟨out, h1, h2, h3.nodup, fun S => by rw [h3.mem]; simp⟩

/-- The recursion limit only decides between the answer and RecursionError: with too small a limit the call fails. -/
theorem C20_recursion_limit : maximalCliques ⟨fun _ s => s.headD 0, fun _ s => s, id, fun l => List.range l.length⟩ 1 [[1, 2], [0, 2], [0, 1]] =
    .error .recursionError := by decide +kernel

/-! ### C21 -/

/-- **C21**: on an undirected graph `connected_components` terminates in both modes (every inner loop makes at most as many
iterations as there are vertices); the lists are disjoint, without repetitions and cover all vertices, none is empty, and two
vertices are in one list iff a path connects them; both modes return the same sets in the same order. -/
theorem C21_connected_components {adj : List (List ℕ)} (hadj : UndirectedLists adj) {n : ℕ} (hn : adj.length ≤ n) :
    ∃ rD rB, connectedComponents adj .DFS n = .ok (some rD) ∧ connectedComponents adj .BFS n = .ok (some rB) ∧
      rD.map List.toFinset = rB.map List.toFinset ∧
      ∀ r, r = rD ∨ r = rB → r.flatten.Perm (List.range adj.length) ∧ (∀ c ∈ r, c ≠ []) ∧
        ∀ c ∈ r, ∀ x ∈ c, ∀ y, y ∈ c ↔ Connected adj x y := by
  have key : ∀ mode, mode ≠ SearchMode.other → ∃ r, connectedComponents adj mode n = .ok (some r) ∧
      r.map List.toFinset = componentSets adj adj.length ∧ r.flatten.Perm (List.range adj.length) ∧ (∀ c ∈ r, c ≠ []) ∧
        ∀ c ∈ r, ∀ x ∈ c, ∀ y, y ∈ c ↔ Connected adj x y := by
    intro mode hm
    obtain ⟨V, r, h1, h2, h3, h4, h5, h6⟩ := components_ok hadj hm hn adj.length le_rfl
    refine ⟨r, by rw [connectedComponents, h1]; rfl, h6, ?_, fun c hc => (h5 c hc).1, fun c hc => (h5 c hc).2⟩
    rw [List.perm_ext_iff_of_nodup h4 List.nodup_range]
    intro x
    rw [← h3, h2, List.mem_range]
    constructor
    · rintro ⟨u, hu, h⟩; exact h.lt hadj hu
    · intro hx; exact ⟨x, hx, Relation.ReflTransGen.refl⟩
  obtain ⟨rD, d1, d2, d3⟩ := key .DFS (by simp)
  obtain ⟨rB, b1, b2, b3⟩ := key .BFS (by simp)
  refine ⟨rD, rB, d1, b1, d2.trans b2.symm, ?_⟩
  rintro r (rfl | rfl)
  · exact d3
  · exact b3

/-- **C21**: another mode raises ValueError as soon as there is a vertex. -/
theorem C21_mode {adj : List (List ℕ)} (hadj : adj ≠ []) {n : ℕ} (hn : 0 < n) :
    connectedComponents adj .other n = .error .valueError := by
  obtain ⟨m, rfl⟩ : ∃ m, n = m + 1 := ⟨n - 1, by omega⟩
  cases adj with
  | nil => exact absurd rfl hadj
  | cons a as =>
    simp [connectedComponents, List.range_succ_eq_map, List.foldlM_cons, compNode, compLoop, compStep, popNode, bind, Except.bind]

/-! ### C19 -/

section c19
variable {D : Type} [LinearOrder D] [Add D] [Zero D]

/-- the labels are allowed orbitals of the lattice, pairwise within the distance `bound` -/
def WithinDistance (n : ℕ) (allowed : Option (List ℕ)) (dist : ℕ → ℕ → D) (bound : D) (labels : List ℤ) : Prop :=
  (∀ x ∈ labels, ∃ i, i < n ∧ (∀ l, allowed = some l → i ∈ l) ∧ x = (i : ℤ)) ∧
    ∀ i j : ℕ, (i : ℤ) ∈ labels → (j : ℤ) ∈ labels → i < j → dist i j ≤ bound

variable {o : SetOracle} (ho : o.Valid) {lim n : ℕ} (hlim : n ≤ lim) (dist : ℕ → ℕ → D) {k : KArg} (hk : k.Ok) (R tol : D)
  (allowed : Option (List ℕ)) (hall : ∀ l, allowed = some l → ∀ i ∈ l, i < n) (incl : Bool)
include ho hlim hk hall

/-- **C19** (Pauli): `distance_basis` lists, without repetitions, exactly the Pauli strings (labels in increasing order) on an
allowed number of orbitals, all of them allowed and pairwise within distance `R + tol`.  The identity is never listed, whatever
`include_identity` says. -/
theorem C19_pauli :
    ∃ b, distanceBasis o lim n dist k R .pauli allowed incl tol = .ok b ∧ IndexedSet b ∧
      ∀ s, s ∈ b.strs ↔ (s.labels ≠ [] ∧ k.allows s.labels.length ∧ PauliString Set.univ s ∧ s.Canonical) ∧
        WithinDistance n allowed dist (R + tol) s.labels := by
  obtain ⟨b, h1, h2, h3⟩ := distanceBasis_ok ho hlim dist (k := k) R tol (t := .pauli)
    (Q := fun s => s.labels ≠ [] ∧ k.allows s.labels.length ∧ PauliString Set.univ s ∧ s.Canonical) (fun s h => h.1)
    (by
      intro labels hl
      obtain ⟨b, g1, g2, g3, g4⟩ := C18_pauli hk hl false
      refine ⟨b, g1, fun s => ?_⟩
      rw [g4]
      simp only [Bool.false_eq_true, false_and, false_or]
      constructor
      · rintro ⟨a1, a2, a3, a4⟩
        exact ⟨⟨a1, a2, ⟨a3.type, a3.ops, a3.len, a3.nodup, fun _ _ => trivial, a3.pref⟩, a4⟩, a3.mem⟩
      · rintro ⟨⟨a1, a2, a3, a4⟩, a5⟩
        exact ⟨a1, a2, ⟨a3.type, a3.ops, a3.len, a3.nodup, a5, a3.pref⟩, a4⟩) allowed hall incl
  exact ⟨b, h1, h2.indexedSet, h3⟩

/-- **C19** (Majorana) -/
theorem C19_majorana :
    ∃ b, distanceBasis o lim n dist k R .majorana allowed incl tol = .ok b ∧ IndexedSet b ∧
      ∀ s, s ∈ b.strs ↔ (s.labels ≠ [] ∧ k.allows s.labels.length ∧ MajoranaString Set.univ s ∧ s.Canonical) ∧
        WithinDistance n allowed dist (R + tol) s.labels := by
  obtain ⟨b, h1, h2, h3⟩ := distanceBasis_ok ho hlim dist (k := k) R tol (t := .majorana)
    (Q := fun s => s.labels ≠ [] ∧ k.allows s.labels.length ∧ MajoranaString Set.univ s ∧ s.Canonical) (fun s h => h.1)
    (by
      intro labels hl
      obtain ⟨b, g1, g2, g3, g4⟩ := C18_majorana hk hl false
      refine ⟨b, g1, fun s => ?_⟩
      rw [g4]
      simp only [Bool.false_eq_true, false_and, false_or]
      constructor
      · rintro ⟨a1, a2, a3, a4⟩
        exact ⟨⟨a1, a2, ⟨a3.type, a3.ops, a3.len, a3.nodup, fun _ _ => trivial, a3.pref⟩, a4⟩, a3.mem⟩
      · rintro ⟨⟨a1, a2, a3, a4⟩, a5⟩
        exact ⟨a1, a2, ⟨a3.type, a3.ops, a3.len, a3.nodup, a5, a3.pref⟩, a4⟩) allowed hall incl
  exact ⟨b, h1, h2.indexedSet, h3⟩

/-- **C19** (Fermion): the strings `cluster_basis` would list on their own labels. -/
theorem C19_fermion :
    ∃ b, distanceBasis o lim n dist k R .fermion allowed incl tol = .ok b ∧ IndexedSet b ∧
      ∀ s, s ∈ b.strs ↔ IsClusterFermion k s.labels s ∧ WithinDistance n allowed dist (R + tol) s.labels := by
  obtain ⟨b, h1, h2, h3⟩ := distanceBasis_ok ho hlim dist (k := k) R tol (t := .fermion)
    (Q := fun s => IsClusterFermion k s.labels s)
    (by
      rintro s ⟨F, hF, _, _, hsub, _⟩ he
      rw [he] at hsub
      obtain ⟨x, hx⟩ := List.exists_mem_of_ne_nil _ hF
      simpa using hsub x hx)
    (by
      intro labels hl
      obtain ⟨b, g1, g2, g4⟩ := C18_fermion hk hl false
      refine ⟨b, g1, fun s => ?_⟩
      rw [g4]
      simp only [Bool.false_eq_true, false_and, false_or]
      constructor
      · rintro ⟨F, hF, hkF, hpF, hsub, hs⟩
        rcases hs with rfl | ⟨B, p, b1, b2, b3, b4, rfl⟩
        · refine ⟨⟨F, hF, hkF, hpF, ?_, Or.inl rfl⟩, ?_⟩
          · intro x hx; exact List.mem_append_left _ hx
          · intro x hx
            rcases List.mem_append.mp hx with h | h
            · exact hsub x h
            · exact hsub x (List.mem_reverse.mp h)
        · refine ⟨⟨F, hF, hkF, hpF, ?_, Or.inr ⟨B, p, b1, ?_, b3, b4, rfl⟩⟩, ?_⟩
          · intro x hx; exact List.mem_append_left _ hx
          · intro x hx; exact List.mem_append_right _ hx
          · intro x hx
            rcases List.mem_append.mp hx with h | h
            · exact hsub x h
            · exact b2 x h
      · rintro ⟨⟨F, hF, hkF, hpF, hsub, hs⟩, hlab⟩
        refine ⟨F, hF, hkF, hpF, fun x hx => hlab x (hsub x hx), ?_⟩
        rcases hs with e | ⟨B, p, b1, b2, b3, b4, e⟩
        · exact Or.inl e
        · exact Or.inr ⟨B, p, b1, fun x hx => hlab x (b2 x hx), b3, b4, e⟩) allowed hall incl
  exact ⟨b, h1, h2.indexedSet, h3⟩

end c19

/-! ### Non-vacuity -/

/-- an execution that iterates over sets in the order of insertion -/
def exOracle : SetOracle := ⟨fun _ s => s.headD 0, fun _ s => s, id, fun l => List.range l.length⟩

theorem exOracle_valid : exOracle.Valid :=
  ⟨fun _ s h => by cases s with | nil => exact absurd rfl h | cons x xs => simp [exOracle], fun _ _ _ => List.Perm.refl _,
    fun _ _ => List.Perm.refl _, fun _ => List.Perm.refl _⟩

/-- another one, that goes backwards -/
def exOracle' : SetOracle := ⟨fun _ s => s.getLastD 0, fun _ s => s.reverse, List.reverse, fun l => (List.range l.length).reverse⟩

theorem exOracle'_valid : exOracle'.Valid :=
  ⟨fun _ s h => by
    show s.getLastD 0 ∈ s
    rw [List.getLastD_eq_getLast?, List.getLast?_eq_some_getLast h]; simp, fun _ _ _ => List.reverse_perm _,
    fun _ _ => List.reverse_perm _, fun _ => List.reverse_perm _⟩

/-- a triangle with a tail and a separate edge -/
def exGraph : List (List ℕ) := [[1, 2], [0, 2], [0, 1, 3], [2], [5], [4]]

theorem exGraph_simple : SimpleGraphLists exGraph := by
  have key : ∀ i j, Adjacent exGraph i j ↔ i < 6 ∧ j < 6 ∧ j ∈ exGraph.getD i [] := by
    intro i j
    unfold Adjacent
    by_cases hi : i < 6
    · interval_cases i <;> simp [exGraph] <;> omega
    · have : exGraph[i]? = none := List.getElem?_eq_none (by simpa [exGraph] using hi)
      simp [this, hi]
  refine ⟨?_, ?_, ?_⟩
  · intro i j h; exact ((key i j).mp h).2.1
  · intro i j h
    rw [key] at h ⊢
    obtain ⟨h1, h2, h3⟩ := h
    refine ⟨h2, h1, ?_⟩
    revert h3
    have : ∀ i < 6, ∀ j < 6, j ∈ exGraph.getD i [] → i ∈ exGraph.getD j [] := by decide
    exact this i h1 j h2
  · intro i h
    rw [key] at h
    have : ∀ i < 6, i ∉ exGraph.getD i [] := by decide
    exact this i h.1 h.2.2

example : ∃ out, maximalCliques exOracle 6 exGraph = .ok out ∧ (out.map List.toFinset).Nodup ∧
    ∀ S, S ∈ out.map List.toFinset ↔ IsMaximalCliqueSet exGraph {v | v < 6} S := by
  obtain ⟨out, h1, _, h2, h3⟩ := C20_maximal_cliques exGraph_simple exOracle_valid (lim := 6) le_rfl
  exact ⟨out, h1, h2, h3⟩

example : (maximalCliques exOracle' 6 exGraph).toOption.map (fun l => l.map List.toFinset) = some [{0, 1, 2}, {2, 3}, {4, 5}] := by
  decide +kernel

example : ∃ rD rB, connectedComponents exGraph .DFS 6 = .ok (some rD) ∧ connectedComponents exGraph .BFS 6 = .ok (some rB) ∧
    rD.map List.toFinset = rB.map List.toFinset := by
  obtain ⟨rD, rB, h1, h2, h3, _⟩ := C21_connected_components ⟨exGraph_simple.range, exGraph_simple.symm⟩ (n := 6) le_rfl
  exact ⟨rD, rB, h1, h2, h3⟩

example : connectedComponents exGraph .DFS 6 = .ok (some [[0, 2, 3, 1], [4, 5]]) := by decide +kernel

/-- a chain of five orbitals with unit spacing -/
example : ∃ b, distanceBasis exOracle 10 5 (fun i j => ((j : ℤ) - i : ℤ)) (.int 2) 1 .pauli (some [0, 1, 2, 4]) true 0 = .ok b ∧
    ∀ s, s ∈ b.strs ↔ (s.labels ≠ [] ∧ (KArg.int 2).allows s.labels.length ∧ PauliString Set.univ s ∧ s.Canonical) ∧
        WithinDistance 5 (some [0, 1, 2, 4]) (fun i j => ((j : ℤ) - i : ℤ)) (1 + 0) s.labels := by
  obtain ⟨b, h1, _, h3⟩ := C19_pauli exOracle_valid (lim := 10) (n := 5) (by norm_num) (fun i j => ((j : ℤ) - i : ℤ)) (k := .int 2)
    (by simp [KArg.Ok]) 1 0 (some [0, 1, 2, 4]) (by simp) true
  exact ⟨b, h1, h3⟩

example : (distanceBasis exOracle 10 5 (fun i j => ((j : ℤ) - i : ℤ)) (.int 2) 1 .pauli (some [0, 1, 2, 4]) true 0).toOption.map
    (fun b => b.strs.length) = some 30 := by decide +kernel

end Qosy
