import Verif.Model.Graph
import Mathlib.Data.Finset.Basic
import Mathlib.Logic.Relation

/-! # Specification: maximal cliques and connected components -/

namespace Qosy

/-- `j` is listed as a neighbour of `i` -/
def Adjacent (adj : List (List ℕ)) (i j : ℕ) : Prop := ∃ l, adj[i]? = some l ∧ j ∈ l

/-- adjacency lists of a simple undirected graph: symmetric and loop-free, neighbours are vertices -/
structure SimpleGraphLists (adj : List (List ℕ)) : Prop where
  range : ∀ i j, Adjacent adj i j → j < adj.length
  symm : ∀ i j, Adjacent adj i j → Adjacent adj j i
  loopless : ∀ i, ¬ Adjacent adj i i

/-- adjacency lists of an undirected graph -/
structure UndirectedLists (adj : List (List ℕ)) : Prop where
  range : ∀ i j, Adjacent adj i j → j < adj.length
  symm : ∀ i j, Adjacent adj i j → Adjacent adj j i

/-- joined by a path -/
def Connected (adj : List (List ℕ)) : ℕ → ℕ → Prop := Relation.ReflTransGen (Adjacent adj)

/-- a set of pairwise adjacent vertices -/
def IsCliqueSet (adj : List (List ℕ)) (V : Set ℕ) (S : Finset ℕ) : Prop :=
  S.Nonempty ∧ (∀ x ∈ S, x ∈ V) ∧ ∀ a ∈ S, ∀ b ∈ S, a ≠ b → Adjacent adj a b

/-- a clique of the graph induced on the vertices `V` that no other clique contains -/
def IsMaximalCliqueSet (adj : List (List ℕ)) (V : Set ℕ) (S : Finset ℕ) : Prop :=
  IsCliqueSet adj V S ∧ ∀ T, IsCliqueSet adj V T → S ⊆ T → T = S

/-- the iteration orders an execution may use: every order enumerates the set, the first element is an element, and `argsort`
returns a permutation of the indices -/
structure SetOracle.Valid (o : SetOracle) : Prop where
  first_mem : ∀ p s, s ≠ [] → o.first p s ∈ s
  enum_perm : ∀ p s, s.Nodup → (o.enum p s).Perm s
  toList_perm : ∀ s, s.Nodup → (o.toList s).Perm s
  argsort_perm : ∀ l, (o.argsort l).Perm (List.range l.length)

end Qosy
