import Verif.Model.Cluster
import Verif.Spec.Rep

/-! # Specification: the strings on a cluster -/

namespace Qosy

/-- the numbers of orbitals `k` allows: up to `k` for an integer, the listed ones for a list -/
def KArg.allows : KArg → ℕ → Prop
  | .int k, n => (n : ℤ) ≤ k
  | .list l, n => (n : ℤ) ∈ l
  | .other, _ => False

instance (k : KArg) (n : ℕ) : Decidable (k.allows n) := by
  cases k <;> unfold KArg.allows <;> infer_instance

/-- `k` is a number or a list and allows some number at all -/
def KArg.Ok : KArg → Prop
  | .int k => 0 ≤ k
  | .list l => l ≠ []
  | .other => False

/-- `c†_{i1} … c†_{im} c_{j1} … c_{jl}` with a prefactor -/
def hopString (F B : List ℤ) (p : Pref) : OpString :=
  ⟨List.replicate F.length .CDag ++ List.replicate B.length .C, F ++ B, .fermion, p⟩

/-- The Fermion strings `cluster_basis` is documented to list: number operators `c†_{i1} … c†_{im} c_{im} … c_{i1}`, and for an
ordered pair of label sets with the second one shorter, or equally long and lexicographically smaller, the string with
prefactor 1 and the string with prefactor i. -/
def IsClusterFermion (k : KArg) (labels : List ℤ) (s : OpString) : Prop :=
  ∃ F : List ℤ, F ≠ [] ∧ k.allows F.length ∧ F.Pairwise (· < ·) ∧ (∀ x ∈ F, x ∈ labels) ∧
    (s = hopString F F.reverse .float1 ∨
      ∃ (B : List ℤ) (p : Pref), B.Pairwise (· < ·) ∧ (∀ x ∈ B, x ∈ labels) ∧
        (B.length < F.length ∨ B.length = F.length ∧ B < F) ∧ (p = .float1 ∨ p = .imag) ∧ s = hopString F B p)

end Qosy
