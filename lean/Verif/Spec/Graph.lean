import Mathlib.Data.Nat.Notation
import Mathlib.Data.List.Pairwise
/-
Specification: edge lists of simple undirected graphs.
-/
namespace Girgs.Spec

/-- how often the unordered pair `{u,v}` (`u ≠ v`) occurs in a list of ordered pairs -/
def occurrences (es : List (Nat × Nat)) (u v : Nat) : Nat := es.count (u, v) + es.count (v, u)

/-- the edge list describes a simple graph on the nodes `0..n-1`: indices in range, no self loop, and no unordered pair
listed twice -/
def IsSimpleGraph (n : Nat) (es : List (Nat × Nat)) : Prop :=
  (∀ e ∈ es, e.1 < n ∧ e.2 < n ∧ e.1 ≠ e.2) ∧ es.Pairwise (fun e f => e ≠ f ∧ e ≠ f.swap)

/-- the list consists of every unordered pair of distinct nodes of `0..n-1` exactly once, in one orientation, and
of nothing else -/
def EachPairOnce (n : Nat) (es : List (Nat × Nat)) : Prop :=
  (∀ e ∈ es, e.1 < n ∧ e.2 < n ∧ e.1 ≠ e.2) ∧ ∀ u v, u < n → v < n → u ≠ v → occurrences es u v = 1

end Girgs.Spec
