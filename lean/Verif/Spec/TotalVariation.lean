import Verif.Spec.Clustering
/-
The graph spanned by some nodes, and the law of a random graph with independent edges.
-/
namespace Girgs.Spec

/-- the pairs of numbers below `k` with the smaller number first -/
def pairsOf (k : ℕ) : Finset (Fin k × Fin k) := Finset.univ.filter fun e => e.1 < e.2

open Classical in
/-- the graph spanned by the nodes `a 0, a 1, ...`, as the set of the pairs `(i, j)`, `i < j`, for which `a i` and `a j` are neighbours in the graph with edge list `es` -/
noncomputable def spanned {k : ℕ} (a : Fin k → ℕ) (es : List (ℕ × ℕ)) : Finset (Fin k × Fin k) := (pairsOf k).filter fun e => adjacent es (a e.1) (a e.2)

/-- the probability of the graph `g` if the pairs `e` are connected independently with probabilities `p e` -/
noncomputable def independentLaw {k : ℕ} (p : Fin k × Fin k → ℝ) (g : Finset (Fin k × Fin k)) : ℝ := ∏ e ∈ pairsOf k, if e ∈ g then p e else 1 - p e

open Classical in
/-- the probability that such a graph belongs to `A` -/
noncomputable def independentProb {k : ℕ} (p : Fin k × Fin k → ℝ) (A : Set (Finset (Fin k × Fin k))) : ℝ := ∑ g ∈ (pairsOf k).powerset with g ∈ A, independentLaw p g

end Girgs.Spec
