import Verif.Spec.Torus
import Mathlib.Algebra.BigOperators.Group.List.Basic
import Mathlib.Analysis.SpecialFunctions.Pow.Real
/-
Specification: inputs of the GIRG sampler, and connection rules.
-/
namespace Girgs.Spec

/-- Weights and positions the sampler supports: dimension 1 to 5, at least one and less than 2^31 nodes, positive weights
that are finite doubles, positions in the half open unit cube, and spreads of the weights for which the 32 bit cell
numbers and `int` shifts of the implementation suffice: `W < 2^29 * w0^2` and `w_max < 2^30 * w0`.  (For weights with
minimum 1 and mean 3 that is `n < 2^27`.) -/
structure SupportedInput (D : Nat) (w : List ℝ) (x : List (Fin D → ℝ)) : Prop where
  D1 : 1 ≤ D
  D5 : D ≤ 5
  len : x.length = w.length
  pos : 1 ≤ w.length
  small : w.length < 2147483648
  wpos : ∀ u ∈ w, 0 < u
  wfin : ∀ u ∈ w, u < 2 ^ 1024
  unit : ∀ p ∈ x, ∀ d, 0 ≤ p d ∧ p d < 1
  total : ∀ u ∈ w, w.sum < 2 ^ 29 * u ^ 2
  spread : ∀ u ∈ w, ∀ v ∈ w, v < 2 ^ 30 * u

/-- the threshold rule for nodes `u` and `v`: `dist(u,v)^D < w_u * w_v / W` -/
def ThresholdRule {D : Nat} (w : List ℝ) (x : List (Fin D → ℝ)) (u v : Nat) : Prop :=
  ∃ a b p q, w[u]? = some a ∧ w[v]? = some b ∧ x[u]? = some p ∧ x[v]? = some q ∧ torusDist p q ^ D < a * b / w.sum

/-- the connection probability of nodes `u` and `v` with parameter `a`: `min(1, (w_u * w_v / W / dist(u,v)^D)^a)`, and 1 for
nodes at the same position -/
noncomputable def girgProb {D : Nat} (w : List ℝ) (x : List (Fin D → ℝ)) (a : ℝ) (u v : Nat) : ℝ :=
  match w[u]?, w[v]?, x[u]?, x[v]? with
  | some wu, some wv, some p, some q =>
    if torusDist p q = 0 then 1 else min 1 ((wu * wv / w.sum / torusDist p q ^ D) ^ a)
  | _, _, _, _ => 0

/-- the edge list describes exactly the graph on `0..n-1` given by the (symmetric) relation `R`: a simple graph whose edges
are the pairs of distinct nodes related by `R` -/
def IsGraphOf (n : Nat) (R : Nat → Nat → Prop) (es : List (Nat × Nat)) : Prop :=
  (∀ e ∈ es, e.1 < n ∧ e.2 < n ∧ e.1 ≠ e.2) ∧ es.Pairwise (fun e f => e ≠ f ∧ e ≠ f.swap) ∧
    ∀ u v, u < n → v < n → u ≠ v → ((u, v) ∈ es ∨ (v, u) ∈ es ↔ R u v)

end Girgs.Spec
