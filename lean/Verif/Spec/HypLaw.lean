import Verif.Spec.Hyperbolic
/-
Specification: the connection probabilities of a list of points in the hyperbolic plane.
-/
namespace Girgs.Spec

/-- the documented connection probability of the nodes `u` and `v`: `1 / (1 + exp((d - R) / (2 T)))` for the hyperbolic distance `d` of
their points (0 if there are no such nodes) -/
noncomputable def hypPairProb (radii angles : List ℝ) (R T : ℝ) (u v : ℕ) : ℝ :=
  match radii[u]?, radii[v]?, angles[u]?, angles[v]? with
  | some r, some s, some a, some b => hypProb (hypDist r a s b) R T
  | _, _, _, _ => 0

end Girgs.Spec
