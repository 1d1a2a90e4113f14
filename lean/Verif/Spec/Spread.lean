import Verif.Spec.NodeDegree
/-
A bound for the spread of the mean degrees of the nodes of a hyperbolic random graph.
-/
namespace Girgs.Spec

/-- bound for the mean of the square of the probability that a random point, given its position, is connected to another random point: for any `β` from 1 to 2
below `2α`, a constant times the power `β` of the leading term for a point at the boundary of the disk; of order `exp(-βR/2)` -/
noncomputable def hrgSpread (α β T R : ℝ) : ℝ := α / (α - β / 2) * slack α R * (3 * slack α R * hrgNodeDegree 1 α T R) ^ β

end Girgs.Spec
