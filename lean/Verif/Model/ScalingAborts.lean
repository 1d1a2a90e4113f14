import Verif.Model.WeightScaling
/-
The third way a call of `girgs::scaleWeights` can end: a failed assertion (debug build) or undefined behaviour.
-/
namespace Girgs.Scaling
open CFloat
variable {F : Type} [CFloat F] {S : Type}

/-- `exponentialSearch(f, desired)` (WeightScaling.cpp:13-40) evaluates `f` at a point where an assertion of `f` fails: WeightScaling.cpp:56,63 in
`LazySorter`, :116 and :224 in the two searched functions, :166 (in the model part of the function), or where the behaviour is undefined -/
def Aborts (f : F → S → Option (F × S)) (desired : F) (st : S) : Prop :=
  ∃ k, run f desired accuracy k (start st) = .undefined

/-- `scaleWeights(weights, desired, dimension, alpha)` (Generator.cpp:56-70) ends with a failed assertion or in undefined behaviour -/
def ScaleWeightsAborts (alg : StdAlg F) (ndebug : Bool) (part : List (List Nat)) (weights : List F) (desired : F)
    (dimension : Nat) (alpha : F) : Prop :=
  match estimatorFor alpha with
  | .threshold => Aborts (thresholdFn alg ndebug part weights dimension) desired (LazySorter.new weights)
  | .general => Aborts (alphaFn alg ndebug part weights dimension alpha) desired ⟨LazySorter.new weights, []⟩
  | .throw => False

end Girgs.Scaling
