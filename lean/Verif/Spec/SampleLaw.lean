import Verif.Spec.Engine
import Mathlib.MeasureTheory.Measure.Lebesgue.Basic
import Mathlib.MeasureTheory.Measure.Prod
import Mathlib.Dynamics.Ergodic.MeasurePreserving
import Mathlib.Probability.Independence.Basic
/-
Specification: ideal random engines and independently seeded engines.
-/
namespace Girgs.Spec
open MeasureTheory ProbabilityTheory

/-- the uniform distribution on `[a,b)` -/
noncomputable def uniformLaw (a b : ℝ) : Measure ℝ := (ENNReal.ofReal (b - a))⁻¹ • volume.restrict (Set.Ico a b)

/-- `eng` is a source of ideal random numbers if its state is distributed like `μ`: `std::uniform_real_distribution<>(a,b)` returns numbers
of `[a,b)`, uniformly distributed, and leaves a state that is independent of the number and again distributed like `μ`; so does `gen()`. -/
structure IdealEngine (eng : Engine XR) [MeasurableSpace eng.G] (μ : Measure eng.G) : Prop where
  prob : IsProbabilityMeasure μ
  next : MeasurePreserving eng.next μ μ
  range : IntervalEngine eng
  uniform : ∀ a b : ℝ, a < b → ∃ u : eng.G → ℝ × eng.G, Measurable u ∧ (∀ g, eng.uniform (XR.fin a) (XR.fin b) g = (XR.fin (u g).1, (u g).2)) ∧
    μ.map u = (uniformLaw a b).prod μ

/-- the engine `eng`, but a construction with seed `s` gives the state `σ s` -/
abbrev withSeeds {F : Type} (eng : Engine F) (σ : ℤ → eng.G) : Engine F := { eng with seed := σ }

/-- the random states `x i` (functions of the outcome `ω`, whose distribution is `P`) are independent and distributed like `μ` -/
structure IndependentStates {Ω G ι : Type} [MeasurableSpace Ω] [MeasurableSpace G] (P : Measure Ω) (μ : Measure G) (x : ι → Ω → G) : Prop where
  meas : ∀ i, Measurable (x i)
  law : ∀ i, P.map (x i) = μ
  indep : iIndepFun x P

end Girgs.Spec
