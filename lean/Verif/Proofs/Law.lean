import Mathlib.Probability.ProbabilityMassFunction.Monad
import Mathlib.Probability.ProbabilityMassFunction.Constructions
import Mathlib.MeasureTheory.Integral.Lebesgue.Countable
import Mathlib.MeasureTheory.Integral.Marginal
import Mathlib.MeasureTheory.Measure.Prod
/-
Laws of computations that draw random numbers from a generator state: the value has law `P`, and the state left behind is
distributed like the initial state and independent of the value.
-/
namespace Girgs
open MeasureTheory
open scoped ENNReal

/-- Started in a `μ`-distributed state, `run` returns a value with law `P` and leaves a state that is again `μ`-distributed
and independent of the value. -/
structure Law {G β : Type} [MeasurableSpace G] [MeasurableSpace β] (μ : Measure G) (run : G → β × G) (P : PMF β) : Prop where
  meas : Measurable run
  int : ∀ f : β → G → ℝ≥0∞, (∀ b, Measurable (f b)) → ∫⁻ g, f (run g).1 (run g).2 ∂μ = ∑' b, P b * ∫⁻ g, f b g ∂μ

section
variable {G : Type} [MeasurableSpace G] {μ : Measure G}
variable {β : Type} [MeasurableSpace β] [DiscreteMeasurableSpace β] [Countable β]
variable {γ : Type} [MeasurableSpace γ] [DiscreteMeasurableSpace γ] [Countable γ]

theorem measurable_curried {f : β → G → γ × G} (h : ∀ b, Measurable (f b)) : Measurable fun x : β × G => f x.1 x.2 :=
  measurable_from_prod_countable_right fun b => h b

theorem measurable_curried' {G' : Type} [MeasurableSpace G'] {f : β → G → G'} (h : ∀ b, Measurable (f b)) : Measurable fun x : β × G => f x.1 x.2 :=
  measurable_from_prod_countable_right fun b => h b

theorem Law.pure (b : β) : Law μ (fun g => (b, g)) (PMF.pure b) := by
  refine ⟨measurable_const.prodMk measurable_id, ?_⟩
  intro f _
  rw [tsum_eq_single b]
  · simp
  · intro b' hb'
    simp [PMF.pure_apply, hb']

theorem Law.bind {run : G → β × G} {P : PMF β} {run2 : β → G → γ × G} {Q : β → PMF γ} (h : Law μ run P)
    (h2 : ∀ b, Law μ (run2 b) (Q b)) : Law μ (fun g => run2 (run g).1 (run g).2) (P.bind Q) := by
  refine ⟨(measurable_curried fun b => (h2 b).meas).comp h.meas, ?_⟩
  intro f hf
  rw [h.int (fun b g => f (run2 b g).1 (run2 b g).2) (fun b => (measurable_curried' hf).comp (h2 b).meas)]
  simp_rw [(h2 _).int f hf, PMF.bind_apply, ← ENNReal.tsum_mul_left, ← ENNReal.tsum_mul_right]
  rw [ENNReal.tsum_comm]
  simp_rw [mul_assoc]

theorem Law.congr {run run' : G → β × G} {P P' : PMF β} (h : Law μ run P) (e : ∀ g, run' g = run g) (e' : P' = P) :
    Law μ run' P' := by
  rw [show run' = run from funext e, e']; exact h

theorem Law.map {run : G → β × G} {P : PMF β} (h : Law μ run P) (k : β → γ) :
    Law μ (fun g => (k (run g).1, (run g).2)) (P.map k) := by
  have := h.bind (run2 := fun b g => (k b, g)) (Q := fun b => PMF.pure (k b)) (fun b => Law.pure (k b))
  exact this.congr (fun _ => rfl) (by rw [PMF.map]; rfl)

/-- the law of the value alone -/
theorem Law.event [IsProbabilityMeasure μ] {run : G → β × G} {P : PMF β} (h : Law μ run P) (S : Set β) :
    μ {g | (run g).1 ∈ S} = ∑' b, P b * S.indicator 1 b := by
  have := h.int (fun b _ => S.indicator 1 b) (fun b => measurable_const)
  simp only [lintegral_const, measure_univ, mul_one] at this
  rw [← this]
  have hm : MeasurableSet {g | (run g).1 ∈ S} := (measurable_fst.comp h.meas) (MeasurableSet.of_discrete (s := S))
  rw [← lintegral_indicator_one hm]
  rfl

/-- running on one coordinate of a family of independent states -/
theorem Law.coord [SigmaFinite μ] {ι : Type} [Fintype ι] [DecidableEq ι] (i : ι) {run : G → β × G} {P : PMF β} (h : Law μ run P) :
    Law (Measure.pi fun _ : ι => μ) (fun s => ((run (s i)).1, Function.update s i (run (s i)).2)) P := by
  have hm : Measurable fun s : ι → G => run (s i) := h.meas.comp (measurable_pi_apply i)
  have hrun : Measurable fun s : ι → G => ((run (s i)).1, Function.update s i (run (s i)).2) := by
    refine (measurable_fst.comp hm).prodMk ?_
    rw [measurable_pi_iff]
    intro j
    by_cases hj : j = i
    · subst hj; simp only [Function.update_self]; exact measurable_snd.comp hm
    · simpa [Function.update_of_ne hj] using measurable_pi_apply j
  refine ⟨hrun, ?_⟩
  intro f hf
  have hF : Measurable fun s : ι → G => f (run (s i)).1 (Function.update s i (run (s i)).2) := (measurable_curried' hf).comp hrun
  have hu : ∀ F : (ι → G) → ℝ≥0∞, Measurable F → ∀ s0 : ι → G, ∫⁻ s, F s ∂(Measure.pi fun _ : ι => μ) =
      (∫⋯∫⁻_(Finset.univ.erase i), (fun x => ∫⁻ g, F (Function.update x i g) ∂μ) ∂(fun _ => μ)) s0 := by
    intro F hF s0
    rw [lintegral_eq_lmarginal_univ s0, lmarginal_erase' F hF (Finset.mem_univ i)]
  rcases isEmpty_or_nonempty (ι → G) with he | ⟨⟨s0⟩⟩
  · have : (Measure.pi fun _ : ι => μ) = 0 := Measure.eq_zero_of_isEmpty _
    simp [this]
  rw [hu _ hF s0]
  have e1 : (fun x : ι → G => ∫⁻ g, f (run (Function.update x i g i)).1 (Function.update (Function.update x i g) i (run (Function.update x i g i)).2) ∂μ) =
      fun x => ∑' b, P b * ∫⁻ g, f b (Function.update x i g) ∂μ := by
    funext x
    simp only [Function.update_self, Function.update_idem]
    exact h.int (fun b g => f b (Function.update x i g)) (fun b => (hf b).comp (measurable_update x))
  rw [e1]
  have e2 : ∀ b, ∫⁻ s, f b s ∂(Measure.pi fun _ : ι => μ) = _ := fun b => hu (f b) (hf b) s0
  simp_rw [e2]
  unfold lmarginal
  rw [lintegral_tsum]
  · congr 1
    funext b
    rw [lintegral_const_mul]
    have : Measurable fun x : ι → G => ∫⁻ g, f b (Function.update x i g) ∂μ := by
      exact Measurable.lintegral_prod_right' (f := fun p : (ι → G) × G => f b (Function.update p.1 i p.2)) ((hf b).comp measurable_update')
    exact this.comp measurable_updateFinset
  · intro b
    have : Measurable fun x : ι → G => ∫⁻ g, f b (Function.update x i g) ∂μ := by
      exact Measurable.lintegral_prod_right' (f := fun p : (ι → G) × G => f b (Function.update p.1 i p.2)) ((hf b).comp measurable_update')
    exact ((this.comp measurable_updateFinset).const_mul _).aemeasurable
end

/-- `Law` for computations that never are undefined -/
def LawO {G β : Type} [MeasurableSpace G] [MeasurableSpace β] (μ : Measure G) (run : G → Option (β × G)) (P : PMF β) : Prop :=
  ∃ r, (∀ g, run g = some (r g)) ∧ Law μ r P

end Girgs
