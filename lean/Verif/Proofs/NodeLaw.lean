import Verif.Spec.SampleLaw
import Verif.Proofs.HSamplers
import Mathlib.Probability.Independence.InfinitePi
import Mathlib.MeasureTheory.Constructions.Pi
/-
Proofs for C92: the numbers that independent ideal engines produce are independent.
-/
namespace Girgs
open MeasureTheory ProbabilityTheory Spec

/-! ### one engine -/

section Step
variable {G V : Type} [MeasurableSpace G] [MeasurableSpace V]

/-- the state after `k` steps -/
def stepState (st : G → V × G) : ℕ → G → G
  | 0, g => g
  | k + 1, g => stepState st k (st g).2

/-- the value of the `k`-th step -/
def stepVal (st : G → V × G) (k : ℕ) (g : G) : V := (st (stepState st k g)).1

theorem stepVal_succ (st : G → V × G) (k : ℕ) (g : G) : stepVal st (k + 1) g = stepVal st k (st g).2 := rfl

theorem stepState_meas {st : G → V × G} (h : Measurable st) : ∀ k, Measurable (stepState st k)
  | 0 => measurable_id
  | k + 1 => (stepState_meas h k).comp (measurable_snd.comp h)

theorem stepVal_meas {st : G → V × G} (h : Measurable st) (k : ℕ) : Measurable (stepVal st k) :=
  measurable_fst.comp (h.comp (stepState_meas h k))

variable {μ : Measure G} {ν : Measure V} [IsProbabilityMeasure μ] [IsProbabilityMeasure ν] {st : G → V × G}

theorem step_box (h : Measurable st) (hm : μ.map st = ν.prod μ) : ∀ (N : ℕ) (A : ℕ → Set V), (∀ k, MeasurableSet (A k)) →
    μ {g | ∀ k < N, stepVal st k g ∈ A k} = ∏ k ∈ Finset.range N, ν (A k)
  | 0, A, _ => by simp
  | N + 1, A, hA => by
    have ih := step_box h hm N (fun k => A (k + 1)) fun k => hA _
    have e : {g | ∀ k < N + 1, stepVal st k g ∈ A k} = st ⁻¹' (A 0 ×ˢ {g | ∀ k < N, stepVal st k g ∈ A (k + 1)}) := by
      ext g
      simp only [Set.mem_setOf_eq, Set.mem_preimage, Set.mem_prod]
      constructor
      · intro hg
        exact ⟨hg 0 (by omega), fun k hk => by rw [← stepVal_succ]; exact hg (k + 1) (by omega)⟩
      · rintro ⟨h0, h1⟩ k hk
        cases k with
        | zero => exact h0
        | succ k => rw [stepVal_succ]; exact h1 k (by omega)
    have hme : MeasurableSet {g | ∀ k < N, stepVal st k g ∈ A (k + 1)} := by
      have : {g | ∀ k < N, stepVal st k g ∈ A (k + 1)} = ⋂ k ∈ Finset.range N, stepVal st k ⁻¹' A (k + 1) := by
        ext g; simp
      rw [this]
      exact Finset.measurableSet_biInter _ fun k _ => stepVal_meas h k (hA _)
    rw [e, ← Measure.map_apply h ((hA 0).prod hme), hm, Measure.prod_prod, ih, Finset.prod_range_succ', mul_comm]

theorem step_inter (h : Measurable st) (hm : μ.map st = ν.prod μ) (S : Finset ℕ) (A : ℕ → Set V) (hA : ∀ k ∈ S, MeasurableSet (A k)) :
    μ (⋂ k ∈ S, stepVal st k ⁻¹' A k) = ∏ k ∈ S, ν (A k) := by
  classical
  set B : ℕ → Set V := fun k => if k ∈ S then A k else Set.univ with hB
  have hBm : ∀ k, MeasurableSet (B k) := by
    intro k
    rw [hB]
    dsimp only
    split
    · exact hA k ‹_›
    · exact MeasurableSet.univ
  have hN : ∀ k ∈ S, k < S.sup id + 1 := fun k hk => Nat.lt_succ_of_le (Finset.le_sup (f := id) hk)
  have e : (⋂ k ∈ S, stepVal st k ⁻¹' A k) = {g | ∀ k < S.sup id + 1, stepVal st k g ∈ B k} := by
    ext g
    simp only [Set.mem_iInter, Set.mem_preimage, Set.mem_setOf_eq, hB]
    constructor
    · intro hg k _
      split
      · exact hg k ‹_›
      · trivial
    · intro hg k hk
      have := hg k (hN k hk)
      rwa [if_pos hk] at this
  rw [e, step_box h hm _ B hBm]
  refine (Finset.prod_subset_one_on_sdiff (s₁ := S) (fun k hk => Finset.mem_range.2 (hN k hk)) ?_ ?_).symm
  · intro k hk
    rw [hB]
    dsimp only
    rw [if_neg (Finset.mem_sdiff.1 hk).2, measure_univ]
  · intro k hk
    rw [hB]
    dsimp only
    rw [if_pos hk]

theorem step_law (h : Measurable st) (hm : μ.map st = ν.prod μ) (k : ℕ) : μ.map (stepVal st k) = ν := by
  ext A hA
  have := step_inter h hm {k} (fun _ => A) fun _ _ => hA
  rw [Measure.map_apply (stepVal_meas h k) hA]
  simpa using this

theorem step_indep (h : Measurable st) (hm : μ.map st = ν.prod μ) : iIndepFun (stepVal st) μ := by
  rw [iIndepFun_iff_measure_inter_preimage_eq_mul]
  intro S A hA
  rw [step_inter h hm S A hA]
  refine Finset.prod_congr rfl fun k hk => ?_
  rw [← Measure.map_apply (stepVal_meas h k) (hA k hk), step_law h hm k]

/-- all values of all engines, if the states at the beginning are independent -/
theorem states_indep {Ω ι : Type} [MeasurableSpace Ω] {P : Measure Ω} {x : ι → Ω → G} (hx : IndependentStates P μ x) (h : Measurable st)
    (hm : μ.map st = ν.prod μ) :
    iIndepFun (fun (p : ι × ℕ) ω => stepVal st p.2 (x p.1 ω)) P ∧ ∀ p : ι × ℕ, P.map (fun ω => stepVal st p.2 (x p.1 ω)) = ν := by
  have hP : IsProbabilityMeasure P := hx.indep.isProbabilityMeasure
  constructor
  · refine iIndepFun_uncurry' (X := fun i k ω => stepVal st k (x i ω)) (fun i k => (stepVal_meas h k).comp (hx.meas i)) ?_ ?_
    · exact hx.indep.comp (fun _ g k => stepVal st k g) fun _ => measurable_pi_lambda _ fun k => stepVal_meas h k
    · intro i
      have := step_indep (ν := ν) h hm
      rw [iIndepFun_iff_measure_inter_preimage_eq_mul] at this ⊢
      intro S A hA
      have h1 := this S hA
      rw [← hx.law i, Measure.map_apply (hx.meas i) (Finset.measurableSet_biInter _ fun k hk => stepVal_meas h k (hA k hk))] at h1
      simp only [Set.preimage_iInter] at h1
      refine h1.trans (Finset.prod_congr rfl fun k hk => ?_)
      rw [Measure.map_apply (hx.meas i) (stepVal_meas h k (hA k hk))]
      rfl
  · intro p
    have := step_law (ν := ν) h hm p.2
    rw [← hx.law p.1, Measure.map_map (stepVal_meas h _) (hx.meas _)] at this
    exact this

end Step

theorem uniformLaw_prob {a b : ℝ} (h : a < b) : IsProbabilityMeasure (uniformLaw a b) := by
  constructor
  unfold uniformLaw
  rw [Measure.smul_apply, Measure.restrict_apply_univ, Real.volume_Ico, smul_eq_mul]
  exact ENNReal.inv_mul_cancel (by simpa using h) ENNReal.ofReal_ne_top

theorem uniformLaw_unit : uniformLaw 0 1 = volume.restrict (Set.Ico 0 1) := by
  unfold uniformLaw
  simp

end Girgs
