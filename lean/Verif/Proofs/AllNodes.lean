import Verif.Spec.Clustering
import Verif.Props.PowerLaw
import Verif.Props.HyperPowerLaw
/-
Union bounds over all nodes, for upper integrals and graph probabilities.
-/
namespace Girgs.Props
open CFloat Spec MeasureTheory ProbabilityTheory Tree
open XR (fin)
open scoped ENNReal

section
variable {Ω : Type} [MeasurableSpace Ω] {P : Measure Ω}

theorem upperMean_add (f g : Ω → ℝ≥0∞) : upperMean P (fun ω => f ω + g ω) ≤ upperMean P f + upperMean P g := by
  rw [← tsub_le_iff_left]
  refine le_iInf fun G => le_iInf fun hG => le_iInf fun hgG => ?_
  rw [tsub_le_iff_left, add_comm, ← tsub_le_iff_left]
  refine le_iInf fun F => le_iInf fun hF => le_iInf fun hfF => ?_
  rw [tsub_le_iff_left]
  refine (upperMean_le (F := fun ω => F ω + G ω) (hF.add hG) fun ω => add_le_add (hfF ω) (hgG ω)).trans (le_of_eq ?_)
  rw [lintegral_add_left hF, add_comm]

theorem upperMean_sum {ι : Type} (s : Finset ι) (f : ι → Ω → ℝ≥0∞) : upperMean P (fun ω => ∑ i ∈ s, f i ω) ≤ ∑ i ∈ s, upperMean P (f i) := by
  classical
  induction s using Finset.induction_on with
  | empty =>
    simp only [Finset.sum_empty]
    refine (upperMean_le (F := fun _ => 0) measurable_const fun _ => le_rfl).trans ?_
    simp
  | insert a s ha ih =>
    simp only [Finset.sum_insert ha]
    exact (upperMean_add _ _).trans (add_le_add le_rfl ih)

theorem upperMean_indicator {S : Set Ω} (hS : MeasurableSet S) (f : Ω → ℝ≥0∞) : upperMean P (S.indicator f) ≤ upperMean (P.restrict S) f := by
  refine le_iInf fun F => le_iInf fun hF => le_iInf fun hfF => ?_
  refine (upperMean_le (F := S.indicator F) (hF.indicator hS) fun ω => Set.indicator_le_indicator (hfF ω)).trans (le_of_eq ?_)
  rw [lintegral_indicator hS]

theorem upperMean_one {S : Set Ω} (hS : MeasurableSet S) : upperMean P (S.indicator 1) ≤ P S := by
  refine (upperMean_le (F := S.indicator 1) (measurable_one.indicator hS) fun ω => le_rfl).trans (le_of_eq ?_)
  rw [lintegral_indicator_one hS]

theorem graphProb_union (env : Env) (rng : Rng XR) [MeasurableSpace rng.G] (ν : Measure rng.G) (weights : List XR) (positions : List (List XR)) (alpha : XR)
    {n : ℕ} {S : List (ℕ × ℕ) → Prop} {Q : Fin n → ℕ → Prop} (h : ∀ out, S out → ∃ u, Q u (degreeOf u out)) :
    graphProb env rng ν weights positions alpha S ≤ ∑ u : Fin n, edgesProb env rng ν weights positions alpha (incident u) (Q u) := by
  unfold graphProb edgesProb
  refine (measure_mono ?_).trans (measure_iUnion_fintype_le _ _)
  rintro g ⟨out, notice, h1, h2⟩
  obtain ⟨u, hu⟩ := h out h2
  rw [← edgesIn_incident] at hu
  exact Set.mem_iUnion.2 ⟨u, out, notice, h1, hu⟩

theorem hypGraphProb_union (env : HEnv) (rng : Tree.Rng XR) [MeasurableSpace rng.G] (ν : Measure rng.G) {g : ℕ} (hg : 1 ≤ g) (radii angles : List XR) (T R : XR)
    {n : ℕ} {S : List (ℕ × ℕ) → Prop} {Q : Fin n → ℕ → Prop} (s : Finset (Fin n)) (h : ∀ out, S out → ∃ u ∈ s, Q u (degreeOf u out)) :
    hypGraphProb env rng ν hg radii angles T R S ≤ ∑ u ∈ s, hypEdgesProb env rng ν hg radii angles T R (incident u) (Q u) := by
  unfold hypGraphProb hypEdgesProb
  refine (measure_mono ?_).trans (measure_biUnion_finset_le s _)
  rintro g ⟨out, h1, h2⟩
  obtain ⟨u, hs, hu⟩ := h out h2
  rw [← edgesIn_incident] at hu
  exact Set.mem_iUnion₂.2 ⟨u, hs, out, h1, hu⟩

/-- the deviation that makes the exponent equal to `L` or larger -/
theorem deviation_exp {M L : ℝ} (hM : 0 ≤ M) (hL : 0 ≤ L) :
    Real.exp (-((√(2 * M * L) + 2 * L / 3) ^ 2 / (2 * (M + (√(2 * M * L) + 2 * L / 3) / 3)))) ≤ Real.exp (-L) := by
  refine Real.exp_le_exp.2 (neg_le_neg ?_)
  rcases hL.eq_or_lt with rfl | hL
  · positivity
  have hs := Real.sqrt_nonneg (2 * M * L)
  have hq := Real.sq_sqrt (show 0 ≤ 2 * M * L by positivity)
  generalize √(2 * M * L) = s at *
  rw [le_div_iff₀ (by positivity)]
  nlinarith [mul_nonneg hs hL.le]

theorem deviation_low {M L : ℝ} (hM : 0 < M) (hL : 0 ≤ L) : Real.exp (-(√(2 * M * L) ^ 2 / (2 * M))) ≤ Real.exp (-L) := by
  refine Real.exp_le_exp.2 (neg_le_neg ?_)
  rw [Real.sq_sqrt (by positivity), le_div_iff₀ (by linarith)]
  linarith

end

namespace HypMax
open HypDeg

variable {Ω : Type} [MeasurableSpace Ω] {P : Measure Ω} {n : ℕ} {α R : ℝ} {ρ φ : Fin n → Ω → ℝ}

/-- no radius is in `A` -/
theorem none_in (hp : RandomPoints P n α R ρ φ) (hαR : 1 ≤ α * R) {A : Set ℝ} (hA : MeasurableSet A) {q : ℝ} (hq : ∀ u, ENNReal.ofReal q ≤ P {ω | ρ u ω ∈ A}) :
    P {ω | ∀ u, ρ u ω ∉ A} ≤ ENNReal.ofReal (Real.exp (-(n * q))) := by
  rcases le_or_gt q 0 with h0 | h0
  · haveI := hp.prob
    refine prob_le_one.trans ?_
    rw [ENNReal.one_le_ofReal]
    refine Real.one_le_exp ?_
    have : (0 : ℝ) ≤ n := Nat.cast_nonneg n
    nlinarith
  haveI := radialLaw_prob hαR
  haveI : IsProbabilityMeasure (pointLaw α R) := by unfold pointLaw; infer_instance
  haveI := hp.prob
  have hm : Measurable fun ω i => (ρ i ω, φ i ω) := measurable_pi_lambda _ fun i => (hp.measR i).prodMk (hp.measA i)
  have hB : MeasurableSet {p : ℝ × ℝ | p.1 ∉ A} := (measurable_fst hA).compl
  have e : {ω | ∀ u, ρ u ω ∉ A} = (fun ω i => (ρ i ω, φ i ω)) ⁻¹' (Set.univ.pi fun _ : Fin n => {p : ℝ × ℝ | p.1 ∉ A}) := by
    ext ω
    simp [Set.mem_pi]
  rw [e, ← Measure.map_apply hm (MeasurableSet.univ_pi fun _ => hB), hp.joint, Measure.pi_pi]
  have h1 : ∀ u : Fin n, pointLaw α R {p : ℝ × ℝ | p.1 ∉ A} ≤ ENNReal.ofReal (Real.exp (-q)) := by
    intro u
    have h2 : P {ω | ρ u ω ∈ A} = radialLaw α R A := by
      rw [← radius_map hp hαR u, Measure.map_apply (hp.measR u) hA]
      rfl
    have h3 : pointLaw α R {p : ℝ × ℝ | p.1 ∉ A} = radialLaw α R Aᶜ := by
      have h4 : (pointLaw α R).map Prod.fst = radialLaw α R := by
        unfold pointLaw
        rw [Measure.map_fst_prod, measure_univ, one_smul]
      rw [← h4, Measure.map_apply measurable_fst hA.compl]
      rfl
    rw [h3, prob_compl_eq_one_sub hA, ← h2]
    refine (tsub_le_tsub_left (hq u) 1).trans ?_
    rw [← ENNReal.ofReal_one, ← ENNReal.ofReal_sub _ h0.le]
    refine ENNReal.ofReal_le_ofReal ?_
    have := Real.add_one_le_exp (-q)
    linarith
  refine (Finset.prod_le_prod' fun u _ => h1 u).trans (le_of_eq ?_)
  rw [Finset.prod_const, Finset.card_univ, Fintype.card_fin, ← ENNReal.ofReal_pow (Real.exp_pos _).le, ← Real.exp_nat_mul]
  congr 2
  ring

end HypMax
end Girgs.Props
