import Verif.Props.SampleLaw
import Verif.Proofs.IdealRng
/-
C92, continued: radii and angles.
-/
namespace Girgs.Props
open CFloat Spec MeasureTheory ProbabilityTheory
open XR (fin)

theorem twoPi_eq : (CFloat.ofRat 2 *. CFloat.pi : XR) = fin (2 * Real.pi) := by
  simp only [XR.ofRat_eq]
  push_cast
  rfl

theorem zero_eq : (CFloat.ofRat 0 : XR) = fin 0 := unit_args.1

theorem coshArg_eq (α R : ℝ) : (CFloat.cosh (fin α *. fin R) : XR) = fin (Real.cosh (α * R)) := by
  rw [XR.mul_fin]; rfl

/-- the radius for the random number `y` -/
noncomputable def radiusVal (α y : ℝ) : ℝ := Real.arcosh y * (1 / α)

theorem arcosh_meas : Measurable Real.arcosh := by
  unfold Real.arcosh
  fun_prop

theorem radiusVal_meas (α : ℝ) : Measurable (radiusVal α) := arcosh_meas.mul_const _

theorem radius_eq {α y : ℝ} (hα : 0 < α) (hy : 1 ≤ y) : (CFloat.acosh (fin y) *. (CFloat.ofRat 1 /. fin α) : XR) = fin (radiusVal α y) := by
  rw [XR.acosh_fin _ hy, XR.ofRat_eq, XR.div_fin _ _ hα.ne', XR.mul_fin]
  unfold radiusVal
  norm_num

theorem ge_coshArg {α R : ℝ} (hc : 1 + 1 / 2 ^ 52 < Real.cosh (α * R)) : CFloat.ge (CFloat.cosh (fin α *. fin R) : XR) (oneUp : XR) = true := by
  rw [coshArg_eq, oneUp_eq]
  have h := Or.inl (b := Real.cosh (α * R) = 1 + 1 / 2 ^ 52) hc
  simpa [CFloat.ge, XR.lt_fin] using h

section Steps
variable {eng : Engine XR} {Radii Angles : Bool} {alpha R : XR} {V : Type}

theorem afterIter_step {st : eng.G → V × eng.G} (h : ∀ g, afterIter eng Radii Angles alpha R g = (st g).2) :
    ∀ (k : ℕ) (g : eng.G), (afterIter eng Radii Angles alpha R)^[k] g = stepState st k g
  | 0, _ => rfl
  | k + 1, g => by
    rw [Function.iterate_succ_apply, afterIter_step h k, h g]
    rfl

theorem angles_step {uA : eng.G → ℝ × eng.G} (hA : ∀ g, eng.uniform (fin 0) (fin (2 * Real.pi)) g = (fin (uA g).1, (uA g).2)) (g : eng.G) (k : ℕ) :
    angleAt eng false true alpha R g k = fin (stepVal uA k g) := by
  unfold angleAt
  rw [afterIter_step (st := uA), zero_eq, twoPi_eq, hA]
  · rfl
  · intro g
    unfold afterIter afterAngle
    simp only [Bool.false_eq_true, if_false, if_true]
    rw [zero_eq, twoPi_eq, hA]

theorem radii_step {α ρ : ℝ} (hα : 0 < α) (hr : IntervalEngine eng) (hc : 1 + 1 / 2 ^ 52 < Real.cosh (α * ρ)) {uR : eng.G → ℝ × eng.G}
    (hR : ∀ g, eng.uniform (fin (1 + 1 / 2 ^ 52)) (fin (Real.cosh (α * ρ))) g = (fin (uR g).1, (uR g).2)) (g : eng.G) (k : ℕ) :
    radiusAt eng true false (fin α) (fin ρ) g k = fin (radiusVal α (stepVal uR k g)) := by
  unfold radiusAt
  rw [afterIter_step (st := uR)]
  · unfold afterAngle
    simp only [Bool.false_eq_true, if_false]
    rw [oneUp_eq, coshArg_eq, hR]
    refine radius_eq hα ?_
    have := (stepVal_range hr hc hR k g).1
    unfold stepVal at this
    have : (0 : ℝ) < 1 / 2 ^ 52 := by positivity
    linarith
  · intro g
    unfold afterIter afterAngle
    simp only [Bool.false_eq_true, if_false, if_true]
    rw [oneUp_eq, coshArg_eq, hR]

/-- an angle and a radius -/
def bothStep {G : Type} (uA uR : G → ℝ × G) (g : G) : (ℝ × ℝ) × G := (((uA g).1, (uR (uA g).2).1), (uR (uA g).2).2)

theorem both_step {α ρ : ℝ} (hα : 0 < α) (hr : IntervalEngine eng) (hc : 1 + 1 / 2 ^ 52 < Real.cosh (α * ρ)) {uA uR : eng.G → ℝ × eng.G}
    (hA : ∀ g, eng.uniform (fin 0) (fin (2 * Real.pi)) g = (fin (uA g).1, (uA g).2))
    (hR : ∀ g, eng.uniform (fin (1 + 1 / 2 ^ 52)) (fin (Real.cosh (α * ρ))) g = (fin (uR g).1, (uR g).2)) (g : eng.G) (k : ℕ) :
    angleAt eng true true (fin α) (fin ρ) g k = fin (stepVal (bothStep uA uR) k g).1 ∧
    radiusAt eng true true (fin α) (fin ρ) g k = fin (radiusVal α (stepVal (bothStep uA uR) k g).2) := by
  have h : ∀ g, afterIter eng true true (fin α) (fin ρ) g = (bothStep uA uR g).2 := by
    intro g
    unfold afterIter afterAngle
    simp only [if_true]
    rw [zero_eq, twoPi_eq, hA, oneUp_eq, coshArg_eq, hR]
    rfl
  constructor
  · unfold angleAt
    rw [afterIter_step h, zero_eq, twoPi_eq, hA]
    rfl
  · unfold radiusAt
    rw [afterIter_step h]
    unfold afterAngle
    simp only [if_true]
    rw [zero_eq, twoPi_eq, hA, oneUp_eq, coshArg_eq, hR]
    refine radius_eq hα ?_
    have := (stepVal_range hr hc hR 0 (uA (stepState (bothStep uA uR) k g)).2).1
    have e : stepVal uR 0 (uA (stepState (bothStep uA uR) k g)).2 = (uR (uA (stepState (bothStep uA uR) k g)).2).1 := rfl
    rw [e] at this
    have : (0 : ℝ) < 1 / 2 ^ 52 := by positivity
    linarith

end Steps

theorem bothStep_meas {G : Type} [MeasurableSpace G] {uA uR : G → ℝ × G} (hA : Measurable uA) (hR : Measurable uR) : Measurable (bothStep uA uR) := by
  unfold bothStep
  fun_prop

theorem bothStep_law {G : Type} [MeasurableSpace G] {uA uR : G → ℝ × G} (hA : Measurable uA) (hR : Measurable uR) {μ : Measure G} [IsProbabilityMeasure μ]
    {νA νR : Measure ℝ} [IsProbabilityMeasure νA] [IsProbabilityMeasure νR] (mA : μ.map uA = νA.prod μ) (mR : μ.map uR = νR.prod μ) :
    μ.map (bothStep uA uR) = (νA.prod νR).prod μ := by
  have e : bothStep uA uR = MeasurableEquiv.prodAssoc.symm ∘ Prod.map id uR ∘ uA := rfl
  rw [e, ← Measure.map_map (MeasurableEquiv.measurable _) ((measurable_id.prodMap hR).comp hA), ← Measure.map_map (measurable_id.prodMap hR) hA, mA]
  rw [← Measure.map_prod_map _ _ measurable_id hR, Measure.map_id, mR]
  exact (measurePreserving_prodAssoc νA νR μ).symm.map_eq

/-- the warm-up keeps the states independent -/
theorem warm_states {Ω ι : Type} [MeasurableSpace Ω] {P : Measure Ω} {eng : Engine XR} [MeasurableSpace eng.G] {μ : Measure eng.G}
    (he : IdealEngine eng μ) {x : ι → Ω → eng.G} (hx : IndependentStates P μ x) (n threads : ℕ) :
    IndependentStates P μ fun i ω => warmUp eng n threads (x i ω) := by
  have hm : MeasurePreserving (warmUp eng n threads) μ μ := he.next.iterate _
  refine ⟨fun i => hm.measurable.comp (hx.meas i), fun i => ?_, hx.indep.comp (fun _ => warmUp eng n threads) fun _ => hm.measurable⟩
  have := Measure.map_map (μ := P) hm.measurable (hx.meas i)
  rw [hx.law i, hm.map_eq] at this
  exact this.symm

theorem radiusVal_law {α R r : ℝ} (hα : 0 < α) (hc : 1 + 1 / 2 ^ 52 < Real.cosh (α * R)) (h0 : 0 ≤ r) (h1 : r ≤ R) :
    uniformLaw (1 + 1 / 2 ^ 52) (Real.cosh (α * R)) (radiusVal α ⁻¹' Set.Iic r) =
      ENNReal.ofReal ((Real.cosh (α * r) - (1 + 1 / 2 ^ 52)) / (Real.cosh (α * R) - (1 + 1 / 2 ^ 52))) := by
  set c : ℝ := 1 + 1 / 2 ^ 52 with hcd
  have hc1 : 1 < c := by
    rw [hcd]
    norm_num
  clear_value c
  have hrR : Real.cosh (α * r) ≤ Real.cosh (α * R) := by
    rw [Real.cosh_le_cosh, abs_of_nonneg (by positivity), abs_of_nonneg (by have := h0.trans h1; positivity)]
    exact mul_le_mul_of_nonneg_left h1 hα.le
  unfold uniformLaw
  rw [Measure.smul_apply, Measure.restrict_apply (radiusVal_meas α measurableSet_Iic), smul_eq_mul]
  have e : radiusVal α ⁻¹' Set.Iic r ∩ Set.Ico c (Real.cosh (α * R)) = Set.Ico c (Real.cosh (α * R)) ∩ Set.Iic (Real.cosh (α * r)) := by
    ext y
    simp only [Set.mem_inter_iff, Set.mem_preimage, Set.mem_Iic]
    rw [and_comm]
    refine and_congr_right fun hy => ?_
    unfold radiusVal
    rw [mul_one_div, div_le_iff₀ hα, mul_comm r α]
    have hy1 : 1 ≤ y := by linarith [hy.1]
    constructor
    · intro h
      calc y = Real.cosh (Real.arcosh y) := (Real.cosh_arcosh hy1).symm
        _ ≤ Real.cosh (α * r) := by
          rw [Real.cosh_le_cosh, abs_of_nonneg (Real.arcosh_nonneg hy1), abs_of_nonneg (by positivity)]
          exact h
    · intro h
      rw [← Real.arcosh_cosh (by positivity : 0 ≤ α * r)]
      exact (Real.arcosh_le_arcosh (by linarith) (by linarith [Real.one_le_cosh (α * r)])).2 h
  have hv : volume (Set.Ico c (Real.cosh (α * R)) ∩ Set.Iic (Real.cosh (α * r))) = ENNReal.ofReal (Real.cosh (α * r) - c) := by
    refine le_antisymm ((measure_mono (t := Set.Icc c (Real.cosh (α * r))) fun y hy => ⟨hy.1.1, hy.2⟩).trans ?_)
      (le_trans ?_ (measure_mono (s := Set.Ico c (Real.cosh (α * r))) fun y hy => ⟨⟨hy.1, hy.2.trans_le hrR⟩, hy.2.le⟩))
    · rw [Real.volume_Icc]
    · rw [Real.volume_Ico]
  rw [e, hv, ENNReal.ofReal_div_of_pos (by linarith), ENNReal.div_eq_inv_mul]

section Polar
variable {Ω : Type} [MeasurableSpace Ω] {P : Measure Ω} {omp : Omp} {eng : Engine XR} [MeasurableSpace eng.G] {μ : Measure eng.G}
  {σ : ℤ → Ω → eng.G} {device : ℕ → Ω → eng.G} {n : ℕ} {seed : ℤ} {parallel : Bool} {threads : ℕ}

theorem threads_pos (hn : 1 ≤ n) (ht : hyperThreads omp n parallel = some threads) : 1 ≤ threads := by
  unfold hyperThreads at ht
  have := omp.max_pos
  split at ht
  · split at ht
    · rw [Option.some.injEq] at ht
      omega
    · cases ht
  · rw [Option.some.injEq] at ht
    omega

theorem list_ofFn_of {n : ℕ} {l : List XR} (hl : l.length = n) {f : Fin n → ℝ} (h : ∀ i : Fin n, l[i.1]? = some (fin (f i))) : l = List.ofFn fun i => fin (f i) := by
  refine List.ext_getElem? fun i => ?_
  by_cases hi : i < n
  · rw [h ⟨i, hi⟩, List.getElem?_ofFn, dif_pos hi]
  · rw [List.getElem?_eq_none (by omega), List.getElem?_eq_none (by simp; omega)]

/-- the radii as functions of the random numbers -/
theorem radii_out {α R : ℝ} (hα : 0 < α) (hr : IntervalEngine eng) (hc : 1 + 1 / 2 ^ 52 < Real.cosh (α * R)) {uR : eng.G → ℝ × eng.G}
    (hR : ∀ g, eng.uniform (fin (1 + 1 / 2 ^ 52)) (fin (Real.cosh (α * R))) g = (fin (uR g).1, (uR g).2))
    (hn : 1 ≤ n) (ht : hyperThreads omp n parallel = some threads) {idx : Fin n → ℕ × ℕ}
    (hidx : ∀ i, (idx i).1 < threads ∧ ∃ chunk, (omp.chunks threads n)[(idx i).1]? = some chunk ∧ chunk[(idx i).2]? = some i.1) {x : ℕ → Ω → eng.G}
    (hx : ∀ ω, seedGens threads (fun s => σ s ω) (fun k => device k ω) seed = some fun k => x k ω) (ω : Ω) (o : List XR) :
    SampleRadii omp (withSeeds eng fun s => σ s ω) (fun k => device k ω) n (fin α) (fin R) seed parallel o ↔
      o = List.ofFn fun i => fin (radiusVal α (stepVal uR (idx i).2 (warmUp eng n threads (x (idx i).1 ω)))) := by
  have ht1 := threads_pos hn ht
  obtain ⟨radii, angles, h1, h2, h3, h4⟩ := sampleHelper_iff (withSeeds eng fun s => σ s ω) true false (fin α) (fin R) omp (fun k => device k ω) n seed
    parallel ht (by omega) (ge_coshArg hc) (hx ω)
  have e : radii = List.ofFn fun i => fin (radiusVal α (stepVal uR (idx i).2 (warmUp eng n threads (x (idx i).1 ω)))) := by
    refine list_ofFn_of h2 fun i => ?_
    obtain ⟨_, chunk, c1, c2⟩ := hidx i
    rw [(h4 _ chunk _ _ c1 c2).1 rfl, radii_step (eng := withSeeds eng fun s => σ s ω) (uR := uR) hα hr hc hR]
    rfl
  rw [← e]
  constructor
  · rintro ⟨a, ha⟩
    exact congrArg Prod.fst ((h1 _).1 ha)
  · rintro rfl
    exact ⟨angles, (h1 _).2 rfl⟩

/-- the angles as functions of the random numbers -/
theorem angles_out {uA : eng.G → ℝ × eng.G} (hA : ∀ g, eng.uniform (fin 0) (fin (2 * Real.pi)) g = (fin (uA g).1, (uA g).2))
    (hn : 1 ≤ n) (ht : hyperThreads omp n parallel = some threads) {idx : Fin n → ℕ × ℕ}
    (hidx : ∀ i, (idx i).1 < threads ∧ ∃ chunk, (omp.chunks threads n)[(idx i).1]? = some chunk ∧ chunk[(idx i).2]? = some i.1) {x : ℕ → Ω → eng.G}
    (hx : ∀ ω, seedGens threads (fun s => σ s ω) (fun k => device k ω) seed = some fun k => x k ω) (ω : Ω) (o : List XR) :
    SampleAngles omp (withSeeds eng fun s => σ s ω) (fun k => device k ω) n seed parallel o ↔
      o = List.ofFn fun i => fin (stepVal uA (idx i).2 (warmUp eng n threads (x (idx i).1 ω))) := by
  have ht1 := threads_pos hn ht
  have hge : CFloat.ge (CFloat.cosh (CFloat.ofRat 1 *. CFloat.ofRat 10) : XR) (oneUp : XR) = true := by
    have e1 : (CFloat.ofRat 1 : XR) = fin 1 := unit_args.2
    have e2 : (CFloat.ofRat 10 : XR) = fin 10 := by rw [XR.ofRat_eq]; push_cast; rfl
    rw [e1, e2]
    refine ge_coshArg ?_
    have := Real.cosh_eq (1 * 10)
    have h1 := Real.add_one_le_exp (1 * 10 : ℝ)
    have h2 := Real.exp_pos (-(1 * 10) : ℝ)
    have h3 : (1 : ℝ) + 1 / 2 ^ 52 < 5 := by norm_num
    refine h3.trans ?_
    rw [this]
    generalize Real.exp (1 * 10) = E at h1 ⊢
    generalize Real.exp (-(1 * 10)) = E' at h2 ⊢
    linarith
  obtain ⟨radii, angles, h1, h2, h3, h4⟩ := sampleHelper_iff (withSeeds eng fun s => σ s ω) false true (CFloat.ofRat 1) (CFloat.ofRat 10) omp
    (fun k => device k ω) n seed parallel ht (by omega) hge (hx ω)
  have e : angles = List.ofFn fun i => fin (stepVal uA (idx i).2 (warmUp eng n threads (x (idx i).1 ω))) := by
    refine list_ofFn_of h3 fun i => ?_
    obtain ⟨_, chunk, c1, c2⟩ := hidx i
    rw [(h4 _ chunk _ _ c1 c2).2 rfl, angles_step (eng := withSeeds eng fun s => σ s ω) (uA := uA) hA]
    rfl
  rw [← e]
  constructor
  · rintro ⟨a, ha⟩
    exact congrArg Prod.snd ((h1 _).1 ha)
  · rintro rfl
    exact ⟨radii, (h1 _).2 rfl⟩

/-- C92.  `sampleRadii` for `n ≥ 1` nodes, if the engines are ideal and the threads' engines start in independent states: whatever the number of threads and
the schedule, the result is one vector, and its entries are independent random numbers of `(0,R)`, at most `r` with probability
`(cosh(αr) - 1 - 2^-52) / (cosh(αR) - 1 - 2^-52)` (0 if negative): the radial distribution of hyperbolic random graphs, cut below the smallest
double above 1. -/
theorem C92_radii (he : IdealEngine eng μ) (hn : 1 ≤ n) {α R : ℝ} (hα : 0 < α) (hR : 0 < R) (hc : 1 + 1 / 2 ^ 52 < Real.cosh (α * R))
    (ht : hyperThreads omp n parallel = some threads)
    (hs : (0 ≤ seed ∧ seed + threads ≤ 2147483648 ∧ IndependentStates P μ σ) ∨ (seed < 0 ∧ IndependentStates P μ device)) :
    ∃ ρ : Fin n → Ω → ℝ,
      (∀ ω o, SampleRadii omp (withSeeds eng fun s => σ s ω) (fun k => device k ω) n (fin α) (fin R) seed parallel o ↔ o = List.ofFn fun i => fin (ρ i ω)) ∧
      iIndepFun ρ P ∧ (∀ i, Measurable (ρ i)) ∧ (∀ i ω, 0 < ρ i ω ∧ ρ i ω < R) ∧
      ∀ i (r : ℝ), 0 ≤ r → r ≤ R → P {ω | ρ i ω ≤ r} =
        ENNReal.ofReal ((Real.cosh (α * r) - (1 + 1 / 2 ^ 52)) / (Real.cosh (α * R) - (1 + 1 / 2 ^ 52))) := by
  have := he.prob
  have := uniformLaw_prob hc
  obtain ⟨u, hu, hue, hum⟩ := he.uniform _ _ hc
  obtain ⟨x, hx, hg⟩ := thread_states hs
  obtain ⟨idx, hinj, hidx⟩ := owners omp (threads_pos hn ht) n
  have hx' := warm_states he hx n threads
  obtain ⟨hi, hl⟩ := states_indep hx' hu hum
  have hout := radii_out hα he.range hc hue hn ht hidx hg
  have hm : ∀ i, Measurable fun ω => stepVal u (idx i).2 (warmUp eng n threads (x (idx i).1 ω)) := fun i => (stepVal_meas hu _).comp (hx'.meas _)
  refine ⟨fun i ω => radiusVal α (stepVal u (idx i).2 (warmUp eng n threads (x (idx i).1 ω))), hout, ?_, fun i => (radiusVal_meas α).comp (hm i), ?_, ?_⟩
  · exact (hi.precomp hinj).comp (fun _ => radiusVal α) fun _ => radiusVal_meas α
  · intro i ω
    have hr := ((C50_range (eng := withSeeds eng fun s => σ s ω) he.range hα hR hc).1 _ ((hout ω _).2 rfl)).2
    obtain ⟨v, hv, h1, h2⟩ := hr (fin (radiusVal α (stepVal u (idx i).2 (warmUp eng n threads (x (idx i).1 ω))))) (by rw [List.mem_ofFn]; exact ⟨i, rfl⟩)
    dsimp only
    rw [XR.fin.inj hv]
    exact ⟨h1, h2⟩
  · intro i r h0 h1
    rw [← radiusVal_law hα hc h0 h1, ← hl (idx i), Measure.map_apply (hm i) (radiusVal_meas α measurableSet_Iic)]
    rfl

/-- C92.  `sampleAngles` for `n ≥ 1` nodes, if the engines are ideal and the threads' engines start in independent states: whatever the number of threads and
the schedule, the result is one vector, and its entries are independent and uniformly distributed in `[0, 2π)`. -/
theorem C92_angles (he : IdealEngine eng μ) (hn : 1 ≤ n) (ht : hyperThreads omp n parallel = some threads)
    (hs : (0 ≤ seed ∧ seed + threads ≤ 2147483648 ∧ IndependentStates P μ σ) ∨ (seed < 0 ∧ IndependentStates P μ device)) :
    ∃ φ : Fin n → Ω → ℝ,
      (∀ ω o, SampleAngles omp (withSeeds eng fun s => σ s ω) (fun k => device k ω) n seed parallel o ↔ o = List.ofFn fun i => fin (φ i ω)) ∧
      iIndepFun φ P ∧ (∀ i, Measurable (φ i)) ∧ ∀ i, P.map (φ i) = uniformLaw 0 (2 * Real.pi) := by
  have := he.prob
  have := uniformLaw_prob Real.two_pi_pos
  obtain ⟨u, hu, hue, hum⟩ := he.uniform _ _ Real.two_pi_pos
  obtain ⟨x, hx, hg⟩ := thread_states hs
  obtain ⟨idx, hinj, hidx⟩ := owners omp (threads_pos hn ht) n
  have hx' := warm_states he hx n threads
  obtain ⟨hi, hl⟩ := states_indep hx' hu hum
  exact ⟨fun i ω => stepVal u (idx i).2 (warmUp eng n threads (x (idx i).1 ω)), angles_out hue hn ht hidx hg, hi.precomp hinj,
    fun i => (stepVal_meas hu _).comp (hx'.meas _), fun i => hl (idx i)⟩

/-- C92.  `sampleRadii` with seed `rseed` and `sampleAngles` with seed `aseed` (the calls of `genhrg`): if the ranges of seeds of the two calls,
`[seed, seed + threads)`, do not overlap, the radii are independent of the angles. -/
theorem C92_polar (he : IdealEngine eng μ) (hσ : IndependentStates P μ σ) (hn : 1 ≤ n) {α R : ℝ} (hα : 0 < α)
    (hc : 1 + 1 / 2 ^ 52 < Real.cosh (α * R)) {rseed aseed : ℤ} {rpar apar : Bool} {rt at' : ℕ}
    (hrt : hyperThreads omp n rpar = some rt) (hat : hyperThreads omp n apar = some at')
    (hr : 0 ≤ rseed ∧ rseed + rt ≤ 2147483648) (ha : 0 ≤ aseed ∧ aseed + at' ≤ 2147483648)
    (hd : rseed + rt ≤ aseed ∨ aseed + at' ≤ rseed) {ρ φ : Ω → Fin n → ℝ}
    (hρ : ∀ ω, SampleRadii omp (withSeeds eng fun s => σ s ω) (fun k => device k ω) n (fin α) (fin R) rseed rpar (List.ofFn fun i => fin (ρ ω i)))
    (hφ : ∀ ω, SampleAngles omp (withSeeds eng fun s => σ s ω) (fun k => device k ω) n aseed apar (List.ofFn fun i => fin (φ ω i))) :
    IndepFun ρ φ P := by
  obtain ⟨uR, hu, hue, hum⟩ := he.uniform _ _ hc
  obtain ⟨uA, hv, hve, hvm⟩ := he.uniform _ _ Real.two_pi_pos
  have sg : ∀ {seed : ℤ} {t : ℕ}, 0 ≤ seed ∧ seed + t ≤ 2147483648 → ∀ ω, seedGens t (fun s => σ s ω) (fun k => device k ω) seed =
      some fun k : ℕ => σ (seed + k) ω := by
    intro seed t h ω
    unfold seedGens
    rw [if_pos h.1, if_pos h.2]
  obtain ⟨ir, _, hir⟩ := owners omp (threads_pos hn hrt) n
  obtain ⟨ia, _, hia⟩ := owners omp (threads_pos hn hat) n
  have e1 : ∀ ω i, ρ ω i = radiusVal α (stepVal uR (ir i).2 (warmUp eng n rt (σ (rseed + (ir i).1) ω))) := by
    intro ω i
    have := (radii_out (x := fun k : ℕ => σ (rseed + k)) hα he.range hc hue hn hrt hir (sg hr) ω _).1 (hρ ω)
    exact XR.fin.inj (congrFun (List.ofFn_injective this) i)
  have e2 : ∀ ω i, φ ω i = stepVal uA (ia i).2 (warmUp eng n at' (σ (aseed + (ia i).1) ω)) := by
    intro ω i
    have := (angles_out (x := fun k : ℕ => σ (aseed + k)) hve hn hat hia (sg ha) ω _).1 (hφ ω)
    exact XR.fin.inj (congrFun (List.ofFn_injective this) i)
  classical
  set S : Finset ℤ := Finset.univ.image fun i : Fin n => rseed + ((ir i).1 : ℤ) with hS
  set T : Finset ℤ := Finset.univ.image fun i : Fin n => aseed + ((ia i).1 : ℤ) with hT
  have hST : Disjoint S T := by
    rw [Finset.disjoint_left]
    rintro a ha' hb
    obtain ⟨i, _, rfl⟩ := Finset.mem_image.1 ha'
    obtain ⟨j, _, hj⟩ := Finset.mem_image.1 hb
    have h1 := (hir i).1
    have h2 := (hia j).1
    rcases hd with hd | hd <;> omega
  have hmS : ∀ i, rseed + ((ir i).1 : ℤ) ∈ S := fun i => Finset.mem_image.2 ⟨i, Finset.mem_univ _, rfl⟩
  have hmT : ∀ i, aseed + ((ia i).1 : ℤ) ∈ T := fun i => Finset.mem_image.2 ⟨i, Finset.mem_univ _, rfl⟩
  have hwm : ∀ t, Measurable (warmUp eng n t) := fun t => (he.next.iterate _).measurable
  have key := hσ.indep.indepFun_finset S T hST hσ.meas
  have := key.comp (φ := fun (z : S → eng.G) (i : Fin n) => radiusVal α (stepVal uR (ir i).2 (warmUp eng n rt (z ⟨_, hmS i⟩))))
    (ψ := fun (z : T → eng.G) (i : Fin n) => stepVal uA (ia i).2 (warmUp eng n at' (z ⟨_, hmT i⟩)))
    (measurable_pi_lambda _ fun i => (radiusVal_meas α).comp ((stepVal_meas hu _).comp ((hwm _).comp (measurable_pi_apply (⟨_, hmS i⟩ : S)))))
    (measurable_pi_lambda _ fun i => (stepVal_meas hv _).comp ((hwm _).comp (measurable_pi_apply (⟨_, hmT i⟩ : T))))
  convert this using 1
  · funext ω i
    rw [e1]
    rfl
  · funext ω i
    rw [e2]
    rfl

/-- C92.  `sampleRadiiAndAngles` for `n ≥ 1` nodes, if the engines are ideal and the threads' engines start in independent states: whatever the number of
threads and the schedule, the result is one pair of vectors; the `n` points are independent, and each point has an angle that is uniformly distributed in
`[0, 2π)` and independent of the radius, which is distributed as in `C92_radii`. -/
theorem C92_points (he : IdealEngine eng μ) (hn : 1 ≤ n) {α R : ℝ} (hα : 0 < α) (hc : 1 + 1 / 2 ^ 52 < Real.cosh (α * R))
    (ht : hyperThreads omp n parallel = some threads)
    (hs : (0 ≤ seed ∧ seed + threads ≤ 2147483648 ∧ IndependentStates P μ σ) ∨ (seed < 0 ∧ IndependentStates P μ device)) :
    ∃ ρ φ : Fin n → Ω → ℝ,
      (∀ ω r a, SampleRadiiAndAngles omp (withSeeds eng fun s => σ s ω) (fun k => device k ω) n (fin α) (fin R) seed parallel r a ↔
        r = (List.ofFn fun i => fin (ρ i ω)) ∧ a = List.ofFn fun i => fin (φ i ω)) ∧
      iIndepFun (fun i ω => (ρ i ω, φ i ω)) P ∧ (∀ i, Measurable (ρ i)) ∧ (∀ i, Measurable (φ i)) ∧ (∀ i, IndepFun (ρ i) (φ i) P) ∧
      (∀ i (r : ℝ), 0 ≤ r → r ≤ R → P {ω | ρ i ω ≤ r} =
        ENNReal.ofReal ((Real.cosh (α * r) - (1 + 1 / 2 ^ 52)) / (Real.cosh (α * R) - (1 + 1 / 2 ^ 52)))) ∧
      ∀ i, P.map (φ i) = uniformLaw 0 (2 * Real.pi) := by
  have := he.prob
  have := uniformLaw_prob hc
  have := uniformLaw_prob Real.two_pi_pos
  obtain ⟨uR, hu, hue, hum⟩ := he.uniform _ _ hc
  obtain ⟨uA, hv, hve, hvm⟩ := he.uniform _ _ Real.two_pi_pos
  obtain ⟨x, hx, hg⟩ := thread_states hs
  have ht1 := threads_pos hn ht
  obtain ⟨idx, hinj, hidx⟩ := owners omp ht1 n
  have hx' := warm_states he hx n threads
  have hbm := bothStep_meas hv hu
  obtain ⟨hi, hl⟩ := states_indep hx' hbm (bothStep_law hv hu hvm hum)
  set Y : Fin n → Ω → ℝ × ℝ := fun i ω => stepVal (bothStep uA uR) (idx i).2 (warmUp eng n threads (x (idx i).1 ω)) with hY
  have hYi : iIndepFun Y P := hi.precomp hinj
  have hYl : ∀ i, P.map (Y i) = (uniformLaw 0 (2 * Real.pi)).prod (uniformLaw (1 + 1 / 2 ^ 52) (Real.cosh (α * R))) := fun i => hl (idx i)
  have hYm : ∀ i, Measurable (Y i) := fun i => (stepVal_meas hbm _).comp (hx'.meas _)
  have hP : IsProbabilityMeasure P := hYi.isProbabilityMeasure
  have hf : ∀ i, P.map (fun ω => (Y i ω).1) = uniformLaw 0 (2 * Real.pi) := by
    intro i
    have h1 := Measure.map_map (μ := P) measurable_fst (hYm i)
    rw [hYl i, Measure.map_fst_prod, measure_univ, one_smul] at h1
    exact h1.symm
  have hsn : ∀ i, P.map (fun ω => (Y i ω).2) = uniformLaw (1 + 1 / 2 ^ 52) (Real.cosh (α * R)) := by
    intro i
    have h1 := Measure.map_map (μ := P) measurable_snd (hYm i)
    rw [hYl i, Measure.map_snd_prod, measure_univ, one_smul] at h1
    exact h1.symm
  refine ⟨fun i ω => radiusVal α (Y i ω).2, fun i ω => (Y i ω).1, ?_, ?_, fun i => (radiusVal_meas α).comp (measurable_snd.comp (hYm i)),
    fun i => measurable_fst.comp (hYm i), ?_, ?_, hf⟩
  · intro ω r a
    obtain ⟨radii, angles, h1, h2, h3, h4⟩ := sampleHelper_iff (withSeeds eng fun s => σ s ω) true true (fin α) (fin R) omp (fun k => device k ω) n seed
      parallel ht (by omega) (ge_coshArg hc) (hg ω)
    have q : ∀ i : Fin n, radii[i.1]? = some (fin (radiusVal α (Y i ω).2)) ∧ angles[i.1]? = some (fin (Y i ω).1) := by
      intro i
      obtain ⟨_, chunk, c1, c2⟩ := hidx i
      obtain ⟨b1, b2⟩ := both_step (eng := withSeeds eng fun s => σ s ω) (uA := uA) (uR := uR) hα he.range hc hve hue
        (warmUp eng n threads (x (idx i).1 ω)) (idx i).2
      constructor
      · rw [(h4 _ chunk _ _ c1 c2).1 rfl]
        exact congrArg some b2
      · rw [(h4 _ chunk _ _ c1 c2).2 rfl]
        exact congrArg some b1
    have q1 := list_ofFn_of (n := n) h2 fun i => (q i).1
    have q2 := list_ofFn_of (n := n) h3 fun i => (q i).2
    unfold SampleRadiiAndAngles
    rw [h1, Prod.mk.injEq]
    dsimp only
    rw [← q1, ← q2]
  · exact hYi.comp (fun _ p => (radiusVal α p.2, p.1)) fun _ => ((radiusVal_meas α).comp measurable_snd).prodMk measurable_fst
  · intro i
    have h1 : IndepFun (fun ω => (Y i ω).1) (fun ω => (Y i ω).2) P := by
      have m1 : Measurable fun ω => (Y i ω).1 := measurable_fst.comp (hYm i)
      have m2 : Measurable fun ω => (Y i ω).2 := measurable_snd.comp (hYm i)
      rw [indepFun_iff_map_prod_eq_prod_map_map m1.aemeasurable m2.aemeasurable, hf i, hsn i]
      exact hYl i
    exact (h1.symm.comp (φ := radiusVal α) (ψ := id) (radiusVal_meas α) measurable_id)
  · intro i r h0 h1
    have h2 : Measurable fun ω => (Y i ω).2 := measurable_snd.comp (hYm i)
    rw [← radiusVal_law hα hc h0 h1, ← hsn i, Measure.map_apply h2 (radiusVal_meas α measurableSet_Iic)]
    rfl

end Polar

/-! ### the hypotheses can be met -/

/-- an engine whose state is a sequence of numbers, of which every draw consumes one -/
noncomputable def streamEngine : Engine XR where
  G := ℕ → ℝ
  seed _ := fun _ => 0
  next g := (seqSplit g).2
  uniform a b g := (match a, b with
    | XR.fin a, XR.fin b => fin (a + (b - a) * Int.fract (g 0))
    | a, _ => a, (seqSplit g).2)

noncomputable instance : MeasurableSpace streamEngine.G := inferInstanceAs (MeasurableSpace (ℕ → ℝ))

theorem map_affine {a b : ℝ} (h : a < b) : U01.map (fun u => a + (b - a) * Int.fract u) = uniformLaw a b := by
  have e : (fun u : ℝ => a + (b - a) * Int.fract u) = (fun v => a + v) ∘ (fun u => (b - a) * u) ∘ Int.fract := rfl
  have m1 : Measurable fun u : ℝ => (b - a) * u := by fun_prop
  have m2 : Measurable fun u : ℝ => a + u := by fun_prop
  rw [e, ← Measure.map_map m2 (m1.comp measurable_fract), ← Measure.map_map m1 measurable_fract, map_fract, map_scale (by linarith)]
  unfold uniformLaw
  rw [Measure.map_smul]
  congr 1
  have := ((measurePreserving_add_left (volume : Measure ℝ) a).restrict_preimage (s := Set.Ico a b) measurableSet_Ico).map_eq
  rw [← this]
  congr 2
  simp

theorem streamEngine_ideal : IdealEngine streamEngine seqMeasure where
  prob := inferInstanceAs (IsProbabilityMeasure seqMeasure)
  next := by
    refine ⟨measurable_snd.comp measurable_seqSplit, ?_⟩
    have h := Measure.map_map (μ := seqMeasure) measurable_snd measurable_seqSplit
    rw [map_seqSplit, Measure.map_snd_prod, measure_univ, one_smul] at h
    exact h.symm
  range := by
    intro a b g h
    refine ⟨a + (b - a) * Int.fract (g 0), rfl, ?_, ?_⟩
    · nlinarith [Int.fract_nonneg (g 0)]
    · nlinarith [Int.fract_lt_one (g 0)]
  uniform := by
    intro a b h
    have m : Measurable fun u : ℝ => a + (b - a) * Int.fract u := measurable_const.add (measurable_fract.const_mul _)
    refine ⟨fun g => (a + (b - a) * Int.fract (g 0), (seqSplit g).2), ?_, fun g => rfl, ?_⟩
    · exact (m.comp (measurable_pi_apply 0)).prodMk (measurable_snd.comp measurable_seqSplit)
    · rw [← map_affine h]
      exact map_draw m

/-- independent states for all seeds: independent sequences -/
theorem streamStates : IndependentStates (Measure.infinitePi fun _ : ℤ => seqMeasure) seqMeasure fun (s : ℤ) (ω : ℤ → ℕ → ℝ) => ω s where
  meas s := measurable_pi_apply s
  law s := (measurePreserving_eval_infinitePi (fun _ : ℤ => seqMeasure) s).map_eq
  indep := iIndepFun_infinitePi (P := fun _ : ℤ => seqMeasure) (X := fun _ g => g) fun _ => measurable_id

/-- the hypotheses of `C92_nodes` and `C92_points` are met by the streams, with the default seeds of the command line tools and one thread -/
example : ∃ (W : Fin 10 → (ℤ → ℕ → ℝ) → ℝ) (X : (ℤ → ℕ → ℝ) → Fin 10 → Fin 2 → ℝ),
    (∀ ω, GenerateWeights exampleOmp (withSeeds streamEngine fun s => ω s) (fun _ => (fun _ => 0)) 10 (fin 2.5) 12 false (List.ofFn fun i => fin (W i ω))) ∧
    (∀ ω, GeneratePositions exampleOmp (withSeeds streamEngine fun s => ω s) (fun _ => (fun _ => 0)) 10 2 130 true
      (List.ofFn fun i => List.ofFn fun d => fin (X ω i d))) ∧
    IndepFun (fun ω i => W i ω) X (Measure.infinitePi fun _ : ℤ => seqMeasure) := by
  obtain ⟨W, X, h1, h2, _, _, _, h6⟩ := C92_nodes (D := 2) (omp := exampleOmp) (device := fun _ _ => (fun _ => 0 : ℕ → ℝ)) (n := 10) (wseed := 12) (pseed := 130)
    (wpar := false) (ppar := true) streamEngine_ideal streamStates (by norm_num) (ple := 2.5) (by norm_num)
    ⟨by norm_num, by decide⟩ ⟨by norm_num, by decide⟩ (Or.inl (by decide))
  exact ⟨W, X, fun ω => (h1 ω _).2 rfl, fun ω => (h2 ω _).2 rfl, h6⟩

end Girgs.Props
