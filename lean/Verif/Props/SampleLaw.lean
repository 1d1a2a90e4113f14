import Verif.Proofs.NodeLaw
import Verif.Spec.Scaling
import Verif.Props.Samplers
/-
C92: the sampled node data of independently seeded threads are independent, with the documented distributions.
-/
namespace Girgs.Props
open CFloat Spec MeasureTheory ProbabilityTheory
open XR (fin)

/-! ### indices of the random numbers -/

theorem owners (omp : Omp) {t : ℕ} (ht : 1 ≤ t) (N : ℕ) :
    ∃ idx : Fin N → ℕ × ℕ, Function.Injective idx ∧
      ∀ i, (idx i).1 < t ∧ ∃ chunk, (omp.chunks t N)[(idx i).1]? = some chunk ∧ chunk[(idx i).2]? = some i.1 := by
  have h : ∀ i : Fin N, ∃ p : ℕ × ℕ, ∃ chunk, (omp.chunks t N)[p.1]? = some chunk ∧ chunk[p.2]? = some i.1 := by
    intro i
    obtain ⟨k, chunk, j, h1, h2⟩ := owner (omp := omp) ht i.2
    exact ⟨(k, j), chunk, h1, h2⟩
  choose idx chunk h1 h2 using h
  refine ⟨idx, ?_, fun i => ⟨?_, chunk i, h1 i, h2 i⟩⟩
  · intro i j hij
    have a := h1 i
    rw [hij, h1 j, Option.some.injEq] at a
    have b := h2 i
    rw [hij, ← a, h2 j, Option.some.injEq] at b
    exact Fin.ext b.symm
  · have := (List.getElem?_eq_some_iff.1 (h1 i)).1
    rwa [omp.chunks_length t N ht] at this

theorem drawState_step {eng : Engine XR} {u : eng.G → ℝ × eng.G} {a b : XR} (hu : ∀ g, eng.uniform a b g = (fin (u g).1, (u g).2)) :
    ∀ (k : ℕ) (g : eng.G), drawState eng a b g k = stepState u k g
  | 0, _ => rfl
  | k + 1, g => by
    show drawState eng a b (eng.uniform a b g).2 k = stepState u k (u g).2
    rw [hu g, drawState_step hu k]

theorem drawAt_step {eng : Engine XR} {u : eng.G → ℝ × eng.G} {a b : XR} (hu : ∀ g, eng.uniform a b g = (fin (u g).1, (u g).2)) (k : ℕ) (g : eng.G) :
    drawAt eng a b g k = fin (stepVal u k g) := by
  unfold drawAt stepVal
  rw [drawState_step hu, hu]

theorem stepVal_range {eng : Engine XR} (hr : IntervalEngine eng) {u : eng.G → ℝ × eng.G} {a b : ℝ} (hab : a < b)
    (hu : ∀ g, eng.uniform (fin a) (fin b) g = (fin (u g).1, (u g).2)) (k : ℕ) (g : eng.G) : a ≤ stepVal u k g ∧ stepVal u k g < b := by
  obtain ⟨x, hx, h0, h1⟩ := hr a b (stepState u k g) hab
  rw [hu] at hx
  have := XR.fin.inj hx
  unfold stepVal
  rw [this]
  exact ⟨h0, h1⟩

theorem unit_args : (CFloat.ofRat 0 : XR) = fin 0 ∧ (CFloat.ofRat 1 : XR) = fin 1 := by
  constructor <;> · rw [XR.ofRat_eq]; push_cast; rfl

/-- the weight for the random number `u` -/
noncomputable def weightVal (n : ℕ) (ple u : ℝ) : ℝ := ((((n : ℝ) / 2) ^ (1 - ple) - 1) * u + 1) ^ (1 / (1 - ple))

theorem weightVal_meas (n : ℕ) (ple : ℝ) : Measurable (weightVal n ple) := by
  unfold weightVal
  fun_prop

theorem weightOf_val {n : ℕ} (hn : 2 ≤ n) {ple u : ℝ} (hple : 1 < ple) (h0 : 0 ≤ u) (h1 : u < 1) :
    weightOf n (fin ple) (fin u) = fin (weightVal n ple u) := by
  have a := (weight_base hn hple).1
  have b := (weight_arg hn hple h0 h1).1
  exact weightOf_eq (by omega) hple h0 h1 (by linarith)

section Outputs
variable {Ω : Type} {omp : Omp} {eng : Engine XR} {u : eng.G → ℝ × eng.G} {σ : ℤ → Ω → eng.G} {device : ℕ → Ω → eng.G} {x : ℕ → Ω → eng.G}
  {n dim : ℕ} {seed : ℤ} {parallel : Bool}

/-- the weights as functions of the random numbers -/
theorem weights_out (hr : IntervalEngine eng) (hu : ∀ g, eng.uniform (fin 0) (fin 1) g = (fin (u g).1, (u g).2)) (hn : 2 ≤ n) {ple : ℝ} (hple : 1 < ple)
    {idx : Fin n → ℕ × ℕ}
    (hidx : ∀ i, (idx i).1 < nodeThreads omp n parallel ∧
      ∃ chunk, (omp.chunks (nodeThreads omp n parallel) n)[(idx i).1]? = some chunk ∧ chunk[(idx i).2]? = some i.1)
    (hx : ∀ ω, seedGens (nodeThreads omp n parallel) (fun s => σ s ω) (fun k => device k ω) seed = some fun k => x k ω) (ω : Ω) (o : List XR) :
    GenerateWeights omp (withSeeds eng fun s => σ s ω) (fun k => device k ω) n (fin ple) seed parallel o ↔
      o = List.ofFn fun i => fin (weightVal n ple (stepVal u (idx i).2 (x (idx i).1 ω))) := by
  obtain ⟨out, h1, h2, h3⟩ := generateWeights_iff omp (withSeeds eng fun s => σ s ω) (fun k => device k ω) n (fin ple) seed parallel (hx ω)
  rw [h1 o]
  suffices out = List.ofFn fun i => fin (weightVal n ple (stepVal u (idx i).2 (x (idx i).1 ω))) by rw [this]
  refine List.ext_getElem? fun i => ?_
  by_cases hi : i < n
  · obtain ⟨_, chunk, c1, c2⟩ := hidx ⟨i, hi⟩
    rw [h3 _ chunk _ i c1 c2, List.getElem?_ofFn, dif_pos hi, unit_args.1, unit_args.2]
    rw [drawAt_step (eng := withSeeds eng fun s => σ s ω) (u := u) hu]
    obtain ⟨r1, r2⟩ := stepVal_range hr one_pos hu (idx ⟨i, hi⟩).2 (x (idx ⟨i, hi⟩).1 ω)
    rw [weightOf_val hn hple r1 r2]
  · rw [List.getElem?_eq_none (by omega), List.getElem?_eq_none (by simp; omega)]

/-- the positions as functions of the random numbers -/
theorem positions_out (hu : ∀ g, eng.uniform (fin 0) (fin 1) g = (fin (u g).1, (u g).2))
    {idx : Fin n → ℕ × ℕ}
    (hidx : ∀ i, (idx i).1 < nodeThreads omp n parallel ∧
      ∃ chunk, (omp.chunks (nodeThreads omp n parallel) n)[(idx i).1]? = some chunk ∧ chunk[(idx i).2]? = some i.1)
    (hx : ∀ ω, seedGens (nodeThreads omp n parallel) (fun s => σ s ω) (fun k => device k ω) seed = some fun k => x k ω) (ω : Ω) (o : List (List XR)) :
    GeneratePositions omp (withSeeds eng fun s => σ s ω) (fun k => device k ω) n dim seed parallel o ↔
      o = List.ofFn fun i => List.ofFn fun d : Fin dim => fin (stepVal u ((idx i).2 * dim + d.1) (x (idx i).1 ω)) := by
  obtain ⟨out, h1, h2, h3, h4⟩ := generatePositions_iff omp (withSeeds eng fun s => σ s ω) (fun k => device k ω) n dim seed parallel (hx ω)
  rw [h1 o]
  suffices out = List.ofFn fun i => List.ofFn fun d : Fin dim => fin (stepVal u ((idx i).2 * dim + d.1) (x (idx i).1 ω)) by rw [this]
  refine List.ext_getElem? fun i => ?_
  by_cases hi : i < n
  · obtain ⟨_, chunk, c1, c2⟩ := hidx ⟨i, hi⟩
    have hrow : out[i]? = some (out[i]'(by omega)) := List.getElem?_eq_getElem (by omega)
    rw [hrow, List.getElem?_ofFn, dif_pos hi]
    congr 1
    have hl := h3 _ (List.getElem_mem (by omega : i < out.length))
    refine List.ext_getElem? fun d => ?_
    by_cases hd : d < dim
    · obtain ⟨row, r1, r2⟩ := h4 _ chunk _ i d c1 c2 hd
      rw [hrow, Option.some.injEq] at r1
      rw [r1, r2, List.getElem?_ofFn, dif_pos hd, unit_args.1, unit_args.2, drawAt_step (eng := withSeeds eng fun s => σ s ω) (u := u) hu]
    · rw [List.getElem?_eq_none (by omega), List.getElem?_eq_none (by simp; omega)]
  · rw [List.getElem?_eq_none (by omega), List.getElem?_eq_none (by simp; omega)]

end Outputs

/-- the states of the threads: either seeds that do not overflow, or the random device -/
theorem thread_states {Ω G : Type} [MeasurableSpace Ω] [MeasurableSpace G] {P : Measure Ω} {μ : Measure G} {σ : ℤ → Ω → G} {device : ℕ → Ω → G}
    {seed : ℤ} {threads : ℕ}
    (hs : (0 ≤ seed ∧ seed + threads ≤ 2147483648 ∧ IndependentStates P μ σ) ∨ (seed < 0 ∧ IndependentStates P μ device)) :
    ∃ x : ℕ → Ω → G, IndependentStates P μ x ∧ ∀ ω, seedGens threads (fun s => σ s ω) (fun k => device k ω) seed = some fun k => x k ω := by
  rcases hs with ⟨h0, h1, h⟩ | ⟨h0, h⟩
  · refine ⟨fun k => σ (seed + k), ⟨fun k => h.meas _, fun k => h.law _, ?_⟩, fun ω => ?_⟩
    · exact h.indep.precomp (g := fun k : ℕ => seed + (k : ℤ)) fun a b hab => by simpa using hab
    · unfold seedGens
      rw [if_pos h0, if_pos h1]
  · refine ⟨device, h, fun ω => ?_⟩
    unfold seedGens
    rw [if_neg (by omega)]

theorem weightVal_law {n : ℕ} (hn : 3 ≤ n) {ple : ℝ} (hple : 1 < ple) {y : ℝ} (hy : 1 ≤ y) (hyn : y ≤ n / 2) :
    uniformLaw 0 1 (weightVal n ple ⁻¹' Set.Iic y) = ENNReal.ofReal ((1 - y ^ (1 - ple)) / (1 - ((n : ℝ) / 2) ^ (1 - ple))) := by
  rw [← C26_law hn hple hy hyn, uniformLaw_unit, Measure.restrict_apply (weightVal_meas n ple measurableSet_Iic)]
  have e : weightVal n ple ⁻¹' Set.Iic y ∩ Set.Ico 0 1 =
      {u : ℝ | u ∈ Set.Ico (0 : ℝ) 1 ∧ ∃ v : ℝ, weightOf n (fin ple) (fin u) = fin v ∧ v ≤ y} := by
    ext u
    simp only [Set.mem_inter_iff, Set.mem_preimage, Set.mem_Iic, Set.mem_setOf_eq]
    constructor
    · rintro ⟨h, hu⟩
      exact ⟨hu, _, weightOf_val (by omega) hple hu.1 hu.2, h⟩
    · rintro ⟨hu, v, hv, hvy⟩
      rw [weightOf_val (by omega) hple hu.1 hu.2] at hv
      exact ⟨by rw [XR.fin.inj hv]; exact hvy, hu⟩
  rw [e, ENNReal.ofReal_toReal]
  refine ((measure_mono (t := Set.Ico (0 : ℝ) 1) fun u hu => hu.1).trans_lt ?_).ne
  simp

/-! ### C92: weights and positions -/

section GirgNodes
variable {Ω : Type} [MeasurableSpace Ω] {P : Measure Ω} {omp : Omp} {eng : Engine XR} [MeasurableSpace eng.G] {μ : Measure eng.G}
  {σ : ℤ → Ω → eng.G} {device : ℕ → Ω → eng.G} {n : ℕ} {seed : ℤ} {parallel : Bool}

/-- C92.  `generateWeights` for `n ≥ 3` nodes, if the engines are ideal and the threads' engines start in independent states (`σ` for a seed, `device` for
negative seeds): whatever the number of threads and the schedule, the result is one vector, and its entries `W i` are independent random numbers of
`[1, n/2]` with the truncated power law: at most `y` with probability `(1 - y^(1-ple)) / (1 - (n/2)^(1-ple))`. -/
theorem C92_weights (he : IdealEngine eng μ) (hn : 3 ≤ n) {ple : ℝ} (hple : 1 < ple)
    (hs : (0 ≤ seed ∧ seed + nodeThreads omp n parallel ≤ 2147483648 ∧ IndependentStates P μ σ) ∨ (seed < 0 ∧ IndependentStates P μ device)) :
    ∃ W : Fin n → Ω → ℝ,
      (∀ ω o, GenerateWeights omp (withSeeds eng fun s => σ s ω) (fun k => device k ω) n (fin ple) seed parallel o ↔ o = List.ofFn fun i => fin (W i ω)) ∧
      iIndepFun W P ∧ (∀ i, Measurable (W i)) ∧ (∀ i ω, 1 ≤ W i ω ∧ W i ω ≤ n / 2) ∧
      ∀ i (y : ℝ), 1 ≤ y → y ≤ n / 2 → P {ω | W i ω ≤ y} = ENNReal.ofReal ((1 - y ^ (1 - ple)) / (1 - ((n : ℝ) / 2) ^ (1 - ple))) := by
  have := he.prob
  have := uniformLaw_prob (zero_lt_one' ℝ)
  obtain ⟨u, hu, hue, hum⟩ := he.uniform 0 1 one_pos
  obtain ⟨x, hx, hg⟩ := thread_states hs
  obtain ⟨idx, hinj, hidx⟩ := owners omp (nodeThreads_pos omp n parallel) n
  obtain ⟨hi, hl⟩ := states_indep hx hu hum
  have hout := weights_out he.range hue (by omega) hple hidx hg
  have hm : ∀ i, Measurable fun ω => weightVal n ple (stepVal u (idx i).2 (x (idx i).1 ω)) := fun i =>
    (weightVal_meas n ple).comp ((stepVal_meas hu _).comp (hx.meas _))
  refine ⟨fun i ω => weightVal n ple (stepVal u (idx i).2 (x (idx i).1 ω)), hout, ?_, hm, ?_, ?_⟩
  · exact (hi.precomp hinj).comp (fun _ => weightVal n ple) fun _ => weightVal_meas n ple
  · intro i ω
    have hr := (C26_range (eng := withSeeds eng fun s => σ s ω) he.range (by omega) hple ((hout ω _).2 rfl)).2
    obtain ⟨v, hv, h1, h2⟩ := hr (fin (weightVal n ple (stepVal u (idx i).2 (x (idx i).1 ω)))) (by rw [List.mem_ofFn]; exact ⟨i, rfl⟩)
    dsimp only
    rw [XR.fin.inj hv]
    exact ⟨h1, h2⟩
  · intro i y hy hyn
    have h1 : Measurable fun ω => stepVal u (idx i).2 (x (idx i).1 ω) := (stepVal_meas hu _).comp (hx.meas _)
    rw [← weightVal_law hn hple hy hyn, ← hl (idx i), Measure.map_apply h1 (weightVal_meas n ple measurableSet_Iic)]
    rfl

/-- `P`-distribution of an independent uniform array -/
theorem array_law {D : ℕ} {Z : Fin n × Fin D → Ω → ℝ} (hm : ∀ p, Measurable (Z p)) (hi : iIndepFun Z P) (hl : ∀ p, P.map (Z p) = uniformLaw 0 1) :
    P.map (fun ω i d => Z (i, d) ω) = uniformPositions n D := by
  have hv : IsProbabilityMeasure (volume.restrict (Set.Ico (0 : ℝ) 1)) := by rw [← uniformLaw_unit]; exact uniformLaw_prob one_pos
  have h1 := hi.map_fun_eq_pi_map fun p => (hm p).aemeasurable
  simp only [hl, uniformLaw_unit] at h1
  have h2 := Measure.infinitePi_map_curry (ι := Fin n) (κ := Fin D) (X := ℝ) fun _ _ => volume.restrict (Set.Ico (0 : ℝ) 1)
  simp only [Measure.infinitePi_eq_pi] at h2
  rw [← h1, Measure.map_map (MeasurableEquiv.measurable _) (measurable_pi_lambda _ hm)] at h2
  exact h2

/-- C92.  `generatePositions`, if the engines are ideal and the threads' engines start in independent states: whatever the number of threads and the
schedule, the result is one vector, and its `n` positions are independent and uniformly distributed in `[0,1)^D`. -/
theorem C92_positions {D : ℕ} (he : IdealEngine eng μ)
    (hs : (0 ≤ seed ∧ seed + nodeThreads omp n parallel ≤ 2147483648 ∧ IndependentStates P μ σ) ∨ (seed < 0 ∧ IndependentStates P μ device)) :
    ∃ X : Ω → Fin n → Fin D → ℝ,
      (∀ ω o, GeneratePositions omp (withSeeds eng fun s => σ s ω) (fun k => device k ω) n D seed parallel o ↔
        o = List.ofFn fun i => List.ofFn fun d => fin (X ω i d)) ∧
      Measurable X ∧ P.map X = uniformPositions n D := by
  have := he.prob
  have := uniformLaw_prob (zero_lt_one' ℝ)
  obtain ⟨u, hu, hue, hum⟩ := he.uniform 0 1 one_pos
  obtain ⟨x, hx, hg⟩ := thread_states hs
  obtain ⟨idx, hinj, hidx⟩ := owners omp (nodeThreads_pos omp n parallel) n
  obtain ⟨hi, hl⟩ := states_indep hx hu hum
  have hm : ∀ p : ℕ × ℕ, Measurable fun ω => stepVal u p.2 (x p.1 ω) := fun p => (stepVal_meas hu _).comp (hx.meas _)
  refine ⟨fun ω i d => stepVal u ((idx i).2 * D + d.1) (x (idx i).1 ω), positions_out hue hidx hg,
    measurable_pi_lambda _ fun i => measurable_pi_lambda _ fun d => hm ((idx i).1, (idx i).2 * D + d.1), ?_⟩
  have hinj2 : Function.Injective fun p : Fin n × Fin D => ((idx p.1).1, (idx p.1).2 * D + p.2.1) := by
    rintro ⟨i, d⟩ ⟨j, e⟩ h
    simp only [Prod.mk.injEq] at h
    obtain ⟨h1, h2⟩ := h
    have hd := d.2
    have he := e.2
    have q : (idx i).2 = (idx j).2 := by
      have : ((idx i).2 * D + d.1) / D = ((idx j).2 * D + e.1) / D := by rw [h2]
      rwa [mul_comm, mul_comm (idx j).2, Nat.mul_add_div (by omega), Nat.mul_add_div (by omega), Nat.div_eq_of_lt hd, Nat.div_eq_of_lt he] at this
    have hij : i = j := hinj (Prod.ext h1 q)
    subst hij
    simp only [Prod.mk.injEq, true_and]
    exact Fin.ext (by omega)
  exact array_law (Z := fun p ω => stepVal u ((idx p.1).2 * D + p.2.1) (x (idx p.1).1 ω)) (fun p => hm ((idx p.1).1, (idx p.1).2 * D + p.2.1))
    (hi.precomp hinj2) fun p => hl ((idx p.1).1, (idx p.1).2 * D + p.2.1)

/-- C92.  Weights and positions from one random engine with seeds `wseed` and `pseed`: if the ranges of seeds of the two calls,
`[seed, seed + threads)`, do not overlap, then all weights and all positions are independent. -/
theorem C92_nodes {D : ℕ} (he : IdealEngine eng μ) (hσ : IndependentStates P μ σ) (hn : 3 ≤ n) {ple : ℝ} (hple : 1 < ple) {wseed pseed : ℤ} {wpar ppar : Bool}
    (hw : 0 ≤ wseed ∧ wseed + nodeThreads omp n wpar ≤ 2147483648) (hp : 0 ≤ pseed ∧ pseed + nodeThreads omp n ppar ≤ 2147483648)
    (hd : wseed + nodeThreads omp n wpar ≤ pseed ∨ pseed + nodeThreads omp n ppar ≤ wseed) :
    ∃ (W : Fin n → Ω → ℝ) (X : Ω → Fin n → Fin D → ℝ),
      (∀ ω o, GenerateWeights omp (withSeeds eng fun s => σ s ω) (fun k => device k ω) n (fin ple) wseed wpar o ↔ o = List.ofFn fun i => fin (W i ω)) ∧
      (∀ ω o, GeneratePositions omp (withSeeds eng fun s => σ s ω) (fun k => device k ω) n D pseed ppar o ↔
        o = List.ofFn fun i => List.ofFn fun d => fin (X ω i d)) ∧
      iIndepFun W P ∧ (∀ i (y : ℝ), 1 ≤ y → y ≤ n / 2 → P {ω | W i ω ≤ y} = ENNReal.ofReal ((1 - y ^ (1 - ple)) / (1 - ((n : ℝ) / 2) ^ (1 - ple)))) ∧
      P.map X = uniformPositions n D ∧ IndepFun (fun ω i => W i ω) X P := by
  have := he.prob
  have := uniformLaw_prob (zero_lt_one' ℝ)
  obtain ⟨u, hu, hue, hum⟩ := he.uniform 0 1 one_pos
  obtain ⟨W, w1, w2, w3, w4, w5⟩ := C92_weights (device := device) he hn hple (Or.inl ⟨hw.1, hw.2, hσ⟩)
  obtain ⟨X, x1, x2, x3⟩ := C92_positions (D := D) (device := device) he (Or.inl ⟨hp.1, hp.2, hσ⟩)
  refine ⟨W, X, w1, x1, w2, w5, x3, ?_⟩
  have sg : ∀ {seed : ℤ} {t : ℕ}, 0 ≤ seed ∧ seed + t ≤ 2147483648 → ∀ ω, seedGens t (fun s => σ s ω) (fun k => device k ω) seed =
      some fun k : ℕ => σ (seed + k) ω := by
    intro seed t h ω
    unfold seedGens
    rw [if_pos h.1, if_pos h.2]
  obtain ⟨iw, _, hiw⟩ := owners omp (nodeThreads_pos omp n wpar) n
  obtain ⟨ip, _, hip⟩ := owners omp (nodeThreads_pos omp n ppar) n
  have hW : ∀ ω i, W i ω = weightVal n ple (stepVal u (iw i).2 (σ (wseed + (iw i).1) ω)) := by
    intro ω i
    have := (weights_out (x := fun k : ℕ => σ (wseed + k)) he.range hue (by omega) hple hiw (sg hw) ω _).1 ((w1 ω _).2 rfl)
    exact XR.fin.inj (congrFun (List.ofFn_injective this) i)
  have hX : ∀ ω i d, X ω i d = stepVal u ((ip i).2 * D + d.1) (σ (pseed + (ip i).1) ω) := by
    intro ω i d
    have := (positions_out (x := fun k : ℕ => σ (pseed + k)) hue hip (sg hp) ω _).1 ((x1 ω _).2 rfl)
    exact XR.fin.inj (congrFun (List.ofFn_injective (congrFun (List.ofFn_injective this) i)) d)
  obtain ⟨hi, _⟩ := states_indep hσ hu hum
  classical
  set S : Finset (ℤ × ℕ) := Finset.univ.image fun i : Fin n => (wseed + ((iw i).1 : ℤ), (iw i).2) with hS
  set T : Finset (ℤ × ℕ) := Finset.univ.image fun p : Fin n × Fin D => (pseed + ((ip p.1).1 : ℤ), (ip p.1).2 * D + p.2.1) with hT
  have hST : Disjoint S T := by
    rw [Finset.disjoint_left]
    rintro a ha hb
    obtain ⟨i, _, rfl⟩ := Finset.mem_image.1 ha
    obtain ⟨p, _, hp'⟩ := Finset.mem_image.1 hb
    have h1 := (hiw i).1
    have h2 := (hip p.1).1
    have h3 := congrArg Prod.fst hp'
    simp only at h3
    rcases hd with hd | hd <;> omega
  have hmS : ∀ i, (wseed + ((iw i).1 : ℤ), (iw i).2) ∈ S := fun i => Finset.mem_image.2 ⟨i, Finset.mem_univ _, rfl⟩
  have hmT : ∀ p : Fin n × Fin D, (pseed + ((ip p.1).1 : ℤ), (ip p.1).2 * D + p.2.1) ∈ T := fun p => Finset.mem_image.2 ⟨p, Finset.mem_univ _, rfl⟩
  have key := hi.indepFun_finset S T hST fun p => (stepVal_meas hu _).comp (hσ.meas _)
  have := key.comp (φ := fun (z : S → ℝ) (i : Fin n) => weightVal n ple (z ⟨_, hmS i⟩)) (ψ := fun (z : T → ℝ) (i : Fin n) (d : Fin D) => z ⟨_, hmT (i, d)⟩)
    (measurable_pi_lambda _ fun i => (weightVal_meas n ple).comp (measurable_pi_apply (⟨_, hmS i⟩ : S)))
    (measurable_pi_lambda _ fun i => measurable_pi_lambda _ fun d => measurable_pi_apply _)
  convert this using 1
  · funext ω i
    rw [hW]
    rfl
  · funext ω i d
    rw [hX]
    rfl

end GirgNodes

/-- C92, for every floating point type.  If the ranges of seeds overlap, weights and positions are not independent: if thread `t` of `generateWeights` and
thread `s` of `generatePositions` get the same seed, then the weight of the node `i` that is iteration `k*dim + d` of thread `t` is the weight for the
random number that is coordinate `d` of the node `j` that is iteration `k` of thread `s`.  (Different seeds, as the documentation requires, are not
enough.) -/
theorem C92_overlap {F : Type} [CFloat F] (omp : Omp) (eng : Engine F) (device : ℕ → eng.G) (n dim : ℕ) (ple : F) {wseed pseed : ℤ} {wpar ppar : Bool}
    {s t : ℕ} (h0 : 0 ≤ wseed) (h1 : 0 ≤ pseed) (hst : wseed + t = pseed + s) {ws : List F} {ps : List (List F)}
    (hw : GenerateWeights omp eng device n ple wseed wpar ws) (hp : GeneratePositions omp eng device n dim pseed ppar ps)
    {cw cp : List ℕ} (hcw : (omp.chunks (nodeThreads omp n wpar) n)[t]? = some cw) (hcp : (omp.chunks (nodeThreads omp n ppar) n)[s]? = some cp)
    {k d i j : ℕ} (hd : d < dim) (hi : cw[k * dim + d]? = some i) (hj : cp[k]? = some j) :
    ∃ row v, ps[j]? = some row ∧ row[d]? = some v ∧ ws[i]? = some (weightOf n ple v) := by
  have hw' := hw
  have hp' := hp
  obtain ⟨gw, hgw, _⟩ := hw
  obtain ⟨gp, hgp, _⟩ := hp
  obtain ⟨out, a1, _, a3⟩ := generateWeights_iff omp eng device n ple wseed wpar hgw
  obtain ⟨pout, b1, _, _, b4⟩ := generatePositions_iff omp eng device n dim pseed ppar hgp
  obtain rfl := (a1 ws).1 hw'
  obtain rfl := (b1 ps).1 hp'
  obtain ⟨row, r1, r2⟩ := b4 s cp k j d hcp hj hd
  refine ⟨row, _, r1, r2, ?_⟩
  rw [a3 t cw _ i hcw hi]
  have e1 : gw t = eng.seed (wseed + t) := by
    unfold seedGens at hgw
    rw [if_pos h0] at hgw
    split at hgw
    · exact congrFun (Option.some.inj hgw).symm t
    · cases hgw
  have e2 : gp s = eng.seed (pseed + s) := by
    unfold seedGens at hgp
    rw [if_pos h1] at hgp
    split at hgp
    · exact congrFun (Option.some.inj hgp).symm s
    · cases hgp
  rw [e1, e2, hst]

/-- C92.  In particular, with equal seeds in dimension 1 the weight of every node is a function of its position. -/
theorem C92_same_seed {F : Type} [CFloat F] (omp : Omp) (eng : Engine F) (device : ℕ → eng.G) (n : ℕ) (ple : F) {seed : ℤ} {par : Bool}
    (h0 : 0 ≤ seed) {ws : List F} {ps : List (List F)}
    (hw : GenerateWeights omp eng device n ple seed par ws) (hp : GeneratePositions omp eng device n 1 seed par ps) {i : ℕ} (hi : i < n) :
    ∃ v, ps[i]? = some [v] ∧ ws[i]? = some (weightOf n ple v) := by
  obtain ⟨t, chunk, k, h1, h2⟩ := owner (omp := omp) (nodeThreads_pos omp n par) hi
  obtain ⟨row, v, r1, r2, r3⟩ := C92_overlap omp eng device n 1 ple h0 h0 rfl hw hp h1 h1 (d := 0) one_pos (by simpa using h2) h2
  have hl := ((position_entry hp).2 row (List.mem_of_getElem? r1)).1
  match row, hl with
  | [a], _ =>
    simp only [List.getElem?_cons_zero, Option.some.injEq] at r2
    subst r2
    exact ⟨a, r1, r3⟩

end Girgs.Props
