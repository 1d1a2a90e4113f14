import Verif.Proofs.Relabel
/-
C110: the law of the graph does not depend on the names of the nodes, and of the weights only through the numbers `w_u w_v / W`.
-/
namespace Girgs.Props
open CFloat Spec MeasureTheory ProbabilityTheory Tree Scaling
open XR (fin)
open scoped ENNReal

section Positions
variable {Ω : Type} [MeasurableSpace Ω] {P : Measure Ω} {omp : Omp} {eng : Engine XR} [MeasurableSpace eng.G] {μ : Measure eng.G}
  {σ : ℤ → Ω → eng.G} {device : ℕ → Ω → eng.G} {n : ℕ} {seed : ℤ} {parallel : Bool} {D : ℕ} {w : List ℝ} {pos : Ω → List (List XR)}
  {rng : Rng XR} {k : ℕ}
  {Ω' : Type} [MeasurableSpace Ω'] {P' : Measure Ω'} {omp' : Omp} {eng' : Engine XR} [MeasurableSpace eng'.G] {μ' : Measure eng'.G}
  {σ' : ℤ → Ω' → eng'.G} {device' : ℕ → Ω' → eng'.G} {n' : ℕ} {seed' : ℤ} {parallel' : Bool} {w' : List ℝ} {pos' : Ω' → List (List XR)}
  {rng' : Rng XR}

/-- the law of the graph spanned by some nodes -/
theorem threshold_pattern (he : IdealEngine eng μ)
    (hs : (0 ≤ seed ∧ seed + nodeThreads omp n parallel ≤ 2147483648 ∧ IndependentStates P μ σ) ∨ (seed < 0 ∧ IndependentStates P μ device))
    (hpos : ∀ ω, GeneratePositions omp (withSeeds eng fun s => σ s ω) (fun k => device k ω) n D seed parallel (pos ω))
    (env : Ω → Env) (hgeo : GeoBounded rng) (gens : Ω → ℕ → rng.G) {out : Ω → List (ℕ × ℕ)} {notice : Ω → Notice} (hw : SupportedWeights D w) (hn : w.length = n)
    (h : ∀ ω, GenerateEdges (env ω) rng (gens ω) (xw w) (pos ω) .pinf (out ω) (notice ω)) (a : Fin k ↪ Fin w.length) (A : Set (Fin k → Fin k → Prop))
    {c : Fin k → Fin k → ℝ} (hc : ∀ i j, i ≠ j → c i j = w[a i] * w[a j] / w.sum) :
    P {ω | (fun i j => adjacent (out ω) (a i) (a j)) ∈ A} =
      (Measure.pi fun _ : Fin k => unitCube D) {y | (fun i j => i ≠ j ∧ torusDist (y i) (y j) ^ D < c i j) ∈ A} := by
  subst hn
  obtain ⟨X, hX, hlaw, hXp⟩ := positions_random he hs hpos
  refine pattern_law hX hlaw a (K := fun i j => {z | torusDist z.1 z.2 ^ D < c i j}) (fun i j => measurableSet_lt (torusDist_measurable.pow_const D) measurable_const)
    (fun ω i j => ?_) A
  have sup : SupportedInput D w (List.ofFn (X ω)) := hw _ (by simp) (by
    intro p hp
    obtain ⟨i, rfl⟩ := List.mem_ofFn.1 hp
    exact (hXp ω).2 i)
  have h1 := h ω
  rw [(hXp ω).1] at h1
  have h2 := (C18_threshold_exact sup (env ω) rng hgeo _ _ _ h1).1
  by_cases hij : i = j
  · subst hij
    simp only [ne_eq, not_true_eq_false, false_and, iff_false]
    intro h3
    unfold adjacent at h3
    rcases h3 with h3 | h3 <;> exact (h2.1 _ h3).2.2 rfl
  · have h3 := h2.2.2 (a i) (a j) (a i).2 (a j).2 fun he => hij (a.injective (Fin.ext he))
    show _ ↔ _ ∧ torusDist (X ω (a i)) (X ω (a j)) ^ D < c i j
    rw [hc i j hij]
    simp only [ne_eq, hij, not_false_eq_true, true_and]
    exact h3.trans (rule_ofFn _ _)

/-- C110, `alpha = infinity`.  Two programs draw positions with `generatePositions` (ideal engines, independently started) and then run `generateEdges` on weights `w`
and `w'`; the numbers of nodes, environments, numbers of threads, seeds, engines and random numbers may differ.  Choose `k` nodes `a 0, a 1, ...` of the first graph
and `a' 0, a' 1, ...` of the second with the same numbers `w_u w_v / W`.  Then the graphs spanned by these nodes have the same law: each set `A` of graphs on `k` nodes
has the same probability. -/
theorem C110_threshold (he : IdealEngine eng μ)
    (hs : (0 ≤ seed ∧ seed + nodeThreads omp n parallel ≤ 2147483648 ∧ IndependentStates P μ σ) ∨ (seed < 0 ∧ IndependentStates P μ device))
    (hpos : ∀ ω, GeneratePositions omp (withSeeds eng fun s => σ s ω) (fun k => device k ω) n D seed parallel (pos ω))
    (env : Ω → Env) (hgeo : GeoBounded rng) (gens : Ω → ℕ → rng.G) {out : Ω → List (ℕ × ℕ)} {notice : Ω → Notice} (hw : SupportedWeights D w) (hn : w.length = n)
    (h : ∀ ω, GenerateEdges (env ω) rng (gens ω) (xw w) (pos ω) .pinf (out ω) (notice ω))
    (he' : IdealEngine eng' μ')
    (hs' : (0 ≤ seed' ∧ seed' + nodeThreads omp' n' parallel' ≤ 2147483648 ∧ IndependentStates P' μ' σ') ∨ (seed' < 0 ∧ IndependentStates P' μ' device'))
    (hpos' : ∀ ω, GeneratePositions omp' (withSeeds eng' fun s => σ' s ω) (fun k => device' k ω) n' D seed' parallel' (pos' ω))
    (env' : Ω' → Env) (hgeo' : GeoBounded rng') (gens' : Ω' → ℕ → rng'.G) {out' : Ω' → List (ℕ × ℕ)} {notice' : Ω' → Notice} (hw' : SupportedWeights D w')
    (hn' : w'.length = n') (h' : ∀ ω, GenerateEdges (env' ω) rng' (gens' ω) (xw w') (pos' ω) .pinf (out' ω) (notice' ω))
    (a : Fin k ↪ Fin w.length) (a' : Fin k ↪ Fin w'.length) (heq : ∀ i j, i ≠ j → w'[a' i] * w'[a' j] / w'.sum = w[a i] * w[a j] / w.sum)
    (A : Set (Fin k → Fin k → Prop)) :
    P {ω | (fun i j => adjacent (out ω) (a i) (a j)) ∈ A} = P' {ω | (fun i j => adjacent (out' ω) (a' i) (a' j)) ∈ A} := by
  rw [threshold_pattern he hs hpos env hgeo gens hw hn h a A fun i j _ => rfl,
    threshold_pattern he' hs' hpos' env' hgeo' gens' hw' hn' h' a' A fun i j hij => (heq i j hij).symm]

/-- C110, renamed nodes, same setting: if the node `π u` of the second program has the weight of node `u` of the first, for a permutation `π` of the nodes, then the
graphs have the same law, up to the new names.  For `π = id`, the law of the graph does not depend on seeds, engines, threads and schedules. -/
theorem C110_renamed (he : IdealEngine eng μ)
    (hs : (0 ≤ seed ∧ seed + nodeThreads omp n parallel ≤ 2147483648 ∧ IndependentStates P μ σ) ∨ (seed < 0 ∧ IndependentStates P μ device))
    (hpos : ∀ ω, GeneratePositions omp (withSeeds eng fun s => σ s ω) (fun k => device k ω) n D seed parallel (pos ω))
    (env : Ω → Env) (hgeo : GeoBounded rng) (gens : Ω → ℕ → rng.G) {out : Ω → List (ℕ × ℕ)} {notice : Ω → Notice} (hw : SupportedWeights D w) (hn : w.length = n)
    (h : ∀ ω, GenerateEdges (env ω) rng (gens ω) (xw w) (pos ω) .pinf (out ω) (notice ω))
    (he' : IdealEngine eng' μ')
    (hs' : (0 ≤ seed' ∧ seed' + nodeThreads omp' n parallel' ≤ 2147483648 ∧ IndependentStates P' μ' σ') ∨ (seed' < 0 ∧ IndependentStates P' μ' device'))
    (hpos' : ∀ ω, GeneratePositions omp' (withSeeds eng' fun s => σ' s ω) (fun k => device' k ω) n D seed' parallel' (pos' ω))
    (env' : Ω' → Env) (hgeo' : GeoBounded rng') (gens' : Ω' → ℕ → rng'.G) {out' : Ω' → List (ℕ × ℕ)} {notice' : Ω' → Notice} (hw' : SupportedWeights D w')
    (hn' : w'.length = n) (h' : ∀ ω, GenerateEdges (env' ω) rng' (gens' ω) (xw w') (pos' ω) .pinf (out' ω) (notice' ω))
    (π : Equiv.Perm (Fin n)) (heq : ∀ u : Fin n, w'[π u]? = w[u]?) (A : Set (Fin n → Fin n → Prop)) :
    P {ω | (fun u v : Fin n => adjacent (out ω) u v) ∈ A} = P' {ω | (fun u v : Fin n => adjacent (out' ω) (π u) (π v)) ∈ A} := by
  subst hn
  have e : ∀ u : Fin w.length, w'[(π u).1]'(by rw [hn']; exact (π u).2) = w[u.1] := by
    intro u
    have h1 := heq u
    simp only [Fin.getElem?_fin] at h1
    rw [List.getElem?_eq_getElem u.2, List.getElem?_eq_getElem (by rw [hn']; exact (π u).2)] at h1
    exact Option.some.inj h1
  have hsum : w'.sum = w.sum := by
    rw [← Fin.sum_univ_getElem, ← Fin.sum_univ_getElem, ← Equiv.sum_comp ((finCongr hn'.symm : Fin w.length ≃ Fin w'.length))]
    rw [← Equiv.sum_comp π]
    exact Finset.sum_congr rfl fun u _ => e u
  refine C110_threshold he hs hpos env hgeo gens hw rfl h he' hs' hpos' env' hgeo' gens' hw' hn' h' (Function.Embedding.refl _)
    (π.trans (finCongr hn'.symm)).toEmbedding (fun u v _ => ?_) A
  rw [hsum]
  exact congrArg₂ (fun x y => x * y / w.sum) (e u) (e v)

end Positions

section Hyperbolic
open HypDeg Radius
variable {Ω : Type} [MeasurableSpace Ω] {P : Measure Ω} {omp : Omp} {eng : Engine XR} [MeasurableSpace eng.G] {μ : Measure eng.G}
  {σ : ℤ → Ω → eng.G} {device : ℕ → Ω → eng.G} {n k : ℕ} {α R : ℝ} {radii angles : Ω → List XR} {rng : Tree.Rng XR}
  {Ω' : Type} [MeasurableSpace Ω'] {P' : Measure Ω'} {omp' : Omp} {eng' : Engine XR} [MeasurableSpace eng'.G] {μ' : Measure eng'.G}
  {σ' : ℤ → Ω' → eng'.G} {device' : ℕ → Ω' → eng'.G} {n' : ℕ} {radii' angles' : Ω' → List XR} {rng' : Tree.Rng XR}

/-- the law of the graph spanned by some nodes -/
theorem hyper_pattern (hs : SampledPoints P omp eng μ σ device n α R radii angles) (hn : 1 ≤ n) (h31 : n < 2147483648)
    (hdisk : (2 / 3 ≤ R ∧ R ≤ 1) ∨ (4 / 3 ≤ R ∧ R ≤ 165 / 4)) (hα : 0 < α) (hαR : 1 ≤ α * R)
    (env : Ω → HEnv) (hgeo : GeoBounded rng) (gens : Ω → ℕ → rng.G) {out : Ω → List (ℕ × ℕ)}
    (h : ∀ ω, HGenerateEdges (env ω) rng (gens ω) (radii ω) (angles ω) (fin 0) (fin R) (out ω)) (a : Fin k ↪ Fin n) (A : Set (Fin k → Fin k → Prop)) :
    P {ω | (fun i j => adjacent (out ω) (a i) (a j)) ∈ A} =
      (Measure.pi fun _ : Fin k => pointLaw α R) {y | (fun i j => i ≠ j ∧ hypDist (y i).1 (y i).2 (y j).1 (y j).2 < R) ∈ A} := by
  have hR : 0 < R := by rcases hdisk with h | h <;> linarith
  obtain ⟨r, φ, hp, ho⟩ := sampled_random hs hn hα hR hαR
  haveI := radialLaw_prob hαR
  haveI : IsProbabilityMeasure (pointLaw α R) := by unfold pointLaw; infer_instance
  have hX : Measurable fun ω i => (r i ω, φ i ω) := measurable_pi_lambda _ fun i => (hp.measR i).prodMk (hp.measA i)
  refine pattern_law hX hp.joint a (K := fun _ _ => {z : (ℝ × ℝ) × ℝ × ℝ | hypDist z.1.1 z.1.2 z.2.1 z.2.2 < R})
    (fun i j => measurableSet_lt measurable_hypDist measurable_const) (fun ω i j => ?_) A
  have h1 := h ω
  rw [(ho ω).1, (ho ω).2, xw_ofFn, xw_ofFn] at h1
  have h2 := C45_threshold_exact (random_input hp hn h31 le_rfl hdisk ω) _ rng hgeo _ _ h1
  rw [List.length_ofFn] at h2
  by_cases hij : i = j
  · subst hij
    simp only [ne_eq, not_true_eq_false, false_and, iff_false]
    intro h3
    unfold adjacent at h3
    rcases h3 with h3 | h3 <;> exact (h2.1 _ h3).2.2 rfl
  · have h3 := h2.2.2 (a i) (a j) (a i).2 (a j).2 fun he => hij (a.injective (Fin.ext he))
    simp only [ne_eq, hij, not_false_eq_true, true_and]
    refine h3.trans ?_
    rw [rule_gap]
    unfold gap
    rw [Real.exp_lt_one_iff]
    constructor
    · intro h3
      show hypDist _ _ _ _ < R
      linarith
    · intro h3
      have h4 : hypDist (r (a i) ω) (φ (a i) ω) (r (a j) ω) (φ (a j) ω) < R := h3
      linarith

/-- C110, hyperbolic random graphs, `T = 0`.  Two programs draw points of the disk with the same parameters `α`, `R` (ideal engines, independently started) and then run
`generateEdges` with temperature 0; the numbers of nodes, environments, numbers of threads, seeds, engines and random numbers may differ.  The graphs spanned by any `k`
nodes of the first and any `k` nodes of the second have the same law. -/
theorem C110_hyper (hs : SampledPoints P omp eng μ σ device n α R radii angles) (hn : 1 ≤ n) (h31 : n < 2147483648)
    (hs' : SampledPoints P' omp' eng' μ' σ' device' n' α R radii' angles') (hn' : 1 ≤ n') (h31' : n' < 2147483648)
    (hdisk : (2 / 3 ≤ R ∧ R ≤ 1) ∨ (4 / 3 ≤ R ∧ R ≤ 165 / 4)) (hα : 0 < α) (hαR : 1 ≤ α * R)
    (env : Ω → HEnv) (hgeo : GeoBounded rng) (gens : Ω → ℕ → rng.G) {out : Ω → List (ℕ × ℕ)}
    (h : ∀ ω, HGenerateEdges (env ω) rng (gens ω) (radii ω) (angles ω) (fin 0) (fin R) (out ω))
    (env' : Ω' → HEnv) (hgeo' : GeoBounded rng') (gens' : Ω' → ℕ → rng'.G) {out' : Ω' → List (ℕ × ℕ)}
    (h' : ∀ ω, HGenerateEdges (env' ω) rng' (gens' ω) (radii' ω) (angles' ω) (fin 0) (fin R) (out' ω))
    (a : Fin k ↪ Fin n) (a' : Fin k ↪ Fin n') (A : Set (Fin k → Fin k → Prop)) :
    P {ω | (fun i j => adjacent (out ω) (a i) (a j)) ∈ A} = P' {ω | (fun i j => adjacent (out' ω) (a' i) (a' j)) ∈ A} := by
  rw [hyper_pattern hs hn h31 hdisk hα hαR env hgeo gens h a A, hyper_pattern hs' hn' h31' hdisk hα hαR env' hgeo' gens' h' a' A]

end Hyperbolic

/-! ### examples -/

/-- a run with given weights and seed, for ideal engines -/
theorem example_run {D n : ℕ} {w : List ℝ} (hsup : SupportedWeights D w) (hn : n = 1000) (hw : w.length = n) {seed : ℤ} (h0 : 0 ≤ seed) (h1 : seed ≤ 130) (parallel : Bool) :
    (seed + nodeThreads exampleOmp n parallel ≤ 2147483648) ∧
    ∃ (pos : (ℤ → ℕ → ℝ) → List (List XR)) (out : (ℤ → ℕ → ℝ) → List (ℕ × ℕ)) (notice : (ℤ → ℕ → ℝ) → Notice),
      (∀ ω, GeneratePositions exampleOmp (withSeeds streamEngine fun s => ω s) (fun _ => (fun _ => 0)) n D seed parallel (pos ω)) ∧
      ∀ ω, GenerateEdges (exampleEnv true) idealRng (fun _ _ => 0) (xw w) (pos ω) .pinf (out ω) (notice ω) := by
  have hthreads : nodeThreads exampleOmp n parallel ≤ 2147483518 := by rw [hn]; cases parallel <;> decide
  have hseed : (0 ≤ seed ∧ seed + nodeThreads exampleOmp n parallel ≤ 2147483648 ∧
      IndependentStates (Measure.infinitePi fun _ : ℤ => seqMeasure) seqMeasure fun (s : ℤ) (ω : ℤ → ℕ → ℝ) => ω s) := ⟨h0, by omega, streamStates⟩
  obtain ⟨X, hX, _⟩ := C92_positions (D := D) (omp := exampleOmp) (device := fun _ _ => (fun _ => 0 : ℕ → ℝ)) (n := n) (parallel := parallel)
    streamEngine_ideal (Or.inl hseed)
  have hpos := fun ω => (hX ω _).2 rfl
  obtain ⟨Y, _, _, hY⟩ := positions_random streamEngine_ideal (Or.inl hseed) hpos
  have hex : ∀ ω, ∃ out notice, GenerateEdges (exampleEnv true) idealRng (fun _ _ => 0) (xw w)
      (List.ofFn fun i => List.ofFn fun d => fin (X ω i d)) .pinf out notice := by
    intro ω
    have s := hsup (List.ofFn (Y ω)) (by simp [hw]) (by
      intro p hp d
      obtain ⟨i, rfl⟩ := List.mem_ofFn.1 hp
      exact (hY ω).2 i d)
    rw [(hY ω).1]
    exact (C17_simple_graph s .pinf (exampleEnv true) idealRng idealRng_ideal.bounded _).1
  choose out notice hout using hex
  exact ⟨by omega, _, out, notice, hpos, hout⟩

theorem example_supported {n : ℕ} (hn : n = 1000) {w : List ℝ} (hw : w.length = n) (hm : ∀ y ∈ w, y = 1 ∨ y = 2) (hsum : w.sum = n + 1) : SupportedWeights 5 w := by
  have hnR : (n : ℝ) = 1000 := by rw [hn]; norm_num
  intro x hl hx
  have h1 : ∀ y ∈ w, 1 ≤ y ∧ y ≤ 2 := fun y hy => by rcases hm y hy with h | h <;> rw [h] <;> norm_num
  refine ⟨by norm_num, by norm_num, hl, by omega, by omega, ?_, ?_, hx, ?_, ?_⟩
  · intro y hy; linarith [(h1 y hy).1]
  · intro y hy; exact (h1 y hy).2.trans_lt (by simpa using pow_lt_pow_right₀ (one_lt_two : (1 : ℝ) < 2) (show 1 < 1024 by norm_num))
  · intro y hy; rw [hsum, hnR]; nlinarith [h1 y hy]
  · intro y hy z hz; nlinarith [h1 y hy, h1 z hz]

/-- C110 at work: 1000 nodes in dimension 5, the weights are 1, except for one node of weight 2: node 0 in the first program, node 999 in the second.  The seeds differ,
and only the second program runs in parallel.  The probability that nodes 0, 1, 2 form a triangle in the first graph is the one of nodes 999, 5, 6 in the second. -/
example (n : ℕ) (hn : n = 1000) : ∃ (P : Measure (ℤ → ℕ → ℝ)) (pos pos' : (ℤ → ℕ → ℝ) → List (List XR)) (out out' : (ℤ → ℕ → ℝ) → List (ℕ × ℕ))
    (notice notice' : (ℤ → ℕ → ℝ) → Notice),
    IsProbabilityMeasure P ∧
    (∀ ω, GeneratePositions exampleOmp (withSeeds streamEngine fun s => ω s) (fun _ => (fun _ => 0)) n 5 12 false (pos ω)) ∧
    (∀ ω, GenerateEdges (exampleEnv true) idealRng (fun _ _ => 0) (xw (2 :: List.replicate (n - 1) 1)) (pos ω) .pinf (out ω) (notice ω)) ∧
    (∀ ω, GeneratePositions exampleOmp (withSeeds streamEngine fun s => ω s) (fun _ => (fun _ => 0)) n 5 130 true (pos' ω)) ∧
    (∀ ω, GenerateEdges (exampleEnv true) idealRng (fun _ _ => 0) (xw (List.replicate (n - 1) 1 ++ [2])) (pos' ω) .pinf (out' ω) (notice' ω)) ∧
    P {ω | triangle (out ω) 0 1 2} = P {ω | triangle (out' ω) 999 5 6} := by
  have hnR : (n : ℝ) = 1000 := by rw [hn]; norm_num
  have hn1 : ((n - 1 : ℕ) : ℝ) = 999 := by rw [hn]; norm_num
  obtain ⟨w, hw⟩ : ∃ w : List ℝ, w = 2 :: List.replicate (n - 1) 1 := ⟨_, rfl⟩
  obtain ⟨w', hw'⟩ : ∃ w : List ℝ, w = List.replicate (n - 1) 1 ++ [2] := ⟨_, rfl⟩
  have hl : w.length = n := by rw [hw, List.length_cons, List.length_replicate]; omega
  have hl' : w'.length = n := by rw [hw', List.length_append, List.length_replicate]; simp; omega
  have hs : w.sum = n + 1 := by rw [hw, List.sum_cons, List.sum_replicate, nsmul_eq_mul, hn1, hnR]; norm_num
  have hs' : w'.sum = n + 1 := by rw [hw', List.sum_append, List.sum_replicate, nsmul_eq_mul, hn1, hnR]; norm_num
  have s := example_supported hn hl (fun y hy => by
    rw [hw, List.mem_cons] at hy
    rcases hy with h | h
    · exact Or.inr h
    · exact Or.inl (List.eq_of_mem_replicate h)) hs
  have s' := example_supported hn hl' (fun y hy => by
    rw [hw', List.mem_append, List.mem_singleton] at hy
    rcases hy with h | h
    · exact Or.inl (List.eq_of_mem_replicate h)
    · exact Or.inr h) hs'
  obtain ⟨ht, pos, out, notice, hp, ho⟩ := example_run s hn hl (seed := 12) (by norm_num) (by norm_num) false
  obtain ⟨ht', pos', out', notice', hp', ho'⟩ := example_run s' hn hl' (seed := 130) (by norm_num) (by norm_num) true
  have hv : ∀ i : ℕ, ∀ h : i < w.length, w[i] = if i = 0 then 2 else 1 := by
    intro i h
    subst hw
    rcases i with _ | i
    · simp
    · rw [List.getElem_cons_succ, List.getElem_replicate, if_neg (by omega)]
  have hv' : ∀ i : ℕ, ∀ h : i < w'.length, w'[i] = if i = 999 then 2 else 1 := by
    intro i h
    subst hw'
    rw [List.getElem_append]
    simp only [List.length_replicate]
    split_ifs with h1 h2 h2
    · omega
    · rw [List.getElem_replicate]
    · simp
    · omega
  have inj : ∀ i j : Fin 3, (![999, 5, 6] i : ℕ) = ![999, 5, 6] j → i = j := by decide
  obtain ⟨a, ha⟩ : ∃ a : Fin 3 ↪ Fin w.length, (a 0).1 = 0 ∧ (a 1).1 = 1 ∧ (a 2).1 = 2 :=
    ⟨⟨fun i => ⟨i.1, by omega⟩, fun i j h => Fin.ext (Fin.mk.inj h)⟩, rfl, rfl, rfl⟩
  obtain ⟨a', ha'⟩ : ∃ a : Fin 3 ↪ Fin w'.length, (a 0).1 = 999 ∧ (a 1).1 = 5 ∧ (a 2).1 = 6 := by
    refine ⟨⟨fun i => ⟨![999, 5, 6] i, ?_⟩, fun i j h => inj i j (Fin.mk.inj h)⟩, rfl, rfl, rfl⟩
    fin_cases i <;> simp <;> omega
  have e : ∀ i, w'[a' i] = w[a i] := by
    intro i
    show w'[(a' i).1] = w[(a i).1]
    rw [hv, hv']
    fin_cases i
    · simp [ha'.1, ha.1]
    · simp [ha'.2.1, ha.2.1]
    · simp [ha'.2.2, ha.2.2]
  refine ⟨Measure.infinitePi fun _ : ℤ => seqMeasure, pos, pos', out, out', notice, notice', inferInstance, hp, hw ▸ ho, hp', hw' ▸ ho', ?_⟩
  have h := C110_threshold streamEngine_ideal (Or.inl ⟨by norm_num, ht, streamStates⟩) hp (fun _ => exampleEnv true) idealRng_ideal.bounded (fun _ _ _ => 0) s hl ho
    streamEngine_ideal (Or.inl ⟨by norm_num, ht', streamStates⟩) hp' (fun _ => exampleEnv true) idealRng_ideal.bounded (fun _ _ _ => 0) s' hl' ho' a a'
    (fun i j _ => by rw [e, e, hs, hs']) {r | r 0 1 ∧ r 0 2 ∧ r 1 2}
  simpa only [Set.mem_setOf_eq, triangle, ha.1, ha.2.1, ha.2.2, ha'.1, ha'.2.1, ha'.2.2] using h

end Girgs.Props
