import Verif.Proofs.TotalVariation
import Verif.Props.Relabel
/-
C111: distance of the generated graph to the documented random graph.  C110 for finite alpha.
-/
namespace Girgs.Props
open CFloat Spec MeasureTheory ProbabilityTheory Tree Scaling
open XR (fin)
open scoped ENNReal

/-- the documented probabilities and those of a law that replaces some probabilities below `10^-6` by 0 -/
theorem skipped_distance {n k : ℕ} (a : Fin k ↪ Fin n) {pr doc : ℕ → ℕ → ℝ} (hdoc : ∀ u v, u < n → v < n → u ≠ v → 0 ≤ doc u v ∧ doc u v ≤ 1)
    (hpr : ∀ u v, u < n → v < n → u ≠ v → pr u v = doc u v ∨ (pr u v = 0 ∧ doc u v < 1 / 1000000)) (A : Set (Finset (Fin k × Fin k))) :
    |independentProb (fun e => pr (a e.1) (a e.2)) A - independentProb (fun e => doc (a e.1) (a e.2)) A| ≤
      ∑ e ∈ pairsOf k with doc (a e.1) (a e.2) < 1 / 1000000, doc (a e.1) (a e.2) := by
  have hne : ∀ e ∈ pairsOf k, (a e.1).1 ≠ (a e.2).1 := by
    rintro ⟨i, j⟩ he h
    have hij : i < j := by simpa [pairsOf] using he
    exact hij.ne (a.injective (Fin.ext h))
  have d := fun e (he : e ∈ pairsOf k) => hdoc (a e.1) (a e.2) (a e.1).2 (a e.2).2 (hne e he)
  have q := fun e (he : e ∈ pairsOf k) => hpr (a e.1) (a e.2) (a e.1).2 (a e.2).2 (hne e he)
  refine (independentProb_distance (fun e he => ?_) (fun e he => d e he) A).trans ?_
  · rcases q e he with h | h
    · rw [h]; exact d e he
    · rw [h.1]; norm_num
  · rw [Finset.sum_filter]
    refine Finset.sum_le_sum fun e he => ?_
    have h0 := d e he
    rcases q e he with h | h
    · rw [h, sub_self, abs_zero]
      split_ifs
      · exact h0.1
      · exact le_rfl
    · rw [if_pos h.2, h.1, zero_sub, abs_neg, abs_of_nonneg h0.1]

theorem independentProb_mem {k : ℕ} {p : Fin k × Fin k → ℝ} (hp : ∀ i ∈ pairsOf k, 0 ≤ p i ∧ p i ≤ 1) (A : Set (Finset (Fin k × Fin k))) :
    0 ≤ independentProb p A ∧ independentProb p A ≤ 1 := by
  classical
  rw [independentProb_eq]
  exact subsets_mean_mem _ hp _ fun s => by by_cases h : s ∈ A <;> simp [h]

/-- C111, `girgs::generateEdges` with finite `alpha = α > 0`, in every environment and with ideal random numbers.  Choose any nodes `a 0, a 1, ...`.  The probability that
the graph spanned by them has any property `A` differs from its probability in the documented random graph (independent pairs with the documented connection
probabilities) at most by the sum of those connection probabilities that are below `10^-6`; if there are none, the two laws are equal. -/
theorem C111_girg {D : ℕ} {w : List ℝ} {x : List (Fin D → ℝ)} (s : SupportedInput D w x) {α : ℝ} (hα : 0 < α)
    (env : Env) (rng : Rng XR) [MeasurableSpace rng.G] (μ : Measure rng.G) (hid : IdealRng rng μ) {k : ℕ} (a : Fin k ↪ Fin w.length)
    (A : Set (Finset (Fin k × Fin k))) :
    |(graphProb env rng μ (xw w) (xl x) (fin α) fun out => spanned (fun i => (a i).1) out ∈ A).toReal -
        independentProb (fun e => girgProb w x α (a e.1) (a e.2)) A| ≤
      ∑ e ∈ pairsOf k with girgProb w x α (a e.1) (a e.2) < 1 / 1000000, girgProb w x α (a e.1) (a e.2) := by
  obtain ⟨T, hT⟩ := constructedX_exists true (fin α) s 1 le_rfl (by norm_num)
  obtain ⟨m, b⟩ := hT.builtX s
  have hT' := hT.setDebug env.ndebug
  obtain ⟨m', b'⟩ := hT'.builtX s
  have hth : T.isThreshold = false := by unfold Tree.isThreshold; rw [b.alpha_eq]; rfl
  obtain ⟨L, h1, h2⟩ := result_event hid b' hT' s hα
  have hfst : (L.map Prod.fst).Perm ((allCoins _).map Prod.fst) := h1.map _
  have honce : EachPairOnce w.length (L.map Prod.fst) := eachPairOnce_perm hfst (b'.allCoins_once (List.Perm.refl _))
  have hL : ∀ c ∈ L, unit c.2 = edgePr T c.1.1 c.1.2 := by
    rintro ⟨⟨c, d⟩, q⟩ hm
    have hin := honce.1 _ (List.mem_map.2 ⟨_, hm, rfl⟩)
    simp only at hin
    have e1 := b'.edgePr_eq (h1.mem_iff.1 hm)
    have hb := edgePr_unit b' s hα hin.1 hin.2.1 hin.2.2
    rw [e1] at hb
    rw [unit_eq hb.1 hb.2, ← e1]
    exact edgePr_ndebug hth _ _ _
  have h01 : ∀ u v, u < w.length → v < w.length → u ≠ v → 0 ≤ edgePr T u v ∧ edgePr T u v ≤ 1 := fun u v hu hv huv => edgePr_unit b s hα hu hv huv
  have hdoc : ∀ u v, u < w.length → v < w.length → u ≠ v → 0 ≤ girgProb w x α u v ∧ girgProb w x α u v ≤ 1 := fun u v _ _ _ => girgProb_nonneg s u v
  have hlaw : (graphProb env rng μ (xw w) (xl x) (fin α) fun out => spanned (fun i => (a i).1) out ∈ A) =
      ENNReal.ofReal (independentProb (fun e => edgePr T (a e.1) (a e.2)) A) := by
    unfold graphProb
    rw [h2 (fun es => spanned (fun i => (a i).1) es ∈ A) (fun es fs h => by rw [spanned_perm h])]
    exact coins_spanned honce (fun u v => edgePr_comm u v) hL h01 a A
  rw [hlaw, ENNReal.toReal_ofReal (independentProb_mem (fun e he => ?_) A).1]
  · exact skipped_distance a hdoc (fun u v hu hv huv => b.edgePr_spec s hα hu hv huv) A
  · obtain ⟨i, j⟩ := e
    have hij : i < j := by simpa [pairsOf] using he
    exact h01 _ _ (a i).2 (a j).2 fun h => hij.ne (a.injective (Fin.ext h))

/-- C111, `hypergirgs::generateEdges` with `T > 2^-52` and `2 T ln 99 ≤ R`, in every environment in which it returns, with ideal random numbers: as `C111_girg`. -/
theorem C111_hyper {radii angles : List ℝ} {T R : ℝ} (hin : HypInput radii angles T R) (hT : 1 / 4503599627370496 < T) (hfil : 2 * T * Real.log 99 ≤ R)
    (env : HEnv) (rng : Tree.Rng XR) [MeasurableSpace rng.G] (μ : Measure rng.G) (hid : IdealRng rng μ) (ur : UnitRng rng)
    (hret : env.threads = 1 ∨ ∃ L, HTree.firstParallelLevel XR env.threads = some L ∧ Real.cosh R < hypCosh (R - 1) (Real.pi / 2 ^ (L - 1)) (R - 1) 0)
    {n : ℕ} (hn : 1 ≤ n) (hgens : env.threads ≠ 1 → ∃ L tasks, HTree.firstParallelLevel XR env.threads = some L ∧
      HTree.numTasks L = some tasks ∧ env.threads - 1 + tasks ≤ n) {k : ℕ} (a : Fin k ↪ Fin radii.length) (A : Set (Finset (Fin k × Fin k))) :
    |(hypGraphProb env rng μ hn (xw radii) (xw angles) (fin T) (fin R) fun out => spanned (fun i => (a i).1) out ∈ A).toReal -
        independentProb (fun e => hypPairProb radii angles R T (a e.1) (a e.2)) A| ≤
      ∑ e ∈ pairsOf k with hypPairProb radii angles R T (a e.1) (a e.2) < 1 / 1000000, hypPairProb radii angles R T (a e.1) (a e.2) := by
  have hT0 : 0 < T := lt_trans (by norm_num) hT
  obtain ⟨H, hH⟩ := hconstructed_exists true (XR.fin T) (HypInput.inputOK hin) 1 le_rfl (by norm_num)
  have b := hH.builtX hin
  have hH' := hH.setDebug env.ndebug
  have b' := hH'.builtX hin
  have epr : hedgePr H radii angles R T = hedgePr { H with ndebug := env.ndebug } radii angles R T := rfl
  have hun : (hUnits env { H with ndebug := env.ndebug } (hpair R) (startLevel env.threads)).length ≤ n := by
    rw [length_hUnits]
    by_cases h1 : env.threads = 1
    · rw [if_pos h1]; exact hn
    · rw [if_neg h1]
      have st := hstartOK_XR env
      obtain ⟨L, nt, e1, e2, e3⟩ := hgens h1
      have e8 := st.eq h1
      rw [e1, Option.some.injEq] at e8
      subst e8
      obtain ⟨nt', k1, _, k2, _⟩ := length_hTasks (H := { H with ndebug := env.ndebug }) env st.two st.le
      rw [e2, Option.some.injEq] at k1
      omega
  have hex : ∀ g : Fin n → rng.G, ∃ out, HGenerateEdges env rng (gensOf hn g) (xw radii) (xw angles) (XR.fin T) (XR.fin R) out :=
    fun g => (C44_returns_iff hin env rng ur (gensOf hn g)).2 hret
  choose result hres using hex
  obtain ⟨L, hL, hev⟩ := hresult_event hid ur b' hH' hin hT hfil hn hun result hres
  have honce : EachPairOnce radii.length (L.map Prod.fst) := eachPairOnce_perm (hL.map _) (b'.allCoins_once (List.Perm.refl _))
  have hunit : ∀ u v, u < radii.length → v < radii.length → u ≠ v → 0 ≤ hedgePr H radii angles R T u v ∧ hedgePr H radii angles R T u v ≤ 1 := by
    intro u v hu hv huv
    rcases b.edgePr_spec hin hT0 hu hv huv with h | h
    · rw [h]; exact hypPairProb_bounds u v
    · rw [h.1]; norm_num
  have hset : ∀ Q : List (ℕ × ℕ) → Prop, (∀ es fs, es.Perm fs → (Q es ↔ Q fs)) →
      {g | ∃ out, HGenerateEdges env rng (gensOf hn g) (xw radii) (xw angles) (XR.fin T) (XR.fin R) out ∧ Q out} = {g | Q (result g)} := by
    intro Q hQ
    ext g
    simp only [Set.mem_setOf_eq]
    constructor
    · rintro ⟨out, h1, h2⟩
      exact (hQ _ _ (same_gens_perm hin ur h1 (hres g))).1 h2
    · intro h
      exact ⟨_, hres g, h⟩
  have hLp : ∀ c ∈ L, unit c.2 = hedgePr H radii angles R T c.1.1 c.1.2 := by
    rintro ⟨⟨c, d⟩, q⟩ hm
    have hi := honce.1 _ (List.mem_map.2 ⟨_, hm, rfl⟩)
    simp only at hi
    have e1 := b'.edgePr_eq (hL.mem_iff.1 hm)
    rw [← epr] at e1
    have hb := hunit c d hi.1 hi.2.1 hi.2.2
    rw [e1] at hb
    simp only [e1, unit_eq hb.1 hb.2]
  have hp : ∀ es fs : List (ℕ × ℕ), es.Perm fs → (spanned (fun i => (a i).1) es ∈ A ↔ spanned (fun i => (a i).1) fs ∈ A) := fun es fs h => by
    rw [spanned_perm h]
  have hlaw : (hypGraphProb env rng μ hn (xw radii) (xw angles) (fin T) (fin R) fun out => spanned (fun i => (a i).1) out ∈ A) =
      ENNReal.ofReal (independentProb (fun e => hedgePr H radii angles R T (a e.1) (a e.2)) A) := by
    unfold hypGraphProb
    rw [hset _ hp, hev (fun es => spanned (fun i => (a i).1) es ∈ A) hp]
    exact coins_spanned honce hedgePr_comm hLp hunit a A
  rw [hlaw, ENNReal.toReal_ofReal (independentProb_mem (fun e he => ?_) A).1]
  · exact skipped_distance a (fun u v _ _ _ => hypPairProb_bounds u v) (fun u v hu hv huv => b.edgePr_spec hin hT0 hu hv huv) A
  · obtain ⟨i, j⟩ := e
    have hij : i < j := by simpa [pairsOf] using he
    exact hunit _ _ (a i).2 (a j).2 fun h => hij.ne (a.injective (Fin.ext h))

theorem pairsOf_card (k : ℕ) : ((pairsOf k).card : ℝ) + (pairsOf k).card = k * (k - 1) := by
  have h1 : (pairsOf k).card = ((Finset.univ : Finset (Fin k × Fin k)).filter fun e => e.2 < e.1).card := by
    unfold pairsOf
    refine Finset.card_bij (fun e _ => e.swap) ?_ ?_ ?_
    · rintro ⟨i, j⟩ h; simpa using h
    · rintro ⟨i, j⟩ _ ⟨i', j'⟩ _ h; simpa [and_comm] using h
    · rintro ⟨i, j⟩ h; exact ⟨(j, i), by simpa using h, rfl⟩
  have h2 := Finset.offDiag_card (Finset.univ : Finset (Fin k))
  have h3 : (Finset.univ : Finset (Fin k)).offDiag = pairsOf k ∪ (Finset.univ : Finset (Fin k × Fin k)).filter fun e => e.2 < e.1 := by
    ext ⟨i, j⟩
    simp [pairsOf, lt_or_lt_iff_ne]
  have h4 : Disjoint (pairsOf k) ((Finset.univ : Finset (Fin k × Fin k)).filter fun e => e.2 < e.1) := by
    rw [Finset.disjoint_left]
    rintro ⟨i, j⟩ h5 h6
    simp only [pairsOf, Finset.mem_filter, Finset.mem_univ, true_and] at h5 h6
    exact lt_asymm h5 h6
  rw [h3, Finset.card_union_of_disjoint h4, ← h1, Finset.card_univ, Fintype.card_fin] at h2
  have h5 : (pairsOf k).card + (pairsOf k).card + k = k * k := by
    have : k ≤ k * k := Nat.le_mul_self k
    omega
  have h6 : (((pairsOf k).card + (pairsOf k).card + k : ℕ) : ℝ) = ((k * k : ℕ) : ℝ) := by rw [h5]
  push_cast at h6
  linarith

section Positions
variable {Ω : Type} [MeasurableSpace Ω] {P : Measure Ω} {omp : Omp} {eng : Engine XR} [MeasurableSpace eng.G] {μ : Measure eng.G}
  {σ : ℤ → Ω → eng.G} {device : ℕ → Ω → eng.G} {n : ℕ} {seed : ℤ} {parallel : Bool} {D : ℕ} {w : List ℝ} {pos : Ω → List (List XR)}
  {rng : Rng XR} [MeasurableSpace rng.G] {ν : Measure rng.G} {k : ℕ}
  {Ω' : Type} [MeasurableSpace Ω'] {P' : Measure Ω'} {omp' : Omp} {eng' : Engine XR} [MeasurableSpace eng'.G] {μ' : Measure eng'.G}
  {σ' : ℤ → Ω' → eng'.G} {device' : ℕ → Ω' → eng'.G} {n' : ℕ} {seed' : ℤ} {parallel' : Bool} {w' : List ℝ} {pos' : Ω' → List (List XR)}
  {rng' : Rng XR} [MeasurableSpace rng'.G] {ν' : Measure rng'.G}

/-- the probability of a property of the graph spanned by some nodes, for random positions -/
theorem alpha_pattern (he : IdealEngine eng μ)
    (hs : (0 ≤ seed ∧ seed + nodeThreads omp n parallel ≤ 2147483648 ∧ IndependentStates P μ σ) ∨ (seed < 0 ∧ IndependentStates P μ device))
    (hpos : ∀ ω, GeneratePositions omp (withSeeds eng fun s => σ s ω) (fun k => device k ω) n D seed parallel (pos ω))
    (hr : IdealRng rng ν) (env : Env) (hw : SupportedWeights D w) (hn : w.length = n) {α : ℝ} (hα : 0 < α) (a : Fin k ↪ Fin w.length)
    (A : Set (Finset (Fin k × Fin k))) {c : Fin k → Fin k → ℝ} (hc : ∀ i j, i ≠ j → c i j = w[a i] * w[a j] / w.sum) :
    upperMean P (fun ω => graphProb env rng ν (xw w) (pos ω) (fin α) fun out => spanned (fun i => (a i).1) out ∈ A) ≤
      (∫⁻ y, ENNReal.ofReal (independentProb (fun e => connProb D α (c e.1 e.2) (torusDist (y e.1) (y e.2))) A) ∂Measure.pi fun _ : Fin k => unitCube D) +
        ENNReal.ofReal ((pairsOf k).card * (1 / 1000000)) ∧
    ∫⁻ y, ENNReal.ofReal (independentProb (fun e => connProb D α (c e.1 e.2) (torusDist (y e.1) (y e.2))) A) ∂(Measure.pi fun _ : Fin k => unitCube D) ≤
      (∫⁻ ω, graphProb env rng ν (xw w) (pos ω) (fin α) (fun out => spanned (fun i => (a i).1) out ∈ A) ∂P) +
        ENNReal.ofReal ((pairsOf k).card * (1 / 1000000)) := by
  classical
  subst hn
  obtain ⟨X, hX, hlaw, hXp⟩ := positions_random he hs hpos
  have sup : ∀ ω, SupportedInput D w (List.ofFn (X ω)) := fun ω => hw _ (by simp) (by
    intro p hp
    obtain ⟨i, rfl⟩ := List.mem_ofFn.1 hp
    exact (hXp ω).2 i)
  replace hlaw : P.map X = Measure.pi fun _ => unitCube D := hlaw
  have hP : P Set.univ = 1 := by
    have h1 : (P.map X) Set.univ = 1 := by rw [hlaw]; exact measure_univ
    rwa [Measure.map_apply hX MeasurableSet.univ, Set.preimage_univ] at h1
  haveI : IsProbabilityMeasure P := ⟨hP⟩
  obtain ⟨Q, hQ⟩ : ∃ Q : (Fin k → Fin D → ℝ) → ℝ, Q = fun y => independentProb (fun e => connProb D α (c e.1 e.2) (torusDist (y e.1) (y e.2))) A := ⟨_, rfl⟩
  have hm : Measurable Q := by
    have hconn : ∀ e : Fin k × Fin k, Measurable fun y : Fin k → Fin D → ℝ => connProb D α (c e.1 e.2) (torusDist (y e.1) (y e.2)) := fun e =>
      (connProb_measurable D α _).comp (torusDist_measurable.comp (g := fun z : (Fin D → ℝ) × (Fin D → ℝ) => torusDist z.1 z.2)
        (f := fun y : Fin k → Fin D → ℝ => (y e.1, y e.2)) ((measurable_pi_apply e.1).prodMk (measurable_pi_apply e.2)))
    rw [hQ]
    unfold independentProb independentLaw
    refine Finset.measurable_sum _ fun g _ => Finset.measurable_prod _ fun e _ => ?_
    split_ifs
    · exact hconn e
    · exact measurable_const.sub (hconn e)
  have hmap : Measurable fun (x : Fin w.length → Fin D → ℝ) (i : Fin k) => x (a i) := measurable_pi_lambda _ fun i => measurable_pi_apply (a i)
  have hmean : ∫⁻ y, ENNReal.ofReal (Q y) ∂(Measure.pi fun _ : Fin k => unitCube D) = ∫⁻ ω, ENNReal.ofReal (Q fun i => X ω (a i)) ∂P := by
    rw [← pi_comp_law a, ← hlaw, Measure.map_map hmap hX, lintegral_map hm.ennreal_ofReal (hmap.comp hX)]
    rfl
  have hmω : Measurable fun ω => ENNReal.ofReal (Q fun i => X ω (a i)) := hm.ennreal_ofReal.comp (hmap.comp hX)
  have hd : ∀ ω, |(graphProb env rng ν (xw w) (pos ω) (fin α) fun out => spanned (fun i => (a i).1) out ∈ A).toReal - Q fun i => X ω (a i)| ≤
      (pairsOf k).card * (1 / 1000000) := by
    intro ω
    have h1 := C111_girg (sup ω) hα env rng ν hr a A
    rw [← (hXp ω).1] at h1
    have h2 : (independentProb (fun e => girgProb w (List.ofFn (X ω)) α (a e.1) (a e.2)) A) = Q fun i => X ω (a i) := by
      rw [hQ]
      unfold independentProb independentLaw
      refine Finset.sum_congr rfl fun g _ => Finset.prod_congr rfl ?_
      rintro ⟨i, j⟩ he
      have hij : i < j := by simpa [pairsOf] using he
      have h3 : girgProb w (List.ofFn (X ω)) α (a i) (a j) = connProb D α (c i j) (torusDist (X ω (a i)) (X ω (a j))) := by
        rw [hc i j hij.ne]; exact girgProb_ofFn rfl _ _ _ _
      simp only [h3]
    rw [h2] at h1
    refine h1.trans ((Finset.sum_le_sum (g := fun _ => (1 : ℝ) / 1000000) fun e he => (Finset.mem_filter.1 he).2.le).trans ?_)
    rw [Finset.sum_const, nsmul_eq_mul]
    exact mul_le_mul_of_nonneg_right (by exact_mod_cast Finset.card_le_card (Finset.filter_subset _ _)) (by norm_num)
  have hfin : ∀ ω, (graphProb env rng ν (xw w) (pos ω) (fin α) fun out => spanned (fun i => (a i).1) out ∈ A) ≠ ⊤ := fun ω => by
    haveI := hr.prob
    unfold graphProb
    exact measure_ne_top _ _
  have hδ : (0 : ℝ) ≤ (pairsOf k).card * (1 / 1000000) := by positivity
  have hone : ∀ r : ℝ≥0∞, ∫⁻ _, r ∂P = r := fun r => by rw [lintegral_const, hP, mul_one]
  have hQn : ∀ ω, 0 ≤ Q fun i => X ω (a i) := fun ω => by
    rw [hQ]
    refine (independentProb_mem (fun e he => ?_) A).1
    obtain ⟨i, j⟩ := e
    have hij : i < j := by simpa [pairsOf] using he
    have h1 := girgProb_nonneg (a := α) (sup ω) (a i) (a j)
    have h3 : girgProb w (List.ofFn (X ω)) α (a i) (a j) = connProb D α (c i j) (torusDist (X ω (a i)) (X ω (a j))) := by
      rw [hc i j hij.ne]; exact girgProb_ofFn rfl _ _ _ _
    rw [h3] at h1
    exact h1
  change _ ≤ (∫⁻ y, ENNReal.ofReal _ ∂_) + _ ∧ _
  have hQ' : ∀ y, independentProb (fun e => connProb D α (c e.1 e.2) (torusDist (y e.1) (y e.2))) A = Q y := fun y => by rw [hQ]
  simp only [hQ', hmean]
  constructor
  · refine (upperMean_le (F := fun ω => ENNReal.ofReal (Q fun i => X ω (a i)) + ENNReal.ofReal ((pairsOf k).card * (1 / 1000000))) (hmω.add measurable_const) fun ω => ?_).trans ?_
    · rw [← ENNReal.ofReal_toReal (hfin ω), ← ENNReal.ofReal_add (hQn ω) hδ]
      exact ENNReal.ofReal_le_ofReal (by have := (abs_le.1 (hd ω)).2; linarith)
    · rw [lintegral_add_right _ measurable_const, hone]
  · rw [← hone (ENNReal.ofReal ((pairsOf k).card * (1 / 1000000))), ← lintegral_add_right _ measurable_const]
    refine lintegral_mono fun ω => ?_
    rw [← ENNReal.ofReal_toReal (hfin ω), ← ENNReal.ofReal_add ENNReal.toReal_nonneg hδ]
    exact ENNReal.ofReal_le_ofReal (by have := (abs_le.1 (hd ω)).1; linarith)

/-- C110, finite `alpha`: as `C110_threshold`, with ideal random numbers that are independent of the positions.  Choose `k` nodes of the first graph and `k` nodes of the
second with the same numbers `w_u w_v / W`.  For each property `A` of graphs on `k` nodes, the probabilities that the spanned graphs have it differ by at most
`k (k - 1) / 10^6` (upper mean of the first and lower mean of the second over the positions; the two programs can be exchanged). -/
theorem C110_alpha (he : IdealEngine eng μ)
    (hs : (0 ≤ seed ∧ seed + nodeThreads omp n parallel ≤ 2147483648 ∧ IndependentStates P μ σ) ∨ (seed < 0 ∧ IndependentStates P μ device))
    (hpos : ∀ ω, GeneratePositions omp (withSeeds eng fun s => σ s ω) (fun k => device k ω) n D seed parallel (pos ω))
    (hr : IdealRng rng ν) (env : Env) (hw : SupportedWeights D w) (hn : w.length = n)
    (he' : IdealEngine eng' μ')
    (hs' : (0 ≤ seed' ∧ seed' + nodeThreads omp' n' parallel' ≤ 2147483648 ∧ IndependentStates P' μ' σ') ∨ (seed' < 0 ∧ IndependentStates P' μ' device'))
    (hpos' : ∀ ω, GeneratePositions omp' (withSeeds eng' fun s => σ' s ω) (fun k => device' k ω) n' D seed' parallel' (pos' ω))
    (hr' : IdealRng rng' ν') (env' : Env) (hw' : SupportedWeights D w') (hn' : w'.length = n') {α : ℝ} (hα : 0 < α)
    (a : Fin k ↪ Fin w.length) (a' : Fin k ↪ Fin w'.length) (heq : ∀ i j, i ≠ j → w'[a' i] * w'[a' j] / w'.sum = w[a i] * w[a j] / w.sum)
    (A : Set (Finset (Fin k × Fin k))) :
    upperMean P (fun ω => graphProb env rng ν (xw w) (pos ω) (fin α) fun out => spanned (fun i => (a i).1) out ∈ A) ≤
      (∫⁻ ω, graphProb env' rng' ν' (xw w') (pos' ω) (fin α) (fun out => spanned (fun i => (a' i).1) out ∈ A) ∂P') +
        ENNReal.ofReal (k * (k - 1) / 1000000) := by
  have h1 := (alpha_pattern he hs hpos hr env hw hn hα a A fun i j _ => rfl).1
  have h2 := (alpha_pattern he' hs' hpos' hr' env' hw' hn' hα a' A fun i j hij => (heq i j hij).symm).2
  have hδ : (0 : ℝ) ≤ (pairsOf k).card * (1 / 1000000) := by positivity
  have hcard : ((pairsOf k).card : ℝ) * (1 / 1000000) + (pairsOf k).card * (1 / 1000000) = k * (k - 1) / 1000000 := by
    have := pairsOf_card k
    linarith
  rw [← hcard, ENNReal.ofReal_add hδ hδ, ← add_assoc]
  exact h1.trans (add_le_add_left h2 _)

end Positions

section Hyperbolic
open HypDeg Radius
variable {Ω : Type} [MeasurableSpace Ω] {P : Measure Ω} {omp : Omp} {eng : Engine XR} [MeasurableSpace eng.G] {μ : Measure eng.G}
  {σ : ℤ → Ω → eng.G} {device : ℕ → Ω → eng.G} {n k : ℕ} {α R T : ℝ} {radii angles : Ω → List XR} {rng : Tree.Rng XR} [MeasurableSpace rng.G] {ν : Measure rng.G}
  {Ω' : Type} [MeasurableSpace Ω'] {P' : Measure Ω'} {omp' : Omp} {eng' : Engine XR} [MeasurableSpace eng'.G] {μ' : Measure eng'.G}
  {σ' : ℤ → Ω' → eng'.G} {device' : ℕ → Ω' → eng'.G} {n' : ℕ} {radii' angles' : Ω' → List XR} {rng' : Tree.Rng XR} [MeasurableSpace rng'.G] {ν' : Measure rng'.G}

/-- the probability of a property of the graph spanned by some nodes, for random points -/
theorem temperature_pattern (hs : SampledPoints P omp eng μ σ device n α R radii angles) (hn : 1 ≤ n) (h31 : n < 2147483648)
    (hdisk : (2 / 3 ≤ R ∧ R ≤ 1) ∨ (4 / 3 ≤ R ∧ R ≤ 165 / 4)) (hα : 0 < α) (hαR : 1 ≤ α * R)
    (hT : 1 / 4503599627370496 < T) (hfil : 2 * T * Real.log 99 ≤ R) (env : HEnv) (hr : IdealRng rng ν) (hur : UnitRng rng)
    (hret : env.threads = 1 ∨ ∃ L, HTree.firstParallelLevel XR env.threads = some L ∧
      Real.cosh R < hypCosh (R - 1) (Real.pi / 2 ^ (L - 1)) (R - 1) 0) {g : ℕ} (hg : 1 ≤ g)
    (hgens : env.threads ≠ 1 → ∃ L tasks, HTree.firstParallelLevel XR env.threads = some L ∧
      HTree.numTasks L = some tasks ∧ env.threads - 1 + tasks ≤ g) (a : Fin k ↪ Fin n) (A : Set (Finset (Fin k × Fin k))) :
    upperMean P (fun ω => hypGraphProb env rng ν hg (radii ω) (angles ω) (fin T) (fin R) fun out => spanned (fun i => (a i).1) out ∈ A) ≤
      (∫⁻ y, ENNReal.ofReal (independentProb (fun e => conn T (Real.exp ((hypDist (y e.1).1 (y e.1).2 (y e.2).1 (y e.2).2 - R) / 2))) A)
        ∂Measure.pi fun _ : Fin k => pointLaw α R) + ENNReal.ofReal ((pairsOf k).card * (1 / 1000000)) ∧
    ∫⁻ y, ENNReal.ofReal (independentProb (fun e => conn T (Real.exp ((hypDist (y e.1).1 (y e.1).2 (y e.2).1 (y e.2).2 - R) / 2))) A)
        ∂(Measure.pi fun _ : Fin k => pointLaw α R) ≤
      (∫⁻ ω, hypGraphProb env rng ν hg (radii ω) (angles ω) (fin T) (fin R) (fun out => spanned (fun i => (a i).1) out ∈ A) ∂P) +
        ENNReal.ofReal ((pairsOf k).card * (1 / 1000000)) := by
  classical
  have hR : 0 < R := by rcases hdisk with h | h <;> linarith
  have hT0 : 0 < T := lt_trans (by norm_num) hT
  obtain ⟨r, φ, hp, ho⟩ := sampled_random hs hn hα hR hαR
  haveI := radialLaw_prob hαR
  haveI : IsProbabilityMeasure (pointLaw α R) := by unfold pointLaw; infer_instance
  obtain ⟨X, hXd⟩ : ∃ X : Ω → Fin n → ℝ × ℝ, X = fun ω i => (r i ω, φ i ω) := ⟨_, rfl⟩
  have hX : Measurable X := by rw [hXd]; exact measurable_pi_lambda _ fun i => (hp.measR i).prodMk (hp.measA i)
  have hlaw : P.map X = Measure.pi fun _ => pointLaw α R := by rw [hXd]; exact hp.joint
  have hP : P Set.univ = 1 := by
    have h1 : (P.map X) Set.univ = 1 := by rw [hlaw]; exact measure_univ
    rwa [Measure.map_apply hX MeasurableSet.univ, Set.preimage_univ] at h1
  haveI : IsProbabilityMeasure P := ⟨hP⟩
  obtain ⟨Q, hQ⟩ : ∃ Q : (Fin k → ℝ × ℝ) → ℝ, Q = fun y =>
    independentProb (fun e => conn T (Real.exp ((hypDist (y e.1).1 (y e.1).2 (y e.2).1 (y e.2).2 - R) / 2))) A := ⟨_, rfl⟩
  have hm : Measurable Q := by
    have hconn : ∀ e : Fin k × Fin k, Measurable fun y : Fin k → ℝ × ℝ => conn T (Real.exp ((hypDist (y e.1).1 (y e.1).2 (y e.2).1 (y e.2).2 - R) / 2)) := fun e =>
      ((conn_measurable T).comp ((measurable_hypDist.sub_const R).div_const 2).exp).comp
        (g := fun z : (ℝ × ℝ) × ℝ × ℝ => conn T (Real.exp ((hypDist z.1.1 z.1.2 z.2.1 z.2.2 - R) / 2)))
        (f := fun y : Fin k → ℝ × ℝ => (y e.1, y e.2)) ((measurable_pi_apply e.1).prodMk (measurable_pi_apply e.2))
    rw [hQ]
    unfold independentProb independentLaw
    refine Finset.measurable_sum _ fun g _ => Finset.measurable_prod _ fun e _ => ?_
    split_ifs
    · exact hconn e
    · exact measurable_const.sub (hconn e)
  have hmap : Measurable fun (x : Fin n → ℝ × ℝ) (i : Fin k) => x (a i) := measurable_pi_lambda _ fun i => measurable_pi_apply (a i)
  have hmean : ∫⁻ y, ENNReal.ofReal (Q y) ∂(Measure.pi fun _ : Fin k => pointLaw α R) = ∫⁻ ω, ENNReal.ofReal (Q fun i => X ω (a i)) ∂P := by
    rw [← pi_comp_law a, ← hlaw, Measure.map_map hmap hX, lintegral_map hm.ennreal_ofReal (hmap.comp hX)]
    rfl
  have hmω : Measurable fun ω => ENNReal.ofReal (Q fun i => X ω (a i)) := hm.ennreal_ofReal.comp (hmap.comp hX)
  have hd : ∀ ω, |(hypGraphProb env rng ν hg (radii ω) (angles ω) (fin T) (fin R) fun out => spanned (fun i => (a i).1) out ∈ A).toReal - Q fun i => X ω (a i)| ≤
      (pairsOf k).card * (1 / 1000000) := by
    intro ω
    have hin := random_input hp hn h31 hT0.le hdisk ω
    obtain ⟨b, hb⟩ : ∃ b : Fin k ↪ Fin (List.ofFn fun i => r i ω).length, ∀ i, (b i).1 = (a i).1 :=
      ⟨a.trans (finCongr List.length_ofFn.symm).toEmbedding, fun i => rfl⟩
    have h1 := C111_hyper hin hT hfil env rng ν hr hur hret hg hgens b A
    have h2 : (independentProb (fun e => hypPairProb (List.ofFn fun i => r i ω) (List.ofFn fun i => φ i ω) R T (b e.1) (b e.2)) A) = Q fun i => X ω (a i) := by
      have h3 : ∀ i j, hypPairProb (List.ofFn fun i => r i ω) (List.ofFn fun i => φ i ω) R T (a i) (a j) =
          conn T (Real.exp ((hypDist (X ω (a i)).1 (X ω (a i)).2 (X ω (a j)).1 (X ω (a j)).2 - R) / 2)) := fun i j => by
        rw [prob_gap hT0 ω, hXd]
        rfl
      rw [hQ]
      simp only [hb, h3]
    rw [h2, ← xw_ofFn, ← xw_ofFn, ← (ho ω).1, ← (ho ω).2] at h1
    simp only [hb] at h1
    refine h1.trans ((Finset.sum_le_sum (g := fun _ => (1 : ℝ) / 1000000) fun e he => (Finset.mem_filter.1 he).2.le).trans ?_)
    rw [Finset.sum_const, nsmul_eq_mul]
    exact mul_le_mul_of_nonneg_right (by exact_mod_cast Finset.card_le_card (Finset.filter_subset _ _)) (by norm_num)
  have hfin : ∀ ω, (hypGraphProb env rng ν hg (radii ω) (angles ω) (fin T) (fin R) fun out => spanned (fun i => (a i).1) out ∈ A) ≠ ⊤ := fun ω => by
    haveI := hr.prob
    unfold hypGraphProb
    exact measure_ne_top _ _
  have hδ : (0 : ℝ) ≤ (pairsOf k).card * (1 / 1000000) := by positivity
  have hone : ∀ r : ℝ≥0∞, ∫⁻ _, r ∂P = r := fun r => by rw [lintegral_const, hP, mul_one]
  have hQn : ∀ ω, 0 ≤ Q fun i => X ω (a i) := fun ω => by
    rw [hQ]
    exact (independentProb_mem (fun e _ => ⟨conn_nonneg' (Real.exp_pos _).le, conn_le_one (Real.exp_pos _).le⟩) A).1
  have hQ' : ∀ y, independentProb (fun e => conn T (Real.exp ((hypDist (y e.1).1 (y e.1).2 (y e.2).1 (y e.2).2 - R) / 2))) A = Q y := fun y => by rw [hQ]
  simp only [hQ', hmean]
  constructor
  · refine (upperMean_le (F := fun ω => ENNReal.ofReal (Q fun i => X ω (a i)) + ENNReal.ofReal ((pairsOf k).card * (1 / 1000000))) (hmω.add measurable_const) fun ω => ?_).trans ?_
    · rw [← ENNReal.ofReal_toReal (hfin ω), ← ENNReal.ofReal_add (hQn ω) hδ]
      exact ENNReal.ofReal_le_ofReal (by have := (abs_le.1 (hd ω)).2; linarith)
    · rw [lintegral_add_right _ measurable_const, hone]
  · rw [← hone (ENNReal.ofReal ((pairsOf k).card * (1 / 1000000))), ← lintegral_add_right _ measurable_const]
    refine lintegral_mono fun ω => ?_
    rw [← ENNReal.ofReal_toReal (hfin ω), ← ENNReal.ofReal_add ENNReal.toReal_nonneg hδ]
    exact ENNReal.ofReal_le_ofReal (by have := (abs_le.1 (hd ω)).1; linarith)

/-- C110, hyperbolic random graphs, `T > 2^-52` with `2 T ln 99 ≤ R`: as `C110_hyper`, in environments in which the calls return (C44), with ideal random numbers that are
independent of the points.  For each property `A` of graphs on `k` nodes, the probabilities that the graphs spanned by `k` nodes of the first and by `k` nodes of the second
have it differ by at most `k (k - 1) / 10^6`. -/
theorem C110_temperature (hs : SampledPoints P omp eng μ σ device n α R radii angles) (hn : 1 ≤ n) (h31 : n < 2147483648)
    (hs' : SampledPoints P' omp' eng' μ' σ' device' n' α R radii' angles') (hn' : 1 ≤ n') (h31' : n' < 2147483648)
    (hdisk : (2 / 3 ≤ R ∧ R ≤ 1) ∨ (4 / 3 ≤ R ∧ R ≤ 165 / 4)) (hα : 0 < α) (hαR : 1 ≤ α * R)
    (hT : 1 / 4503599627370496 < T) (hfil : 2 * T * Real.log 99 ≤ R) (env : HEnv) (hr : IdealRng rng ν) (hur : UnitRng rng)
    (hret : env.threads = 1 ∨ ∃ L, HTree.firstParallelLevel XR env.threads = some L ∧
      Real.cosh R < hypCosh (R - 1) (Real.pi / 2 ^ (L - 1)) (R - 1) 0) {g : ℕ} (hg : 1 ≤ g)
    (hgens : env.threads ≠ 1 → ∃ L tasks, HTree.firstParallelLevel XR env.threads = some L ∧
      HTree.numTasks L = some tasks ∧ env.threads - 1 + tasks ≤ g)
    (env' : HEnv) (hr' : IdealRng rng' ν') (hur' : UnitRng rng')
    (hret' : env'.threads = 1 ∨ ∃ L, HTree.firstParallelLevel XR env'.threads = some L ∧
      Real.cosh R < hypCosh (R - 1) (Real.pi / 2 ^ (L - 1)) (R - 1) 0) {g' : ℕ} (hg' : 1 ≤ g')
    (hgens' : env'.threads ≠ 1 → ∃ L tasks, HTree.firstParallelLevel XR env'.threads = some L ∧
      HTree.numTasks L = some tasks ∧ env'.threads - 1 + tasks ≤ g')
    (a : Fin k ↪ Fin n) (a' : Fin k ↪ Fin n') (A : Set (Finset (Fin k × Fin k))) :
    upperMean P (fun ω => hypGraphProb env rng ν hg (radii ω) (angles ω) (fin T) (fin R) fun out => spanned (fun i => (a i).1) out ∈ A) ≤
      (∫⁻ ω, hypGraphProb env' rng' ν' hg' (radii' ω) (angles' ω) (fin T) (fin R) (fun out => spanned (fun i => (a' i).1) out ∈ A) ∂P') +
        ENNReal.ofReal (k * (k - 1) / 1000000) := by
  have h1 := (temperature_pattern hs hn h31 hdisk hα hαR hT hfil env hr hur hret hg hgens a A).1
  have h2 := (temperature_pattern hs' hn' h31' hdisk hα hαR hT hfil env' hr' hur' hret' hg' hgens' a' A).2
  have hδ : (0 : ℝ) ≤ (pairsOf k).card * (1 / 1000000) := by positivity
  have hcard : ((pairsOf k).card : ℝ) * (1 / 1000000) + (pairsOf k).card * (1 / 1000000) = k * (k - 1) / 1000000 := by
    have := pairsOf_card k
    linarith
  rw [← hcard, ENNReal.ofReal_add hδ hδ, ← add_assoc]
  exact h1.trans (add_le_add_left h2 _)

end Hyperbolic

/-! ### examples -/

/-- `C111_girg`: for the three example nodes and `alpha = 2`, the documented connection probabilities are 16/49, 1 and 1.  None is below `10^-6`, so that the law of the
graph is exact: it is a triangle with probability 16/49. -/
example : (graphProb (exampleEnv true) idealRng seqMeasure (xw [1, 1, 5]) (xl [![0, 0], ![1 / 2, 1 / 4], ![7 / 8, 1 / 3]]) (fin 2)
    fun out => spanned (fun i : Fin 3 => i.1) out = pairsOf 3).toReal = 16 / 49 := by
  classical
  obtain ⟨p, hp⟩ : ∃ p : ℕ → ℕ → ℝ, p = girgProb [1, 1, 5] [![0, 0], ![1 / 2, 1 / 4], ![7 / 8, 1 / 3]] 2 := ⟨_, rfl⟩
  have d02 : torusDist ![(0 : ℝ), 0] ![7 / 8, 1 / 3] = 1 / 3 := by
    norm_num [torusDist, circleDist, List.finRange_succ, List.finRange_zero]
  have d01 : torusDist ![(0 : ℝ), 0] ![1 / 2, 1 / 4] = 1 / 2 := by
    norm_num [torusDist, circleDist, List.finRange_succ, List.finRange_zero]
  have d12 : torusDist ![(1 / 2 : ℝ), 1 / 4] ![7 / 8, 1 / 3] = 3 / 8 := by
    norm_num [torusDist, circleDist, List.finRange_succ, List.finRange_zero]
  have p02 : p 0 2 = 1 := by
    rw [hp]
    show (if torusDist ![(0 : ℝ), 0] ![7 / 8, 1 / 3] = 0 then (1 : ℝ) else _) = 1
    rw [d02, if_neg (by norm_num)]
    norm_num
  have p12 : p 1 2 = 1 := by
    rw [hp]
    show (if torusDist ![(1 / 2 : ℝ), 1 / 4] ![7 / 8, 1 / 3] = 0 then (1 : ℝ) else min 1 ((1 * 5 / (1 + (1 + (5 + 0))) / torusDist ![(1 / 2 : ℝ), 1 / 4] ![7 / 8, 1 / 3] ^ 2) ^ (2 : ℝ))) = _
    rw [d12, if_neg (by norm_num)]
    norm_num
  have p01 : p 0 1 = 16 / 49 := by
    rw [hp]
    show (if torusDist ![(0 : ℝ), 0] ![1 / 2, 1 / 4] = 0 then (1 : ℝ) else min 1 ((1 * 1 / (1 + (1 + (5 + 0))) / torusDist ![(0 : ℝ), 0] ![1 / 2, 1 / 4] ^ 2) ^ (2 : ℝ))) = _
    rw [d01, if_neg (by norm_num)]
    norm_num
  have h := C111_girg exampleInput (α := 2) (by norm_num) (exampleEnv true) idealRng seqMeasure idealRng_ideal (Function.Embedding.refl (Fin 3)) {pairsOf 3}
  rw [← hp] at h
  have hpairs : pairsOf 3 = {(0, 1), (0, 2), (1, 2)} := by decide
  have hsum : ∑ e ∈ pairsOf 3 with p (e.1 : Fin 3) (e.2 : Fin 3) < 1 / 1000000, p (e.1 : Fin 3) (e.2 : Fin 3) = 0 := by
    rw [Finset.sum_filter, hpairs, Finset.sum_insert (by decide), Finset.sum_insert (by decide), Finset.sum_singleton]
    show (if p 0 1 < _ then p 0 1 else 0) + ((if p 0 2 < _ then p 0 2 else 0) + if p 1 2 < _ then p 1 2 else 0) = 0
    rw [p01, p02, p12]
    norm_num
  have hind : independentProb (fun e : Fin 3 × Fin 3 => p e.1 e.2) {pairsOf 3} = 16 / 49 := by
    unfold independentProb independentLaw
    simp only [Set.mem_singleton_iff]
    rw [Finset.filter_eq', if_pos (Finset.mem_powerset.2 subset_rfl), Finset.sum_singleton,
      Finset.prod_congr rfl (fun e he => if_pos he), hpairs, Finset.prod_insert (by decide), Finset.prod_insert (by decide), Finset.prod_singleton]
    show p 0 1 * (p 0 2 * p 1 2) = _
    rw [p01, p02, p12]
    norm_num
  have h2 := abs_nonpos_iff.1 (h.trans hsum.le)
  rw [sub_eq_zero] at h2
  exact h2.trans hind

/-- `C111_hyper`: for the first two of the four example points, the probability of an edge is exactly the documented one -/
example : (hypGraphProb (exampleHEnv true 1 (by norm_num) (by norm_num)) idealRng seqMeasure le_rfl (xw [1, 2, 9 / 2, 5])
      (xw [0, 1, 3 / 2, 4]) (XR.fin (1 / 2)) (XR.fin 6) fun out => spanned (fun i : Fin 2 => i.1) out = pairsOf 2).toReal =
    hypPairProb [1, 2, 9 / 2, 5] [0, 1, 3 / 2, 4] 6 (1 / 2) 0 1 := by
  classical
  have hlog : Real.log 99 ≤ 6 := by
    rw [Real.log_le_iff_le_exp (by norm_num), show (6 : ℝ) = ((6 : ℕ) : ℝ) * 1 by norm_num, Real.exp_nat_mul]
    calc (99 : ℝ) ≤ 2.7 ^ 6 := by norm_num
      _ ≤ Real.exp 1 ^ 6 := pow_le_pow_left₀ (by norm_num) (by have := Real.exp_one_gt_d9; linarith) 6
  have hd : hypDist 1 0 2 1 < 6 := by
    rw [hypDist_lt_iff (by norm_num) (by norm_num) (by norm_num), hc_eq']
    have hc1 : -1 ≤ Real.cos (0 - 1) := Real.neg_one_le_cos _
    have h1 : Real.cosh (1 : ℝ) * Real.cosh 2 - Real.sinh 1 * Real.sinh 2 * Real.cos (0 - 1) ≤ Real.cosh (1 + 2) := by
      rw [Real.cosh_add]
      have : 0 < Real.sinh (1 : ℝ) * Real.sinh 2 := mul_pos (Real.sinh_pos_iff.2 (by norm_num)) (Real.sinh_pos_iff.2 (by norm_num))
      nlinarith
    refine lt_of_le_of_lt h1 (Real.cosh_lt_cosh.2 ?_)
    rw [abs_of_pos (by norm_num), abs_of_pos (by norm_num)]
    norm_num
  obtain ⟨p, hp⟩ : ∃ p : ℕ → ℕ → ℝ, p = hypPairProb [1, 2, 9 / 2, 5] [0, 1, 3 / 2, 4] 6 (1 / 2) := ⟨_, rfl⟩
  have hp2 : (1 : ℝ) / 2 < p 0 1 := by
    rw [hp]
    show (1 : ℝ) / 2 < hypProb (hypDist 1 0 2 1) 6 (1 / 2)
    unfold hypProb
    have : Real.exp ((hypDist 1 0 2 1 - 6) / (2 * (1 / 2))) < 1 := by
      rw [Real.exp_lt_one_iff]; linarith
    rw [lt_div_iff₀ (by positivity)]
    linarith
  have h := C111_hyper (exampleHyp (T := 1 / 2) (by norm_num)) (by norm_num) (by linarith) (exampleHEnv true 1 (by norm_num) (by norm_num)) idealRng seqMeasure
    idealRng_ideal idealRng_unit (Or.inl rfl) le_rfl (fun h => absurd rfl h) (Fin.castLEEmb (show 2 ≤ 4 by norm_num)) {pairsOf 2}
  rw [← hp] at h ⊢
  have hpairs : pairsOf 2 = {(0, 1)} := by decide
  have hsum : ∑ e ∈ pairsOf 2 with p (e.1 : Fin 2) (e.2 : Fin 2) < 1 / 1000000, p (e.1 : Fin 2) (e.2 : Fin 2) = 0 := by
    rw [Finset.sum_filter, hpairs, Finset.sum_singleton]
    show (if p 0 1 < _ then p 0 1 else 0) = 0
    rw [if_neg (by linarith)]
  have hind : independentProb (fun e : Fin 2 × Fin 2 => p e.1 e.2) {pairsOf 2} = p 0 1 := by
    unfold independentProb independentLaw
    simp only [Set.mem_singleton_iff]
    rw [Finset.filter_eq', if_pos (Finset.mem_powerset.2 subset_rfl), Finset.sum_singleton, Finset.prod_congr rfl (fun e he => if_pos he), hpairs, Finset.prod_singleton]
    rfl
  have h2 := abs_nonpos_iff.1 (h.trans hsum.le)
  rw [sub_eq_zero] at h2
  exact h2.trans hind

/-- `C110_alpha` at work: as the example of `C110_threshold`, with `alpha = 2`: the probabilities that nodes 0, 1, 2 of the first graph and nodes 999, 5, 6 of the second
form a triangle differ by at most `6/10^6` -/
example (n : ℕ) (hn : n = 1000) : ∃ (P : Measure (ℤ → ℕ → ℝ)) (pos pos' : (ℤ → ℕ → ℝ) → List (List XR)),
    IsProbabilityMeasure P ∧
    (∀ ω, GeneratePositions exampleOmp (withSeeds streamEngine fun s => ω s) (fun _ => (fun _ => 0)) n 5 12 false (pos ω)) ∧
    (∀ ω, GeneratePositions exampleOmp (withSeeds streamEngine fun s => ω s) (fun _ => (fun _ => 0)) n 5 130 true (pos' ω)) ∧
    upperMean P (fun ω => graphProb (exampleEnv true) idealRng seqMeasure (xw (2 :: List.replicate (n - 1) 1)) (pos ω) (fin 2)
        fun out => spanned ![0, 1, 2] out = pairsOf 3) ≤
      (∫⁻ ω, graphProb (exampleEnv true) idealRng seqMeasure (xw (List.replicate (n - 1) 1 ++ [2])) (pos' ω) (fin 2)
        (fun out => spanned ![999, 5, 6] out = pairsOf 3) ∂P) + ENNReal.ofReal (6 / 1000000) := by
  have hnR : (n : ℝ) = 1000 := by rw [hn]; norm_num
  have hn1 : ((n - 1 : ℕ) : ℝ) = 999 := by rw [hn]; norm_num
  obtain ⟨w, hw⟩ : ∃ w : List ℝ, w = 2 :: List.replicate (n - 1) 1 := ⟨_, rfl⟩
  obtain ⟨w', hw'⟩ : ∃ w : List ℝ, w = List.replicate (n - 1) 1 ++ [2] := ⟨_, rfl⟩
  have hl : w.length = n := by rw [hw, List.length_cons, List.length_replicate]; omega
  have hl' : w'.length = n := by rw [hw', List.length_append, List.length_replicate]; simp; omega
  have hs : w.sum = n + 1 := by rw [hw, List.sum_cons, List.sum_replicate, nsmul_eq_mul, hn1, hnR]; norm_num
  have hs' : w'.sum = n + 1 := by rw [hw', List.sum_append, List.sum_replicate, nsmul_eq_mul, hn1, hnR]; norm_num
  have s := example_supported hn hl (fun y hy => by
    rw [hw, List.mem_cons] at hy
    rcases hy with h | h
    · exact Or.inr h
    · exact Or.inl (List.eq_of_mem_replicate h)) hs
  have s' := example_supported hn hl' (fun y hy => by
    rw [hw', List.mem_append, List.mem_singleton] at hy
    rcases hy with h | h
    · exact Or.inl (List.eq_of_mem_replicate h)
    · exact Or.inr h) hs'
  obtain ⟨ht, pos, out, notice, hp, ho⟩ := example_run s hn hl (seed := 12) (by norm_num) (by norm_num) false
  obtain ⟨ht', pos', out', notice', hp', ho'⟩ := example_run s' hn hl' (seed := 130) (by norm_num) (by norm_num) true
  have hv : ∀ i : ℕ, ∀ h : i < w.length, w[i] = if i = 0 then 2 else 1 := by
    intro i h
    subst hw
    rcases i with _ | i
    · simp
    · rw [List.getElem_cons_succ, List.getElem_replicate, if_neg (by omega)]
  have hv' : ∀ i : ℕ, ∀ h : i < w'.length, w'[i] = if i = 999 then 2 else 1 := by
    intro i h
    subst hw'
    rw [List.getElem_append]
    simp only [List.length_replicate]
    split_ifs with h1 h2 h2
    · omega
    · rw [List.getElem_replicate]
    · simp
    · omega
  have inj : ∀ i j : Fin 3, (![999, 5, 6] i : ℕ) = ![999, 5, 6] j → i = j := by decide
  obtain ⟨a, ha⟩ : ∃ a : Fin 3 ↪ Fin w.length, (a 0).1 = 0 ∧ (a 1).1 = 1 ∧ (a 2).1 = 2 :=
    ⟨⟨fun i => ⟨i.1, by omega⟩, fun i j h => Fin.ext (Fin.mk.inj h)⟩, rfl, rfl, rfl⟩
  obtain ⟨a', ha'⟩ : ∃ a : Fin 3 ↪ Fin w'.length, (a 0).1 = 999 ∧ (a 1).1 = 5 ∧ (a 2).1 = 6 := by
    refine ⟨⟨fun i => ⟨![999, 5, 6] i, ?_⟩, fun i j h => inj i j (Fin.mk.inj h)⟩, rfl, rfl, rfl⟩
    fin_cases i <;> simp <;> omega
  have e : ∀ i, w'[a' i] = w[a i] := by
    intro i
    show w'[(a' i).1] = w[(a i).1]
    rw [hv, hv']
    fin_cases i
    · simp [ha'.1, ha.1]
    · simp [ha'.2.1, ha.2.1]
    · simp [ha'.2.2, ha.2.2]
  refine ⟨Measure.infinitePi fun _ : ℤ => seqMeasure, pos, pos', inferInstance, hp, hp', ?_⟩
  have h := C110_alpha streamEngine_ideal (Or.inl ⟨by norm_num, ht, streamStates⟩) hp idealRng_ideal (exampleEnv true) s hl
    streamEngine_ideal (Or.inl ⟨by norm_num, ht', streamStates⟩) hp' idealRng_ideal (exampleEnv true) s' hl' (α := 2) (by norm_num) a a'
    (fun i j _ => by rw [e, e, hs, hs']) {pairsOf 3}
  have e1 : (fun i => (a i).1) = ![0, 1, 2] := by
    funext i
    fin_cases i
    · exact ha.1
    · exact ha.2.1
    · exact ha.2.2
  have e2 : (fun i => (a' i).1) = ![999, 5, 6] := by
    funext i
    fin_cases i
    · exact ha'.1
    · exact ha'.2.1
    · exact ha'.2.2
  rw [e1, e2] at h
  rw [← hw, ← hw', show (6 : ℝ) / 1000000 = ((3 : ℕ) : ℝ) * ((3 : ℕ) - 1) / 1000000 by norm_num]
  exact h

open HypDeg Radius in
/-- `C110_hyper` and `C110_temperature` at work: 100000 points and 1000 points of the disk of radius 20 with `α = 1`.  The graphs spanned by nodes 0, 1, 2 of the first and nodes
5, 17, 3 of the second have the same law for `T = 0`; for `T = 1/2` the probabilities that they are triangles differ by at most `6/10^6`. -/
example (n n' : ℕ) (hn : n = 100000) (hn' : n' = 1000) : ∃ (radii angles radii' angles' : (ℤ → ℕ → ℝ) → List XR) (out out' : (ℤ → ℕ → ℝ) → List (ℕ × ℕ))
    (P : Measure (ℤ → ℕ → ℝ)), IsProbabilityMeasure P ∧ (∀ ω, (radii ω).length = n) ∧ (∀ ω, (radii' ω).length = n') ∧
    (∀ ω, HGenerateEdges (exampleHEnv true 1 (by norm_num) (by norm_num)) idealRng (fun _ _ => 0) (radii ω) (angles ω) (fin 0) (fin 20) (out ω)) ∧
    (∀ ω, HGenerateEdges (exampleHEnv true 1 (by norm_num) (by norm_num)) idealRng (fun _ _ => 0) (radii' ω) (angles' ω) (fin 0) (fin 20) (out' ω)) ∧
    P {ω | triangle (out ω) 0 1 2} = P {ω | triangle (out' ω) 5 17 3} ∧
    upperMean P (fun ω => hypGraphProb (exampleHEnv true 1 (by norm_num) (by norm_num)) idealRng seqMeasure le_rfl (radii ω) (angles ω) (fin (1 / 2)) (fin 20)
        fun out => spanned ![0, 1, 2] out = pairsOf 3) ≤
      (∫⁻ ω, hypGraphProb (exampleHEnv true 1 (by norm_num) (by norm_num)) idealRng seqMeasure le_rfl (radii' ω) (angles' ω) (fin (1 / 2)) (fin 20)
        (fun out => spanned ![5, 17, 3] out = pairsOf 3) ∂P) + ENNReal.ofReal (6 / 1000000) := by
  have run : ∀ n : ℕ, 1 ≤ n → n < 2147483648 → ∃ (radii angles : (ℤ → ℕ → ℝ) → List XR) (out : (ℤ → ℕ → ℝ) → List (ℕ × ℕ)),
      SampledPoints (Measure.infinitePi fun _ : ℤ => seqMeasure) exampleOmp streamEngine seqMeasure (fun s ω => ω s) (fun _ _ => (fun _ => 0)) n 1 20 radii angles ∧
      (∀ ω, (radii ω).length = n) ∧
      ∀ ω, HGenerateEdges (exampleHEnv true 1 (by norm_num) (by norm_num)) idealRng (fun _ _ => 0) (radii ω) (angles ω) (fin 0) (fin 20) (out ω) := by
    intro n h1 h31
    obtain ⟨radii, angles, hs⟩ := exampleSampled (n := n) h1 (α := 1) (R := 20) one_pos (by norm_num)
    obtain ⟨ρ, φ, hp, ho⟩ := sampled_random hs h1 one_pos (by norm_num) (by norm_num)
    have hex : ∀ ω, ∃ out, HGenerateEdges (exampleHEnv true 1 (by norm_num) (by norm_num)) idealRng (fun _ _ => 0) (radii ω) (angles ω) (fin 0) (fin 20) out := by
      intro ω
      rw [(ho ω).1, (ho ω).2, xw_ofFn, xw_ofFn]
      exact (C44_returns_iff (random_input hp h1 h31 le_rfl (Or.inr (by norm_num)) ω) _ _ idealRng_unit _).2 (Or.inl rfl)
    choose out hout using hex
    exact ⟨radii, angles, out, hs, fun ω => by rw [(ho ω).1, List.length_ofFn], hout⟩
  obtain ⟨radii, angles, out, hs, hl, hout⟩ := run n (by omega) (by omega)
  obtain ⟨radii', angles', out', hs', hl', hout'⟩ := run n' (by omega) (by omega)
  have inj : ∀ i j : Fin 3, (![5, 17, 3] i : ℕ) = ![5, 17, 3] j → i = j := by decide
  obtain ⟨a, ha⟩ : ∃ a : Fin 3 ↪ Fin n, (a 0).1 = 0 ∧ (a 1).1 = 1 ∧ (a 2).1 = 2 :=
    ⟨⟨fun i => ⟨i.1, by omega⟩, fun i j h => Fin.ext (Fin.mk.inj h)⟩, rfl, rfl, rfl⟩
  obtain ⟨a', ha'⟩ : ∃ a : Fin 3 ↪ Fin n', (a 0).1 = 5 ∧ (a 1).1 = 17 ∧ (a 2).1 = 3 := by
    refine ⟨⟨fun i => ⟨![5, 17, 3] i, ?_⟩, fun i j h => inj i j (Fin.mk.inj h)⟩, rfl, rfl, rfl⟩
    fin_cases i <;> simp <;> omega
  have e1 : (fun i => (a i).1) = ![0, 1, 2] := by
    funext i
    fin_cases i
    · exact ha.1
    · exact ha.2.1
    · exact ha.2.2
  have e2 : (fun i => (a' i).1) = ![5, 17, 3] := by
    funext i
    fin_cases i
    · exact ha'.1
    · exact ha'.2.1
    · exact ha'.2.2
  have hlog : Real.log 99 ≤ 20 := by
    have : Real.log 99 < 5 := by
      rw [Real.log_lt_iff_lt_exp (by norm_num), show (5 : ℝ) = ((5 : ℕ) : ℝ) * 1 by norm_num, Real.exp_nat_mul]
      have h1 := Real.exp_one_gt_d9
      have h4 : (2.7 : ℝ) ^ 5 ≤ Real.exp 1 ^ 5 := pow_le_pow_left₀ (by norm_num) (by linarith) 5
      have h5 : (99 : ℝ) < 2.7 ^ 5 := by norm_num
      exact h5.trans_le h4
    linarith
  refine ⟨radii, angles, radii', angles', out, out', Measure.infinitePi fun _ : ℤ => seqMeasure, inferInstance, hl, hl', hout, hout', ?_, ?_⟩
  · have h := C110_hyper hs (by omega) (by omega) hs' (by omega) (by omega) (Or.inr (by norm_num)) one_pos (by norm_num)
      (fun _ => exampleHEnv true 1 (by norm_num) (by norm_num)) idealRng_unit.geo (fun _ _ _ => 0) hout
      (fun _ => exampleHEnv true 1 (by norm_num) (by norm_num)) idealRng_unit.geo (fun _ _ _ => 0) hout' a a' {r | r 0 1 ∧ r 0 2 ∧ r 1 2}
    simpa only [Set.mem_setOf_eq, triangle, ha.1, ha.2.1, ha.2.2, ha'.1, ha'.2.1, ha'.2.2] using h
  · have h := C110_temperature (T := 1 / 2) hs (by omega) (by omega) hs' (by omega) (by omega) (Or.inr (by norm_num)) one_pos (by norm_num) (by norm_num) (by linarith)
      (exampleHEnv true 1 (by norm_num) (by norm_num)) idealRng_ideal idealRng_unit (Or.inl rfl) le_rfl (fun h => absurd rfl h)
      (exampleHEnv true 1 (by norm_num) (by norm_num)) idealRng_ideal idealRng_unit (Or.inl rfl) le_rfl (fun h => absurd rfl h) a a' {pairsOf 3}
    rw [e1, e2] at h
    rw [show (6 : ℝ) / 1000000 = ((3 : ℕ) : ℝ) * ((3 : ℕ) - 1) / 1000000 by norm_num]
    exact h

end Girgs.Props
