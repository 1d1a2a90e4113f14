import Verif.Proofs.GraphLaw
import Verif.Proofs.IdealRng
import Verif.Props.Edges
/-
C20, C21: the distribution of the result, for ideal random numbers.
-/
namespace Girgs.Props
open MeasureTheory Spec CFloat Tree Build
open scoped ENNReal

/-! ### C20 -/

/-- C20.  The skipping loop of type II sampling (start at a geometric number, then jump by one plus a geometric number, keep
a visited pair if a uniform number of `[0,b)` is below its probability) with bound `b` on the pairs of `[ra) × [rb)`, if the
probability of every pair `c` is `q c` with `0 ≤ q c ≤ b`: the list of emitted edges has exactly the distribution of
independent coin flips, pair `c` with probability `q c`. -/
theorem C20_skipping_is_bernoulli {D : Nat} (T : Tree XR D) (rng : Rng XR) [MeasurableSpace rng.G] {μ : Measure rng.G}
    (hid : IdealRng rng μ) (ra rb : Nat × Nat) (hA : ra.2 ≤ T.nodes.length) (hB : rb.2 ≤ T.nodes.length)
    (hn : T.nodes.length < 2147483648) {b : ℝ} (h0 : 0 < b) (h1 : b ≤ 1) (q : Nat × Nat → ℝ)
    (hq : ∀ c ∈ pairListII ra rb, 0 ≤ q c ∧ q c ≤ b ∧
      ∀ u v, T.nodes[c.1]? = some u → T.nodes[c.2]? = some v → T.edgeProb u v = XR.fin (q c)) (es : List (Nat × Nat)) :
    μ {g | ∃ g', loopII T rng ra rb (XR.fin b) ((ra.2 - ra.1) * (rb.2 - rb.1) + 1) (rng.geo (XR.fin b) g).1 (rng.geo (XR.fin b) g).2 = some (es, g')} =
      flips ((pairListII ra rb).map fun c => (T.idxPair c, q c)) es := by
  have := hid.prob
  have hpp : ∀ c ∈ pairListII ra rb, pairProb T c = q c := by
    intro c hc
    obtain ⟨m1, m2⟩ := mem_pairListII.1 (show (c.1, c.2) ∈ pairListII ra rb from hc)
    have hu : T.nodes[c.1]? = some (T.nodes[c.1]'(by omega)) := List.getElem?_eq_getElem (by omega)
    have hv : T.nodes[c.2]? = some (T.nodes[c.2]'(by omega)) := List.getElem?_eq_getElem (by omega)
    rw [pairProb_eq hu hv, (hq c hc).2.2 _ _ hu hv, xunit, unit_eq (hq c hc).1 ((hq c hc).2.1.trans h1)]
  have hcoins : coins T (pairListII ra rb) = (pairListII ra rb).map fun c => (T.idxPair c, q c) :=
    List.map_congr_left fun c hc => by rw [hpp c hc]
  obtain ⟨r, hr, hlaw⟩ := skip_law hid hA hB hn h0 h1 (fun c hc u v hu hv => by rw [hpp c hc]; exact (hq c hc).2.2 u v hu hv)
    (fun c hc => by rw [hpp c hc]; exact ⟨(hq c hc).1, (hq c hc).2.1⟩)
  rw [hcoins] at hlaw
  simp only at hr
  have h2 := hlaw.event {es}
  rw [tsum_eq_single es] at h2
  · simp only [Set.indicator_of_mem (Set.mem_singleton es), Pi.one_apply, mul_one] at h2
    rw [← h2]
    congr 1
    ext g
    simp only [Set.mem_setOf_eq, Set.mem_singleton_iff]
    constructor
    · rintro ⟨g', h3⟩
      rw [hr, Option.some.injEq] at h3
      rw [h3]
    · intro h3
      exact ⟨(r g).2, by rw [hr]; rw [← h3]⟩
  · intro fs hfs
    rw [Set.indicator_of_notMem (by simpa using hfs), mul_zero]

/-- the hypotheses of C20 can be met: two nodes in different cells, a bound of 1/2 and a pair of probability 1/4 -/
example : ∃ (T : Tree XR 1) (ra rb : Nat × Nat) (q : Nat × Nat → ℝ), ra.2 ≤ T.nodes.length ∧ rb.2 ≤ T.nodes.length ∧
    T.nodes.length < 2147483648 ∧ pairListII ra rb = [(0, 1)] ∧
    (∀ c ∈ pairListII ra rb, 0 ≤ q c ∧ q c ≤ 1 / 2 ∧
      ∀ u v, T.nodes[c.1]? = some u → T.nodes[c.2]? = some v → T.edgeProb u v = XR.fin (q c)) := by
  refine ⟨{ ndebug := true, alpha := XR.fin 2, n := 2, w0 := XR.fin 1, wn := XR.fin 1, W := XR.fin 4, blc := 0, layers := 1,
            levels := 1, nodes := [⟨fun _ => XR.fin 0, XR.fin 1, 0, 0⟩, ⟨fun _ => XR.fin (1 / 2), XR.fin 1, 1, 1⟩],
            firstInCell := [], weightLayers := [], layerPairs := [] }, (0, 1), (1, 2), fun _ => 1 / 4, by simp, by simp, by simp, by decide, ?_⟩
  intro c hc
  have : pairListII (0, 1) (1, 2) = [(0, 1)] := by decide
  rw [this, List.mem_singleton] at hc
  subst hc
  refine ⟨by norm_num, by norm_num, ?_⟩
  rintro u v hu hv
  simp only [List.getElem?_cons_zero, List.getElem?_cons_succ, Option.some.injEq] at hu hv
  subst hu hv
  have hd : torusDist (fun _ : Fin 1 => (0 : ℝ)) (fun _ => 1 / 2) = 1 / 2 := by
    norm_num [torusDist, circleDist, List.finRange_succ, List.finRange_zero]
  unfold edgeProb wTerm dTerm Node.distance
  simp only
  rw [coordDistance_eq, C09_pow_to_the, hd, XR.mul_fin, XR.div_fin _ _ (by norm_num), XR.div_fin _ _ (by norm_num), XR.pow_fin _ _ (by norm_num)]
  norm_num

/-! ### C21 -/

/-- C21.  Let `alpha = a > 0` be finite.  There are probabilities `pr u v`, depending only on weights, positions and `a`, such that
* `pr u v` is the documented connection probability `min(1, (w_u*w_v/W/dist^D)^a)`, except for some pairs for which that is
  below 10^-6 and `pr u v = 0`;
* for every environment (number of threads, partition of the parallel loop, build type) and ideal random numbers (independent
  generators for the threads), the graph returned by `girgs::generateEdges` contains every pair independently with
  probability `pr u v`: every graph `R` on the nodes is returned with probability `∏ pr · ∏ (1 - pr)`, and
  every pair is connected with probability `pr u v`. -/
theorem C21_distribution {D : Nat} {w : List ℝ} {x : List (Fin D → ℝ)} (s : SupportedInput D w x) {a : ℝ} (ha : 0 < a) :
    ∃ pr : Nat → Nat → ℝ,
      (∀ u v, u < w.length → v < w.length → u ≠ v →
        pr u v = girgProb w x a u v ∨ (pr u v = 0 ∧ girgProb w x a u v < 1 / 1000000)) ∧
      ∀ (env : Env) (rng : Rng XR) [MeasurableSpace rng.G] (μ : Measure rng.G), IdealRng rng μ →
        (∀ R : Nat → Nat → Prop, (∀ u v, R u v → R v u) → ∀ [DecidableRel R],
          (Measure.pi fun _ : Fin env.threads => μ)
            {g | ∃ out notice, GenerateEdges env rng (gensOf env.threads_pos g) (xw w) (xl x) (XR.fin a) out notice ∧ IsGraphOf w.length R out} =
          ∏ e ∈ (Finset.range w.length ×ˢ Finset.range w.length) with e.1 < e.2,
            if R e.1 e.2 then ENNReal.ofReal (pr e.1 e.2) else ENNReal.ofReal (1 - pr e.1 e.2)) ∧
        (∀ u v, u < w.length → v < w.length → u ≠ v →
          (Measure.pi fun _ : Fin env.threads => μ)
            {g | ∃ out notice, GenerateEdges env rng (gensOf env.threads_pos g) (xw w) (xl x) (XR.fin a) out notice ∧ ((u, v) ∈ out ∨ (v, u) ∈ out)} =
          ENNReal.ofReal (pr u v)) := by
  obtain ⟨T, hT⟩ := constructedX_exists true (XR.fin a) s 1 le_rfl (by norm_num)
  obtain ⟨m, b⟩ := hT.builtX s
  refine ⟨edgePr T, fun u v hu hv huv => b.edgePr_spec s ha hu hv huv, ?_⟩
  intro env rng _ μ hid
  have hT' := hT.setDebug env.ndebug
  obtain ⟨m', b'⟩ := hT'.builtX s
  have hth : T.isThreshold = false := by unfold Tree.isThreshold; rw [b.alpha_eq]; rfl
  constructor
  · intro R hR _
    have := graph_law hid b' hT' s ha R hR
    rw [this]
    apply Finset.prod_congr rfl
    intro e _
    rw [edgePr_ndebug hth]
    by_cases h : R e.1 e.2 <;> simp [h]
  · intro u v hu hv huv
    rw [← edgePr_ndebug hth env.ndebug]
    exact edge_law hid b' hT' s ha hu hv huv

/-- C21 is about something: ideal random numbers exist (a sequence of independent uniform numbers; a geometric number is
computed by inversion), and with them, two threads and three nodes the first and the third node (documented probability 1,
as `5/7 > (1/3)^2`) are always connected. -/
example : ∃ (_ : MeasurableSpace idealRng.G) (μ : Measure idealRng.G), IdealRng idealRng μ ∧
    (Measure.pi fun _ : Fin (exampleEnv true).threads => μ)
    {g | ∃ out notice, GenerateEdges (exampleEnv true) idealRng (gensOf (exampleEnv true).threads_pos g) (xw [1, 1, 5])
      (xl [![0, 0], ![1 / 2, 1 / 4], ![7 / 8, 1 / 3]]) (XR.fin 2) out notice ∧ ((0, 2) ∈ out ∨ (2, 0) ∈ out)} = 1 := by
  obtain ⟨pr, h1, h2⟩ := C21_distribution exampleInput (a := 2) (by norm_num)
  have h3 := (h2 (exampleEnv true) idealRng seqMeasure idealRng_ideal).2 0 2 (by norm_num) (by norm_num) (by norm_num)
  refine ⟨inferInstanceAs (MeasurableSpace (ℕ → ℝ)), seqMeasure, idealRng_ideal, h3.trans ?_⟩
  have d02 : torusDist ![(0 : ℝ), 0] ![7 / 8, 1 / 3] = 1 / 3 := by
    norm_num [torusDist, circleDist, List.finRange_succ, List.finRange_zero]
  have hp : girgProb [1, 1, 5] [![0, 0], ![1 / 2, 1 / 4], ![7 / 8, 1 / 3]] 2 0 2 = 1 := by
    show (if torusDist ![(0 : ℝ), 0] ![7 / 8, 1 / 3] = 0 then (1 : ℝ) else _) = 1
    rw [d02, if_neg (by norm_num)]
    norm_num
  rcases h1 0 2 (by norm_num) (by norm_num) (by norm_num) with h | h
  · rw [h, hp]; simp
  · rw [hp] at h; norm_num at h

/-- 32 nodes of weight 1 on a circle: one at 0, the others at 1/2 -/
theorem skipInput : SupportedInput 1 (List.replicate 32 1) ((fun _ => 0) :: List.replicate 31 (fun _ => 1 / 2)) := by
  have hsum : (List.replicate 32 (1 : ℝ)).sum = 32 := by rw [List.sum_replicate]; norm_num
  refine ⟨by norm_num, by norm_num, by simp, by simp, by simp, ?_, ?_, ?_, ?_, ?_⟩
  · intro u hu; rw [List.eq_of_mem_replicate hu]; norm_num
  · intro u hu; rw [List.eq_of_mem_replicate hu]; exact one_lt_pow₀ (by norm_num) (by norm_num)
  · intro p hp d
    rcases List.mem_cons.1 hp with rfl | hp
    · norm_num
    · rw [List.eq_of_mem_replicate hp]; norm_num
  · intro u hu; rw [List.eq_of_mem_replicate hu, hsum]; norm_num
  · intro u hu v hv; rw [List.eq_of_mem_replicate hu, List.eq_of_mem_replicate hv]; norm_num

/-- C21 (the exception is real).  For the 32 nodes above and `alpha = 50` the documented probability of the pair `0, 1` is
`(1/16)^50 > 0`, but whatever the random numbers, the pair is never connected. -/
theorem C21_skipped_pair : girgProb (List.replicate 32 1) ((fun _ => 0) :: List.replicate 31 (fun _ : Fin 1 => (1 / 2 : ℝ))) 50 0 1 = (1 / 16) ^ 50 ∧
    ∀ (env : Env) (rng : Rng XR) [MeasurableSpace rng.G] (μ : Measure rng.G), IdealRng rng μ →
      (Measure.pi fun _ : Fin env.threads => μ) {g | ∃ out notice, GenerateEdges env rng (gensOf env.threads_pos g) (xw (List.replicate 32 1))
        (xl ((fun _ => 0) :: List.replicate 31 (fun _ : Fin 1 => 1 / 2))) (XR.fin 50) out notice ∧ ((0, 1) ∈ out ∨ (1, 0) ∈ out)} = 0 := by
  have hsum : (List.replicate 32 (1 : ℝ)).sum = 32 := by rw [List.sum_replicate]; norm_num
  constructor
  · have hd : torusDist (fun _ : Fin 1 => (0 : ℝ)) (fun _ => 1 / 2) = 1 / 2 := by
      norm_num [torusDist, circleDist, List.finRange_succ, List.finRange_zero]
    show (if torusDist (fun _ : Fin 1 => (0 : ℝ)) (fun _ => 1 / 2) = 0 then (1 : ℝ) else _) = _
    rw [hd, if_neg (by norm_num), hsum, show (50 : ℝ) = ((50 : ℕ) : ℝ) by norm_num, Real.rpow_natCast, min_eq_right]
    · norm_num
    · exact pow_le_one₀ (by norm_num) (by norm_num)
  intro env rng _ μ hid
  obtain ⟨T, hT⟩ := constructedX_exists env.ndebug (XR.fin 50) skipInput 1 le_rfl (by norm_num)
  obtain ⟨m, b⟩ := hT.builtX skipInput
  rw [edge_law hid b hT skipInput (by norm_num) (u := 0) (v := 1) (by simp) (by simp) (by norm_num)]
  suffices h : ((0, 1), (0 : ℝ)) ∈ allCoins T by rw [b.edgePr_eq h]; simp
  have ok := b.ok
  obtain rfl : m = 1 := List.eq_of_mem_replicate b.mem
  have hb0 := b.blc_nonneg (by rw [hsum]; norm_num)
  obtain ⟨N, hN⟩ : ∃ N : Nat, T.blc = N := ⟨T.blc.toNat, by omega⟩
  have hblc : T.blc = 5 := by
    have h1 := b.blc_high hb0
    have h2 := b.blc_low
    rw [hsum, hN] at h1 h2
    have h1' : (32 : ℝ) < 2 ^ (N + 1) := by
      have e : (2 : ℝ) ^ ((N : ℤ) + 1) = 2 ^ (N + 1) := by rw [← zpow_natCast]; push_cast; rfl
      rw [e] at h1; simpa using h1
    have h3 : 4 < N := by
      by_contra hc
      have : (2 : ℝ) ^ (N + 1) ≤ 2 ^ 5 := pow_le_pow_right₀ (by norm_num) (by omega)
      norm_num at this
      linarith
    have h4 : (2 : ℝ) ^ N ≤ 32 := by
      have := h2 (by omega)
      rw [zpow_natCast] at this
      simpa using this
    have h5 : N < 6 := by
      by_contra hc
      have : (2 : ℝ) ^ 6 ≤ 2 ^ N := pow_le_pow_right₀ (by norm_num) (by omega)
      norm_num at this
      linarith
    omega
  have hlayers : T.layers = 1 := by
    obtain ⟨u, hu, h1⟩ := b.layers_top
    rw [List.eq_of_mem_replicate hu, mul_one] at h1
    have := b.layers_pos
    by_contra hc
    have : (2 : ℝ) ^ 1 ≤ 2 ^ (T.layers - 1) := pow_le_pow_right₀ (by norm_num) (by omega)
    norm_num at this
    linarith
  have hlevels : T.levels = 4 := by rw [ok.levels_eq, hblc]; rfl
  have hth : T.isThreshold = false := by unfold Tree.isThreshold; rw [b.alpha_eq]; rfl
  have hon : OnLevel 1 0 0 := ⟨by simp [levelStart], by simp [levelStart]⟩
  have lp3 : (0, 0) ∈ layPairs T 3 := by
    unfold layPairs allLayerPairs; rw [hlayers, hblc]; decide
  set t : Task := ⟨true, 3, 5, 2, 0, 0⟩ with ht
  have hmem : t ∈ visitP T T.levels 0 0 0 := by
    rw [hlevels]
    have t00 : touchB 1 0 0 0 = true := by decide
    have t12 : touchB 1 1 1 2 = true := by decide
    have t35 : touchB 1 2 3 5 = false := by decide
    unfold visitP
    rw [t00]
    simp only [Bool.true_eq_false, if_false, List.mem_append]
    right
    simp only [show (3 : Nat) ≠ 0 by norm_num, if_false, List.mem_flatMap]
    refine ⟨(1, 2), mem_kids.2 (by norm_num), ?_⟩
    unfold visitP
    simp only [t12, Bool.true_eq_false, if_false, List.mem_append]
    right
    simp only [show (2 : Nat) ≠ 0 by norm_num, if_false, List.mem_flatMap]
    refine ⟨(3, 5), mem_kids.2 (by norm_num), ?_⟩
    unfold visitP
    simp only [t35, if_true]
    unfold tasksII
    simp only [hth, Bool.and_false, Bool.false_eq_true, if_false, List.mem_flatMap, List.mem_map]
    refine ⟨3, ?_, (0, 0), lp3, rfl⟩
    rw [hlevels]; decide
  refine List.mem_flatMap.2 ⟨t, hmem, ?_⟩
  have htok := visitP_ok _ _ _ _ hon hon t hmem
  obtain ⟨ra, rb, hr⟩ := ok.ranges_ok htok
  have htl : 2 ≤ weightLayerTargetLevel 1 T.blc (0 : Nat) := by rw [hblc]; decide
  have hnode : ∀ k : Nat, k < 32 → ∃ (p : Nat) (y : Node XR 1), T.nodes[p]? = some y ∧ y.index = k := by
    intro k hk
    obtain ⟨p, hp, e⟩ := ok.idx_surj (u := k) (by rw [b.n_eq]; simpa using hk)
    have hp' : p < T.nodes.length := by rw [ok.length_nodes]; exact hp
    refine ⟨p, _, List.getElem?_eq_getElem hp', ?_⟩
    rw [← e, Tree.idx_eq (List.getElem?_eq_getElem hp')]
  have g3 : gridCoord 1 2 3 0 = 0 := by decide
  have g5 : gridCoord 1 2 5 0 = 2 := by decide
  obtain ⟨p, y, hy, hi⟩ := hnode 0 (by norm_num)
  obtain ⟨q, z, hz, hj⟩ := hnode 1 (by norm_num)
  have hA : ra.1 ≤ p ∧ p < ra.2 := by
    have : InLC T y t.i t.level t.cellA := by
      refine (b.inLC_iff skipInput (List.mem_of_getElem? hy) (u := 1) (q := fun _ => 0) (by rw [hi]; rfl) (by rw [hi]; rfl)
        (by rw [hlayers]; decide) htl htok.hA).2 ⟨by norm_num [ht], by norm_num [ht], ?_⟩
      intro d
      obtain rfl : d = 0 := Subsingleton.elim _ _
      show ((gridCoord 1 2 3 0 : Nat) : ℝ) / 2 ^ 2 ≤ 0 ∧ (0 : ℝ) < (((gridCoord 1 2 3 0 : Nat) : ℝ) + 1) / 2 ^ 2
      rw [g3]; norm_num
    exact (hr.memA p y hy).2 this
  have hB : rb.1 ≤ q ∧ q < rb.2 := by
    have : InLC T z t.j t.level t.cellB := by
      refine (b.inLC_iff skipInput (List.mem_of_getElem? hz) (u := 1) (q := fun _ => 1 / 2) (by rw [hj]; rfl) (by rw [hj]; rfl)
        (by rw [hlayers]; decide) htl htok.hB).2 ⟨by norm_num [ht], by norm_num [ht], ?_⟩
      intro d
      obtain rfl : d = 0 := Subsingleton.elim _ _
      show ((gridCoord 1 2 5 0 : Nat) : ℝ) / 2 ^ 2 ≤ 1 / 2 ∧ (1 / 2 : ℝ) < (((gridCoord 1 2 5 0 : Nat) : ℝ) + 1) / 2 ^ 2
      rw [g5]; norm_num
    exact (hr.memB q z hz).2 this
  have hw : T.wUpper t.i t.j = some (XR.fin (1 / 8)) := by
    unfold Tree.wUpper
    rw [obind (Coord.shl1_eq (show t.i + 1 ≤ 30 by decide)), obind (Coord.shl1_eq (show t.j + 1 ≤ 30 by decide)), b.w0, b.W, hsum]
    simp only [XR.ofInt_eq, XR.mul_fin]
    rw [XR.div_fin _ _ (by norm_num)]
    norm_num [ht]
  have hd : Coord.dist 1 t.cellA t.cellB t.level = some (XR.fin (1 / 4)) := by
    rw [dist_eq le_rfl (by norm_num) (by decide) htok.hA htok.hB]
    have e : (List.finRange 1).foldl (fun r (d : Fin 1) => max r (ringDist 2 (gridCoord 1 2 3 d) (gridCoord 1 2 5 d))) 0 = 2 := by decide
    rw [e]
    norm_num
  have hmp : T.maxProb t = some (XR.fin ((1 / 2) ^ 50)) := by
    unfold Tree.maxProb
    rw [obind hw, obind hd, C09_pow_to_the, XR.div_fin _ _ (by norm_num), b.alpha_eq, XR.pow_fin _ _ (by norm_num), XR.ofRat_eq, XR.fmin_fin,
      show (50 : ℝ) = ((50 : ℕ) : ℝ) by norm_num, Real.rpow_natCast]
    norm_num
  unfold taskCoins
  rw [hr.eq, hmp]
  have c1 : ((ofRat (1 / 5) : XR) <. XR.fin ((1 / 2) ^ 50)) = false := by
    rw [XR.ofRat_eq, XR.lt_fin]; norm_num
  have hsize : (((ra.2 - ra.1) * (rb.2 - rb.1) : Nat) : ℝ) ≤ 1024 := by
    have h1 := hr.nA; have h2 := hr.nB
    have hn := b.n_eq
    rw [List.length_replicate] at hn
    have : (ra.2 - ra.1) * (rb.2 - rb.1) ≤ 32 * 32 := Nat.mul_le_mul (by omega) (by omega)
    exact_mod_cast this
  have c2 : (((ofNat ((ra.2 - ra.1) * (rb.2 - rb.1)) : XR) *. XR.fin ((1 / 2) ^ 50)) <. ofRat (1 / 1000000)) = true := by
    rw [XR.ofNat_eq, XR.mul_fin, XR.ofRat_eq, XR.lt_fin, decide_eq_true_eq]
    have := mul_le_mul_of_nonneg_right hsize (show (0 : ℝ) ≤ (1 / 2) ^ 50 by positivity)
    refine lt_of_le_of_lt this ?_
    norm_num
  simp only [ht, c1, c2, if_true, Bool.false_eq_true, if_false]
  refine List.mem_map.2 ⟨(p, q), mem_pairListII.2 ⟨hA, hB⟩, ?_⟩
  simp only [Tree.idxPair, Tree.idx_eq hy, Tree.idx_eq hz, hi, hj]

end Girgs.Props
