import Verif.Proofs.Chernoff
import Verif.Props.HyperNodeDegree
import Verif.Props.NodeDegree
/-
C97: for fixed positions, the number of edges and the degrees are concentrated around their expectations.
-/
namespace Girgs.Props
open CFloat Spec MeasureTheory Tree
open XR (fin)
open scoped ENNReal

open Classical in
/-- exponential tail bounds for `girgs::generateEdges` -/
theorem girg_tail {D : ℕ} {w : List ℝ} {x : List (Fin D → ℝ)} (s : SupportedInput D w x) {a : ℝ} (ha : 0 < a) :
    ∃ pr : ℕ → ℕ → ℝ, (∀ u v, pr u v = pr v u) ∧
      (∀ u v, u < w.length → v < w.length → u ≠ v → pr u v = girgProb w x a u v ∨ (pr u v = 0 ∧ girgProb w x a u v < 1 / 1000000)) ∧
      ∀ (env : Env) (rng : Rng XR) [MeasurableSpace rng.G] (μ : Measure rng.G), IdealRng rng μ → ∀ A : ℕ → ℕ → Prop, (∀ u v, A u v → A v u) →
        ∀ (l k : ℝ) (Q : ℕ → Prop), (∀ N : ℕ, Q N → l * k ≤ l * N) →
        edgesProb env rng μ (xw w) (xl x) (fin a) A Q ≤
          ENNReal.ofReal (Real.exp (-(l * k))) * ∏ e ∈ upairs w.length, if A e.1 e.2 then ENNReal.ofReal (1 + pr e.1 e.2 * (Real.exp l - 1)) else 1 := by
  obtain ⟨T, hT⟩ := constructedX_exists true (fin a) s 1 le_rfl (by norm_num)
  obtain ⟨m, b⟩ := hT.builtX s
  refine ⟨edgePr T, fun u v => edgePr_comm u v, fun u v hu hv huv => b.edgePr_spec s ha hu hv huv, ?_⟩
  intro env rng _ μ hid A hA l k Q hQ
  have hT' := hT.setDebug env.ndebug
  obtain ⟨m', b'⟩ := hT'.builtX s
  have hth : T.isThreshold = false := by unfold Tree.isThreshold; rw [b.alpha_eq]; rfl
  obtain ⟨L, h1, h2⟩ := result_event hid b' hT' s ha
  have hfst : (L.map Prod.fst).Perm ((allCoins _).map Prod.fst) := h1.map _
  have honce : EachPairOnce w.length (L.map Prod.fst) := eachPairOnce_perm hfst (b'.allCoins_once (List.Perm.refl _))
  unfold edgesProb
  rw [h2 (fun es => Q (edgesIn A es)) (fun es fs h => by rw [edgesIn_perm h])]
  refine coins_tail honce (fun u v => edgePr_comm u v) ?_ hA hQ
  rintro ⟨⟨c, d⟩, q⟩ hm
  have hin := honce.1 _ (List.mem_map.2 ⟨_, hm, rfl⟩)
  simp only at hin
  have e1 := b'.edgePr_eq (h1.mem_iff.1 hm)
  have hb := edgePr_unit b' s ha hin.1 hin.2.1 hin.2.2
  rw [e1] at hb
  rw [unit_eq hb.1 hb.2, ← e1]
  exact edgePr_ndebug hth _ _ _

open Classical in
/-- exponential tail bounds for `hypergirgs::generateEdges` -/
theorem hyp_tail {radii angles : List ℝ} {T R : ℝ} (hin : HypInput radii angles T R) (hT : 1 / 4503599627370496 < T) (hfil : 2 * T * Real.log 99 ≤ R) :
    ∃ pr : ℕ → ℕ → ℝ, (∀ u v, pr u v = pr v u) ∧
      (∀ u v, u < radii.length → v < radii.length → u ≠ v →
        pr u v = hypPairProb radii angles R T u v ∨ (pr u v = 0 ∧ hypPairProb radii angles R T u v < 1 / 1000000)) ∧
      ∀ (env : HEnv) (rng : Tree.Rng XR) [MeasurableSpace rng.G] (μ : Measure rng.G), IdealRng rng μ → UnitRng rng →
        (env.threads = 1 ∨ ∃ L, HTree.firstParallelLevel XR env.threads = some L ∧
          Real.cosh R < hypCosh (R - 1) (Real.pi / 2 ^ (L - 1)) (R - 1) 0) →
        ∀ (n : ℕ) (hn : 1 ≤ n), (env.threads ≠ 1 → ∃ L tasks, HTree.firstParallelLevel XR env.threads = some L ∧
          HTree.numTasks L = some tasks ∧ env.threads - 1 + tasks ≤ n) → ∀ A : ℕ → ℕ → Prop, (∀ u v, A u v → A v u) →
        ∀ (l k : ℝ) (Q : ℕ → Prop), (∀ N : ℕ, Q N → l * k ≤ l * N) →
        hypEdgesProb env rng μ hn (xw radii) (xw angles) (fin T) (fin R) A Q ≤
          ENNReal.ofReal (Real.exp (-(l * k))) * ∏ e ∈ upairs radii.length, if A e.1 e.2 then ENNReal.ofReal (1 + pr e.1 e.2 * (Real.exp l - 1)) else 1 := by
  have hT0 : 0 < T := lt_trans (by norm_num) hT
  obtain ⟨H, hH⟩ := hconstructed_exists true (XR.fin T) (HypInput.inputOK hin) 1 le_rfl (by norm_num)
  have b := hH.builtX hin
  refine ⟨hedgePr H radii angles R T, hedgePr_comm, fun u v hu hv huv => b.edgePr_spec hin hT0 hu hv huv, ?_⟩
  intro env rng _ μ hid ur hret n hn hgens A hA l k Q hQ
  have hH' := hH.setDebug env.ndebug
  have b' := hH'.builtX hin
  have epr : hedgePr H radii angles R T = hedgePr { H with ndebug := env.ndebug } radii angles R T := rfl
  have hun : (hUnits env { H with ndebug := env.ndebug } (hpair R) (startLevel env.threads)).length ≤ n := by
    rw [length_hUnits]
    by_cases h1 : env.threads = 1
    · rw [if_pos h1]; exact hn
    · rw [if_neg h1]
      have st := hstartOK_XR env
      obtain ⟨L, nt, e1, e2, e3⟩ := hgens h1
      have e8 := st.eq h1
      rw [e1, Option.some.injEq] at e8
      subst e8
      obtain ⟨nt', k1, _, k2, _⟩ := length_hTasks (H := { H with ndebug := env.ndebug }) env st.two st.le
      rw [e2, Option.some.injEq] at k1
      omega
  have hex : ∀ g : Fin n → rng.G, ∃ out, HGenerateEdges env rng (gensOf hn g) (xw radii) (xw angles) (XR.fin T) (XR.fin R) out :=
    fun g => (C44_returns_iff hin env rng ur (gensOf hn g)).2 hret
  choose result hres using hex
  obtain ⟨L, hL, hev⟩ := hresult_event hid ur b' hH' hin hT hfil hn hun result hres
  have honce : EachPairOnce radii.length (L.map Prod.fst) := eachPairOnce_perm (hL.map _) (b'.allCoins_once (List.Perm.refl _))
  have hunit : ∀ u v, u < radii.length → v < radii.length → u ≠ v → 0 ≤ hedgePr H radii angles R T u v ∧ hedgePr H radii angles R T u v ≤ 1 := by
    intro u v hu hv huv
    rcases b.edgePr_spec hin hT0 hu hv huv with h | h
    · rw [h]; exact hypPairProb_bounds u v
    · rw [h.1]; norm_num
  have hset : {g | ∃ out, HGenerateEdges env rng (gensOf hn g) (xw radii) (xw angles) (XR.fin T) (XR.fin R) out ∧ Q (edgesIn A out)} =
      {g | Q (edgesIn A (result g))} := by
    ext g
    simp only [Set.mem_setOf_eq]
    constructor
    · rintro ⟨out, h1, h2⟩
      rwa [← edgesIn_perm (same_gens_perm hin ur h1 (hres g))]
    · intro h
      exact ⟨_, hres g, h⟩
  unfold hypEdgesProb
  rw [hset, hev (fun es => Q (edgesIn A es)) (fun es fs h => by rw [edgesIn_perm h])]
  refine coins_tail honce hedgePr_comm ?_ hA hQ
  rintro ⟨⟨c, d⟩, q⟩ hm
  have hi := honce.1 _ (List.mem_map.2 ⟨_, hm, rfl⟩)
  simp only at hi
  have e1 := b'.edgePr_eq (hL.mem_iff.1 hm)
  rw [← epr] at e1
  have hb := hunit c d hi.1 hi.2.1 hi.2.2
  rw [e1] at hb
  simp only [e1, unit_eq hb.1 hb.2]

/-- C97, `girgs::generateEdges` with finite `alpha = a > 0`, fixed weights and positions.  There are probabilities `pr u v`, equal to the documented connection
probabilities except for pairs for which these are below `10^-6`, such that for all environments, ideal random numbers and every symmetric relation `A` between
nodes the number of returned edges among the related pairs is concentrated around the sum `mean` of the `pr u v` of these pairs: it exceeds `mean + t` with
probability at most `exp(-t²/(2(mean + t/3)))`, and falls below `mean - t` with probability at most `exp(-t²/(2 mean))`. -/
theorem C97_positions {D : ℕ} {w : List ℝ} {x : List (Fin D → ℝ)} (s : SupportedInput D w x) {a : ℝ} (ha : 0 < a) :
    ∃ pr : ℕ → ℕ → ℝ, (∀ u v, pr u v = pr v u) ∧
      (∀ u v, u < w.length → v < w.length → u ≠ v → pr u v = girgProb w x a u v ∨ (pr u v = 0 ∧ girgProb w x a u v < 1 / 1000000)) ∧
      ∀ (env : Env) (rng : Rng XR) [MeasurableSpace rng.G] (μ : Measure rng.G), IdealRng rng μ → ∀ A : ℕ → ℕ → Prop, (∀ u v, A u v → A v u) →
        ∀ mean t : ℝ, mean = pairSum w.length A pr → 0 ≤ t →
        edgesProb env rng μ (xw w) (xl x) (fin a) A (fun k => mean + t ≤ k) ≤ ENNReal.ofReal (Real.exp (-(t ^ 2 / (2 * (mean + t / 3))))) ∧
        edgesProb env rng μ (xw w) (xl x) (fin a) A (fun k => (k : ℝ) ≤ mean - t) ≤ ENNReal.ofReal (Real.exp (-(t ^ 2 / (2 * mean)))) := by
  obtain ⟨pr, h1, h2, h3⟩ := girg_tail s ha
  refine ⟨pr, h1, h2, fun env rng _ μ hid A hA mean t hmean ht => ?_⟩
  refine concentrate (prob := edgesProb env rng μ (xw w) (xl x) (fin a) A) ?_ (h3 env rng μ hid A hA) hmean ht
  intro u v hu hv huv
  rcases h2 u v hu hv huv with h | h
  · rw [h]; exact girgProb_nonneg s u v
  · rw [h.1]; norm_num

/-- C97, `hypergirgs::generateEdges` with `T > 2^-52`, `2 T ln 99 ≤ R`, and fixed points, in environments in which the call returns. -/
theorem C97_points {radii angles : List ℝ} {T R : ℝ} (hin : HypInput radii angles T R) (hT : 1 / 4503599627370496 < T) (hfil : 2 * T * Real.log 99 ≤ R) :
    ∃ pr : ℕ → ℕ → ℝ, (∀ u v, pr u v = pr v u) ∧
      (∀ u v, u < radii.length → v < radii.length → u ≠ v →
        pr u v = hypPairProb radii angles R T u v ∨ (pr u v = 0 ∧ hypPairProb radii angles R T u v < 1 / 1000000)) ∧
      ∀ (env : HEnv) (rng : Tree.Rng XR) [MeasurableSpace rng.G] (μ : Measure rng.G), IdealRng rng μ → UnitRng rng →
        (env.threads = 1 ∨ ∃ L, HTree.firstParallelLevel XR env.threads = some L ∧
          Real.cosh R < hypCosh (R - 1) (Real.pi / 2 ^ (L - 1)) (R - 1) 0) →
        ∀ (n : ℕ) (hn : 1 ≤ n), (env.threads ≠ 1 → ∃ L tasks, HTree.firstParallelLevel XR env.threads = some L ∧
          HTree.numTasks L = some tasks ∧ env.threads - 1 + tasks ≤ n) → ∀ A : ℕ → ℕ → Prop, (∀ u v, A u v → A v u) →
        ∀ mean t : ℝ, mean = pairSum radii.length A pr → 0 ≤ t →
        hypEdgesProb env rng μ hn (xw radii) (xw angles) (fin T) (fin R) A (fun k => mean + t ≤ k) ≤
          ENNReal.ofReal (Real.exp (-(t ^ 2 / (2 * (mean + t / 3))))) ∧
        hypEdgesProb env rng μ hn (xw radii) (xw angles) (fin T) (fin R) A (fun k => (k : ℝ) ≤ mean - t) ≤
          ENNReal.ofReal (Real.exp (-(t ^ 2 / (2 * mean)))) := by
  obtain ⟨pr, h1, h2, h3⟩ := hyp_tail hin hT hfil
  refine ⟨pr, h1, h2, fun env rng _ μ hid ur hret n hn hgens A hA mean t hmean ht => ?_⟩
  refine concentrate (prob := hypEdgesProb env rng μ hn (xw radii) (xw angles) (fin T) (fin R) A) ?_ (h3 env rng μ hid ur hret n hn hgens A hA) hmean ht
  intro u v hu hv huv
  rcases h2 u v hu hv huv with h | h
  · rw [h]; exact hypPairProb_bounds u v
  · rw [h.1]; norm_num

/-- C97 at work: three nodes in dimension 2, `alpha = 2`, an ideal source of random numbers.  The number of edges and the degree of the first node satisfy the
bounds; the expected number of edges is positive. -/
example : ∃ pr : ℕ → ℕ → ℝ, ∃ mean deg : ℝ, mean = pairSum 3 (fun _ _ => True) pr ∧ deg = pairSum 3 (incident 0) pr ∧ 0 < mean ∧
    edgesProb (exampleEnv true) idealRng seqMeasure (xw [1, 1, 5]) (xl [![0, 0], ![1 / 2, 1 / 4], ![7 / 8, 1 / 3]]) (fin 2) (fun _ _ => True)
      (fun k => mean + mean ≤ k) ≤ ENNReal.ofReal (Real.exp (-(3 / 8 * mean))) ∧
    edgesProb (exampleEnv true) idealRng seqMeasure (xw [1, 1, 5]) (xl [![0, 0], ![1 / 2, 1 / 4], ![7 / 8, 1 / 3]]) (fin 2) (incident 0)
      (fun k => (k : ℝ) ≤ deg - deg / 2) ≤ ENNReal.ofReal (Real.exp (-(deg / 8))) := by
  obtain ⟨pr, _, h2, h3⟩ := C97_positions exampleInput (a := 2) (by norm_num)
  have hnn : ∀ u v : Fin 3, u < v → 0 ≤ pr u v := by
    intro u v h
    rcases h2 u v u.2 v.2 (by have : u.1 < v.1 := h; omega) with h | h
    · rw [h]; exact (girgProb_nonneg exampleInput u v).1
    · rw [h.1]
  have h12 : pr 1 2 = girgProb [1, 1, 5] [![0, 0], ![1 / 2, 1 / 4], ![7 / 8, 1 / 3]] 2 1 2 ∨ _ := h2 1 2 (by simp) (by simp) (by norm_num)
  have hd : torusDist (![1 / 2, 1 / 4] : Fin 2 → ℝ) ![7 / 8, 1 / 3] = 3 / 8 := by
    unfold torusDist
    simp only [List.finRange_succ, List.finRange_zero, List.foldr_cons, List.foldr_nil, List.map_cons, List.map_nil, circleDist]
    norm_num
  have hpos : 0 < pr 1 2 := by
    have e : girgProb [1, 1, 5] [![0, 0], ![1 / 2, 1 / 4], ![7 / 8, 1 / 3]] 2 1 2 = 1 := by
      unfold girgProb
      simp only [List.getElem?_cons_succ, List.getElem?_cons_zero, hd]
      norm_num
    rcases h12 with h | h
    · rw [h, e]; norm_num
    · rw [e] at h; norm_num at h
  have hm : 0 < pairSum 3 (fun _ _ => True) pr := by
    unfold pairSum
    have h01 := hnn 0 1 (by decide)
    have h02 := hnn 0 2 (by decide)
    simp [Fin.sum_univ_succ] at h01 h02 ⊢
    linarith
  refine ⟨pr, _, _, rfl, rfl, hm, ?_, ?_⟩
  · refine (h3 (exampleEnv true) idealRng seqMeasure idealRng_ideal (fun _ _ => True) (fun _ _ h => h) _ (pairSum 3 (fun _ _ => True) pr) rfl hm.le).1.trans
      (ENNReal.ofReal_le_ofReal (Real.exp_le_exp.2 (le_of_eq ?_)))
    show _ = _
    have : ([1, 1, 5] : List ℝ).length = 3 := rfl
    rw [this]
    generalize pairSum 3 (fun _ _ => True) pr = m at *
    field_simp
    ring
  · have hdeg : 0 ≤ pairSum 3 (incident 0) pr := by
      unfold pairSum
      refine Finset.sum_nonneg fun u _ => Finset.sum_nonneg fun v _ => ?_
      split_ifs with h
      · exact hnn u v h.1
      · exact le_rfl
    refine (h3 (exampleEnv true) idealRng seqMeasure idealRng_ideal (incident 0) (fun _ _ h => h.symm) _ (pairSum 3 (incident 0) pr / 2) rfl (by positivity)).2.trans
      (ENNReal.ofReal_le_ofReal (Real.exp_le_exp.2 (le_of_eq ?_)))
    have : ([1, 1, 5] : List ℝ).length = 3 := rfl
    rw [this]
    generalize pairSum 3 (incident 0) pr = m at *
    rcases eq_or_lt_of_le hdeg with h | h
    · rw [← h]; simp
    · field_simp; ring

/-- C97 for hyperbolic random graphs: the hypotheses are met by four points with `R = 6` and `T = 1/2`. -/
example : ∃ pr : ℕ → ℕ → ℝ, ∀ mean t : ℝ, mean = pairSum 4 (incident 3) pr → 0 ≤ t →
    hypEdgesProb (exampleHEnv true 1 (by norm_num) (by norm_num)) idealRng seqMeasure le_rfl (xw [1, 2, 9 / 2, 5]) (xw [0, 1, 3 / 2, 4]) (fin (1 / 2)) (fin 6)
      (incident 3) (fun k => mean + t ≤ k) ≤ ENNReal.ofReal (Real.exp (-(t ^ 2 / (2 * (mean + t / 3))))) := by
  obtain ⟨pr, _, _, h3⟩ := C97_points (exampleHyp (T := 1 / 2) (by norm_num)) (by norm_num) (by
    have := Real.log_le_sub_one_of_pos (show (0 : ℝ) < 99 / 32 by norm_num)
    have h2 : Real.log 99 = Real.log (99 / 32) + 5 * Real.log 2 := by
      rw [show (99 : ℝ) = 99 / 32 * 2 ^ 5 by norm_num, Real.log_mul (by norm_num) (by norm_num), Real.log_pow]
      norm_num
    have := Real.log_two_lt_d9
    rw [h2]; linarith)
  refine ⟨pr, fun mean t hm ht => ?_⟩
  exact (h3 (exampleHEnv true 1 (by norm_num) (by norm_num)) idealRng seqMeasure idealRng_ideal idealRng_unit (Or.inl rfl) 1 le_rfl
    (fun h => absurd rfl h) (incident 3) (fun _ _ h => h.symm) mean t hm ht).1

end Girgs.Props
