import Verif.Proofs.JointLaw
import Verif.Props.Concentration
import Verif.Props.Clustering
/-
C104: edges are independent: the probability that given pairs are connected and given other pairs are not.
-/
namespace Girgs.Props
open CFloat Spec MeasureTheory Tree
open XR (fin)
open scoped ENNReal

theorem hasEdges_perm {n : ℕ} {A B : ℕ → ℕ → Prop} {es fs : List (ℕ × ℕ)} (h : es.Perm fs) : hasEdges n A B es ↔ hasEdges n A B fs := by
  unfold hasEdges adjacent
  simp only [h.mem_iff]

open Classical in
/-- C104, `girgs::generateEdges` with finite `alpha = a > 0`.  There are probabilities `pr u v`, equal to the documented connection probabilities except for pairs for
which these are below `10^-6`, such that in every environment and with ideal random numbers, for all disjoint symmetric relations `A` and `B`: all pairs related by
`A` are connected and all pairs related by `B` are not with probability `∏_A pr · ∏_B (1 - pr)`. -/
theorem C104_girg {D : ℕ} {w : List ℝ} {x : List (Fin D → ℝ)} (s : SupportedInput D w x) {a : ℝ} (ha : 0 < a) :
    ∃ pr : ℕ → ℕ → ℝ, (∀ u v, pr u v = pr v u) ∧
      (∀ u v, u < w.length → v < w.length → u ≠ v → pr u v = girgProb w x a u v ∨ (pr u v = 0 ∧ girgProb w x a u v < 1 / 1000000)) ∧
      ∀ (env : Env) (rng : Rng XR) [MeasurableSpace rng.G] (μ : Measure rng.G), IdealRng rng μ →
        ∀ A B : ℕ → ℕ → Prop, (∀ u v, A u v → A v u) → (∀ u v, B u v → B v u) → (∀ u v, A u v → ¬ B u v) →
        graphProb env rng μ (xw w) (xl x) (fin a) (hasEdges w.length A B) =
          ∏ e ∈ (Finset.range w.length ×ˢ Finset.range w.length) with e.1 < e.2,
            if A e.1 e.2 then ENNReal.ofReal (pr e.1 e.2) else if B e.1 e.2 then ENNReal.ofReal (1 - pr e.1 e.2) else 1 := by
  obtain ⟨T, hT⟩ := constructedX_exists true (fin a) s 1 le_rfl (by norm_num)
  obtain ⟨m, b⟩ := hT.builtX s
  refine ⟨edgePr T, fun u v => edgePr_comm u v, fun u v hu hv huv => b.edgePr_spec s ha hu hv huv, ?_⟩
  intro env rng _ μ hid A B hA hB hAB
  have hT' := hT.setDebug env.ndebug
  obtain ⟨m', b'⟩ := hT'.builtX s
  have hth : T.isThreshold = false := by unfold Tree.isThreshold; rw [b.alpha_eq]; rfl
  obtain ⟨L, h1, h2⟩ := result_event hid b' hT' s ha
  have hfst : (L.map Prod.fst).Perm ((allCoins _).map Prod.fst) := h1.map _
  have honce : EachPairOnce w.length (L.map Prod.fst) := eachPairOnce_perm hfst (b'.allCoins_once (List.Perm.refl _))
  unfold graphProb
  rw [h2 (hasEdges w.length A B) (fun es fs h => hasEdges_perm h)]
  refine coins_joint honce (fun u v => edgePr_comm u v) ?_ hA hB hAB
  rintro ⟨⟨c, d⟩, q⟩ hm
  have hin := honce.1 _ (List.mem_map.2 ⟨_, hm, rfl⟩)
  simp only at hin
  have e1 := b'.edgePr_eq (h1.mem_iff.1 hm)
  have hb := edgePr_unit b' s ha hin.1 hin.2.1 hin.2.2
  rw [e1] at hb
  rw [unit_eq hb.1 hb.2, ← e1]
  exact edgePr_ndebug hth _ _ _

open Classical in
/-- C104, `hypergirgs::generateEdges` with `T > 2^-52` and `2 T ln 99 ≤ R`, in every environment in which it returns -/
theorem C104_hyper {radii angles : List ℝ} {T R : ℝ} (hin : HypInput radii angles T R) (hT : 1 / 4503599627370496 < T) (hfil : 2 * T * Real.log 99 ≤ R) :
    ∃ pr : ℕ → ℕ → ℝ, (∀ u v, pr u v = pr v u) ∧
      (∀ u v, u < radii.length → v < radii.length → u ≠ v →
        pr u v = hypPairProb radii angles R T u v ∨ (pr u v = 0 ∧ hypPairProb radii angles R T u v < 1 / 1000000)) ∧
      ∀ (env : HEnv) (rng : Tree.Rng XR) [MeasurableSpace rng.G] (μ : Measure rng.G), IdealRng rng μ → UnitRng rng →
        (env.threads = 1 ∨ ∃ L, HTree.firstParallelLevel XR env.threads = some L ∧
          Real.cosh R < hypCosh (R - 1) (Real.pi / 2 ^ (L - 1)) (R - 1) 0) →
        ∀ (n : ℕ) (hn : 1 ≤ n), (env.threads ≠ 1 → ∃ L tasks, HTree.firstParallelLevel XR env.threads = some L ∧
          HTree.numTasks L = some tasks ∧ env.threads - 1 + tasks ≤ n) →
        ∀ A B : ℕ → ℕ → Prop, (∀ u v, A u v → A v u) → (∀ u v, B u v → B v u) → (∀ u v, A u v → ¬ B u v) →
        hypGraphProb env rng μ hn (xw radii) (xw angles) (fin T) (fin R) (hasEdges radii.length A B) =
          ∏ e ∈ (Finset.range radii.length ×ˢ Finset.range radii.length) with e.1 < e.2,
            if A e.1 e.2 then ENNReal.ofReal (pr e.1 e.2) else if B e.1 e.2 then ENNReal.ofReal (1 - pr e.1 e.2) else 1 := by
  have hT0 : 0 < T := lt_trans (by norm_num) hT
  obtain ⟨H, hH⟩ := hconstructed_exists true (XR.fin T) (HypInput.inputOK hin) 1 le_rfl (by norm_num)
  have b := hH.builtX hin
  refine ⟨hedgePr H radii angles R T, hedgePr_comm, fun u v hu hv huv => b.edgePr_spec hin hT0 hu hv huv, ?_⟩
  intro env rng _ μ hid ur hret n hn hgens A B hA hB hAB
  have hH' := hH.setDebug env.ndebug
  have b' := hH'.builtX hin
  have epr : hedgePr H radii angles R T = hedgePr { H with ndebug := env.ndebug } radii angles R T := rfl
  have hun : (hUnits env { H with ndebug := env.ndebug } (hpair R) (startLevel env.threads)).length ≤ n := by
    rw [length_hUnits]
    by_cases h1 : env.threads = 1
    · rw [if_pos h1]; exact hn
    · rw [if_neg h1]
      have st := hstartOK_XR env
      obtain ⟨L, nt, e1, e2, e3⟩ := hgens h1
      have e8 := st.eq h1
      rw [e1, Option.some.injEq] at e8
      subst e8
      obtain ⟨nt', k1, _, k2, _⟩ := length_hTasks (H := { H with ndebug := env.ndebug }) env st.two st.le
      rw [e2, Option.some.injEq] at k1
      omega
  have hex : ∀ g : Fin n → rng.G, ∃ out, HGenerateEdges env rng (gensOf hn g) (xw radii) (xw angles) (XR.fin T) (XR.fin R) out :=
    fun g => (C44_returns_iff hin env rng ur (gensOf hn g)).2 hret
  choose result hres using hex
  obtain ⟨L, hL, hev⟩ := hresult_event hid ur b' hH' hin hT hfil hn hun result hres
  have honce : EachPairOnce radii.length (L.map Prod.fst) := eachPairOnce_perm (hL.map _) (b'.allCoins_once (List.Perm.refl _))
  have hunit : ∀ u v, u < radii.length → v < radii.length → u ≠ v → 0 ≤ hedgePr H radii angles R T u v ∧ hedgePr H radii angles R T u v ≤ 1 := by
    intro u v hu hv huv
    rcases b.edgePr_spec hin hT0 hu hv huv with h | h
    · rw [h]; exact hypPairProb_bounds u v
    · rw [h.1]; norm_num
  have hset : {g | ∃ out, HGenerateEdges env rng (gensOf hn g) (xw radii) (xw angles) (XR.fin T) (XR.fin R) out ∧ hasEdges radii.length A B out} =
      {g | hasEdges radii.length A B (result g)} := by
    ext g
    simp only [Set.mem_setOf_eq]
    constructor
    · rintro ⟨out, h1, h2⟩
      exact (hasEdges_perm (same_gens_perm hin ur h1 (hres g))).1 h2
    · intro h
      exact ⟨_, hres g, h⟩
  unfold hypGraphProb
  rw [hset, hev (hasEdges radii.length A B) (fun es fs h => hasEdges_perm h)]
  refine coins_joint honce hedgePr_comm ?_ hA hB hAB
  rintro ⟨⟨c, d⟩, q⟩ hm
  have hi := honce.1 _ (List.mem_map.2 ⟨_, hm, rfl⟩)
  simp only at hi
  have e1 := b'.edgePr_eq (hL.mem_iff.1 hm)
  rw [← epr] at e1
  have hb := hunit c d hi.1 hi.2.1 hi.2.2
  rw [e1] at hb
  simp only [e1, unit_eq hb.1 hb.2]

/-! ### examples -/

/-- just the pair `a, b` -/
def justPair (a b u v : ℕ) : Prop := (u = a ∧ v = b) ∨ (u = b ∧ v = a)

theorem justPair_symm {a b : ℕ} : ∀ u v, justPair a b u v → justPair a b v u := by
  unfold justPair; omega

/-- `C104_girg`: for the three example nodes and `alpha = 2`, nodes 0 and 2 are connected and 0 and 1 are not with probability 33/49 -/
example : graphProb (exampleEnv true) idealRng seqMeasure (xw [1, 1, 5]) (xl [![0, 0], ![1 / 2, 1 / 4], ![7 / 8, 1 / 3]]) (fin 2)
    (hasEdges 3 (justPair 0 2) (justPair 0 1)) = ENNReal.ofReal (33 / 49) := by
  classical
  obtain ⟨pr, _, h1, h2⟩ := C104_girg exampleInput (a := 2) (by norm_num)
  have h3 := h2 (exampleEnv true) idealRng seqMeasure idealRng_ideal (justPair 0 2) (justPair 0 1) justPair_symm justPair_symm
    (by unfold justPair; omega)
  have d02 : torusDist ![(0 : ℝ), 0] ![7 / 8, 1 / 3] = 1 / 3 := by
    norm_num [torusDist, circleDist, List.finRange_succ, List.finRange_zero]
  have d01 : torusDist ![(0 : ℝ), 0] ![1 / 2, 1 / 4] = 1 / 2 := by
    norm_num [torusDist, circleDist, List.finRange_succ, List.finRange_zero]
  have p02 : girgProb [1, 1, 5] [![0, 0], ![1 / 2, 1 / 4], ![7 / 8, 1 / 3]] 2 0 2 = 1 := by
    show (if torusDist ![(0 : ℝ), 0] ![7 / 8, 1 / 3] = 0 then (1 : ℝ) else _) = 1
    rw [d02, if_neg (by norm_num)]
    norm_num
  have p01 : girgProb [1, 1, 5] [![0, 0], ![1 / 2, 1 / 4], ![7 / 8, 1 / 3]] 2 0 1 = 16 / 49 := by
    show (if torusDist ![(0 : ℝ), 0] ![1 / 2, 1 / 4] = 0 then (1 : ℝ) else min 1 ((1 * 1 / (1 + (1 + (5 + 0))) / torusDist ![(0 : ℝ), 0] ![1 / 2, 1 / 4] ^ 2) ^ (2 : ℝ))) = _
    rw [d01, if_neg (by norm_num)]
    norm_num
  have q02 : pr 0 2 = 1 := by
    rcases h1 0 2 (by norm_num) (by norm_num) (by norm_num) with h | h
    · rw [h, p02]
    · rw [p02] at h; norm_num at h
  have q01 : pr 0 1 = 16 / 49 := by
    rcases h1 0 1 (by norm_num) (by norm_num) (by norm_num) with h | h
    · rw [h, p01]
    · rw [p01] at h; norm_num at h
  refine h3.trans ?_
  have hset : ({e ∈ Finset.range 3 ×ˢ Finset.range 3 | e.1 < e.2} : Finset (ℕ × ℕ)) = {(0, 1), (0, 2), (1, 2)} := by decide
  show ∏ e ∈ (Finset.range 3 ×ˢ Finset.range 3) with e.1 < e.2, _ = _
  rw [hset, Finset.prod_insert (by decide), Finset.prod_insert (by decide), Finset.prod_singleton]
  simp only [q02, q01, justPair]
  norm_num

/-- `C104_hyper`: of the four example points, the first two are connected and the last two are not with probability `p (1 - q)`, where `p` is the documented probability
of the first two, and `q` is that of the last two, or 0 -/
example : ∃ q : ℝ, (q = hypPairProb [1, 2, 9 / 2, 5] [0, 1, 3 / 2, 4] 6 (1 / 2) 2 3 ∨ q = 0) ∧
    hypGraphProb (exampleHEnv true 1 (by norm_num) (by norm_num)) idealRng seqMeasure le_rfl (xw [1, 2, 9 / 2, 5])
      (xw [0, 1, 3 / 2, 4]) (XR.fin (1 / 2)) (XR.fin 6) (hasEdges 4 (justPair 0 1) (justPair 2 3)) =
    ENNReal.ofReal (hypPairProb [1, 2, 9 / 2, 5] [0, 1, 3 / 2, 4] 6 (1 / 2) 0 1) * ENNReal.ofReal (1 - q) := by
  classical
  have hlog : Real.log 99 ≤ 6 := by
    rw [Real.log_le_iff_le_exp (by norm_num), show (6 : ℝ) = ((6 : ℕ) : ℝ) * 1 by norm_num, Real.exp_nat_mul]
    calc (99 : ℝ) ≤ 2.7 ^ 6 := by norm_num
      _ ≤ Real.exp 1 ^ 6 := pow_le_pow_left₀ (by norm_num) (by have := Real.exp_one_gt_d9; linarith) 6
  obtain ⟨pr, _, h1, h2⟩ := C104_hyper (exampleHyp (T := 1 / 2) (by norm_num)) (by norm_num) (by linarith)
  have h3 := h2 (exampleHEnv true 1 (by norm_num) (by norm_num)) idealRng seqMeasure idealRng_ideal idealRng_unit (Or.inl rfl) 1 le_rfl
    (fun h => absurd rfl h) (justPair 0 1) (justPair 2 3) justPair_symm justPair_symm (by unfold justPair; omega)
  have hd : hypDist 1 0 2 1 < 6 := by
    rw [hypDist_lt_iff (by norm_num) (by norm_num) (by norm_num), hc_eq']
    have hc1 : -1 ≤ Real.cos (0 - 1) := Real.neg_one_le_cos _
    have h1 : Real.cosh (1 : ℝ) * Real.cosh 2 - Real.sinh 1 * Real.sinh 2 * Real.cos (0 - 1) ≤ Real.cosh (1 + 2) := by
      rw [Real.cosh_add]
      have : 0 < Real.sinh (1 : ℝ) * Real.sinh 2 := mul_pos (Real.sinh_pos_iff.2 (by norm_num)) (Real.sinh_pos_iff.2 (by norm_num))
      nlinarith
    refine lt_of_le_of_lt h1 (Real.cosh_lt_cosh.2 ?_)
    rw [abs_of_pos (by norm_num), abs_of_pos (by norm_num)]
    norm_num
  have hp : (1 : ℝ) / 2 < hypPairProb [1, 2, 9 / 2, 5] [0, 1, 3 / 2, 4] 6 (1 / 2) 0 1 := by
    show (1 : ℝ) / 2 < hypProb (hypDist 1 0 2 1) 6 (1 / 2)
    unfold hypProb
    have : Real.exp ((hypDist 1 0 2 1 - 6) / (2 * (1 / 2))) < 1 := by
      rw [Real.exp_lt_one_iff]; linarith
    rw [lt_div_iff₀ (by positivity)]
    linarith
  have q01 : pr 0 1 = hypPairProb [1, 2, 9 / 2, 5] [0, 1, 3 / 2, 4] 6 (1 / 2) 0 1 := by
    rcases h1 0 1 (by norm_num) (by norm_num) (by norm_num) with h | h
    · exact h
    · linarith [h.2]
  refine ⟨pr 2 3, (h1 2 3 (by norm_num) (by norm_num) (by norm_num)).imp id (fun h => h.1), h3.trans ?_⟩
  have hset : ({e ∈ Finset.range 4 ×ˢ Finset.range 4 | e.1 < e.2} : Finset (ℕ × ℕ)) = {(0, 1), (0, 2), (0, 3), (1, 2), (1, 3), (2, 3)} := by decide
  show ∏ e ∈ (Finset.range 4 ×ˢ Finset.range 4) with e.1 < e.2, _ = _
  rw [hset, Finset.prod_insert (by decide), Finset.prod_insert (by decide), Finset.prod_insert (by decide), Finset.prod_insert (by decide),
    Finset.prod_insert (by decide), Finset.prod_singleton]
  simp only [q01, justPair]
  norm_num

end Girgs.Props
