import Verif.Proofs.HGraphLaw
import Verif.Proofs.IdealRng
import Verif.Props.HyperExact
/-
C61: the distribution of the result of `hypergirgs::generateEdges`, for ideal random numbers.
-/
namespace Girgs.Props
open MeasureTheory Spec CFloat
open scoped ENNReal

variable {radii angles : List ℝ} {T R : ℝ} {H : HTree XR}

/-- with the same generators, all executions return the same edges -/
theorem same_gens_perm (hin : HypInput radii angles T R) {env : HEnv} {rng : Tree.Rng XR} (u : UnitRng rng) {gens : ℕ → rng.G}
    {out out' : List (ℕ × ℕ)} (h : HGenerateEdges env rng gens (xw radii) (xw angles) (XR.fin T) (XR.fin R) out)
    (h' : HGenerateEdges env rng gens (xw radii) (xw angles) (XR.fin T) (XR.fin R) out') : out.Perm out' := by
  obtain ⟨H, hH, calls, hc, ho⟩ := h
  obtain ⟨H', hH', calls', hc', ho'⟩ := h'
  obtain rfl := hH.unique hH' (HypInput.inputOK hin)
  have b := hH.builtX hin
  have st := hstartOK_XR env
  have p1 := b.ok.generate_perm u.geo (b.draws hin.temp u) b.fo st gens hc
  have p2 := b.ok.generate_perm u.geo (b.draws hin.temp u) b.fo st gens hc'
  have q1 := EdgeBuffer.IsMerge.perm (ho.isMerge (by unfold blockSize; omega))
  have q2 := EdgeBuffer.IsMerge.perm (ho'.isMerge (by unfold blockSize; omega))
  exact (q1.trans p1).trans ((q2.trans p2).symm)

/-- C61.  Let `T > 2^-52` and `2 T ln 99 ≤ R` (see C46).  There are probabilities `pr u v`, depending only on the points, `T` and `R`, such that
* `pr u v` is the documented connection probability `1 / (1 + exp((d - R) / (2 T)))`, except for some pairs for which that is below 10^-6
  and `pr u v = 0`;
* for every environment (number of threads, schedule, build type) in which the call returns (C44), ideal random numbers, and independent
  generators, as many as `generate` creates, the graph returned by `hypergirgs::generateEdges` contains every pair independently with
  probability `pr u v`: every graph `E` on the nodes is returned with probability `∏ pr · ∏ (1 - pr)`, and every pair is connected with
  probability `pr u v`. -/
theorem C61_distribution (hin : HypInput radii angles T R) (hT : 1 / 4503599627370496 < T) (hfil : 2 * T * Real.log 99 ≤ R) :
    ∃ pr : ℕ → ℕ → ℝ,
      (∀ u v, u < radii.length → v < radii.length → u ≠ v →
        pr u v = hypPairProb radii angles R T u v ∨ (pr u v = 0 ∧ hypPairProb radii angles R T u v < 1 / 1000000)) ∧
      ∀ (env : HEnv) (rng : Tree.Rng XR) [MeasurableSpace rng.G] (μ : Measure rng.G), IdealRng rng μ → UnitRng rng →
        (env.threads = 1 ∨ ∃ L, HTree.firstParallelLevel XR env.threads = some L ∧
          Real.cosh R < hypCosh (R - 1) (Real.pi / 2 ^ (L - 1)) (R - 1) 0) →
        ∀ (n : ℕ) (hn : 1 ≤ n), (env.threads ≠ 1 → ∃ L tasks, HTree.firstParallelLevel XR env.threads = some L ∧
          HTree.numTasks L = some tasks ∧ env.threads - 1 + tasks ≤ n) →
        (∀ E : ℕ → ℕ → Prop, (∀ u v, E u v → E v u) → ∀ [DecidableRel E],
          (Measure.pi fun _ : Fin n => μ)
            {g | ∃ out, HGenerateEdges env rng (gensOf hn g) (xw radii) (xw angles) (XR.fin T) (XR.fin R) out ∧ IsGraphOf radii.length E out} =
          ∏ e ∈ (Finset.range radii.length ×ˢ Finset.range radii.length) with e.1 < e.2,
            if E e.1 e.2 then ENNReal.ofReal (pr e.1 e.2) else ENNReal.ofReal (1 - pr e.1 e.2)) ∧
        (∀ u v, u < radii.length → v < radii.length → u ≠ v →
          (Measure.pi fun _ : Fin n => μ)
            {g | ∃ out, HGenerateEdges env rng (gensOf hn g) (xw radii) (xw angles) (XR.fin T) (XR.fin R) out ∧ ((u, v) ∈ out ∨ (v, u) ∈ out)} =
          ENNReal.ofReal (pr u v)) := by
  have hT0 : 0 < T := lt_trans (by norm_num) hT
  obtain ⟨H, hH⟩ := hconstructed_exists true (XR.fin T) (HypInput.inputOK hin) 1 le_rfl (by norm_num)
  have b := hH.builtX hin
  refine ⟨hedgePr H radii angles R T, fun u v hu hv huv => b.edgePr_spec hin hT0 hu hv huv, ?_⟩
  intro env rng _ μ hid ur hret n hn hgens
  have hH' := hH.setDebug env.ndebug
  have b' := hH'.builtX hin
  have epr : hedgePr H radii angles R T = hedgePr { H with ndebug := env.ndebug } radii angles R T := rfl
  have hun : (hUnits env { H with ndebug := env.ndebug } (hpair R) (startLevel env.threads)).length ≤ n := by
    rw [length_hUnits]
    by_cases h1 : env.threads = 1
    · rw [if_pos h1]; exact hn
    · rw [if_neg h1]
      have st := hstartOK_XR env
      obtain ⟨L, nt, e1, e2, e3⟩ := hgens h1
      have e8 := st.eq h1
      rw [e1, Option.some.injEq] at e8
      subst e8
      obtain ⟨nt', k1, _, k2, _⟩ := length_hTasks (H := { H with ndebug := env.ndebug }) env st.two st.le
      rw [e2, Option.some.injEq] at k1
      omega
  have hex : ∀ g : Fin n → rng.G, ∃ out, HGenerateEdges env rng (gensOf hn g) (xw radii) (xw angles) (XR.fin T) (XR.fin R) out :=
    fun g => (C44_returns_iff hin env rng ur (gensOf hn g)).2 hret
  choose result hres using hex
  obtain ⟨L, hL, hev⟩ := hresult_event hid ur b' hH' hin hT hfil hn hun result hres
  have honce : EachPairOnce radii.length (L.map Prod.fst) := eachPairOnce_perm (hL.map _) (b'.allCoins_once (List.Perm.refl _))
  have hpr : ∀ u v q, ((u, v), q) ∈ L → hedgePr H radii angles R T u v = q ∧ unit q = q := by
    intro u v q hm
    have e1 := b'.edgePr_eq (hL.mem_iff.1 hm)
    rw [← epr] at e1
    refine ⟨e1, ?_⟩
    have hm' := honce.1 _ (List.mem_map.2 ⟨_, hm, rfl⟩)
    simp only at hm'
    rw [← e1]
    rcases b.edgePr_spec hin hT0 hm'.1 hm'.2.1 hm'.2.2 with h | h
    · rw [h]; exact unit_eq (hypPairProb_bounds u v).1 (hypPairProb_bounds u v).2
    · rw [h.1]; exact unit_eq (by norm_num) (by norm_num)
  have hset : ∀ Q : List (ℕ × ℕ) → Prop, (∀ es fs, es.Perm fs → (Q es ↔ Q fs)) →
      {g | ∃ out, HGenerateEdges env rng (gensOf hn g) (xw radii) (xw angles) (XR.fin T) (XR.fin R) out ∧ Q out} = {g | Q (result g)} := by
    intro Q hQ
    ext g
    simp only [Set.mem_setOf_eq]
    constructor
    · rintro ⟨out, h1, h2⟩
      exact (hQ _ _ (same_gens_perm hin ur h1 (hres g))).1 h2
    · intro h
      exact ⟨_, hres g, h⟩
  constructor
  · intro E hE _
    have hQ : ∀ es fs : List (ℕ × ℕ), es.Perm fs → (IsGraphOf radii.length E es ↔ IsGraphOf radii.length E fs) :=
      fun es fs h => ⟨fun h' => IsGraphOf.perm h.symm h', fun h' => IsGraphOf.perm h h'⟩
    rw [hset _ hQ, hev _ hQ, flips_graph honce hedgePr_comm hpr hE]
    apply Finset.prod_congr rfl
    intro e _
    by_cases h : E e.1 e.2 <;> simp [h]
  · intro u v hu hv huv
    have hQ : ∀ es fs : List (ℕ × ℕ), es.Perm fs → (((u, v) ∈ es ∨ (v, u) ∈ es) ↔ ((u, v) ∈ fs ∨ (v, u) ∈ fs)) :=
      fun es fs h => by rw [h.mem_iff, h.mem_iff]
    rw [hset _ hQ, hev _ hQ, flips_edge honce hedgePr_comm hpr hu hv huv]

/-- C61 at work: ideal random numbers in the half-open unit interval exist; with them and one thread, the first two of the four example points
(of radii 1, 2 in a disk of radius 6, temperature 1/2) are connected with a probability above 1/2 -/
example : ∃ (_ : MeasurableSpace idealRng.G) (μ : Measure idealRng.G), IdealRng idealRng μ ∧ UnitRng idealRng ∧
    ENNReal.ofReal (1 / 2) < (Measure.pi fun _ : Fin 1 => μ)
      {g | ∃ out, HGenerateEdges (exampleHEnv true 1 (by norm_num) (by norm_num)) idealRng (gensOf le_rfl g) (xw [1, 2, 9 / 2, 5])
        (xw [0, 1, 3 / 2, 4]) (XR.fin (1 / 2)) (XR.fin 6) out ∧ ((0, 1) ∈ out ∨ (1, 0) ∈ out)} := by
  have hlog : Real.log 99 ≤ 6 := by
    rw [Real.log_le_iff_le_exp (by norm_num), show (6 : ℝ) = ((6 : ℕ) : ℝ) * 1 by norm_num, Real.exp_nat_mul]
    calc (99 : ℝ) ≤ 2.7 ^ 6 := by norm_num
      _ ≤ Real.exp 1 ^ 6 := pow_le_pow_left₀ (by norm_num) (by have := Real.exp_one_gt_d9; linarith) 6
  obtain ⟨pr, h1, h2⟩ := C61_distribution (exampleHyp (T := 1 / 2) (by norm_num)) (by norm_num) (by linarith)
  have h3 := (h2 (exampleHEnv true 1 (by norm_num) (by norm_num)) idealRng seqMeasure idealRng_ideal idealRng_unit (Or.inl rfl) 1 le_rfl
    (fun h => absurd rfl h)).2 0 1 (by norm_num) (by norm_num) (by norm_num)
  refine ⟨inferInstanceAs (MeasurableSpace (ℕ → ℝ)), seqMeasure, idealRng_ideal, idealRng_unit, ?_⟩
  refine lt_of_lt_of_eq ?_ h3.symm
  have hd : hypDist 1 0 2 1 < 6 := by
    rw [hypDist_lt_iff (by norm_num) (by norm_num) (by norm_num), hc_eq']
    have hc1 : -1 ≤ Real.cos (0 - 1) := Real.neg_one_le_cos _
    have h1 : Real.cosh (1 : ℝ) * Real.cosh 2 - Real.sinh 1 * Real.sinh 2 * Real.cos (0 - 1) ≤ Real.cosh (1 + 2) := by
      rw [Real.cosh_add]
      have : 0 < Real.sinh (1 : ℝ) * Real.sinh 2 := mul_pos (Real.sinh_pos_iff.2 (by norm_num)) (Real.sinh_pos_iff.2 (by norm_num))
      nlinarith
    refine lt_of_le_of_lt h1 (Real.cosh_lt_cosh.2 ?_)
    rw [abs_of_pos (by norm_num), abs_of_pos (by norm_num)]
    norm_num
  have hp : (1 : ℝ) / 2 < hypPairProb [1, 2, 9 / 2, 5] [0, 1, 3 / 2, 4] 6 (1 / 2) 0 1 := by
    show (1 : ℝ) / 2 < hypProb (hypDist 1 0 2 1) 6 (1 / 2)
    unfold hypProb
    have : Real.exp ((hypDist 1 0 2 1 - 6) / (2 * (1 / 2))) < 1 := by
      rw [Real.exp_lt_one_iff]; linarith
    rw [lt_div_iff₀ (by positivity)]
    linarith
  rcases h1 0 1 (by norm_num) (by norm_num) (by norm_num) with h | h
  · rw [h]; exact (ENNReal.ofReal_lt_ofReal_iff (by linarith)).2 hp
  · linarith [h.2]

end Girgs.Props
