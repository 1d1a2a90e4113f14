import Verif.Props.NeighbourLaw
/-
C109: the law of the neighbourhood and of the degree of a node of a hyperbolic random graph with positive temperature.
-/
namespace Girgs.Props
open CFloat Spec MeasureTheory ProbabilityTheory HypDeg Radius
open XR (fin)
open scoped ENNReal

open Classical in
/-- the law of the neighbourhood and of the degree of a node, for fixed points -/
theorem hyp_node_law {radii angles : List ℝ} {T R : ℝ} (hin : HypInput radii angles T R) (hT : 1 / 4503599627370496 < T) (hfil : 2 * T * Real.log 99 ≤ R) :
    ∃ pr : ℕ → ℕ → ℝ,
      (∀ u v, u < radii.length → v < radii.length → u ≠ v →
        pr u v = hypPairProb radii angles R T u v ∨ (pr u v = 0 ∧ hypPairProb radii angles R T u v < 1 / 1000000)) ∧
      ∀ (env : HEnv) (rng : Tree.Rng XR) [MeasurableSpace rng.G] (μ : Measure rng.G), IdealRng rng μ → UnitRng rng →
        (env.threads = 1 ∨ ∃ L, HTree.firstParallelLevel XR env.threads = some L ∧
          Real.cosh R < hypCosh (R - 1) (Real.pi / 2 ^ (L - 1)) (R - 1) 0) →
        ∀ (n : ℕ) (hn : 1 ≤ n), (env.threads ≠ 1 → ∃ L tasks, HTree.firstParallelLevel XR env.threads = some L ∧
          HTree.numTasks L = some tasks ∧ env.threads - 1 + tasks ≤ n) → ∀ u : Fin radii.length,
        (∀ S B : Finset (Fin radii.length), u ∉ S → u ∉ B → Disjoint S B →
          hypGraphProb env rng μ hn (xw radii) (xw angles) (fin T) (fin R) (fun es => (∀ v ∈ S, adjacent es u v) ∧ ∀ v ∈ B, ¬ adjacent es u v) =
            (∏ v ∈ S, ENNReal.ofReal (pr u v)) * ∏ v ∈ B, ENNReal.ofReal (1 - pr u v)) ∧
        ∀ d : ℕ, hypGraphProb env rng μ hn (xw radii) (xw angles) (fin T) (fin R) (fun es => degreeOf u es = d) =
          ∑ S ∈ (Finset.univ.erase u).powersetCard d, (∏ v ∈ S, ENNReal.ofReal (pr u v)) * ∏ v ∈ (Finset.univ.erase u) \ S, ENNReal.ofReal (1 - pr u v) := by
  have hT0 : 0 < T := lt_trans (by norm_num) hT
  obtain ⟨H, hH⟩ := hconstructed_exists true (XR.fin T) (HypInput.inputOK hin) 1 le_rfl (by norm_num)
  have b := hH.builtX hin
  refine ⟨hedgePr H radii angles R T, fun u v hu hv huv => b.edgePr_spec hin hT0 hu hv huv, ?_⟩
  intro env rng _ μ hid ur hret n hn hgens u
  have hH' := hH.setDebug env.ndebug
  have b' := hH'.builtX hin
  have epr : hedgePr H radii angles R T = hedgePr { H with ndebug := env.ndebug } radii angles R T := rfl
  have hun : (hUnits env { H with ndebug := env.ndebug } (hpair R) (startLevel env.threads)).length ≤ n := by
    rw [length_hUnits]
    by_cases h1 : env.threads = 1
    · rw [if_pos h1]; exact hn
    · rw [if_neg h1]
      have st := hstartOK_XR env
      obtain ⟨L, nt, e1, e2, e3⟩ := hgens h1
      have e8 := st.eq h1
      rw [e1, Option.some.injEq] at e8
      subst e8
      obtain ⟨nt', k1, _, k2, _⟩ := length_hTasks (H := { H with ndebug := env.ndebug }) env st.two st.le
      rw [e2, Option.some.injEq] at k1
      omega
  have hex : ∀ g : Fin n → rng.G, ∃ out, HGenerateEdges env rng (gensOf hn g) (xw radii) (xw angles) (XR.fin T) (XR.fin R) out :=
    fun g => (C44_returns_iff hin env rng ur (gensOf hn g)).2 hret
  choose result hres using hex
  obtain ⟨L, hL, hev⟩ := hresult_event hid ur b' hH' hin hT hfil hn hun result hres
  have honce : EachPairOnce radii.length (L.map Prod.fst) := eachPairOnce_perm (hL.map _) (b'.allCoins_once (List.Perm.refl _))
  have hunit : ∀ u v, u < radii.length → v < radii.length → u ≠ v → 0 ≤ hedgePr H radii angles R T u v ∧ hedgePr H radii angles R T u v ≤ 1 := by
    intro u v hu hv huv
    rcases b.edgePr_spec hin hT0 hu hv huv with h | h
    · rw [h]; exact hypPairProb_bounds u v
    · rw [h.1]; norm_num
  have hset : ∀ Q : List (ℕ × ℕ) → Prop, (∀ es fs, es.Perm fs → (Q es ↔ Q fs)) →
      {g | ∃ out, HGenerateEdges env rng (gensOf hn g) (xw radii) (xw angles) (XR.fin T) (XR.fin R) out ∧ Q out} = {g | Q (result g)} := by
    intro Q hQ
    ext g
    simp only [Set.mem_setOf_eq]
    constructor
    · rintro ⟨out, h1, h2⟩
      exact (hQ _ _ (same_gens_perm hin ur h1 (hres g))).1 h2
    · intro h
      exact ⟨_, hres g, h⟩
  have hLp : ∀ c ∈ L, unit c.2 = hedgePr H radii angles R T c.1.1 c.1.2 := by
    rintro ⟨⟨c, d⟩, q⟩ hm
    have hi := honce.1 _ (List.mem_map.2 ⟨_, hm, rfl⟩)
    simp only at hi
    have e1 := b'.edgePr_eq (hL.mem_iff.1 hm)
    rw [← epr] at e1
    have hb := hunit c d hi.1 hi.2.1 hi.2.2
    rw [e1] at hb
    simp only [e1, unit_eq hb.1 hb.2]
  have hadj : ∀ {es fs : List (ℕ × ℕ)}, es.Perm fs → ∀ v : Fin radii.length, adjacent es u v ↔ adjacent fs u v := fun h v => by
    unfold adjacent; simp only [h.mem_iff]
  have hN : ∀ S B : Finset (Fin radii.length), u ∉ S → u ∉ B → Disjoint S B →
      ∑' es, flips L es * Set.indicator {es | (∀ v ∈ S, adjacent es u v) ∧ ∀ v ∈ B, ¬ adjacent es u v} 1 es =
        (∏ v ∈ S, ENNReal.ofReal (hedgePr H radii angles R T u v)) * ∏ v ∈ B, ENNReal.ofReal (1 - hedgePr H radii angles R T u v) := fun S B hS hB hd =>
    coins_neighbours honce hedgePr_comm hLp hS hB hd
  constructor
  · intro S B hS hB hd
    have hp : ∀ es fs : List (ℕ × ℕ), es.Perm fs → (((∀ v ∈ S, adjacent es u v) ∧ ∀ v ∈ B, ¬ adjacent es u v) ↔
      ((∀ v ∈ S, adjacent fs u v) ∧ ∀ v ∈ B, ¬ adjacent fs u v)) := fun es fs h => by simp only [hadj h]
    unfold hypGraphProb
    rw [hset _ hp, hev (fun es => (∀ v ∈ S, adjacent es u v) ∧ ∀ v ∈ B, ¬ adjacent es u v) hp]
    exact hN S B hS hB hd
  · intro d
    have hp : ∀ es fs : List (ℕ × ℕ), es.Perm fs → (degreeOf u es = d ↔ degreeOf u fs = d) := fun es fs h => by rw [degreeOf_perm h]
    unfold hypGraphProb
    rw [hset _ hp, hev (fun es => degreeOf u es = d) hp, coins_degree honce d]
    refine Finset.sum_congr rfl fun S hS => ?_
    have hS' := (Finset.mem_powersetCard.1 hS).1
    exact hN S _ (fun h => Finset.notMem_erase u _ (hS' h)) (fun h => Finset.notMem_erase u _ (Finset.mem_sdiff.1 h).1) Finset.disjoint_sdiff

section Hyperbolic
variable {Ω : Type} [MeasurableSpace Ω] {P : Measure Ω} {omp : Omp} {eng : Engine XR} [MeasurableSpace eng.G] {μ : Measure eng.G}
  {σ : ℤ → Ω → eng.G} {device : ℕ → Ω → eng.G} {n : ℕ} {α R T : ℝ} {radii angles : Ω → List XR} {rng : Tree.Rng XR}

/-- C109, hyperbolic random graphs, `T > 2^-52` with `2 T ln 99 ≤ R`.  `n` points of the disk are drawn (ideal engines, independently started), then `generateEdges` is
run in an environment in which it returns (C44), with ideal random numbers that are independent of the points.  `m ω` is the probability that a random point is connected
with the point of node `u`, by the documented connection probabilities.  Given the point of `u`, its connections with the other nodes are, up to errors of `10^-6`,
independent with the probability `m`; so its degree is binomial. -/
theorem C109_hyper_expected (hs : SampledPoints P omp eng μ σ device n α R radii angles) (h31 : n < 2147483648)
    (hdisk : (2 / 3 ≤ R ∧ R ≤ 1) ∨ (4 / 3 ≤ R ∧ R ≤ 165 / 4)) (hα : 0 < α) (hαR : 1 ≤ α * R)
    (hT : 1 / 4503599627370496 < T) (hfil : 2 * T * Real.log 99 ≤ R) (env : HEnv) [MeasurableSpace rng.G]
    {ν : Measure rng.G} (hr : IdealRng rng ν) (hur : UnitRng rng)
    (hret : env.threads = 1 ∨ ∃ L, HTree.firstParallelLevel XR env.threads = some L ∧
      Real.cosh R < hypCosh (R - 1) (Real.pi / 2 ^ (L - 1)) (R - 1) 0) {g : ℕ} (hg : 1 ≤ g)
    (hgens : env.threads ≠ 1 → ∃ L tasks, HTree.firstParallelLevel XR env.threads = some L ∧
      HTree.numTasks L = some tasks ∧ env.threads - 1 + tasks ≤ g) (u : Fin n)
    {ρ φ : Ω → ℝ} (hρ : ∀ ω, (radii ω)[u.1]? = some (fin (ρ ω))) (hφ : ∀ ω, (angles ω)[u.1]? = some (fin (φ ω)))
    {m : Ω → ℝ≥0∞} (hm : ∀ ω, m ω = ∫⁻ ω', ENNReal.ofReal (hypProb (hypDist (ρ ω) (φ ω) (ρ ω') (φ ω')) R T) ∂P) {A : Set ℝ} (hA : MeasurableSet A)
    {ε : ℝ≥0∞} (hε : ε = ENNReal.ofReal (1 / 1000000)) :
    (∀ S B : Finset (Fin n), u ∉ S → u ∉ B → Disjoint S B →
      upperMean (P.restrict {ω | ρ ω ∈ A}) (fun ω => hypGraphProb env rng ν hg (radii ω) (angles ω) (fin T) (fin R)
          fun es => (∀ v ∈ S, adjacent es u v) ∧ ∀ v ∈ B, ¬ adjacent es u v) ≤
        ∫⁻ ω in {ω | ρ ω ∈ A}, m ω ^ S.card * (1 - m ω + ε) ^ B.card ∂P ∧
      ∫⁻ ω in {ω | ρ ω ∈ A}, (m ω - ε) ^ S.card * (1 - m ω) ^ B.card ∂P ≤
        ∫⁻ ω in {ω | ρ ω ∈ A}, hypGraphProb env rng ν hg (radii ω) (angles ω) (fin T) (fin R)
          (fun es => (∀ v ∈ S, adjacent es u v) ∧ ∀ v ∈ B, ¬ adjacent es u v) ∂P) ∧
    ∀ d : ℕ,
      upperMean (P.restrict {ω | ρ ω ∈ A}) (fun ω => hypGraphProb env rng ν hg (radii ω) (angles ω) (fin T) (fin R) fun es => degreeOf u es = d) ≤
        ∫⁻ ω in {ω | ρ ω ∈ A}, (n - 1).choose d * (m ω ^ d * (1 - m ω + ε) ^ (n - 1 - d)) ∂P ∧
      ∫⁻ ω in {ω | ρ ω ∈ A}, (n - 1).choose d * ((m ω - ε) ^ d * (1 - m ω) ^ (n - 1 - d)) ∂P ≤
        ∫⁻ ω in {ω | ρ ω ∈ A}, hypGraphProb env rng ν hg (radii ω) (angles ω) (fin T) (fin R) (fun es => degreeOf u es = d) ∂P := by
  classical
  have hR : 0 < R := by rcases hdisk with h | h <;> linarith
  have hT0 : 0 < T := lt_trans (by norm_num) hT
  have hn : 1 ≤ n := by have := u.2; omega
  obtain ⟨r, a, hp, ho⟩ := sampled_random hs hn hα hR hαR
  haveI := radialLaw_prob hαR
  haveI : IsProbabilityMeasure (pointLaw α R) := by unfold pointLaw; infer_instance
  obtain rfl : ρ = r u := by
    funext ω
    have := hρ ω
    rw [(ho ω).1, List.getElem?_ofFn, dif_pos u.2, Option.some.injEq] at this
    exact (XR.fin.inj this).symm
  obtain rfl : φ = a u := by
    funext ω
    have := hφ ω
    rw [(ho ω).2, List.getElem?_ofFn, dif_pos u.2, Option.some.injEq] at this
    exact (XR.fin.inj this).symm
  obtain ⟨X, hXd⟩ : ∃ X : Ω → Fin n → ℝ × ℝ, X = fun ω i => (r i ω, a i ω) := ⟨_, rfl⟩
  have hX : Measurable X := by rw [hXd]; exact measurable_pi_lambda _ fun i => (hp.measR i).prodMk (hp.measA i)
  have hlaw : P.map X = Measure.pi fun _ => pointLaw α R := by rw [hXd]; exact hp.joint
  obtain ⟨F, hF⟩ : ∃ F : ℝ × ℝ → ℝ × ℝ → ℝ≥0∞, F = fun q p => ENNReal.ofReal (conn T (Real.exp ((hypDist q.1 q.2 p.1 p.2 - R) / 2))) := ⟨_, rfl⟩
  have hFm : Measurable fun z : (ℝ × ℝ) × ℝ × ℝ => F z.1 z.2 := by
    rw [hF]
    exact ((conn_measurable T).comp ((measurable_hypDist.sub_const R).div_const 2).exp).ennreal_ofReal
  have hF1 : ∀ q p, F q p ≤ 1 := fun q p => by
    rw [hF, ENNReal.ofReal_le_one]
    exact conn_le_one (Real.exp_pos _).le
  have hFs : ∀ q, Measurable fun p => F q p := fun q => by
    have h1 : Measurable fun p : ℝ × ℝ => (q, p) := by fun_prop
    exact hFm.comp h1
  obtain ⟨M, hM⟩ : ∃ M : ℝ × ℝ → ℝ≥0∞, M = fun q => ∫⁻ p, F q p ∂pointLaw α R := ⟨_, rfl⟩
  have hMm : Measurable M := by rw [hM]; exact hFm.lintegral_prod_right
  have hM1 : ∀ q, M q ≤ 1 := fun q => by
    rw [hM]
    exact (lintegral_mono fun p => hF1 q p).trans (by simp)
  have hmu : Measurable fun ω => X ω u := (measurable_pi_apply u).comp hX
  have hone : P.map (fun ω => X ω u) = pointLaw α R := by
    have h1 : (fun ω => X ω u) = (fun x : Fin n → ℝ × ℝ => x u) ∘ X := rfl
    rw [h1, ← Measure.map_map (measurable_pi_apply u) hX, hlaw]
    exact (measurePreserving_eval (fun _ : Fin n => pointLaw α R) u).map_eq
  have hXu : ∀ ω, X ω u = (r u ω, a u ω) := fun ω => by rw [hXd]
  have hmM : ∀ ω, m ω = M (X ω u) := by
    intro ω
    rw [hm, hM, hF]
    dsimp only
    rw [← hone, lintegral_map (by have := hFs (X ω u); rw [hF] at this; exact this) hmu]
    refine lintegral_congr fun ω' => ?_
    rw [hXu, hXu]
    congr 1
    have := prob_gap (R := R) (T := T) (ρ := fun i _ => if i.1 = 0 then r u ω else r u ω') (φ := fun i _ => if i.1 = 0 then a u ω else a u ω') hT0 () (0 : Fin 2) (1 : Fin 2)
    exact this
  have hC : MeasurableSet {p : ℝ × ℝ | p.1 ∈ A} := measurable_fst hA
  have hS0 : {ω | X ω u ∈ {p : ℝ × ℝ | p.1 ∈ A}} = {ω | r u ω ∈ A} := by
    ext ω
    rw [Set.mem_setOf_eq, hXu]
    rfl
  have hmap : ∀ g : ℝ × ℝ → ℝ≥0∞, Measurable g → ∫⁻ q in {p : ℝ × ℝ | p.1 ∈ A}, g q ∂pointLaw α R = ∫⁻ ω in {ω | r u ω ∈ A}, g (X ω u) ∂P := fun g hg => by
    rw [← hone, setLIntegral_map hC hg hmu, ← hS0]
    rfl
  -- the means of the products
  have hrow : ∀ {f h : ℝ × ℝ → ℝ × ℝ → ℝ≥0∞} {S B : Finset (Fin n)}, (Measurable fun z : (ℝ × ℝ) × ℝ × ℝ => f z.1 z.2) →
      (Measurable fun z : (ℝ × ℝ) × ℝ × ℝ => h z.1 z.2) → u ∉ S → u ∉ B → Disjoint S B →
      ∫⁻ ω in {ω | r u ω ∈ A}, (∏ v ∈ S, f (X ω u) (X ω v)) * ∏ v ∈ B, h (X ω u) (X ω v) ∂P =
        ∫⁻ ω in {ω | r u ω ∈ A}, (∫⁻ p, f (X ω u) p ∂pointLaw α R) ^ S.card * (∫⁻ p, h (X ω u) p ∂pointLaw α R) ^ B.card ∂P := by
    intro f h S B hf hh hS hB hd
    have h1 := mean_row (f := fun _ => f) (g := fun _ => h) hX hlaw hS hB hd hC (fun _ => hf) fun _ => hh
    simp only [Finset.prod_const] at h1
    rw [hS0] at h1
    rw [h1]
    exact hmap _ ((hf.lintegral_prod_right.pow_const _).mul (hh.lintegral_prod_right.pow_const _))
  have hint1 : ∀ q, ∫⁻ p, (1 - F q p) ∂pointLaw α R = 1 - M q := fun q => by
    rw [lintegral_sub (hFs q) (by rw [hM] at hM1; exact ne_top_of_le_ne_top ENNReal.one_ne_top (hM1 q)) (Filter.Eventually.of_forall fun p => hF1 q p), hM]
    simp
  have hint2 : ∀ q, ∫⁻ p, (1 - F q p + ε) ∂pointLaw α R = 1 - M q + ε := fun q => by
    rw [lintegral_add_right _ measurable_const, hint1]
    simp
  have hint3 : ∀ q, M q - ε ≤ ∫⁻ p, (F q p - ε) ∂pointLaw α R := fun q => by
    refine le_trans (le_of_eq ?_) (lintegral_sub_le _ _ (measurable_const (a := ε)))
    rw [hM]
    simp
  have m1 : Measurable fun z : (ℝ × ℝ) × ℝ × ℝ => 1 - F z.1 z.2 := measurable_const.sub hFm
  have m2 : Measurable fun z : (ℝ × ℝ) × ℝ × ℝ => 1 - F z.1 z.2 + ε := m1.add_const _
  have m3 : Measurable fun z : (ℝ × ℝ) × ℝ × ℝ => F z.1 z.2 - ε := hFm.sub measurable_const
  have hup : ∀ {S B : Finset (Fin n)}, u ∉ S → u ∉ B → Disjoint S B →
      ∫⁻ ω in {ω | r u ω ∈ A}, (∏ v ∈ S, F (X ω u) (X ω v)) * ∏ v ∈ B, (1 - F (X ω u) (X ω v) + ε) ∂P =
        ∫⁻ ω in {ω | r u ω ∈ A}, m ω ^ S.card * (1 - m ω + ε) ^ B.card ∂P := fun hS hB hd => by
    rw [hrow (f := F) (h := fun q p => 1 - F q p + ε) hFm m2 hS hB hd]
    refine lintegral_congr fun ω => ?_
    rw [hint2, hmM, hM]
  have hlow : ∀ {S B : Finset (Fin n)}, u ∉ S → u ∉ B → Disjoint S B →
      ∫⁻ ω in {ω | r u ω ∈ A}, (m ω - ε) ^ S.card * (1 - m ω) ^ B.card ∂P ≤
        ∫⁻ ω in {ω | r u ω ∈ A}, (∏ v ∈ S, (F (X ω u) (X ω v) - ε)) * ∏ v ∈ B, (1 - F (X ω u) (X ω v)) ∂P := fun hS hB hd => by
    rw [hrow (f := fun q p => F q p - ε) (h := fun q p => 1 - F q p) m3 m1 hS hB hd]
    refine lintegral_mono fun ω => ?_
    dsimp only
    rw [hint1, hmM]
    exact mul_le_mul (pow_le_pow_left' (hint3 _) _) le_rfl bot_le bot_le
  have hmeas : ∀ {f h : ℝ × ℝ → ℝ × ℝ → ℝ≥0∞} (S B : Finset (Fin n)), (Measurable fun z : (ℝ × ℝ) × ℝ × ℝ => f z.1 z.2) →
      (Measurable fun z : (ℝ × ℝ) × ℝ × ℝ => h z.1 z.2) → Measurable fun ω => (∏ v ∈ S, f (X ω u) (X ω v)) * ∏ v ∈ B, h (X ω u) (X ω v) := by
    intro f h S B hf hh
    have h1 : ∀ v, Measurable fun ω => (X ω u, X ω v) := fun v => hmu.prodMk ((measurable_pi_apply v).comp hX)
    exact (Finset.measurable_prod _ fun v _ => hf.comp (h1 v)).mul (Finset.measurable_prod _ fun v _ => hh.comp (h1 v))
  -- the probabilities for given points
  have hpr : ∀ ω, ∃ pr : Fin n → ℝ≥0∞, (∀ v, u ≠ v → F (X ω u) (X ω v) - ε ≤ pr v ∧ pr v ≤ F (X ω u) (X ω v)) ∧
      (∀ S B : Finset (Fin n), u ∉ S → u ∉ B → Disjoint S B →
        hypGraphProb env rng ν hg (radii ω) (angles ω) (fin T) (fin R) (fun es => (∀ v ∈ S, adjacent es u v) ∧ ∀ v ∈ B, ¬ adjacent es u v) =
          (∏ v ∈ S, pr v) * ∏ v ∈ B, (1 - pr v)) ∧
      ∀ d : ℕ, hypGraphProb env rng ν hg (radii ω) (angles ω) (fin T) (fin R) (fun es => degreeOf u es = d) =
        ∑ S ∈ (Finset.univ.erase u).powersetCard d, (∏ v ∈ S, pr v) * ∏ v ∈ (Finset.univ.erase u) \ S, (1 - pr v) := by
    intro ω
    have hin := random_input hp hn h31 hT0.le hdisk ω
    obtain ⟨pr, h2, h3⟩ := hyp_node_law hin hT hfil
    obtain ⟨radii', hrad⟩ : ∃ l, l = List.ofFn fun i => r i ω := ⟨_, rfl⟩
    have hlen : radii'.length = n := by rw [hrad]; exact List.length_ofFn
    have hval : ∀ v : Fin n, u ≠ v → 0 ≤ pr u v ∧ F (X ω u) (X ω v) - ε ≤ ENNReal.ofReal (pr u v) ∧ ENNReal.ofReal (pr u v) ≤ F (X ω u) (X ω v) := by
      intro v huv
      rw [hF, hXd]
      dsimp only
      have h5 := conn_nonneg' (T := T) (gap_pos (ρ := r) (φ := a) (R := R) ω u v).le
      rcases h2 u v (by rw [List.length_ofFn]; exact u.2) (by rw [List.length_ofFn]; exact v.2) (fun h => huv (Fin.ext h)) with h4 | h4
      · rw [prob_gap hT0 ω u v] at h4
        rw [h4]
        exact ⟨h5, tsub_le_self, le_rfl⟩
      · rw [prob_gap hT0 ω u v] at h4
        rw [h4.1]
        refine ⟨le_rfl, ?_, by simp⟩
        rw [ENNReal.ofReal_zero, nonpos_iff_eq_zero, tsub_eq_zero_iff_le, hε]
        exact ENNReal.ofReal_le_ofReal h4.2.le
    have h6 := h3 env rng ν hr hur hret g hg hgens
    rw [← xw_ofFn, ← xw_ofFn, ← (ho ω).1, ← (ho ω).2, ← hrad] at h6
    subst hlen
    refine ⟨fun v => ENNReal.ofReal (pr u v), fun v huv => (hval v huv).2, fun S B hS hB hd => ?_, fun d => ?_⟩
    · rw [(h6 u).1 S B hS hB hd]
      congr 1
      refine Finset.prod_congr rfl fun v hv => ?_
      rw [ENNReal.ofReal_sub _ (hval v fun h => hB (h ▸ hv)).1, ENNReal.ofReal_one]
    · rw [(h6 u).2 d]
      refine Finset.sum_congr rfl fun S hS => ?_
      congr 1
      refine Finset.prod_congr rfl fun v hv => ?_
      have hne : u ≠ v := fun h => (Finset.mem_erase.1 (Finset.mem_sdiff.1 hv).1).1 h.symm
      rw [ENNReal.ofReal_sub _ (hval v hne).1, ENNReal.ofReal_one]
  choose pr hpr1 hpr2 hpr3 using hpr
  have bup : ∀ (ω : Ω) {S B : Finset (Fin n)}, u ∉ S → u ∉ B → (∏ v ∈ S, pr ω v) * ∏ v ∈ B, (1 - pr ω v) ≤
      (∏ v ∈ S, F (X ω u) (X ω v)) * ∏ v ∈ B, (1 - F (X ω u) (X ω v) + ε) := by
    intro ω S B hS hB
    refine mul_le_mul (Finset.prod_le_prod' fun v hv => (hpr1 ω v fun h => hS (h ▸ hv)).2) (Finset.prod_le_prod' fun v hv => ?_) bot_le bot_le
    have h1 := tsub_le_iff_right.1 (hpr1 ω v fun h => hB (h ▸ hv)).1
    rw [tsub_le_iff_right]
    have h2 : (1 : ℝ≥0∞) = 1 - F (X ω u) (X ω v) + F (X ω u) (X ω v) := (tsub_add_cancel_of_le (hF1 _ _)).symm
    calc (1 : ℝ≥0∞) = 1 - F (X ω u) (X ω v) + F (X ω u) (X ω v) := h2
      _ ≤ 1 - F (X ω u) (X ω v) + (pr ω v + ε) := add_le_add le_rfl h1
      _ = _ := by ring
  have blow : ∀ (ω : Ω) {S B : Finset (Fin n)}, u ∉ S → u ∉ B → (∏ v ∈ S, (F (X ω u) (X ω v) - ε)) * ∏ v ∈ B, (1 - F (X ω u) (X ω v)) ≤
      (∏ v ∈ S, pr ω v) * ∏ v ∈ B, (1 - pr ω v) := by
    intro ω S B hS hB
    exact mul_le_mul (Finset.prod_le_prod' fun v hv => (hpr1 ω v fun h => hS (h ▸ hv)).1)
      (Finset.prod_le_prod' fun v hv => tsub_le_tsub_left (hpr1 ω v fun h => hB (h ▸ hv)).2 _) bot_le bot_le
  have hsets : ∀ {d : ℕ} {S : Finset (Fin n)}, S ∈ (Finset.univ.erase u).powersetCard d → u ∉ S ∧ u ∉ (Finset.univ.erase u) \ S ∧
      S.card = d ∧ ((Finset.univ.erase u) \ S).card = n - 1 - d := by
    intro d S hS
    obtain ⟨hS', hc⟩ := Finset.mem_powersetCard.1 hS
    refine ⟨fun h => Finset.notMem_erase u _ (hS' h), fun h => Finset.notMem_erase u _ (Finset.mem_sdiff.1 h).1, hc, ?_⟩
    rw [Finset.card_sdiff_of_subset hS', hc, Finset.card_erase_of_mem (Finset.mem_univ u), Finset.card_univ, Fintype.card_fin]
  have hnum : ∀ d₀ : ℕ, ((Finset.univ.erase u).powersetCard d₀).card = (n - 1).choose d₀ := fun d₀ => by
    rw [Finset.card_powersetCard, Finset.card_erase_of_mem (Finset.mem_univ u), Finset.card_univ, Fintype.card_fin]
  have mu := fun S B => hmeas (f := F) (h := fun q p => 1 - F q p + ε) S B hFm m2
  have ml := fun S B => hmeas (f := fun q p => F q p - ε) (h := fun q p => 1 - F q p) S B m3 m1
  refine ⟨fun S B hS hB hd => ⟨?_, ?_⟩, fun d => ⟨?_, ?_⟩⟩
  · exact (upperMean_le (mu S B) fun ω => (hpr2 ω S B hS hB hd).le.trans (bup ω hS hB)).trans (hup hS hB hd).le
  · exact (hlow hS hB hd).trans (lintegral_mono fun ω => (blow ω hS hB).trans (hpr2 ω S B hS hB hd).ge)
  · refine (upperMean_le (Finset.measurable_sum _ fun S _ => mu S ((Finset.univ.erase u) \ S)) fun ω =>
      (hpr3 ω d).le.trans (Finset.sum_le_sum fun S hS => bup ω (hsets hS).1 (hsets hS).2.1)).trans ?_
    rw [lintegral_finsetSum _ fun S _ => mu S _, lintegral_const_mul' _ _ (by simp), ← hnum d, ← nsmul_eq_mul, ← Finset.sum_const]
    refine Finset.sum_le_sum fun S hS => ?_
    rw [hup (hsets hS).1 (hsets hS).2.1 Finset.disjoint_sdiff, (hsets hS).2.2.1, (hsets hS).2.2.2]
  · refine le_trans ?_ (lintegral_mono fun ω => (Finset.sum_le_sum fun S hS => blow ω (hsets hS).1 (hsets hS).2.1).trans (hpr3 ω d).ge)
    rw [lintegral_finsetSum _ fun S _ => ml S _, lintegral_const_mul' _ _ (by simp), ← hnum d, ← nsmul_eq_mul, ← Finset.sum_const]
    refine Finset.sum_le_sum fun S hS => ?_
    have := hlow (hsets hS).1 (hsets hS).2.1 Finset.disjoint_sdiff
    rwa [(hsets hS).2.2.1, (hsets hS).2.2.2] at this

end Hyperbolic

/-! ### example -/

/-- `C109_hyper_expected`: 100000 points with `α = 1` in the disk of radius 20, temperature 1/2: the probability that node 7 has radius at least 16 and is isolated is,
up to errors of `10^-6` in each factor, the mean of `(1-m)^99999` -/
example (n : ℕ) (hn : n = 100000) : ∃ (radii angles : (ℤ → ℕ → ℝ) → List XR) (ρ φ : (ℤ → ℕ → ℝ) → ℝ) (m : (ℤ → ℕ → ℝ) → ℝ≥0∞)
    (P : Measure (ℤ → ℕ → ℝ)), P = (Measure.infinitePi fun _ : ℤ => seqMeasure) ∧ (∀ ω, (radii ω)[7]? = some (fin (ρ ω))) ∧ (∀ ω, (angles ω)[7]? = some (fin (φ ω))) ∧
    (∀ ω, m ω = ∫⁻ ω', ENNReal.ofReal (hypProb (hypDist (ρ ω) (φ ω) (ρ ω') (φ ω')) 20 (1 / 2)) ∂P) ∧
    upperMean (P.restrict {ω | ρ ω ∈ Set.Ici 16}) (fun ω => hypGraphProb (exampleHEnv true 1 (by norm_num) (by norm_num)) idealRng seqMeasure le_rfl
      (radii ω) (angles ω) (fin (1 / 2)) (fin 20) fun es => degreeOf 7 es = 0) ≤
        ∫⁻ ω in {ω | ρ ω ∈ Set.Ici 16}, (1 - m ω + ENNReal.ofReal (1 / 1000000)) ^ (n - 1) ∂P ∧
    ∫⁻ ω in {ω | ρ ω ∈ Set.Ici 16}, (1 - m ω) ^ (n - 1) ∂P ≤
      ∫⁻ ω in {ω | ρ ω ∈ Set.Ici 16}, hypGraphProb (exampleHEnv true 1 (by norm_num) (by norm_num)) idealRng seqMeasure le_rfl
        (radii ω) (angles ω) (fin (1 / 2)) (fin 20) (fun es => degreeOf 7 es = 0) ∂P := by
  obtain ⟨radii, angles, hs⟩ := exampleSampled (n := n) (by omega) (α := 1) (R := 20) one_pos (by norm_num)
  obtain ⟨ρ, φ, hp, ho⟩ := sampled_random hs (by omega) one_pos (by norm_num) (by norm_num)
  obtain ⟨u, hu⟩ : ∃ u : Fin n, u.1 = 7 := ⟨⟨7, by omega⟩, rfl⟩
  have hρ : ∀ ω, (radii ω)[u.1]? = some (fin (ρ u ω)) := by
    intro ω
    rw [(ho ω).1, List.getElem?_ofFn, dif_pos u.2]
  have hφ : ∀ ω, (angles ω)[u.1]? = some (fin (φ u ω)) := by
    intro ω
    rw [(ho ω).2, List.getElem?_ofFn, dif_pos u.2]
  have hlog : Real.log 99 ≤ 20 := by
    have : Real.log 99 < 5 := by
      rw [Real.log_lt_iff_lt_exp (by norm_num), show (5 : ℝ) = ((5 : ℕ) : ℝ) * 1 by norm_num, Real.exp_nat_mul]
      have h1 := Real.exp_one_gt_d9
      have h4 : (2.7 : ℝ) ^ 5 ≤ Real.exp 1 ^ 5 := pow_le_pow_left₀ (by norm_num) (by linarith) 5
      have h5 : (99 : ℝ) < 2.7 ^ 5 := by norm_num
      exact h5.trans_le h4
    linarith
  have h1 := (C109_hyper_expected (T := 1 / 2) hs (by omega) (Or.inr (by norm_num)) one_pos (by norm_num) (by norm_num) (by linarith)
    (exampleHEnv true 1 (by norm_num) (by norm_num)) idealRng_ideal idealRng_unit (Or.inl rfl) le_rfl (fun h => absurd rfl h) u hρ hφ (fun ω => rfl)
    (measurableSet_Ici (a := (16 : ℝ))) rfl).2 0
  simp only [Nat.choose_zero_right, Nat.cast_one, pow_zero, one_mul, Nat.sub_zero, hu] at h1
  exact ⟨radii, angles, ρ u, φ u, _, _, rfl, hu ▸ hρ, hu ▸ hφ, fun ω => rfl, h1.1, h1.2⟩

end Girgs.Props
