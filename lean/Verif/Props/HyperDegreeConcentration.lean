import Verif.Proofs.HypTail
import Verif.Props.DegreeConcentration
/-
C99: the degree of a node of a hyperbolic random graph is concentrated around the value given by its radius.
-/
namespace Girgs.Props
open CFloat Spec MeasureTheory ProbabilityTheory HypDeg Radius
open XR (fin)
open scoped ENNReal

theorem meas_le_upperMean {Ω : Type} [MeasurableSpace Ω] {P : Measure Ω} {Q : Set Ω} {f : Ω → ℝ≥0∞} (h : ∀ ω ∈ Q, 1 ≤ f ω) : P Q ≤ upperMean P f := by
  refine le_iInf fun F => le_iInf fun hF => le_iInf fun hfF => ?_
  have h1 : Q ⊆ {ω | 1 ≤ F ω} := fun ω hω => (h ω hω).trans (hfF ω)
  refine (measure_mono h1).trans ?_
  simpa using mul_meas_ge_le_lintegral hF 1

open Classical in
/-- exponential tail bounds for the degree of a node -/
theorem hyp_tail_node {radii angles : List ℝ} {T R : ℝ} (hin : HypInput radii angles T R) (hT : 1 / 4503599627370496 < T) (hfil : 2 * T * Real.log 99 ≤ R) :
    ∃ pr : ℕ → ℕ → ℝ,
      (∀ u v, u < radii.length → v < radii.length → u ≠ v →
        pr u v = hypPairProb radii angles R T u v ∨ (pr u v = 0 ∧ hypPairProb radii angles R T u v < 1 / 1000000)) ∧
      ∀ (env : HEnv) (rng : Tree.Rng XR) [MeasurableSpace rng.G] (μ : Measure rng.G), IdealRng rng μ → UnitRng rng →
        (env.threads = 1 ∨ ∃ L, HTree.firstParallelLevel XR env.threads = some L ∧
          Real.cosh R < hypCosh (R - 1) (Real.pi / 2 ^ (L - 1)) (R - 1) 0) →
        ∀ (n : ℕ) (hn : 1 ≤ n), (env.threads ≠ 1 → ∃ L tasks, HTree.firstParallelLevel XR env.threads = some L ∧
          HTree.numTasks L = some tasks ∧ env.threads - 1 + tasks ≤ n) → ∀ u, u < radii.length →
        ∀ (l k : ℝ) (Q : ℕ → Prop), (∀ N : ℕ, Q N → l * k ≤ l * N) →
        hypEdgesProb env rng μ hn (xw radii) (xw angles) (fin T) (fin R) (incident u) Q ≤
          ENNReal.ofReal (Real.exp (-(l * k))) * ∏ v : Fin radii.length, if u = v.1 then 1 else ENNReal.ofReal (1 + pr u v * (Real.exp l - 1)) := by
  obtain ⟨pr, h1, h2, h3⟩ := hyp_tail hin hT hfil
  refine ⟨pr, h2, fun env rng _ μ hid ur hret n hn hgens u hu l k Q hQ => ?_⟩
  refine (h3 env rng μ hid ur hret n hn hgens (incident u) (fun _ _ h => h.symm) l k Q hQ).trans (le_of_eq ?_)
  congr 1
  have h := prod_upairs_node hu (f := fun c d => ENNReal.ofReal (1 + pr c d * (Real.exp l - 1))) (fun c d => by rw [h1])
  rw [← h]
  refine Finset.prod_congr rfl fun e _ => ?_
  unfold incident
  congr 1

section Random
variable {Ω : Type} [MeasurableSpace Ω] {P : Measure Ω} {omp : Omp} {eng : Engine XR} [MeasurableSpace eng.G] {μ : Measure eng.G}
  {σ : ℤ → Ω → eng.G} {device : ℕ → Ω → eng.G} {n : ℕ} {α R T γ : ℝ} {radii angles : Ω → List XR} {rng : Tree.Rng XR}

/-- tail bounds over the outcomes with radius in `A` -/
theorem hyp_row_tail {ρ φ : Fin n → Ω → ℝ} (hp : RandomPoints P n α R ρ φ) (hn : 2 ≤ n) (hαR : 1 ≤ α * R) (u : Fin n) {A : Set ℝ} (hA : MeasurableSet A)
    {h : ℝ → ℝ} (h0 : ∀ v, 0 < v → 0 ≤ h v) (h1 : ∀ v, 0 < v → h v ≤ 1) (hm : Measurable h) {s c M : ℝ}
    (hM : ∀ p : ℝ × ℝ, p.1 ∈ A → 0 ≤ p.1 → p.1 ≤ R →
      (0 ≤ s ∧ 0 ≤ M ∧ ∫⁻ q, ENNReal.ofReal (h (Real.exp ((hypDist p.1 p.2 q.1 q.2 - R) / 2))) ∂pointLaw α R ≤ ENNReal.ofReal (M / (n - 1))) ∨
      (s ≤ 0 ∧ ENNReal.ofReal (M / (n - 1)) ≤ ∫⁻ q, ENNReal.ofReal (h (Real.exp ((hypDist p.1 p.2 q.1 q.2 - R) / 2))) ∂pointLaw α R))
    {F : Ω → ℝ≥0∞} (hF : ∀ ω, F ω ≤ ENNReal.ofReal (Real.exp (-(s * c))) *
      ∏ v, if u = v then 1 else ENNReal.ofReal (1 + h (gap ρ φ R ω u v) * (Real.exp s - 1))) :
    upperMean (P.restrict {ω | ρ u ω ∈ A}) F ≤ P {ω | ρ u ω ∈ A} * ENNReal.ofReal (Real.exp ((Real.exp s - 1) * M - s * c)) := by
  have hn1 : (0 : ℝ) < n - 1 := by
    have : (2 : ℝ) ≤ n := by exact_mod_cast hn
    linarith
  have hg : Measurable fun ω => ∏ v, if u = v then 1 else ENNReal.ofReal (1 + h (gap ρ φ R ω u v) * (Real.exp s - 1)) := by
    refine Finset.measurable_prod _ fun v _ => ?_
    split_ifs
    · exact measurable_const
    · have h1 : Measurable fun ω => ((ρ u ω, φ u ω), (ρ v ω, φ v ω)) := ((hp.measR u).prodMk (hp.measA u)).prodMk ((hp.measR v).prodMk (hp.measA v))
      have h2 : Measurable fun ω => gap ρ φ R ω u v := (((measurable_hypDist.comp h1).sub_const R).div_const 2).exp
      exact (measurable_const.add ((hm.comp h2).mul_const _)).ennreal_ofReal
  refine (upperMean_le (hg.const_mul _) hF).trans ?_
  rw [lintegral_const_mul _ hg]
  refine (mul_le_mul le_rfl (row_exp hp hαR u hA h0 h1 hm (K := M / (n - 1)) fun p k1 k2 k3 => ?_) bot_le bot_le).trans (le_of_eq ?_)
  · rcases hM p k1 k2 k3 with h | h
    · exact Or.inl ⟨h.1, div_nonneg h.2.1 hn1.le, h.2.2⟩
    · exact Or.inr h
  · rw [mul_left_comm, ← ENNReal.ofReal_mul (Real.exp_pos _).le, ← Real.exp_add]
    congr 3
    field_simp
    ring

/-- C99, `T = 0`.  `n` points of the disk are drawn (ideal engines, independently started), then `generateEdges` is run with temperature 0, in any environment
and with any random numbers.  Let `A` be a set of radii.  If `M` bounds the leading term `(n-1) (2/π) ξ exp(-r/2)` with its upper relative error (C96) for all
radii `r` in `A`, then, given that the radius of node `u` is in `A`, its degree exceeds `M + t` with probability at most `exp(-t²/(2(M + t/3)))`.  If `m ≥ 0` is
below the leading term with its lower relative error for all radii in `A`, then the degree falls below `m - t` with probability at most `exp(-t²/(2m))`. -/
theorem C99_threshold (hs : SampledPoints P omp eng μ σ device n α R radii angles) (hn : 2 ≤ n) (h31 : n < 2147483648)
    (hdisk : (2 / 3 ≤ R ∧ R ≤ 1) ∨ (4 / 3 ≤ R ∧ R ≤ 165 / 4)) (hγ0 : 1 ≤ γ) (hγ : γ ≤ 2) (hγα : γ < 2 * α) (hαR : 1 ≤ (α - 1 / 2) * R)
    (env : Ω → HEnv) (hgeo : GeoBounded rng) (gens : Ω → ℕ → rng.G) {out : Ω → List (ℕ × ℕ)}
    (h : ∀ ω, HGenerateEdges (env ω) rng (gens ω) (radii ω) (angles ω) (fin 0) (fin R) (out ω))
    {u : ℕ} (hu : u < n) {ρ : Ω → ℝ} (hρ : ∀ ω, (radii ω)[u]? = some (fin (ρ ω))) {A : Set ℝ} (hA : MeasurableSet A) {t : ℝ} (ht : 0 ≤ t) :
    (∀ M : ℝ, 0 ≤ M → (∀ r ∈ A, 0 ≤ r → r ≤ R → hrgNodeDegree (n - 1) α 0 r * ((1 + 2 * nodeError α γ r) * slack α R) ≤ M) →
      P {ω | ρ ω ∈ A ∧ M + t ≤ degreeOf u (out ω)} ≤ P {ω | ρ ω ∈ A} * ENNReal.ofReal (Real.exp (-(t ^ 2 / (2 * (M + t / 3)))))) ∧
    (∀ m : ℝ, 0 ≤ m → (∀ r ∈ A, 0 ≤ r → r ≤ R →
        m ≤ hrgNodeDegree (n - 1) α 0 r * (1 - 2.1 * Real.exp (-((α - 1 / 2) * R)) - 3 * nodeError α γ r * slack α R)) →
      P {ω | ρ ω ∈ A ∧ degreeOf u (out ω) ≤ m - t} ≤ P {ω | ρ ω ∈ A} * ENNReal.ofReal (Real.exp (-(t ^ 2 / (2 * m))))) := by
  classical
  have hn1 : (0 : ℝ) < n - 1 := by
    have : (2 : ℝ) ≤ n := by exact_mod_cast hn
    linarith
  have hR : 0 < R := by rcases hdisk with h | h <;> linarith
  have hα : 0 < α := by linarith
  have hαR' : 1 ≤ α * R := by nlinarith
  obtain ⟨r, φ, hp, ho⟩ := sampled_random hs (by omega) hα hR hαR'
  obtain rfl : ρ = r ⟨u, hu⟩ := by
    funext ω
    have := hρ ω
    rw [(ho ω).1, List.getElem?_ofFn, dif_pos hu, Option.some.injEq] at this
    exact (XR.fin.inj this).symm
  have hS : MeasurableSet {ω | r ⟨u, hu⟩ ω ∈ A} := row_sets hp ⟨u, hu⟩ hA
  have hc1 : ∀ v : ℝ, 0 < v → conn 0 v ≤ 1 := by
    intro v _
    unfold conn
    simp only [if_true]
    split_ifs <;> norm_num
  have e : ∀ (s : ℝ) ω, ∏ v, (if (⟨u, hu⟩ : Fin n) = v then 1 else ENNReal.ofReal (1 + conn 0 (gap r φ R ω ⟨u, hu⟩ v) * (Real.exp s - 1))) =
      ENNReal.ofReal (Real.exp (s * (degreeOf u (out ω) : ℕ))) := by
    intro s ω
    have h1 := h ω
    rw [(ho ω).1, (ho ω).2, xw_ofFn, xw_ofFn] at h1
    have hin := random_input hp (by omega) h31 le_rfl hdisk ω
    have hlen : (List.ofFn fun i => r i ω).length = n := List.length_ofFn
    have h2 := degreeOf_graph (by rw [hlen]; exact hu) (C45_threshold_exact hin _ rng hgeo _ _ h1)
    rw [h2, ← (finCongr hlen.symm).sum_comp, Nat.cast_sum, Finset.mul_sum, Real.exp_sum, ENNReal.ofReal_prod_of_nonneg fun v _ => (Real.exp_pos _).le]
    refine Finset.prod_congr rfl fun v _ => ?_
    simp only [finCongr_apply, Fin.val_cast, Fin.ext_iff]
    split_ifs with h3 h4
    · simp
    · have := (rule_gap (R := R) (ρ := r) (φ := φ) ω ⟨u, hu⟩ v).1 h4
      unfold conn
      simp [this]
    · have := mt (rule_gap (R := R) (ρ := r) (φ := φ) ω ⟨u, hu⟩ v).2 h4
      unfold conn
      simp [this]
  have key : ∀ (s c M : ℝ) (Q : ℕ → Prop), (∀ N : ℕ, Q N → s * c ≤ s * N) → (∀ p : ℝ × ℝ, p.1 ∈ A → 0 ≤ p.1 → p.1 ≤ R →
      (0 ≤ s ∧ 0 ≤ M ∧ ∫⁻ q, ENNReal.ofReal (conn 0 (Real.exp ((hypDist p.1 p.2 q.1 q.2 - R) / 2))) ∂pointLaw α R ≤ ENNReal.ofReal (M / (n - 1))) ∨
      (s ≤ 0 ∧ ENNReal.ofReal (M / (n - 1)) ≤ ∫⁻ q, ENNReal.ofReal (conn 0 (Real.exp ((hypDist p.1 p.2 q.1 q.2 - R) / 2))) ∂pointLaw α R)) →
      P {ω | r ⟨u, hu⟩ ω ∈ A ∧ Q (degreeOf u (out ω))} ≤ P {ω | r ⟨u, hu⟩ ω ∈ A} * ENNReal.ofReal (Real.exp ((Real.exp s - 1) * M - s * c)) := by
    intro s c M Q hQ hM
    refine le_trans ?_ (hyp_row_tail hp hn hαR' ⟨u, hu⟩ hA (fun v hv => conn_nonneg' hv.le) hc1 (conn_measurable 0) hM fun ω => le_rfl)
    have : {ω | r ⟨u, hu⟩ ω ∈ A ∧ Q (degreeOf u (out ω))} = {ω | Q (degreeOf u (out ω))} ∩ {ω | r ⟨u, hu⟩ ω ∈ A} := by
      ext ω; simp [and_comm]
    rw [this, ← Measure.restrict_apply' hS]
    refine meas_le_upperMean fun ω hω => ?_
    rw [e, ← ENNReal.ofReal_mul (Real.exp_pos _).le, ← Real.exp_add, ENNReal.one_le_ofReal]
    apply Real.one_le_exp
    have := hQ _ hω
    linarith
  constructor
  · intro M hM0 hM
    obtain ⟨l, hl, hb⟩ := chernoff_up hM0 ht
    refine (key l (M + t) M (fun k => M + t ≤ k) (fun N hN => mul_le_mul_of_nonneg_left hN hl) fun p k1 k2 k3 => Or.inl ⟨hl, hM0, ?_⟩).trans
      (mul_le_mul le_rfl (ENNReal.ofReal_le_ofReal (Real.exp_le_exp.2 hb)) bot_le bot_le)
    refine (node_upper' le_rfl one_pos hγ0 hγ (by norm_num) hγα hR hαR' p).trans (ENNReal.ofReal_le_ofReal ?_)
    rw [le_div_iff₀ hn1]
    refine le_trans (le_of_eq ?_) (hM p.1 k1 k2 k3)
    rw [hrgNode_eq]
    ring
  · intro m hm0 hm
    obtain ⟨l, hl, hb⟩ := chernoff_down hm0 ht
    refine (key (-l) (m - t) m (fun k => (k : ℝ) ≤ m - t) (fun N hN => by nlinarith) fun p k1 k2 k3 => Or.inr ⟨by linarith, ?_⟩).trans
      (mul_le_mul le_rfl (ENNReal.ofReal_le_ofReal (Real.exp_le_exp.2 (by linarith))) bot_le bot_le)
    refine le_trans (ENNReal.ofReal_le_ofReal ?_) (node_lower' le_rfl one_pos hγ0 hγ (by norm_num) hγα hR hαR p k2 k3)
    rw [div_le_iff₀ hn1]
    refine (hm p.1 k1 k2 k3).trans (le_of_eq ?_)
    rw [hrgNode_eq]
    ring

/-- C99, `2^-52 < T < 1`, same setting, but in an environment in which the call returns (C44), with ideal random numbers that are independent of the points.  The
leading term and the relative errors are those of C96 for the temperature `T`. -/
theorem C99_expected (hs : SampledPoints P omp eng μ σ device n α R radii angles) (hn : 2 ≤ n) (h31 : n < 2147483648)
    (hdisk : (2 / 3 ≤ R ∧ R ≤ 1) ∨ (4 / 3 ≤ R ∧ R ≤ 165 / 4)) (hγ0 : 1 ≤ γ) (hγ : γ ≤ 2) (hγα : γ < 2 * α) (hαR : 1 ≤ (α - 1 / 2) * R)
    (hT : 1 / 4503599627370496 < T) (hT1 : T < 1) (hTγ : T * γ ≤ 1) (hfil : 2 * T * Real.log 99 ≤ R) (env : HEnv) [MeasurableSpace rng.G]
    {ν : Measure rng.G} (hr : IdealRng rng ν) (hur : UnitRng rng)
    (hret : env.threads = 1 ∨ ∃ L, HTree.firstParallelLevel XR env.threads = some L ∧
      Real.cosh R < hypCosh (R - 1) (Real.pi / 2 ^ (L - 1)) (R - 1) 0) {g : ℕ} (hg : 1 ≤ g)
    (hgens : env.threads ≠ 1 → ∃ L tasks, HTree.firstParallelLevel XR env.threads = some L ∧
      HTree.numTasks L = some tasks ∧ env.threads - 1 + tasks ≤ g)
    {u : ℕ} (hu : u < n) {ρ : Ω → ℝ} (hρ : ∀ ω, (radii ω)[u]? = some (fin (ρ ω))) {A : Set ℝ} (hA : MeasurableSet A) {t : ℝ} (ht : 0 ≤ t) :
    (∀ M : ℝ, 0 ≤ M → (∀ r ∈ A, 0 ≤ r → r ≤ R → hrgNodeDegree (n - 1) α T r * ((1 + 2 * nodeError α γ r) * slack α R) ≤ M) →
      upperMean (P.restrict {ω | ρ ω ∈ A}) (fun ω => hypEdgesProb env rng ν hg (radii ω) (angles ω) (fin T) (fin R) (incident u) fun k => M + t ≤ k) ≤
        P {ω | ρ ω ∈ A} * ENNReal.ofReal (Real.exp (-(t ^ 2 / (2 * (M + t / 3)))))) ∧
    (∀ m : ℝ, 0 ≤ m → (∀ r ∈ A, 0 ≤ r → r ≤ R →
        m ≤ hrgNodeDegree (n - 1) α T r *
          (1 - 2.1 * Real.exp (-((α - 1 / 2) * R)) - ((1 / 1000000) ^ (1 - T) / (1 - T) + 5 * nodeError α γ r) * slack α R)) →
      upperMean (P.restrict {ω | ρ ω ∈ A}) (fun ω => hypEdgesProb env rng ν hg (radii ω) (angles ω) (fin T) (fin R) (incident u) fun k => (k : ℝ) ≤ m - t) ≤
        P {ω | ρ ω ∈ A} * ENNReal.ofReal (Real.exp (-(t ^ 2 / (2 * m))))) := by
  have hn1 : (0 : ℝ) < n - 1 := by
    have : (2 : ℝ) ≤ n := by exact_mod_cast hn
    linarith
  have hR : 0 < R := by rcases hdisk with h | h <;> linarith
  have hT0 : 0 < T := lt_trans (by norm_num) hT
  have hα : 0 < α := by linarith
  have hαR' : 1 ≤ α * R := by nlinarith
  obtain ⟨r, φ, hp, ho⟩ := sampled_random hs (by omega) hα hR hαR'
  obtain rfl : ρ = r ⟨u, hu⟩ := by
    funext ω
    have := hρ ω
    rw [(ho ω).1, List.getElem?_ofFn, dif_pos hu, Option.some.injEq] at this
    exact (XR.fin.inj this).symm
  obtain ⟨ε, hε⟩ : ∃ ε : ℝ, ε = 1 / 1000000 := ⟨_, rfl⟩
  have hε0 : 0 < ε := by rw [hε]; norm_num
  have mC := conn_measurable T
  have hc1 : ∀ v : ℝ, 0 < v → conn T v ≤ 1 := fun v hv => conn_le_one hv.le
  have hpr : ∀ ω, ∃ pr : ℕ → ℝ, (∀ v : Fin n, (⟨u, hu⟩ : Fin n) ≠ v → conn T (gap r φ R ω ⟨u, hu⟩ v) - min (conn T (gap r φ R ω ⟨u, hu⟩ v)) ε ≤ pr v ∧
        pr v ≤ conn T (gap r φ R ω ⟨u, hu⟩ v)) ∧
      ∀ (l k : ℝ) (Q : ℕ → Prop), (∀ N : ℕ, Q N → l * k ≤ l * N) →
        hypEdgesProb env rng ν hg (radii ω) (angles ω) (fin T) (fin R) (incident u) Q ≤
          ENNReal.ofReal (Real.exp (-(l * k))) * ∏ v : Fin n, if (⟨u, hu⟩ : Fin n) = v then 1 else ENNReal.ofReal (1 + pr v * (Real.exp l - 1)) := by
    intro ω
    have hin := random_input hp (by omega) h31 hT0.le hdisk ω
    obtain ⟨pr, h2, h3⟩ := hyp_tail_node hin hT hfil
    have hlen : (List.ofFn fun i => r i ω).length = n := List.length_ofFn
    refine ⟨pr u, fun v huv => ?_, fun l k Q hQ => ?_⟩
    · have h4 := h2 u v (by rw [hlen]; exact hu) (by rw [hlen]; exact v.2) (fun h => huv (Fin.ext h))
      rw [show hypPairProb (List.ofFn fun i => r i ω) (List.ofFn fun i => φ i ω) R T u v = conn T (gap r φ R ω ⟨u, hu⟩ v) from prob_gap hT0 ω ⟨u, hu⟩ v,
        ← hε] at h4
      have h5 := conn_nonneg' (T := T) (gap_pos (ρ := r) (φ := φ) (R := R) ω ⟨u, hu⟩ v).le
      have h6 : 0 ≤ min (conn T (gap r φ R ω ⟨u, hu⟩ v)) ε := le_min h5 hε0.le
      rcases h4 with h | h
      · rw [h]; exact ⟨by linarith, le_rfl⟩
      · rw [h.1, min_eq_left h.2.le]; exact ⟨by simp, h5⟩
    · have := h3 env rng ν hr hur hret g hg hgens u (by rw [hlen]; exact hu) l k Q hQ
      rw [← xw_ofFn, ← xw_ofFn, ← (ho ω).1, ← (ho ω).2, ← (finCongr hlen.symm).prod_comp] at this
      simpa only [finCongr_apply, Fin.val_cast, Fin.ext_iff] using this
  constructor
  · intro M hM0 hM
    obtain ⟨l, hl, hb⟩ := chernoff_up hM0 ht
    refine (hyp_row_tail hp hn hαR' ⟨u, hu⟩ hA (s := l) (c := M + t) (M := M) (h := conn T) (fun v hv => conn_nonneg' hv.le) hc1 mC
      (fun p k1 k2 k3 => Or.inl ⟨hl, hM0, ?_⟩) fun ω => ?_).trans (mul_le_mul le_rfl (ENNReal.ofReal_le_ofReal (Real.exp_le_exp.2 hb)) bot_le bot_le)
    · refine (node_upper' hT0.le hT1 hγ0 hγ hTγ hγα hR hαR' p).trans (ENNReal.ofReal_le_ofReal ?_)
      rw [le_div_iff₀ hn1]
      refine le_trans (le_of_eq ?_) (hM p.1 k1 k2 k3)
      rw [hrgNode_eq]
      ring
    · obtain ⟨pr, h1, h2⟩ := hpr ω
      refine (h2 l (M + t) _ fun N hN => mul_le_mul_of_nonneg_left hN hl).trans (mul_le_mul le_rfl (Finset.prod_le_prod' fun v _ => ?_) bot_le bot_le)
      split_ifs with huv
      · exact le_rfl
      · have := (h1 v huv).2
        have := Real.one_le_exp hl
        exact ENNReal.ofReal_le_ofReal (by nlinarith)
  · intro m hm0 hm
    obtain ⟨l, hl, hb⟩ := chernoff_down hm0 ht
    have hl' : -l ≤ 0 := by linarith
    have hmin0 : ∀ v : ℝ, 0 < v → 0 ≤ min (conn T v) ε := fun v hv => le_min (conn_nonneg' hv.le) hε0.le
    refine (hyp_row_tail hp hn hαR' ⟨u, hu⟩ hA (s := -l) (c := m - t) (M := m) (h := fun v => conn T v - min (conn T v) ε)
      (fun v hv => sub_nonneg.2 (min_le_left _ _)) (fun v hv => by have := hmin0 v hv; have := hc1 v hv; linarith) (mC.sub (mC.min measurable_const))
      (fun p k1 k2 k3 => Or.inr ⟨hl', ?_⟩) fun ω => ?_).trans
      (mul_le_mul le_rfl (ENNReal.ofReal_le_ofReal (Real.exp_le_exp.2 (by linarith))) bot_le bot_le)
    · refine le_trans (ENNReal.ofReal_le_ofReal ?_) (node_trunc hT0 hT1 hγ0 hγ hTγ hγα hR hαR hε0 p k2 k3)
      rw [div_le_iff₀ hn1]
      refine (hm p.1 k1 k2 k3).trans (le_of_eq ?_)
      rw [hrgNode_eq, hε]
      ring
    · obtain ⟨pr, h1, h2⟩ := hpr ω
      refine (h2 (-l) (m - t) _ fun N hN => by nlinarith).trans (mul_le_mul le_rfl (Finset.prod_le_prod' fun v _ => ?_) bot_le bot_le)
      split_ifs with huv
      · exact le_rfl
      · have := (h1 v huv).1
        have : Real.exp (-l) ≤ 1 := Real.exp_le_one_iff.2 hl'
        exact ENNReal.ofReal_le_ofReal (by nlinarith)

end Random
/-! ### the bounds at work -/

theorem example_errors {r : ℝ} (hr : 16 ≤ r) : 0 ≤ nodeError 1 (7 / 4) r ∧ nodeError 1 (7 / 4) r ≤ 0.0104 ∧ 0 ≤ slack 1 20 ∧ slack 1 20 ≤ 1.001 ∧
    Real.exp (-((1 - 1 / 2) * 20)) ≤ 0.0001 := by
  have h1 := Real.exp_one_gt_d9
  have hexp : ∀ k : ℕ, ∀ c : ℝ, 0 ≤ c → 1 ≤ 2.71 ^ k * c → Real.exp (-k) ≤ c := by
    intro k c hc h
    have h2 : Real.exp k * Real.exp (-k) = 1 := by rw [← Real.exp_add]; simp
    have h3 : Real.exp k = Real.exp 1 ^ k := by rw [← Real.exp_nat_mul]; simp
    have h4 : (2.71 : ℝ) ^ k ≤ Real.exp 1 ^ k := pow_le_pow_left₀ (by norm_num) (by linarith) k
    rw [← h3] at h4
    have h5 := Real.exp_pos (k : ℝ)
    have h6 : 1 ≤ Real.exp k * c := h.trans (mul_le_mul_of_nonneg_right h4 hc)
    nlinarith
  have h6 := hexp 6 0.0026 (by norm_num) (by norm_num)
  have h10 := hexp 10 0.0001 (by norm_num) (by norm_num)
  have h20 := hexp 20 0.0001 (by norm_num) (by norm_num)
  push_cast at h6 h10 h20
  refine ⟨?_, ?_, ?_, ?_, ?_⟩
  · unfold nodeError kappa
    have := Real.exp_pos (-((7 / 4 - 1) * r / 2))
    norm_num
    positivity
  · unfold nodeError kappa
    have : Real.exp (-((7 / 4 - 1) * r / 2)) ≤ Real.exp (-6) := Real.exp_le_exp.2 (by linarith)
    rw [show ((1 : ℝ) - 1 / 2) / (1 - 7 / 4 / 2) = 4 by norm_num]
    linarith
  · unfold slack
    rw [show -(1 * 20 : ℝ) = -20 by norm_num]
    exact div_nonneg zero_le_one (by linarith)
  · unfold slack
    rw [show -(1 * 20 : ℝ) = -20 by norm_num, div_le_iff₀ (by linarith)]
    linarith
  · rw [show (-(((1 : ℝ) - 1 / 2) * 20)) = -10 by norm_num]
    exact h10

theorem example_lead {r : ℝ} : (16 ≤ r → hrgNodeDegree 99999 1 0 r ≤ 42.8) ∧ (r ≤ 18 → 15.6 ≤ hrgNodeDegree 99999 1 0 r) ∧
    (16 ≤ r → hrgNodeDegree 99999 1 (1 / 2) r ≤ 67.2) ∧ 0 ≤ hrgNodeDegree 99999 1 0 r ∧ 0 ≤ hrgNodeDegree 99999 1 (1 / 2) r := by
  have e1 := Real.exp_one_gt_d9
  have e2 := Real.exp_one_lt_d9
  have p1 := Real.pi_gt_d4
  have p2 := Real.pi_lt_d4
  have h8 : Real.exp (-8) ≤ 0.000336 := by
    have h2 : Real.exp 8 * Real.exp (-8) = 1 := by rw [← Real.exp_add]; norm_num
    have h3 : Real.exp 8 = Real.exp 1 ^ 8 := by rw [← Real.exp_nat_mul]; norm_num
    have h4 : (2.7182 : ℝ) ^ 8 ≤ Real.exp 1 ^ 8 := pow_le_pow_left₀ (by norm_num) (by linarith) 8
    have h5 := Real.exp_pos (-8)
    rw [h3] at h2
    nlinarith
  have h9 : 0.000123 ≤ Real.exp (-9) := by
    have h2 : Real.exp 9 * Real.exp (-9) = 1 := by rw [← Real.exp_add]; norm_num
    have h3 : Real.exp 9 = Real.exp 1 ^ 9 := by rw [← Real.exp_nat_mul]; norm_num
    have h4 : Real.exp 1 ^ 9 ≤ (2.7183 : ℝ) ^ 9 := pow_le_pow_left₀ (Real.exp_pos _).le (by linarith) 9
    have h5 := Real.exp_pos (-9)
    rw [h3] at h2
    nlinarith
  have hx : xi 1 = 2 := by unfold xi; norm_num
  have hs : Real.sin (Real.pi * (1 / 2)) = 1 := by rw [mul_one_div, Real.sin_pi_div_two]
  have hpos := Real.exp_pos (-r / 2)
  have d0 : hrgNodeDegree 99999 1 0 r = 399996 * Real.exp (-r / 2) / Real.pi := by
    unfold hrgNodeDegree; rw [hx, if_pos rfl]; ring
  have d1 : hrgNodeDegree 99999 1 (1 / 2) r = 199998 * Real.exp (-r / 2) := by
    unfold hrgNodeDegree; rw [hx, if_neg (by norm_num), hs]; field_simp; norm_num
  rw [d0, d1]
  refine ⟨fun hr => ?_, fun hr => ?_, fun hr => ?_, by positivity, by positivity⟩
  · have : Real.exp (-r / 2) ≤ Real.exp (-8) := Real.exp_le_exp.2 (by linarith)
    rw [div_le_iff₀ Real.pi_pos]
    nlinarith
  · have : Real.exp (-9) ≤ Real.exp (-r / 2) := Real.exp_le_exp.2 (by linarith)
    rw [le_div_iff₀ Real.pi_pos]
    nlinarith
  · have : Real.exp (-r / 2) ≤ Real.exp (-8) := Real.exp_le_exp.2 (by linarith)
    nlinarith

/-- `C99_threshold`: 100000 nodes, `α = 1`, `R = 20`, `T = 0`.  Given that node 7 has radius at least 16, it has degree 100 or more with probability at most
`exp(-24)`; given that the radius is between 16 and 18, it is isolated with probability at most `exp(-7)`. -/
example : ∃ (radii angles : (ℤ → ℕ → ℝ) → List XR) (out : (ℤ → ℕ → ℝ) → List (ℕ × ℕ)) (ρ : (ℤ → ℕ → ℝ) → ℝ) (P : Measure (ℤ → ℕ → ℝ)),
    P = (Measure.infinitePi fun _ : ℤ => seqMeasure) ∧ (∀ ω, (radii ω)[7]? = some (fin (ρ ω))) ∧
    (∀ ω, HGenerateEdges (exampleHEnv true 1 (by norm_num) (by norm_num)) idealRng (fun _ _ => 0) (radii ω) (angles ω) (fin 0) (fin 20) (out ω)) ∧
    P {ω | ρ ω ∈ Set.Ici 16 ∧ 100 ≤ degreeOf 7 (out ω)} ≤ P {ω | ρ ω ∈ Set.Ici 16} * ENNReal.ofReal (Real.exp (-24)) ∧
    P {ω | ρ ω ∈ Set.Icc 16 18 ∧ degreeOf 7 (out ω) = 0} ≤ P {ω | ρ ω ∈ Set.Icc 16 18} * ENNReal.ofReal (Real.exp (-7)) := by
  obtain ⟨radii, angles, hs⟩ := exampleSampled (n := 100000) (by norm_num) (α := 1) (R := 20) one_pos (by norm_num)
  obtain ⟨ρ, φ, hp, ho⟩ := sampled_random hs (by norm_num) one_pos (by norm_num) (by norm_num)
  have hex : ∀ ω, ∃ out, HGenerateEdges (exampleHEnv true 1 (by norm_num) (by norm_num)) idealRng (fun _ _ => 0) (radii ω) (angles ω) (fin 0) (fin 20) out := by
    intro ω
    rw [(ho ω).1, (ho ω).2, xw_ofFn, xw_ofFn]
    exact (C44_returns_iff (random_input hp (by norm_num) (by norm_num) le_rfl (Or.inr (by norm_num)) ω) _ _ idealRng_unit _).2 (Or.inl rfl)
  choose out hout using hex
  have hρ : ∀ ω, (radii ω)[7]? = some (fin (ρ ⟨7, by norm_num⟩ ω)) := by
    intro ω
    rw [(ho ω).1, List.getElem?_ofFn, dif_pos (by norm_num)]
  have e : (((100000 : ℕ) : ℝ) - 1) = 99999 := by norm_num
  refine ⟨radii, angles, out, _, _, rfl, hρ, hout, ?_, ?_⟩
  · have hb := ((C99_threshold (n := 100000) (γ := 7 / 4) hs (by norm_num) (by norm_num) (Or.inr (by norm_num)) (by norm_num)
      (by norm_num) (by norm_num) (by norm_num) _ idealRng_unit.geo _ hout (u := 7) (by norm_num) hρ (measurableSet_Ici (a := 16)) (t := 56) (by norm_num)).1 44
      (by norm_num) fun r hr _ _ => by
        rw [e]
        obtain ⟨a1, a2, a3, a4, _⟩ := example_errors hr
        have b1 := (example_lead (r := r)).1 hr
        calc _ ≤ 42.8 * ((1 + 2 * 0.0104) * 1.001) :=
              mul_le_mul b1 (mul_le_mul (by linarith) a4 a3 (by norm_num)) (mul_nonneg (by linarith) a3) (by norm_num)
          _ ≤ 44 := by norm_num)
    refine (measure_mono fun ω hω => ?_).trans (hb.trans (mul_le_mul le_rfl (ENNReal.ofReal_le_ofReal (Real.exp_le_exp.2 (by norm_num))) bot_le bot_le))
    have : (100 : ℝ) ≤ degreeOf 7 (out ω) := by exact_mod_cast hω.2
    exact ⟨hω.1, by linarith⟩
  · have hb := ((C99_threshold (n := 100000) (γ := 7 / 4) hs (by norm_num) (by norm_num) (Or.inr (by norm_num)) (by norm_num)
      (by norm_num) (by norm_num) (by norm_num) _ idealRng_unit.geo _ hout (u := 7) (by norm_num) hρ (measurableSet_Icc (a := 16) (b := 18)) (t := 15)
      (by norm_num)).2 15 (by norm_num) fun r hr _ _ => by
        rw [e]
        obtain ⟨a1, a2, a3, a4, a5⟩ := example_errors hr.1
        have b1 := (example_lead (r := r)).2.1 hr.2
        have : nodeError 1 (7 / 4) r * slack 1 20 ≤ 0.0104 * 1.001 := mul_le_mul a2 a4 a3 (by norm_num)
        calc (15 : ℝ) ≤ 15.6 * 0.968 := by norm_num
          _ ≤ _ := mul_le_mul b1 (by linarith) (by norm_num) (by linarith))
    refine (measure_mono fun ω hω => ?_).trans (hb.trans (mul_le_mul le_rfl (ENNReal.ofReal_le_ofReal (Real.exp_le_exp.2 (by norm_num))) bot_le bot_le))
    exact ⟨hω.1, by rw [hω.2]; norm_num⟩

/-- `C99_expected`: the same points at temperature 1/2: given that node 7 has radius at least 16, it has degree 140 or more with probability at most `exp(-26)` -/
example : ∃ (radii angles : (ℤ → ℕ → ℝ) → List XR) (ρ : (ℤ → ℕ → ℝ) → ℝ) (P : Measure (ℤ → ℕ → ℝ)),
    P = (Measure.infinitePi fun _ : ℤ => seqMeasure) ∧ (∀ ω, (radii ω)[7]? = some (fin (ρ ω))) ∧
    upperMean (P.restrict {ω | ρ ω ∈ Set.Ici 16}) (fun ω => hypEdgesProb (exampleHEnv true 1 (by norm_num) (by norm_num)) idealRng seqMeasure le_rfl
      (radii ω) (angles ω) (fin (1 / 2)) (fin 20) (incident 7) fun k => 140 ≤ k) ≤ P {ω | ρ ω ∈ Set.Ici 16} * ENNReal.ofReal (Real.exp (-26)) := by
  obtain ⟨radii, angles, hs⟩ := exampleSampled (n := 100000) (by norm_num) (α := 1) (R := 20) one_pos (by norm_num)
  obtain ⟨ρ, φ, hp, ho⟩ := sampled_random hs (by norm_num) one_pos (by norm_num) (by norm_num)
  have hρ : ∀ ω, (radii ω)[7]? = some (fin (ρ ⟨7, by norm_num⟩ ω)) := by
    intro ω
    rw [(ho ω).1, List.getElem?_ofFn, dif_pos (by norm_num)]
  have e : (((100000 : ℕ) : ℝ) - 1) = 99999 := by norm_num
  have hlog : Real.log 99 ≤ 20 := by
    have : Real.log 99 < 5 := by
      rw [Real.log_lt_iff_lt_exp (by norm_num), show (5 : ℝ) = ((5 : ℕ) : ℝ) * 1 by norm_num, Real.exp_nat_mul]
      have h1 := Real.exp_one_gt_d9
      have h4 : (2.7 : ℝ) ^ 5 ≤ Real.exp 1 ^ 5 := pow_le_pow_left₀ (by norm_num) (by linarith) 5
      have h5 : (99 : ℝ) < 2.7 ^ 5 := by norm_num
      exact h5.trans_le h4
    linarith
  refine ⟨radii, angles, _, _, rfl, hρ, ?_⟩
  have hb := ((C99_expected (n := 100000) (γ := 7 / 4) (T := 1 / 2) hs (by norm_num) (by norm_num) (Or.inr (by norm_num)) (by norm_num) (by norm_num)
    (by norm_num) (by norm_num) (by norm_num) (by norm_num) (by norm_num) (by linarith) (exampleHEnv true 1 (by norm_num) (by norm_num)) idealRng_ideal idealRng_unit
    (Or.inl rfl) le_rfl (fun h => absurd rfl h) (by norm_num) hρ (measurableSet_Ici (a := 16)) (t := 70) (by norm_num)).1 70 (by norm_num) fun r hr _ _ => by
      rw [e]
      obtain ⟨a1, a2, a3, a4, _⟩ := example_errors hr
      have b1 := (example_lead (r := r)).2.2.1 hr
      calc _ ≤ 67.2 * ((1 + 2 * 0.0104) * 1.001) :=
            mul_le_mul b1 (mul_le_mul (by linarith) a4 a3 (by norm_num)) (mul_nonneg (by linarith) a3) (by norm_num)
        _ ≤ 70 := by norm_num)
  refine (upperMean_mono fun ω => ?_).trans (hb.trans (mul_le_mul le_rfl (ENNReal.ofReal_le_ofReal (Real.exp_le_exp.2 (by norm_num))) bot_le bot_le))
  refine measure_mono ?_
  rintro g ⟨out, h1, h2⟩
  have : (140 : ℝ) ≤ edgesIn (incident 7) out := by exact_mod_cast h2
  exact ⟨out, h1, by linarith⟩

end Girgs.Props
