import Verif.Model.Bench
import Verif.Proofs.Counter
import Verif.Proofs.HSmallDisk
import Verif.Props.InclusionRange
/-
C77: the benchmark programs.
-/
namespace Girgs
namespace Props
open Spec Tree Real Tools
open XR (fin)

/-! ### the counter -/

/-- C77, `CounterPerThread`.  If every thread passes its own id to `add` and there are at most `maxThreads` threads, then every interleaving of the threads can be
executed, and whenever all threads have finished, `total()` is the number of calls modulo `2^64`. -/
theorem C77_counter {maxThreads : ℕ} {calls : List ℕ} (hle : calls.length ≤ maxThreads) :
    (∀ sched : List ℕ, (∀ t ∈ sched, t < calls.length) → ∃ s, Counter.run id (Counter.init maxThreads calls) sched = some s ∧
      ((∀ th ∈ s.ths, th.finished) → Counter.total s.slots = calls.sum % 2 ^ 64)) ∧
    (∃ sched s, Counter.run id (Counter.init maxThreads calls) sched = some s ∧ ∀ th ∈ s.ths, th.finished) := by
  refine ⟨fun sched hs => ?_, ?_⟩
  · obtain ⟨s, e, i⟩ := Counter.run_inv hle sched hs (Counter.init_inv hle)
    exact ⟨s, e, fun hf => Counter.finished_total hle i hf⟩
  · obtain ⟨sched, s, e, hf, _⟩ := (Counter.run_iff hle _).2 rfl
    exact ⟨sched, s, e, hf⟩

/-- C77, at work: two threads with 2 and 1 calls, interleaved, count 3 -/
example : ∃ s, Counter.run id (Counter.init 2 [2, 1]) [0, 1, 0, 0, 1, 0] = some s ∧ (∀ th ∈ s.ths, th.finished) ∧ Counter.total s.slots = 3 :=
  ⟨_, rfl, by simp [Counter.Th.finished, Counter.init], rfl⟩

/-- Why the ids matter: two threads that share an id can lose a call. -/
theorem C77_shared_id : Counter.Run 2 (fun _ => 0) [1, 1] 1 :=
  ⟨[0, 1, 0, 1], _, rfl, by simp [Counter.Th.finished, Counter.init], rfl⟩

/-! ### counting instead of collecting -/

variable {F : Type} [CFloat F]

/-- every thread has its own sequence of callbacks -/
theorem treeCallbacks_length {D : ℕ} {env : Env} {T : Tree F D} {rng : Tree.Rng F} {gens : ℕ → rng.G} {calls : List (List (ℕ × ℕ))}
    (h : treeCallbacks env T rng gens = some calls) : calls.length = env.threads := by
  unfold treeCallbacks at h
  split_ifs at h with h1
  · simp only [Option.bind_eq_bind, Option.bind_eq_some_iff, Option.some.injEq] at h
    obtain ⟨_, _, rfl⟩ := h
    simp [h1]
  · simp only [generateParallel, parallelPlan, Option.bind_eq_bind, Option.bind_eq_some_iff, Option.some.injEq] at h
    obtain ⟨fpl, _, cells, _, _, ⟨_, _, _, _, _, _, shares, hs, rfl⟩, _, _, rs, hr, rfl⟩ := h
    have e1 := mapM_length' hr
    have e2 := mapM_length' hs
    simp only [List.length_range] at e1
    rw [env.chunks_length] at e2
    omega

theorem counted {calls : List (List (ℕ × ℕ))} {threads : ℕ} (hl : calls.length ≤ threads) (total : ℕ) :
    Counter.Run threads id (calls.map List.length) total ↔ ∃ out, EdgeBuffer.Run blockSize calls out ∧ total = out.length % 2 ^ 64 := by
  rw [Counter.run_iff (by simpa using hl)]
  have key : ∀ out, EdgeBuffer.Run blockSize calls out → out.length = (calls.map List.length).sum := fun out ho => by
    rw [(C24_nothing_lost blockSize (by unfold blockSize; omega) calls out ho).2.length_eq, List.length_flatten]
  constructor
  · rintro rfl
    obtain ⟨out, ho⟩ := EdgeBuffer.run_exists (block := blockSize) (by unfold blockSize; omega) calls
    exact ⟨out, ho, by rw [key out ho]; norm_num⟩
  · rintro ⟨out, ho, rfl⟩
    rw [key out ho]; norm_num

/-- C77, for every floating point type: the benchmark counts as many edges as the same sampler hands to `generateEdges` (modulo `2^64`). -/
theorem C77_counts {D : ℕ} (env : Env) (rng : Tree.Rng F) (gens : ℕ → rng.G) (weights : List F) (points : List (Fin D → F)) (alpha : F) (total : ℕ) :
    Bench.CountEdges env rng gens weights points alpha total ↔ ∃ out, TreeRun env rng gens weights points alpha out ∧ total = out.length % 2 ^ 64 := by
  constructor
  · rintro ⟨T, hT, calls, hc, h⟩
    obtain ⟨out, ho, e⟩ := (counted (treeCallbacks_length hc).le total).1 h
    exact ⟨out, ⟨T, hT, calls, hc, ho⟩, e⟩
  · rintro ⟨out, ⟨T, hT, calls, hc, ho⟩, e⟩
    exact ⟨T, hT, calls, hc, (counted (treeCallbacks_length hc).le total).2 ⟨out, ho, e⟩⟩

theorem hyper_calls_length {env : HEnv} {H : HTree F} {rng : Tree.Rng F} {gens : ℕ → rng.G} {calls : List (List (ℕ × ℕ))}
    (h : HTree.Generate env H rng gens calls) : calls.length = env.threads := by
  unfold HTree.Generate at h
  split_ifs at h with h1
  · obtain ⟨_, _, _, _, rfl⟩ := h
    simp [h1]
  · obtain ⟨_, _, _, _, _, _, _, _, h, _⟩ := h
    exact h

/-- C77, for every floating point type: the same for the hyperbolic sampler. -/
theorem C77_hyper_counts (env : HEnv) (rng : Tree.Rng F) (gens : ℕ → rng.G) (radii angles : List F) (T R : F) (total : ℕ) :
    (∃ H, HConstructed env.ndebug radii angles T R H ∧ ∃ calls, HTree.Generate env H rng gens calls ∧ Counter.Run env.threads id (calls.map List.length) total) ↔
      ∃ out, HGenerateEdges env rng gens radii angles T R out ∧ total = out.length % 2 ^ 64 := by
  constructor
  · rintro ⟨H, hH, calls, hc, h⟩
    obtain ⟨out, ho, e⟩ := (counted (hyper_calls_length hc).le total).1 h
    exact ⟨out, ⟨H, hH, calls, hc, ho⟩, e⟩
  · rintro ⟨out, ⟨H, hH, calls, hc, ho⟩, e⟩
    exact ⟨H, hH, calls, hc, (counted (hyper_calls_length hc).le total).2 ⟨out, ho, e⟩⟩

/-! ### bench_girg -/

/-- the arguments `measure` is made for -/
structure GoodCall (c : Bench.Call XR) (ple : ℝ) : Prop where
  dim : 1 ≤ c.dimension ∧ c.dimension ≤ 5
  deg : 1 ≤ c.avgDeg
  degn : c.avgDeg ≤ c.n - 1
  n : c.n ≤ 2147483647
  ple1 : 1 < ple
  ple : c.ple = fin ple
  alpha : c.alpha = .pinf ∨ ∃ a : ℝ, c.alpha = fin a ∧ 1 < a

/-- the tool configuration with the same parameters (used to reuse the results about gengirg) -/
noncomputable def callConfig (c : Bench.Call XR) : GirgConfig XR :=
  ⟨c.n, c.dimension, c.ple, c.alpha, CFloat.ofInt c.avgDeg, 0, 0, 0, c.threads, "", false, false⟩

theorem graph_small {n : ℕ} (hn : n < 2147483648) {P : ℕ → ℕ → Prop} {es : List (ℕ × ℕ)} (h : IsGraphOf n P es) : es.length % 2 ^ 64 = es.length := by
  have h1 := graph_length h
  have h2 : n ^ 2 ≤ 2147483648 ^ 2 := Nat.pow_le_pow_left hn.le 2
  exact Nat.mod_eq_of_lt (by omega)

/-- a simple graph is the graph of its own adjacency -/
theorem simple_isGraphOf {n : ℕ} {es : List (ℕ × ℕ)} (h : IsSimpleGraph n es) : IsGraphOf n (fun u v => (u, v) ∈ es ∨ (v, u) ∈ es) es :=
  ⟨h.1, h.2, fun _ _ _ _ _ => Iff.rfl⟩

/-- C77, one line of bench_girg: there are weights between 1 and `n/2`, positions in the unit cube and a scaling `k`, with which `avgDeg` is the expected average
degree of the model, and, if the weights are not too large, the printed number is the number of edges of a graph in which, for `alpha = infinity`, exactly the
pairs of the threshold rule are connected.  The printed degree is `2 edges / n`. -/
theorem C77_girg {m : Machine XR} (he : IntervalEngine m.eng) (hu : UnitRng m.rng) {c : Bench.Call XR} {ple : ℝ} (hc : GoodCall c ple) {row : Bench.Row XR}
    (h : Bench.Measure m c row) :
    ∃ (D : ℕ) (w : List ℝ) (x : List (Fin D → ℝ)) (k : ℝ), c.dimension = D ∧ c.n = w.length ∧ c.n = x.length ∧
      (∀ y ∈ w, 1 ≤ y ∧ y ≤ c.n / 2) ∧ (∀ p ∈ x, ∀ i, 0 ≤ p i ∧ p i < 1) ∧ 0 < k ∧
      (c.alpha = .pinf → c.avgDeg - 2 / 100 ≤ thresholdGirgDegree D (w.map (· * k)) ∧
        thresholdGirgDegree D (w.map (· * k)) < c.avgDeg + 2 / 100 + 1 / c.n) ∧
      (∀ a : ℝ, c.alpha = fin a → c.avgDeg - 2 / 100 ≤ girgDegree D a (w.map (· * k)) ∧
        girgDegree D a (w.map (· * k)) < (if a ≤ 8 then 1 else a / (a - 1)) * (c.avgDeg + 2 / 100 + 1 / c.n)) ∧
      row.call = c ∧ row.degree = fin (2 * row.edges / c.n) ∧
      (alphaFactor c.alpha * 2 ^ D * w.sum ^ 2 < 2 ^ 29 * (c.avgDeg - 2 / 100) * c.n →
        ∃ edges, IsSimpleGraph w.length edges ∧ row.edges = edges.length ∧
          (c.alpha = .pinf → IsGraphOf w.length (ThresholdRule (w.map (· * k)) x) edges ∧
            row.edges = pairCount w.length (ThresholdRule (w.map (· * k)) x))) := by
  obtain ⟨wseed, pseed, sseed, _, _, _, weights, positions, ⟨dw, hw⟩, ⟨dp, hp⟩, part, hpart, s, ws, hs, dev, gens, hg, points, hpts, total, hcount, rfl⟩ := h
  have hn2 : 2 ≤ c.n := by have := hc.deg; have := hc.degn; omega
  have hn31 := hc.n
  have hdim := hc.dim
  have hD : Bench.switchDim c.dimension = c.dimension.toNat := by unfold Bench.switchDim; rw [if_pos hdim]
  generalize Bench.switchDim c.dimension = D at points hpts hcount hD
  subst hD
  rw [hc.ple] at hw
  obtain ⟨l1, r1⟩ := C26_range he (by omega) hc.ple1 hw
  obtain ⟨l2, r2⟩ := C27_range he hp
  obtain ⟨w, rfl, hw'⟩ := reals_of r1
  obtain ⟨x, rfl, hx'⟩ := rows_of r2
  have l1 : w.length = c.n.toNat := by simpa [xw] using l1
  have l2 : x.length = c.n.toNat := by simpa [xl] using l2
  have hnr : (c.n : ℝ) = w.length := by rw [l1]; exact_mod_cast (by omega : c.n = ((c.n.toNat : ℕ) : ℤ))
  have hwn : ∀ y ∈ w, 1 ≤ y ∧ y ≤ w.length / 2 := by rw [l1]; exact hw'
  have hsc : GirgScaling m (callConfig c) (xw w) (.returned s ws) := ⟨part, hpart, hs⟩
  have hdeg1 : (1 : ℝ) ≤ c.avgDeg := by exact_mod_cast hc.deg
  have hdeg2 : (c.avgDeg : ℝ) ≤ w.length - 1 := by rw [← hnr]; exact_mod_cast hc.degn
  obtain ⟨k, hk, rfl, q1, q2, q3⟩ := girg_scaled (c := callConfig c) (deg := c.avgDeg) rfl hc.alpha (l2.trans l1.symm) (by omega) (by omega)
    (by show 1 ≤ c.dimension.toNat; omega) (by show c.dimension.toNat ≤ 5; omega) hwn hx' hdeg1 hdeg2 hsc
  refine ⟨c.dimension.toNat, w, x, k, by omega, by omega, by omega, ?_, hx', hk, ?_, ?_, rfl, ?_, ?_⟩
  · rw [hnr]; exact hwn
  · rw [hnr]; exact q1
  · rw [hnr]; exact q2
  · have hn0 : (c.n : ℝ) ≠ 0 := by exact_mod_cast (by omega : c.n ≠ 0)
    simp only [XR.ofRat_eq, XR.ofNat_eq, XR.ofInt_eq, XR.mul_fin]
    rw [XR.div_fin _ _ hn0]
    norm_num
  · intro hsize
    rw [hnr] at hsize
    have sup := q3 hsize
    have hcount : Bench.CountEdges (m.env c.threads) m.rng gens (xw (w.map (· * k))) (xp x) c.alpha total := by
      rw [asPoints_xl, Option.some.injEq] at hpts
      rw [hpts]; exact hcount
    obtain ⟨out, hrun, rfl⟩ := (C77_counts _ _ _ _ _ _ _).1 hcount
    have hgen := (generateEdges_xl sup (m.env c.threads) m.rng gens c.alpha out .none).2 ⟨hrun, rfl⟩
    have hsim := ((C17_simple_graph sup c.alpha (m.env c.threads) m.rng hu.geo gens).2.2 out .none hgen).1
    rw [List.length_map] at hsim
    have hlen := graph_small (by omega) (simple_isGraphOf hsim)
    refine ⟨out, hsim, hlen, fun ha => ?_⟩
    rw [ha] at hgen
    have hgr := (C18_threshold_exact sup (m.env c.threads) m.rng hu.geo gens out .none hgen).1
    rw [List.length_map] at hgr
    exact ⟨hgr, hlen.trans (graph_count (P := ThresholdRule (w.map (· * k)) x) (fun u v h => ThresholdRule.symm h) hgr)⟩

/-- C77: a release build prints the line if the weights are not too large. -/
theorem C77_girg_returns {m : Machine XR} (hrel : m.ndebug = true) (he : IntervalEngine m.eng) (hu : UnitRng m.rng) {c : Bench.Call XR} {ple : ℝ}
    (hc : GoodCall c ple) (ht : 1 ≤ c.threads) (hs : 0 ≤ c.seed) (hs' : c.seed + 100000 + c.threads ≤ 2147483648)
    (hsize : ∀ (w : List ℝ) (device : ℕ → m.eng.G), GenerateWeights (m.omp c.threads) m.eng device c.n.toNat c.ple (c.seed + 1000) true (xw w) →
      alphaFactor c.alpha * 2 ^ c.dimension.toNat * w.sum ^ 2 < 2 ^ 29 * (c.avgDeg - 2 / 100) * c.n) :
    ∃ row, Bench.Measure m c row := by
  have hn2 : 2 ≤ c.n := by have := hc.deg; have := hc.degn; omega
  have hn31 := hc.n
  have hdim := hc.dim
  have hi : ∀ z : ℤ, 0 ≤ z → z ≤ 100000 → int32 (c.seed + z) = some (c.seed + z) := fun z h1 h2 => by
    unfold int32; rw [if_pos (by omega)]
  have hok : ∀ z : ℤ, 0 ≤ z → z ≤ 100000 → ∀ t : ℕ, t ≤ c.threads → SeedOK t (c.seed + z) := fun z h1 h2 t h3 => Or.inr (by omega)
  have hnt : nodeThreads (m.omp c.threads) c.n.toNat true ≤ c.threads := by
    unfold nodeThreads
    have h3 : (m.omp c.threads).maxThreads = max 1 c.threads := rfl
    rw [h3]
    simp; omega
  obtain ⟨_, ws, _, hws, lws, _⟩ := C26_executions (m.omp c.threads) m.eng (fun _ => m.eng.seed 0) c.n.toNat c.ple (c.seed + 1000) true
    (hok _ (by omega) (by omega) _ hnt)
  obtain ⟨_, ps, _, hps, _⟩ := C27_executions (m.omp c.threads) m.eng (fun _ => m.eng.seed 0) c.n.toNat c.dimension.toNat (c.seed + 10000) true
    (hok _ (by omega) (by omega) _ hnt)
  have hw := (hws _).2 rfl
  have hp := (hps _).2 rfl
  have hw2 := hw
  rw [hc.ple] at hw2
  obtain ⟨l1, r1⟩ := C26_range he (by omega) hc.ple1 hw2
  obtain ⟨l2, r2⟩ := C27_range he hp
  obtain ⟨w, rfl, hw'⟩ := reals_of r1
  obtain ⟨x, rfl, hx'⟩ := rows_of r2
  have l1 : w.length = c.n.toNat := by simpa [xw] using l1
  have l2 : x.length = c.n.toNat := by simpa [xl] using l2
  have hnr : (c.n : ℝ) = w.length := by rw [l1]; exact_mod_cast (by omega : c.n = ((c.n.toNat : ℕ) : ℤ))
  have hwn : ∀ y ∈ w, 1 ≤ y ∧ y ≤ w.length / 2 := by rw [l1]; exact hw'
  have hdeg1 : (1 : ℝ) ≤ c.avgDeg := by exact_mod_cast hc.deg
  have hdeg2 : (c.avgDeg : ℝ) ≤ w.length - 1 := by rw [← hnr]; exact_mod_cast hc.degn
  have hwl : (xw w).length = w.length := by simp [xw]
  obtain ⟨s, ws', hsc⟩ := (C59_returns_iff (girg_normal (n := w.length) (by omega) hwn) (by omega) (by omega)
    (part := m.chunks (m.env c.threads).threads (xw w).length)
    (by rw [m.chunks_flatten _ _ (m.env c.threads).threads_pos, hwl]) m.alg (d := c.dimension.toNat) (by omega) (by omega)
    (show AlphaAccepted c.alpha by
      rcases hc.alpha with h | ⟨a, h, h'⟩
      · exact Or.inl h
      · exact Or.inr ⟨a, h, by linarith, by linarith [h'.ne']⟩) (c.avgDeg : ℝ)).1.2 ⟨by linarith, hdeg2⟩
  have hsc' : Scaling.ScaleWeights m.alg m.ndebug (m.chunks (m.env c.threads).threads (xw w).length) (xw w) (CFloat.ofInt c.avgDeg) c.dimension.toNat c.alpha
      (.returned s ws') := by rw [hrel]; exact hsc
  obtain ⟨k, hk, rfl, _, _, q3⟩ := girg_scaled (c := callConfig c) (deg := c.avgDeg) rfl hc.alpha (l2.trans l1.symm) (by omega) (by omega)
    (by show 1 ≤ c.dimension.toNat; omega) (by show c.dimension.toNat ≤ 5; omega) hwn hx' hdeg1 hdeg2 ⟨_, List.Perm.refl _, hsc'⟩
  have sup := q3 (by have := hsize w _ hw; rw [hnr] at this; exact this)
  obtain ⟨gens, hg⟩ := seedGens_ok (hok 100000 (by omega) (by omega) (m.env c.threads).threads (by
    show max 1 (min c.threads 8388608) ≤ _
    omega)) m.edgeSeed (fun _ => m.edgeSeed 0)
  obtain ⟨⟨edges, notice, hE⟩, _⟩ := C17_simple_graph sup c.alpha (m.env c.threads) m.rng hu.geo gens
  have hrun := ((generateEdges_xl sup (m.env c.threads) m.rng gens c.alpha edges notice).1 hE).1
  have hcnt := (C77_counts _ _ _ _ _ _ _).2 ⟨edges, hrun, rfl⟩
  have hD : Bench.switchDim c.dimension = c.dimension.toNat := by unfold Bench.switchDim; rw [if_pos hdim]
  refine ⟨⟨c, edges.length % 2 ^ 64, CFloat.ofRat 2 *. CFloat.ofNat (edges.length % 2 ^ 64) /. CFloat.ofInt c.n⟩, _, _, _, hi _ (by omega) (by omega), hi _ (by omega) (by omega), hi _ (by omega) (by omega), _, _, ⟨_, hw⟩, ⟨_, hp⟩, _, List.Perm.refl _, s, _, hsc',
    _, gens, hg, ?_⟩
  rw [hD]
  exact ⟨_, asPoints_xl x, _, hcnt, rfl⟩

/-! ### the runs of bench_girg -/

theorem repCalls_spec : ∀ p ∈ Bench.repCalls XR, 1 ≤ p.1 ∧ p.1 ≤ 5 ∧ 1024 ≤ p.2.1 ∧ p.2.1 ≤ 1048576 ∧ 2 ≤ p.2.2.1 ∧ p.2.2.1 ≤ p.2.1 / 4 ∧
    (p.2.2.2.1 = .pinf ∨ ∃ a : ℝ, p.2.2.2.1 = fin a ∧ 2 ≤ a) := by
  intro p hp
  simp only [Bench.repCalls, List.mem_append, List.mem_flatMap, List.mem_map, List.mem_range, List.mem_filter, List.mem_cons, List.not_mem_nil, or_false,
    decide_eq_true_eq] at hp
  rcases hp with ((⟨j, hj, deg, ⟨hd, hlt⟩, rfl⟩ | ⟨j, hj, rfl⟩) | ⟨a, ha, rfl⟩) | ⟨d, hd, rfl⟩
  · refine ⟨le_rfl, by norm_num, ?_, ?_, ?_, ?_, Or.inl rfl⟩
    · show (1024 : ℤ) ≤ 1024 * 2 ^ j
      have : (1 : ℤ) ≤ 2 ^ j := one_le_pow₀ (by norm_num)
      linarith
    · show (1024 * 2 ^ j : ℤ) ≤ 1048576
      have : (2 : ℤ) ^ j ≤ 2 ^ 10 := pow_le_pow_right₀ (by norm_num) (by omega)
      linarith
    · show (2 : ℤ) ≤ deg
      rcases hd with rfl | rfl | rfl <;> norm_num
    · show deg ≤ 1024 * 2 ^ j / 4
      omega
  · refine ⟨le_rfl, by norm_num, by norm_num, by norm_num, ?_, ?_, Or.inl rfl⟩
    · show (2 : ℤ) ≤ 2 * 2 ^ j
      have : (1 : ℤ) ≤ 2 ^ j := one_le_pow₀ (by norm_num)
      linarith
    · show (2 * 2 ^ j : ℤ) ≤ 32768 / 4
      have : (2 : ℤ) ^ j ≤ 2 ^ 11 := pow_le_pow_right₀ (by norm_num) (by omega)
      norm_num at this ⊢
      linarith
  · refine ⟨le_rfl, by norm_num, by norm_num, by norm_num, by norm_num, by norm_num, ?_⟩
    rcases ha with rfl | rfl | rfl | rfl | rfl | rfl | rfl | rfl
    · exact Or.inl rfl
    all_goals exact Or.inr ⟨_, XR.ofRat_eq _, by norm_num⟩
  · refine ⟨?_, ?_, by norm_num, by norm_num, by norm_num, by norm_num, Or.inl rfl⟩ <;>
      rcases hd with rfl | rfl | rfl | rfl | rfl <;> norm_num

theorem repCalls_length : (Bench.repCalls F).length = 56 := rfl

theorem mainCalls_length : (Bench.mainCalls F).length = 560 := by
  simp [Bench.mainCalls, repCalls_length]

/-- every call of `main` is one `measure` is made for -/
theorem mainCalls_spec (i : ℕ) (c : Bench.Call XR) (hi : (Bench.mainCalls XR)[i]? = some c) :
    GoodCall c (5 / 2) ∧ c.threads = 1 ∧ c.seed = i + 1 ∧ i < 560 ∧ 1024 ≤ c.n ∧ c.n ≤ 1048576 ∧ 2 ≤ c.avgDeg ∧
      (c.alpha = .pinf ∨ ∃ a : ℝ, c.alpha = fin a ∧ 2 ≤ a) := by
  have hlt := (List.getElem?_eq_some_iff.1 hi).1
  rw [mainCalls_length] at hlt
  unfold Bench.mainCalls at hi
  rw [List.getElem?_map, Option.map_eq_some_iff] at hi
  obtain ⟨⟨p, k⟩, hp, rfl⟩ := hi
  rw [List.getElem?_zipIdx, Option.map_eq_some_iff] at hp
  obtain ⟨q, hq, e⟩ := hp
  simp only [Prod.mk.injEq] at e
  obtain ⟨rfl, rfl⟩ := e
  have hmem : q ∈ Bench.repCalls XR := by
    have := List.mem_of_getElem? hq
    rw [List.mem_flatten] at this
    obtain ⟨l, hl, hq'⟩ := this
    rw [(List.mem_replicate.1 hl).2] at hq'
    exact hq'
  obtain ⟨h1, h2, h3, h4, h5, h6, h7⟩ := repCalls_spec q hmem
  refine ⟨⟨⟨h1, h2⟩, ?_, ?_, ?_, by norm_num, ?_, ?_⟩, rfl, ?_, hlt, h3, h4, h5, h7⟩
  · show 1 ≤ q.2.2.1; omega
  · show q.2.2.1 ≤ q.2.1 - 1; omega
  · show q.2.1 ≤ _; omega
  · show (CFloat.ofRat (5 / 2) : XR) = _
    rw [XR.ofRat_eq]; norm_num
  · rcases h7 with h | ⟨a, h, h'⟩
    · exact Or.inl h
    · exact Or.inr ⟨a, h, by linarith⟩
  · simp

/-- C77, bench_girg: it prints 560 lines; the line number `i+1` is a line of `measure` for a call with seed `i+1`, one thread, between `2^10` and `2^20` nodes and
power-law exponent 2.5, so that `C77_girg` applies to every line. -/
theorem C77_main {m : Machine XR} {rows : List (Bench.Row XR)} (h : Bench.GirgMain m rows) :
    rows.length = 560 ∧ ∀ (i : ℕ) (row : Bench.Row XR), rows[i]? = some row → ∃ c : Bench.Call XR, Bench.Measure m c row ∧ GoodCall c (5 / 2) ∧ c.threads = 1 ∧
      c.seed = i + 1 ∧ 1024 ≤ c.n ∧ c.n ≤ 1048576 := by
  refine ⟨by rw [← h.length_eq, mainCalls_length], fun i row hrow => ?_⟩
  have hlt := (List.getElem?_eq_some_iff.1 hrow).1
  have hlt' : i < (Bench.mainCalls XR).length := by rw [h.length_eq]; exact hlt
  have hc : (Bench.mainCalls XR)[i]? = some (Bench.mainCalls XR)[i] := List.getElem?_eq_getElem hlt'
  obtain ⟨h1, h2, h3, _, h4, h5, _⟩ := mainCalls_spec i _ hc
  refine ⟨_, ?_, h1, h2, h3, h4, h5⟩
  have := List.forall₂_iff_get.1 h |>.2 i hlt' hlt
  simp only [List.get_eq_getElem] at this
  rw [(List.getElem?_eq_some_iff.1 hrow).2] at this
  exact this

/-- C77: a release build of bench_girg ends if for every call the weights drawn satisfy the size condition. -/
theorem C77_main_returns {m : Machine XR} (hrel : m.ndebug = true) (he : IntervalEngine m.eng) (hu : UnitRng m.rng)
    (hsize : ∀ c ∈ Bench.mainCalls XR, ∀ (w : List ℝ) (device : ℕ → m.eng.G), GenerateWeights (m.omp 1) m.eng device c.n.toNat c.ple (c.seed + 1000) true (xw w) →
      alphaFactor c.alpha * 2 ^ c.dimension.toNat * w.sum ^ 2 < 2 ^ 29 * (c.avgDeg - 2 / 100) * c.n) :
    ∃ rows, Bench.GirgMain m rows := by
  have key : ∀ l : List (Bench.Call XR), (∀ c ∈ l, ∃ row, Bench.Measure m c row) → ∃ rows, List.Forall₂ (Bench.Measure m) l rows := by
    intro l
    induction l with
    | nil => exact fun _ => ⟨[], .nil⟩
    | cons c l ih =>
      intro h
      obtain ⟨row, hr⟩ := h c (by simp)
      obtain ⟨rows, hrs⟩ := ih fun c hc => h c (by simp [hc])
      exact ⟨row :: rows, .cons hr hrs⟩
  refine key _ fun c hc => ?_
  obtain ⟨i, hi⟩ := List.mem_iff_getElem?.1 hc
  obtain ⟨h1, h2, h3, h4, _⟩ := mainCalls_spec i c hi
  exact C77_girg_returns hrel he hu h1 (by omega) (by omega) (by omega) fun w d hw => hsize c hc w d (by rw [← h2]; exact hw)

theorem example_weights {threads n : ℕ} (hn : 2 ≤ n) {device : ℕ → exampleMachine.eng.G} {seed : ℤ} {parallel : Bool} {w : List ℝ}
    (h : GenerateWeights (exampleMachine.omp threads) exampleMachine.eng device n (fin (5 / 2)) seed parallel (xw w)) :
    w.length = n ∧ ∀ y ∈ w, 1 ≤ y ∧ y ≤ 2 := by
  obtain ⟨l, hr⟩ := C26_range exampleEngine_interval hn (by norm_num) h
  refine ⟨by simpa [xw] using l, fun y hy => ?_⟩
  have hy' : fin y ∈ xw w := List.mem_map.2 ⟨y, hy, rfl⟩
  obtain ⟨v, hv, hv', _⟩ := hr _ hy'
  cases hv
  refine ⟨hv', ?_⟩
  have h' := h
  obtain ⟨gens, hg, _⟩ := h
  obtain ⟨out', h1, h2, h3⟩ := generateWeights_iff (exampleMachine.omp threads) exampleMachine.eng device n (fin (5 / 2)) seed parallel hg
  obtain rfl := (h1 _).1 h'
  obtain ⟨i, hi⟩ := List.mem_iff_getElem?.1 hy'
  have hin : i < n := by rw [← h2]; exact (List.getElem?_eq_some_iff.1 hi).1
  obtain ⟨t, chunk, k, ht, hk⟩ := owner (omp := exampleMachine.omp threads) (nodeThreads_pos (exampleMachine.omp threads) n parallel) hin
  have := h3 t chunk k i ht hk
  rw [hi] at this
  have hd : drawAt exampleMachine.eng (CFloat.ofRat 0) (CFloat.ofRat 1) (gens t) k = fin (1 / 2) := by
    show ((CFloat.ofRat 0 : XR) +. CFloat.ofRat 1) /. fin 2 = _
    rw [XR.ofRat_eq, XR.ofRat_eq, XR.add_fin, XR.div_fin _ _ two_ne_zero]
    norm_num
  obtain ⟨q0, _⟩ := weight_base hn (show (1 : ℝ) < 5 / 2 by norm_num)
  obtain ⟨q1, q2⟩ := weight_arg hn (show (1 : ℝ) < 5 / 2 by norm_num) (show (0 : ℝ) ≤ 1 / 2 by norm_num) (by norm_num)
  rw [hd, weightOf_eq (by omega) (by norm_num) (by norm_num) (by norm_num) (by linarith)] at this
  have e := XR.fin.inj (Option.some.inj this)
  rw [e]
  have hhalf : (1 / 2 : ℝ) ≤ (((n : ℝ) / 2) ^ (1 - (5 / 2 : ℝ)) - 1) * (1 / 2) + 1 := by linarith
  calc _ ≤ (1 / 2 : ℝ) ^ (1 / (1 - 5 / 2) : ℝ) := Real.rpow_le_rpow_of_nonpos (by norm_num) hhalf (by norm_num)
    _ ≤ (1 / 2 : ℝ) ^ (-1 : ℝ) := Real.rpow_le_rpow_of_exponent_ge (by norm_num) (by norm_num) (by norm_num)
    _ = 2 := by rw [Real.rpow_neg_one]; norm_num

/-- the hypotheses of C77 are met: with the example machine (whose random numbers are all 1/2) bench_girg prints its 560 lines -/
theorem benchExample : ∃ rows, Bench.GirgMain exampleMachine rows ∧ rows.length = 560 := by
  obtain ⟨rows, h⟩ := C77_main_returns (m := exampleMachine) rfl exampleEngine_interval exampleRng_unit (by
    intro c hc w device hw
    obtain ⟨i, hi⟩ := List.mem_iff_getElem?.1 hc
    obtain ⟨h1, h2, h3, h4, h5, h6, h7, h8⟩ := mainCalls_spec i c hi
    rw [h1.ple] at hw
    obtain ⟨hl, hw2⟩ := example_weights (by omega) hw
    have hdim := h1.dim
    have hD : (2 : ℝ) ^ c.dimension.toNat ≤ 2 ^ 5 := pow_le_pow_right₀ (by norm_num) (by omega)
    have hA : alphaFactor c.alpha ≤ 2 ∧ 0 ≤ alphaFactor c.alpha := by
      rcases h8 with h | ⟨a, h, ha⟩
      · rw [h]; norm_num [alphaFactor]
      · rw [h]
        show a / (a - 1) ≤ 2 ∧ 0 ≤ a / (a - 1)
        exact ⟨by rw [div_le_iff₀ (by linarith)]; linarith, div_nonneg (by linarith) (by linarith)⟩
    have hnr : (c.n : ℝ) = w.length := by rw [hl]; exact_mod_cast (by omega : c.n = ((c.n.toNat : ℕ) : ℤ))
    have hsum : w.sum ≤ w.length * 2 := by
      have := List.sum_le_card_nsmul w (2 : ℝ) fun y hy => (hw2 y hy).2
      simpa using this
    have hsum0 : 0 ≤ w.sum := List.sum_nonneg fun y hy => by linarith [(hw2 y hy).1]
    have hn1 : (1024 : ℝ) ≤ c.n := by exact_mod_cast h5
    have hn2 : (c.n : ℝ) ≤ 1048576 := by exact_mod_cast h6
    have hdeg : (2 : ℝ) ≤ c.avgDeg := by exact_mod_cast h7
    rw [hnr] at *
    generalize (w.length : ℝ) = n at *
    have e1 : alphaFactor c.alpha * 2 ^ c.dimension.toNat ≤ 2 * 2 ^ 5 := mul_le_mul hA.1 hD (by positivity) (by norm_num)
    have e2 : w.sum ^ 2 ≤ (n * 2) ^ 2 := pow_le_pow_left₀ hsum0 hsum 2
    have e3 : alphaFactor c.alpha * 2 ^ c.dimension.toNat * w.sum ^ 2 ≤ 2 * 2 ^ 5 * (n * 2) ^ 2 := mul_le_mul e1 e2 (by positivity) (by norm_num)
    have e4 : (2 : ℝ) ^ 29 * (2 - 2 / 100) * n ≤ 2 ^ 29 * (c.avgDeg - 2 / 100) * n := by gcongr
    refine e3.trans_lt (lt_of_lt_of_le ?_ e4)
    nlinarith)
  exact ⟨rows, h, (C77_main h).1⟩

/-! ### bench_hyper -/

theorem cosh_big {α R : ℝ} (hα : 1 / 2 ≤ α) (hR : 4 / 3 ≤ R) : (6 / 5 : ℝ) ≤ cosh (α * R) := by
  have h1 : 2 / 3 ≤ α * R := by nlinarith
  have h2 := cosh_le_cosh.2 (show |(2 / 3 : ℝ)| ≤ |α * R| by rw [abs_of_nonneg (by norm_num), abs_of_nonneg (by linarith)]; exact h1)
  have h3 : (6 / 5 : ℝ) ≤ cosh (2 / 3) := by
    have := cosh_sq (2 / 3)
    have hs : (2 / 3 : ℝ) ≤ sinh (2 / 3) := self_le_sinh_iff.2 (by norm_num)
    have := one_le_cosh (2 / 3)
    nlinarith
  linarith

/-- C77, one line of bench_hyper: if the radius is between 4/3 and 41.25, there are points in the disk of the printed radius, and the printed number is the number of
edges of a graph in which, for temperature 0, exactly the pairs with hyperbolic distance at most `R` are connected.  The radius is the one at which the expected
degree is `avgDeg` (for temperature 0 by the second order estimate, up to 0.01). -/
theorem C77_hyper {m : Machine XR} (he : IntervalEngine m.eng) (hu : UnitRng m.rng) {threads n avgDeg seed : ℕ} {α T R : ℝ} (hα : 1 / 2 < α) (hT : 0 ≤ T)
    (hn : 1 ≤ n) {row : Bench.HRow XR} (h : Bench.Benchmark m threads n avgDeg (fin α) (fin T) seed row) (hR : row.R = fin R) (hR1 : 4 / 3 ≤ R) (hR2 : R ≤ 165 / 4) :
    (row.seed = seed ∧ row.n = n ∧ row.avgDeg = avgDeg ∧ row.alpha = fin α ∧ row.ple = fin (2 * α + 1) ∧ row.T = fin T ∧ row.degree = fin (2 * row.edges / n)) ∧
    (0 < T → T < 1 → n < 2 ^ 30 → 1 ≤ avgDeg → hrgDegree n α T R = avgDeg) ∧ (T = 0 → |coldDegree n α R - avgDeg| ≤ 1 / 100) ∧
    ∃ (rs as : List ℝ) (edges : List (ℕ × ℕ)), rs.length = n ∧ as.length = n ∧ (∀ r ∈ rs, 0 < r ∧ r < R) ∧ (∀ a ∈ as, 0 ≤ a ∧ a < 2 * π) ∧
      IsSimpleGraph n edges ∧ row.edges = edges.length ∧
      (T = 0 → IsGraphOf n (HypRule rs as R) edges ∧ row.edges = pairCount n (HypRule rs as R)) := by
  obtain ⟨hn31, _, R', hrad, radii, angles, ⟨dev, hsamp⟩, dev2, gs, hgs, gens, hg, H, hH, calls, hcalls, total, htot, rfl⟩ := h
  cases (show R' = fin R from hR)
  obtain ⟨l1, l2, r1, r2⟩ := (C50_range he (by linarith) (by linarith) (by have := cosh_big hα.le hR1; norm_num; linarith)).2.2 _ _ hsamp
  obtain ⟨rs, rfl, hrs⟩ := reals_of r1
  obtain ⟨as, rfl, has⟩ := reals_of r2
  simp only [xw, List.length_map] at l1 l2
  have hin : HypInput rs as T R :=
    ⟨by omega, by omega, by omega, fun r hr => ⟨(hrs r hr).1, (hrs r hr).2.le⟩, has, hT, Or.inr ⟨hR1, hR2⟩⟩
  obtain ⟨out, hE, rfl⟩ := (C77_hyper_counts (m.henv threads) m.rng gens _ _ _ _ total).1 ⟨H, hH, calls, hcalls, htot⟩
  have hn0 : (n : ℝ) ≠ 0 := by exact_mod_cast (by omega : n ≠ 0)
  have hsim := C49_simple_graph hin (m.henv threads) m.rng hu gens out hE
  rw [l1] at hsim
  have hlen := graph_small hn31 (simple_isGraphOf hsim)
  refine ⟨⟨rfl, rfl, rfl, rfl, ?_, rfl, ?_⟩, ?_, ?_, rs, as, out, l1, l2, hrs, has, hsim, hlen, ?_⟩
  · show (CFloat.ofRat 2 : XR) *. fin α +. CFloat.ofRat 1 = _
    rw [XR.ofRat_eq, XR.ofRat_eq, XR.mul_fin, XR.add_fin]; norm_num
  · show (CFloat.ofRat 2 : XR) *. CFloat.ofNat (out.length % 2 ^ 64) /. CFloat.ofNat n = fin (2 * (out.length % 2 ^ 64 : ℕ) / n)
    rw [XR.ofRat_eq, XR.ofNat_eq, XR.ofNat_eq, XR.mul_fin, XR.div_fin _ _ hn0]; norm_num
  · intro h0 h1 hn30 hd
    have hd' : (0 : ℝ) < (avgDeg : ℝ) := by exact_mod_cast hd
    have hrad' : Radius.LikeNetworKit m.ndebug (n : ℤ) (fin α) (fin T) (fin (avgDeg : ℝ)) (fin R) := by
      rw [← XR.ofNat_eq]; exact hrad
    have := (C52_cold (by omega) (by omega) hα h0 h1 hd' _).1 hrad'
    obtain ⟨r, hr, hr'⟩ := C51_inverts (n := (n : ℤ)) (by omega) (by omega) hα h0.le h1 hd'
    rw [hr] at this
    have hrR : r = R := XR.fin.inj (Option.some.inj this)
    have := (hr' R).2 hrR.symm
    simpa using this
  · rintro rfl
    have hrad' : Radius.LikeNetworKit m.ndebug (n : ℤ) (fin α) (fin 0) (fin (avgDeg : ℝ)) (fin R) := by
      rw [← XR.ofNat_eq]; exact hrad
    have := C52_accuracy ((C52_zero (by omega) _).1 hrad')
    rw [Radius.getExpectedDegree_eq hα, XR.sub_fin, XR.abs_fin, XR.lt_fin] at this
    simpa using this
  · rintro rfl
    have hgr := C45_threshold_exact hin (m.henv threads) m.rng hu.geo gens out hE
    rw [l1] at hgr
    exact ⟨hgr, hlen.trans (graph_count (P := HypRule rs as R) (fun u v h => hypRule_symm h) hgr)⟩

/-- C77: bench_hyper prints the line, unless the radius leaves fewer levels than the parallel sampler starts with. -/
theorem C77_hyper_returns {m : Machine XR} (he : IntervalEngine m.eng) (hu : UnitRng m.rng) {threads n avgDeg seed : ℕ} {α T R : ℝ} (hα : 1 / 2 < α) (hT : 0 ≤ T)
    (hn : 1 ≤ n) (hn' : n + 9999 < 2147483648) (hth : 1 ≤ threads) (hs : seed + 12345678 + threads ≤ 2147483647)
    (hrad : Radius.LikeNetworKit m.ndebug n (fin α) (fin T) (CFloat.ofNat avgDeg) (fin R)) (hR1 : 4 / 3 ≤ R) (hR2 : R ≤ 165 / 4)
    (ht : (m.henv threads).threads = 1 ∨ ∃ L, HTree.firstParallelLevel XR (m.henv threads).threads = some L ∧
      cosh R < hypCosh (R - 1) (π / 2 ^ (L - 1)) (R - 1) 0) :
    ∃ row, Bench.Benchmark m threads n avgDeg (fin α) (fin T) seed row ∧ row.R = fin R := by
  have hcosh := cosh_big hα.le hR1
  have hge : CFloat.ge (CFloat.cosh (fin α *. fin R)) (oneUp : XR) = true := by
    rw [XR.mul_fin, xr_cosh, oneUp_eq]
    refine xr_ge ?_
    norm_num at hcosh ⊢
    linarith
  obtain ⟨_, _, radii, angles, _, _, _, hsamp, _⟩ := C50_executions (m.omp threads) m.eng (fun _ => m.eng.seed 0) true true n (fin α) (fin R) seed
      true (fun _ => ⟨hn, hn'⟩) hge (fun t h => by
        unfold hyperThreads at h
        rw [if_pos rfl, if_pos hn', Option.some.injEq] at h
        have h3 : (m.omp threads).maxThreads = max 1 threads := rfl
        rw [h3] at h
        exact Or.inr (by omega))
  have hsamp := (hsamp _).2 rfl
  obtain ⟨l1, l2, r1, r2⟩ := (C50_range he (by linarith) (by linarith) (by norm_num at hcosh ⊢; linarith)).2.2 _ _ hsamp
  obtain ⟨rs, rfl, hrs⟩ := reals_of r1
  obtain ⟨as, rfl, has⟩ := reals_of r2
  simp only [xw, List.length_map] at l1 l2
  have hin : HypInput rs as T R :=
    ⟨by omega, by omega, by omega, fun r hr => ⟨(hrs r hr).1, (hrs r hr).2.le⟩, has, hT, Or.inr ⟨hR1, hR2⟩⟩
  obtain ⟨gs, hgs⟩ : ∃ gs, m.hyperEngine.gens XR (m.henv threads).threads (seed + 12345678) 0 = some gs := by
    by_cases ht : (m.henv threads).threads = 1
    · rw [ht]; exact ⟨_, rfl⟩
    · obtain ⟨_, _, _, _, _, _, _, _, _, _, hh⟩ := C42_task_count (m.henv threads) (by have := (m.henv threads).threads_pos; omega)
      obtain ⟨gs, h, _⟩ := hh m.hyperEngine (seed + 12345678) 0
      exact ⟨gs, h⟩
  obtain ⟨edges, hE⟩ := (C44_returns_iff hin (m.henv threads) m.rng hu (fun k => (gs[k]?).getD (m.hyperEngine.seed 0))).2 ht
  obtain ⟨H, hH, calls, hcalls, htot⟩ := (C77_hyper_counts (m.henv threads) m.rng _ _ _ _ _ _).2 ⟨edges, hE, rfl⟩
  exact ⟨⟨seed, n, avgDeg, fin α, CFloat.ofRat 2 *. fin α +. CFloat.ofRat 1, fin T, fin R, edges.length % 2 ^ 64,
      CFloat.ofRat 2 *. CFloat.ofNat (edges.length % 2 ^ 64) /. CFloat.ofNat n⟩,
    ⟨by omega, by omega, _, hrad, _, _, ⟨_, hsamp⟩, 0, gs, hgs, _, fun k g hk => by simp [hk], H, hH, calls, hcalls, _, htot, rfl⟩, rfl⟩

/-- the hypotheses of C77 are met by a line of bench_hyper: iteration 0, `T = 0.5`, `PLE = 3`, 10000 nodes, degree 10 with one thread; the radius is `2 ln 4000` -/
theorem benchHyperExample : ∃ row, Bench.Benchmark exampleMachine 1 10000 10 (fin 1) (fin (1 / 2)) 240 row ∧ row.R = fin (2 * log 4000) ∧ 4 / 3 ≤ 2 * log 4000 ∧
    2 * log 4000 ≤ 165 / 4 := by
  have hR1 : 4 / 3 ≤ 2 * log 4000 := by
    have : 1 ≤ log 4000 := by
      rw [Real.le_log_iff_exp_le (by norm_num)]
      have := Real.exp_one_lt_d9
      linarith
    linarith
  have hR2 : 2 * log 4000 ≤ 165 / 4 := by
    have h1 : log (4000 : ℝ) ≤ log (2 ^ 12) := Real.log_le_log (by norm_num) (by norm_num)
    have h2 : log ((2 : ℝ) ^ 12) = 12 * log 2 := by rw [Real.log_pow]; norm_num
    have := Real.log_two_lt_d9
    linarith
  have hdeg : hrgDegree (10000 : ℤ) 1 (1 / 2) (2 * log 4000) = 10 := by
    unfold hrgDegree xi
    rw [if_neg (by norm_num), show -(2 * log 4000) / 2 = -log 4000 by ring, Real.exp_neg, Real.exp_log (by norm_num),
      show π * (1 / 2) = π / 2 by ring, Real.sin_pi_div_two]
    have := pi_pos.ne'
    field_simp
    norm_num
  have hrad : Radius.LikeNetworKit exampleMachine.ndebug (10000 : ℤ) (fin 1) (fin (1 / 2)) (fin 10) (fin (2 * log 4000)) := by
    rw [C52_cold (by norm_num) (by norm_num) (by norm_num) (by norm_num) (by norm_num) (by norm_num)]
    obtain ⟨r, hr, hr'⟩ := C51_inverts (n := 10000) (α := 1) (T := 1 / 2) (deg := 10) (by norm_num) (by norm_num) (by norm_num) (by norm_num) (by norm_num)
      (by norm_num)
    rw [hr, (hr' _).1 hdeg]
  obtain ⟨row, h1, h2⟩ := C77_hyper_returns (m := exampleMachine) exampleEngine_interval exampleRng_unit (threads := 1) (n := 10000) (avgDeg := 10) (seed := 240)
    (α := 1) (T := 1 / 2) (by norm_num) (by norm_num) (by norm_num) (by norm_num) le_rfl (by norm_num) (by rw [XR.ofNat_eq]; exact_mod_cast hrad) hR1 hR2 (Or.inl rfl)
  exact ⟨row, h1, h2, hR1, hR2⟩

end Props
end Girgs
