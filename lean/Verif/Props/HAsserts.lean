import Verif.Proofs.HAssertBuild
import Verif.Proofs.HAssertFires
import Verif.Props.HyperEdges
/-
C73: the debug assertions of the hyperbolic sampler.

`HDebugRun env rng gens radii angles T R checks` says that `checks` are the assertion instances some execution of
`hypergirgs::generateEdges` of a debug build evaluates if none of them aborts it (`none` if evaluating one of them is
undefined): see Verif/Model/HAsserts.lean.  A debug build aborts iff one of the listed conditions is false.
-/
namespace Girgs.Props
open Real Girgs.Spec CFloat Girgs.HTree
variable {radii angles : List ℝ} {T R : ℝ}

/-- C73, construction: of all assertions of the constructor (including those of `buildPartition`, the sorter, the points and the
layers) only two can fail: RadiusLayer.cpp:43 iff the disk radius is below 1, and RadiusLayer.cpp:87 iff some point lies on
the boundary of the disk. -/
theorem C73_constructor (hin : HypInput radii angles T R) {H : HTree XR} {checks : Option (List Check)}
    (hc : HDebugConstructed (xw radii) (xw angles) (XR.fin T) (XR.fin R) H checks) :
    ∃ L, checks = some L ∧
      (∀ c ∈ L, c.holds = false → c.file = "RadiusLayer.cpp" ∧ (c.line = 43 ∨ c.line = 87)) ∧
      ((∃ c ∈ L, c.holds = false ∧ c.line = 43 ∧ c.file = "RadiusLayer.cpp") ↔ R < 1) ∧
      ((∃ c ∈ L, c.holds = false ∧ c.line = 87 ∧ c.file = "RadiusLayer.cpp") ↔ R ∈ radii) := by
  obtain ⟨L, h1, h2, h3, h4⟩ := hc.checks hin
  refine ⟨L, h1, ?_, ⟨?_, fun h => ⟨_, h3 h, rfl, rfl, rfl⟩⟩, ⟨?_, fun h => ⟨_, h4 h, rfl, rfl, rfl⟩⟩⟩
  · intro c hc hf
    rcases h2 c hc hf with ⟨rfl, _⟩ | ⟨rfl, _⟩
    · exact ⟨rfl, Or.inl rfl⟩
    · exact ⟨rfl, Or.inr rfl⟩
  · rintro ⟨c, hc, hf, hl, _⟩
    rcases h2 c hc hf with ⟨_, h⟩ | ⟨rfl, _⟩
    · exact h
    · exact absurd hl (by show (87 : ℕ) ≠ 43; norm_num)
  · rintro ⟨c, hc, hf, hl, _⟩
    rcases h2 c hc hf with ⟨rfl, _⟩ | ⟨_, h⟩
    · exact absurd hl (by show (43 : ℕ) ≠ 87; norm_num)
    · exact h

/-- C73, complete calls: in every execution that returns, with any number of threads, any schedule and any random numbers, only
three assertions can fail: the two of `C73_constructor`, and HyperbolicTree.inl:331 (the acceptance shortcut) if `R < 2 T ln 99`
(and `T > 2^-52`, otherwise the shortcut is not used). -/
theorem C73_run (hin : HypInput radii angles T R) (env : HEnv) (rng : Tree.Rng XR) (u : UnitRng rng) (gens : ℕ → rng.G)
    {checks : Option (List Check)} (h : HDebugRun env rng gens (xw radii) (xw angles) (XR.fin T) (XR.fin R) checks) :
    ∃ L, checks = some L ∧ ∀ c ∈ L, c.holds = false →
      (c.file = "RadiusLayer.cpp" ∧ c.line = 43 ∧ R < 1) ∨ (c.file = "RadiusLayer.cpp" ∧ c.line = 87 ∧ R ∈ radii) ∨
      (c.file = "HyperbolicTree.inl" ∧ c.line = 331 ∧ 1 / 2 ^ 52 < T ∧ R < 2 * T * Real.log 99) := by
  obtain ⟨H, c0, c1, hc, hg, rfl⟩ := h
  obtain ⟨L0, rfl, h0, _⟩ := hc.checks hin
  have b := hc.constructed.builtX hin
  obtain ⟨L1, rfl, h1, _⟩ := b.generate_checks hin (hc.constructed.layerRadii hin) u u.geo gens hg
  refine ⟨L0 ++ L1, rfl, ?_⟩
  intro c hc hf
  rcases List.mem_append.1 hc with hc | hc
  · rcases h0 c hc hf with ⟨rfl, h⟩ | ⟨rfl, h⟩
    · exact Or.inl ⟨rfl, rfl, h⟩
    · exact Or.inr (Or.inl ⟨rfl, rfl, h⟩)
  · obtain ⟨rfl, h2, h3⟩ := h1 c hc hf
    exact Or.inr (Or.inr ⟨rfl, rfl, by norm_num at h2 ⊢; exact h2, h3⟩)

/-- C73, when a debug build never aborts: disk radius at least 1, all points inside the disk, and `T ≤ 2^-52` or
`2 T ln 99 ≤ R`. -/
theorem C73_no_abort (hin : HypInput radii angles T R) (h1 : 1 ≤ R) (hrad : ∀ r ∈ radii, r < R)
    (hT : T ≤ 1 / 2 ^ 52 ∨ 2 * T * Real.log 99 ≤ R) (env : HEnv) (rng : Tree.Rng XR) (u : UnitRng rng) (gens : ℕ → rng.G)
    {checks : Option (List Check)} (h : HDebugRun env rng gens (xw radii) (xw angles) (XR.fin T) (XR.fin R) checks) :
    ∃ L, checks = some L ∧ ∀ c ∈ L, c.holds = true := by
  obtain ⟨L, h2, h3⟩ := C73_run hin env rng u gens h
  refine ⟨L, h2, ?_⟩
  intro c hc
  by_contra hf
  rw [Bool.not_eq_true] at hf
  rcases h3 c hc hf with ⟨_, _, h⟩ | ⟨_, _, h⟩ | ⟨_, _, h, h'⟩
  · linarith
  · exact lt_irrefl _ (hrad R h)
  · rcases hT with hT | hT <;> linarith

/-- C73, sampling calls on their own (this also covers executions that hang, C44): for every sampling call of the recursion and every
state of the generator, only HyperbolicTree.inl:331 can fail. -/
theorem C73_call (hin : HypInput radii angles T R) {H : HTree XR} (hH : HConstructed false (xw radii) (xw angles) (XR.fin T) (XR.fin R) H)
    (rng : Tree.Rng XR) (u : UnitRng rng) {ts : List Task} (hts : visitCellPair H H.levels 0 0 0 = some ts) {t : Task} (ht : t ∈ ts)
    (g : rng.G) :
    ∃ L, H.taskChecks (xw radii) (xw angles) rng t g = some L ∧ ∀ c ∈ L, c.holds = false →
      c.file = "HyperbolicTree.inl" ∧ c.line = 331 ∧ 1 / 2 ^ 52 < T ∧ R < 2 * T * Real.log 99 := by
  have b := hH.builtX hin
  have hroot := b.ok.root_eq
  rw [b.full_eq, hts, Option.some.injEq] at hroot
  subst hroot
  obtain ⟨L, h1, h2⟩ := b.task_checks hin (hH.layerRadii hin) u u.geo ht g
  refine ⟨L, h1, ?_⟩
  intro c hc hf
  obtain ⟨rfl, h2, h3⟩ := h2 c hc hf
  exact ⟨rfl, rfl, by norm_num at h2 ⊢; exact h2, h3⟩

/-- C73, the unsafe shortcut: whenever `2^-52 < T` and `R < 2 T ln 99` there are uniform draws `x < 1` (all `x` between 0.98, the
connection probability at distance 0, and 0.99) for which every execution of a debug build on an input with two coinciding points
evaluates HyperbolicTree.inl:331 to false. -/
theorem C73_shortcut_aborts (hin : HypInput radii angles T R) (hT : 1 / 2 ^ 52 < T) (hR : R < 2 * T * Real.log 99) :
    hypProb 0 R T < 99 / 100 ∧
    ∀ x : ℝ, 98 / 100 < x → x < 99 / 100 → hypProb 0 R T ≤ x →
    ∀ (env : HEnv) (rng : Tree.Rng XR), UnitRng rng → (∀ g, (rng.uniform g).1 = XR.fin x) → ∀ (gens : ℕ → rng.G) (i j : ℕ), i ≠ j →
    i < radii.length → j < radii.length → radii[i]? = radii[j]? → angles[i]? = angles[j]? →
    ∀ checks, HDebugRun env rng gens (xw radii) (xw angles) (XR.fin T) (XR.fin R) checks →
    ∃ L, checks = some L ∧ ∃ c ∈ L, c.holds = false ∧ c.file = "HyperbolicTree.inl" ∧ c.line = 331 := by
  have hz : ShortcutUnsafe T R := ⟨by norm_num at hT ⊢; exact hT, hR⟩
  refine ⟨hz.draw, ?_⟩
  intro x hx1 hx2 hx3 env rng u hx gens i j hij hi hj hr ha checks hrun
  obtain ⟨H, c0, c1, hc, hg, rfl⟩ := hrun
  obtain ⟨L0, rfl, h0, _⟩ := hc.checks hin
  have b := hc.constructed.builtX hin
  obtain ⟨L1, rfl, h1, _⟩ := b.generate_checks hin (hc.constructed.layerRadii hin) u u.geo gens hg
  refine ⟨L0 ++ L1, rfl, HAsserts.tree 331 false, List.mem_append_right _ ?_, rfl, rfl, rfl⟩
  obtain ⟨t, ht, h2, ra, rb, p, q, v, w, h3, h4, h5, h6, h7, h8⟩ := b.coincide_task hin hij hi hj hr ha
  exact b.generate_mem hg ht (fun g C hC => b.task_fires hin hz ⟨hx1, hx2, hx3⟩ hx h2 h3 h4 h5 h6 h7 h8 hC)

/-- C73, the counters: every execution that returns evaluates the final assertion, and whatever the schedule, the numbers of ordered
pairs handled by type I and type II calls add up to `n(n-1)`.  (`ts`: the sampling calls of all threads together, in any order.) -/
theorem C73_counters (hin : HypInput radii angles T R) {H : HTree XR} (hH : HConstructed false (xw radii) (xw angles) (XR.fin T) (XR.fin R) H) :
    (∀ calls ts : List Task, visitCellPair H H.levels 0 0 0 = some calls → ts.Perm calls →
      ∃ a b : Int, H.totals ts = some (a, b) ∧ a + b = (radii.length : Int) * ((radii.length : Int) - 1)) ∧
    ∀ (env : HEnv) (rng : Tree.Rng XR), UnitRng rng → ∀ (gens : ℕ → rng.G) (checks : Option (List Check)),
      HTree.DebugGenerate env H (xw radii) (xw angles) rng gens checks →
      ∃ L, checks = some L ∧ (⟨"HyperbolicTree.inl", if env.threads = 1 then 66 else 144, true⟩ : Check) ∈ L := by
  have b := hH.builtX hin
  constructor
  · intro calls ts hv hts
    have hroot := b.ok.root_eq
    rw [b.full_eq, hv, Option.some.injEq] at hroot
    subst hroot
    have := b.ok.final_check b.fo 66 hts
    unfold HTree.finalCheck at this
    simp only [Option.bind_eq_bind, Option.bind_eq_some_iff, Option.some.injEq] at this
    obtain ⟨⟨p, q⟩, h1, h2⟩ := this
    refine ⟨p, q, h1, ?_⟩
    have h3 := congrArg Check.holds h2
    have h4 : p + q = ((H.n : Int) - 1) * (H.n : Int) := of_decide_eq_true h3
    have hn : H.n = radii.length := by rw [b.n_eq]; simp [xw]
    rw [h4, hn, mul_comm]
  · intro env rng u gens checks hg
    obtain ⟨L, h1, _, h2⟩ := b.generate_checks hin (hH.layerRadii hin) u u.geo gens hg
    exact ⟨L, h1, h2⟩

/-- the debug build has an execution that returns (if no assertion aborts it) whenever the sampler has one -/
theorem C73_runs_exist (env : HEnv) (hd : env.ndebug = false) (rng : Tree.Rng XR) (gens : ℕ → rng.G) {out : List (ℕ × ℕ)}
    (h : HGenerateEdges env rng gens (xw radii) (xw angles) (XR.fin T) (XR.fin R) out) :
    ∃ checks, HDebugRun env rng gens (xw radii) (xw angles) (XR.fin T) (XR.fin R) checks := by
  obtain ⟨H, hH, calls, hg, _⟩ := h
  rw [hd] at hH
  obtain ⟨c0, hc⟩ := hH.debug
  have : ∃ c1, HTree.DebugGenerate env H (xw radii) (xw angles) rng gens c1 := by
    unfold HTree.Generate at hg
    unfold HTree.DebugGenerate
    by_cases h1 : env.threads = 1
    · simp only [if_pos h1]; exact ⟨_, rfl⟩
    · rw [if_neg h1] at hg
      simp only [if_neg h1]
      obtain ⟨fpl, tasks, sched, s, e1, e2, e3, e4, _⟩ := hg
      exact ⟨_, fpl, tasks, sched, s, e1, e2, e3, e4, rfl⟩
  obtain ⟨c1, hg'⟩ := this
  exact ⟨_, H, c0, c1, hc, hg', rfl⟩

/-- C73 at work: four points in a disk of radius 6 at temperature 1/2: the debug build runs through. -/
example : ∃ L, HDebugRun (exampleHEnv false 1 (by norm_num) (by norm_num)) exampleRng (fun _ => ()) (xw [1, 2, 9 / 2, 5])
    (xw [0, 1, 3 / 2, 4]) (XR.fin (1 / 2)) (XR.fin 6) (some L) ∧ ∀ c ∈ L, c.holds = true := by
  obtain ⟨out, h⟩ := (C44_returns_iff (exampleHyp (T := 1 / 2) (by norm_num)) (exampleHEnv false 1 (by norm_num) (by norm_num)) exampleRng
    exampleRng_unit (fun _ => ())).2 (Or.inl rfl)
  obtain ⟨checks, hrun⟩ := C73_runs_exist _ rfl _ _ h
  have hlog : Real.log 99 ≤ 6 := by
    rw [Real.log_le_iff_le_exp (by norm_num), show (6 : ℝ) = ((6 : ℕ) : ℝ) * 1 by norm_num, Real.exp_nat_mul]
    calc (99 : ℝ) ≤ 2.7 ^ 6 := by norm_num
      _ ≤ Real.exp 1 ^ 6 := pow_le_pow_left₀ (by norm_num) (by have := Real.exp_one_gt_d9; linarith) 6
  obtain ⟨L, h1, h2⟩ := C73_no_abort (exampleHyp (T := 1 / 2) (by norm_num)) (by norm_num) (by
    intro r hr
    simp only [List.mem_cons, List.not_mem_nil, or_false] at hr
    rcases hr with rfl | rfl | rfl | rfl <;> norm_num) (Or.inr (by linarith)) _ _ exampleRng_unit _ hrun
  subst h1
  exact ⟨L, hrun, h2⟩

/-- two coinciding points in a disk of radius 2 -/
theorem assertHyp : HypInput [1, 1] [0, 0] 1 2 where
  len := rfl
  pos := by simp
  small := by simp
  radius := by
    intro r hr
    simp only [List.mem_cons, List.not_mem_nil, or_false, or_self] at hr
    subst hr; norm_num
  angle := by
    intro a ha
    have := pi_pos
    simp only [List.mem_cons, List.not_mem_nil, or_false, or_self] at ha
    subst ha; constructor <;> linarith
  temp := zero_le_one
  disk := Or.inr ⟨by norm_num, by norm_num⟩

/-- random numbers with the constant uniform draw 0.985 -/
noncomputable def assertRng : Tree.Rng XR where
  G := Unit
  uniform g := (XR.fin (985 / 1000), g)
  uniformTo b g := (b *. XR.fin (1 / 2), g)
  geo _ g := (0, g)

/-- C73 at work: two coinciding points in a disk of radius 2 at temperature 1, uniform draw 0.985: the debug build aborts in line 331. -/
example : ∃ L, HDebugRun (exampleHEnv false 1 (by norm_num) (by norm_num)) assertRng (fun _ => ()) (xw [1, 1])
    (xw [0, 0]) (XR.fin 1) (XR.fin 2) (some L) ∧ ∃ c ∈ L, c.holds = false ∧ c.file = "HyperbolicTree.inl" ∧ c.line = 331 := by
  have u : UnitRng assertRng := ⟨fun _ => ⟨985 / 1000, rfl, by norm_num, by norm_num⟩,
    fun b _ hb => ⟨b * (1 / 2), rfl, by positivity, by linarith⟩, fun _ _ => by show 0 < _; norm_num⟩
  obtain ⟨out, h⟩ := (C44_returns_iff assertHyp (exampleHEnv false 1 (by norm_num) (by norm_num)) assertRng u (fun _ => ())).2 (Or.inl rfl)
  obtain ⟨checks, hrun⟩ := C73_runs_exist _ rfl _ _ h
  have hlog : 1 < Real.log 99 := by
    rw [Real.lt_log_iff_exp_lt (by norm_num)]
    have := Real.exp_one_lt_d9
    linarith
  have hp : hypProb 0 2 1 ≤ 985 / 1000 := by
    unfold hypProb
    have h1 : Real.exp (-1) ≥ 1 / 3 := by
      rw [Real.exp_neg, ge_iff_le, one_div]
      exact inv_anti₀ (Real.exp_pos _) (by have := Real.exp_one_lt_d9; linarith)
    rw [show ((0 : ℝ) - 2) / (2 * 1) = -1 by norm_num, div_le_iff₀ (by positivity)]
    linarith
  obtain ⟨L, h1, h2⟩ := (C73_shortcut_aborts assertHyp (by norm_num) (by linarith)).2 (985 / 1000) (by norm_num) (by norm_num) hp _ _ u
    (fun _ => rfl) _ 0 1 (by norm_num) (by simp) (by simp) rfl rfl checks hrun
  subst h1
  exact ⟨L, hrun, h2⟩

end Girgs.Props
