import Verif.Proofs.HRoundedClear
import Verif.Proofs.HRoundedDraws
import Verif.Proofs.B64Elem
import Verif.Props.HyperEdges
import Verif.Props.Rounding
/-
C79: rounding errors cannot break the sampler of hypergirgs.
-/
namespace Girgs.Props
open Spec CFloat HBuild

variable {F : Type} [CFloat F] {u lam eps p : ℝ} {A : Rounded F u lam} {radii angles : List F} {Tf Rf : F} {r a : List ℝ} {T R : ℝ}

/-- C79.  `hypergirgs::generateEdges` in floating point arithmetic, for supported input for which the comparison level computed for two layers does
not depend on their order, every build, thread count and source of random numbers.
* With one thread there is an execution that returns.
* With more threads, let `L` be the start level of the parallel part and `l` the level computed for the outermost layer: an execution returns iff
  `L ≤ l`.
* Every returned list is a simple graph on the nodes `0..n-1`.
* Two executions with the same random numbers (whatever the schedules) return the same edges up to order. -/
theorem C79_rounded_simple_graph (I : RInput A eps p radii angles Tf Rf r a T R) (hs : SymmetricLevels Rf ⌈R⌉.toNat) (env : HEnv)
    (rng : Tree.Rng F) (hr : RoundedRng A rng) (gens : ℕ → rng.G) :
    (env.threads = 1 → ∃ out, HGenerateEdges env rng gens radii angles Tf Rf out) ∧
    (2 ≤ env.threads → ∃ L l, HTree.firstParallelLevel F env.threads = some L ∧
      RadiusLayer.partitioningBaseLevel (radMin Rf 0) (Rf -. ofRat 1) Rf = some l ∧
      ((∃ out, HGenerateEdges env rng gens radii angles Tf Rf out) ↔ L ≤ l)) ∧
    (∀ out, HGenerateEdges env rng gens radii angles Tf Rf out → IsSimpleGraph r.length out) ∧
    (∀ out out', HGenerateEdges env rng gens radii angles Tf Rf out → HGenerateEdges env rng gens radii angles Tf Rf out' → out.Perm out') := by
  have ok := I.inputOK hs
  obtain ⟨fpl, st⟩ := hstartOK_R A env
  have h2 := st.two
  have h26 := st.le
  have ex : ∀ (h : env.threads = 1 ∨ fpl < rtgt Rf 0 + 1), ∃ out, HGenerateEdges env rng gens radii angles Tf Rf out := by
    intro h
    obtain ⟨H, hH⟩ := hconstructed_exists env.ndebug Tf ok env.threads env.threads_pos (by have := env.threads_le; omega)
    have b := hH.built ok
    obtain ⟨calls, hc⟩ := b.ok.generate_exists hr.geo (I.draws b hr) b.fo st gens (by rw [b.levels_eq]; exact h)
    obtain ⟨out, ho⟩ := EdgeBuffer.run_exists (block := blockSize) (by unfold blockSize; omega) calls
    exact ⟨out, H, hH, calls, hc, ho⟩
  refine ⟨fun h => ex (Or.inl h), ?_, ?_, ?_⟩
  · intro hth
    have hc := I.disk.ceil_pos
    refine ⟨fpl, rtgt Rf 0, st.eq (by omega), (I.disk.rtgt_eq (by omega)).1, ?_, fun h => ex (Or.inr (by omega))⟩
    rintro ⟨out, H, hH, calls, hg, _⟩
    have b := hH.built ok
    unfold HTree.Generate at hg
    rw [if_neg (by omega)] at hg
    obtain ⟨fpl', tasks, sched, s, e1, e2, hrun, hfin, _⟩ := hg
    have e3 := st.eq (by omega)
    rw [e1, Option.some.injEq] at e3
    subst e3
    by_contra hlt
    have hlt : ¬ fpl' < H.levels := by rw [b.levels_eq]; omega
    rw [if_neg hlt, Option.some.injEq] at e2
    subst e2
    rw [decide_eq_false hlt] at hrun
    have := env.threads_le
    exact C44_hang env.threads (by omega) (by omega) sched s hrun hfin
  · rintro out ⟨H, hH, calls, hc, ho⟩
    have b := hH.built ok
    have p1 := b.ok.generate_perm hr.geo (I.draws b hr) b.fo st gens hc
    have q1 := EdgeBuffer.IsMerge.perm (ho.isMerge (by unfold blockSize; omega))
    have hs := b.ok.units_simple hr.geo (I.draws b hr) b.fo st gens
    rw [b.n_eq, I.radii.length_eq] at hs
    exact perm_simple (q1.trans p1) hs
  · rintro out out' ⟨H, hH, calls, hc, ho⟩ ⟨H', hH', calls', hc', ho'⟩
    obtain rfl := hH.unique hH' ok
    have b := hH.built ok
    have p1 := b.ok.generate_perm hr.geo (I.draws b hr) b.fo st gens hc
    have p2 := b.ok.generate_perm hr.geo (I.draws b hr) b.fo st gens hc'
    have q1 := EdgeBuffer.IsMerge.perm (ho.isMerge (by unfold blockSize; omega))
    have q2 := EdgeBuffer.IsMerge.perm (ho'.isMerge (by unfold blockSize; omega))
    exact (q1.trans p1).trans ((q2.trans p2).symm)

/-- C79 (no undefined behaviour).  The data structure can be built, in one way only; the sequential run on it is defined; and with more threads,
whatever the schedule and the state it has reached, all sampling done so far by any thread is defined: no index is out of bounds, and no
floating point number is converted to an integer type that cannot represent it. -/
theorem C79_rounded_defined (I : RInput A eps p radii angles Tf Rf r a T R) (hs : SymmetricLevels Rf ⌈R⌉.toNat) (env : HEnv)
    (rng : Tree.Rng F) (hr : RoundedRng A rng) (gens : ℕ → rng.G) :
    ∃ H, HConstructed env.ndebug radii angles Tf Rf H ∧ (∀ H', HConstructed env.ndebug radii angles Tf Rf H' → H' = H) ∧
    (∃ ts r, HTree.visitCellPair H H.levels 0 0 0 = some ts ∧ HTree.runTasks H rng ts (gens 0) = some r) ∧
    (2 ≤ env.threads → ∃ fpl tasks, HTree.firstParallelLevel F env.threads = some fpl ∧
      (if fpl < H.levels then HTree.taskList env fpl else some []) = some tasks ∧
      ∀ (sched : List TaskQueue.Act) (s : TaskQueue.State),
        TaskQueue.run tasks.length (TaskQueue.init env.threads (decide (fpl < H.levels))) sched = some s →
        ∀ (k : ℕ) (l : List ℕ), s.log[k]? = some l → ∃ es, HTree.threadCallbacks H rng gens fpl env.threads tasks k l = some es) := by
  have ok := I.inputOK hs
  obtain ⟨H, hH⟩ := hconstructed_exists env.ndebug Tf ok env.threads env.threads_pos (by have := env.threads_le; omega)
  have b := hH.built ok
  refine ⟨H, hH, fun H' h' => h'.unique hH ok, ?_, ?_⟩
  · have hok : ∀ t ∈ hvisit H.layers H.levels (rpair Rf ⌈R⌉.toNat) H.full H.levels 0 0 0, HTaskOK H (rpair Rf ⌈R⌉.toNat) t :=
      hvisit_ok _ _ _ _ onLv_zero onLv_zero
    obtain ⟨_, es, g', _, h2, _⟩ := hrunTasks_spec hr.geo (I.draws b hr) b.ok b.fo _ hok (gens 0)
    exact ⟨_, _, b.ok.root_eq, h2⟩
  · intro hth
    obtain ⟨fpl, st⟩ := hstartOK_R A env
    have h2 := st.two
    have h26 := st.le
    refine ⟨fpl, hTasks env H fpl, st.eq (by omega), b.ok.tasks_eq env (by omega) (by omega), ?_⟩
    intro sched s hs k l hl
    have hlog : ∀ i ∈ l, i < (hTasks env H fpl).length := by
      obtain ⟨nt, _, hnt, hle, _⟩ := length_hTasks (H := H) env st.two st.le
      have hb : (hTasks env H fpl).length + env.threads + 1 < 2 ^ 32 := by have := env.threads_le; omega
      have := (C43_each_task_once env.threads _ (decide (fpl < H.levels)) hth (by
        intro h
        unfold hTasks
        rw [if_neg (by simpa using h)]; rfl) hb sched).2 s hs
      intro i hi
      exact this.2.1 i (List.mem_flatten.2 ⟨l, List.mem_of_getElem? hl, hi⟩)
    exact ⟨_, b.ok.threadCallbacks_eq hr.geo (I.draws b hr) b.fo st gens hth k l hlog⟩

/-- C79 (coverage).  The recursion (with the type II calls, which are left out in release builds with `T = 0`) examines every unordered pair of
distinct points exactly once, in one orientation. -/
theorem C79_rounded_coverage (I : RInput A eps p radii angles Tf Rf r a T R) (hs : SymmetricLevels Rf ⌈R⌉.toNat) {ndebug : Bool} {H : HTree F}
    (hc : HConstructed ndebug radii angles Tf Rf H) (hm : ¬ (ndebug = true ∧ T = 0)) :
    ∃ ts cs, HTree.visitCellPair H H.levels 0 0 0 = some ts ∧ H.allCandidates ts = some cs ∧ EachPairOnce r.length (cs.map H.idxPair) := by
  have b := hc.built (I.inputOK hs)
  have hf : H.full = true := by
    unfold HTree.full
    have : H.tZero = true ↔ T = 0 := by
      unfold HTree.tZero
      rw [b.T_eq]
      exact I.elem.eq _ _ _ _ I.vT A.val_zero
    rw [b.ndebug_eq]
    cases ndebug
    · rfl
    · have : H.tZero = false := by
        by_contra h
        exact hm ⟨rfl, this.1 (by simpa using h)⟩
      simp [this]
  have hr := b.ok.root_eq
  rw [hf] at hr
  obtain ⟨cs, h1, h2⟩ := b.ok.eachPairOnce (List.Perm.refl _)
  rw [b.n_eq, I.radii.length_eq] at h2
  exact ⟨_, cs, hr, h1, h2⟩

/-- C79 (levels).  If no comparison of `partitioningBaseLevel` is a close call then the level computed for two layers is the exact one: the first
level `l` such that points with the inner radii of the layers, at angle `π/2^l`, are at most `R` apart.  In particular it does not depend on the
order of the layers. -/
theorem C79_levels (I : RInput A eps p radii angles Tf Rf r a T R) (hcl : ClearLevels R ⌈R⌉.toNat) :
    SymmetricLevels Rf ⌈R⌉.toNat ∧
    ∀ i j, i < ⌈R⌉.toNat → j < ⌈R⌉.toNat → ∃ l, RadiusLayer.partitioningBaseLevel (radMin Rf i) (radMin Rf j) Rf = some l ∧
      hypCosh (R - i - 1) (Real.pi / 2 ^ l) (R - j - 1) 0 ≤ Real.cosh R ∧
      ∀ k, k < l → Real.cosh R < hypCosh (R - i - 1) (Real.pi / 2 ^ k) (R - j - 1) 0 := by
  have D := I.disk
  refine ⟨D.symmetric_of_clear hcl, fun i j hi hj => ⟨_, D.clear_pbl hcl hi hj (D.radMin_val hi) (D.radMin_val hj), ?_⟩⟩
  have h := hpbl_spec (hc_exists (a := R - i - 1) (b := R - j - 1) (R := R) (by
    have := layers_sub hi hj
    exact this))
  have e : ∀ k : ℕ, hypCosh (R - i - 1) (Real.pi / 2 ^ k) (R - j - 1) 0 = hc (R - i - 1) (R - j - 1) (Real.pi / 2 ^ k) := by
    intro k
    rw [← hc_eq, sub_zero]
  simp only [e]
  exact h

/-- C79 (when it returns).  If no comparison of `partitioningBaseLevel` is a close call, rounding does not change for which inputs
`hypergirgs::generateEdges` returns (compare C44). -/
theorem C79_rounded_returns_iff (I : RInput A eps p radii angles Tf Rf r a T R) (hcl : ClearLevels R ⌈R⌉.toNat) (env : HEnv)
    (rng : Tree.Rng F) (hr : RoundedRng A rng) (gens : ℕ → rng.G) :
    (∃ out, HGenerateEdges env rng gens radii angles Tf Rf out) ↔
      env.threads = 1 ∨ ∃ L, HTree.firstParallelLevel F env.threads = some L ∧
        Real.cosh R < hypCosh (R - 1) (Real.pi / 2 ^ (L - 1)) (R - 1) 0 := by
  have D := I.disk
  have hs := D.symmetric_of_clear hcl
  have hc0 := D.ceil_pos
  obtain ⟨h1, h2, _⟩ := C79_rounded_simple_graph I hs env rng hr gens
  obtain ⟨fpl, st⟩ := hstartOK_R A env
  have hst2 := st.two
  have := env.threads_pos
  by_cases hth : env.threads = 1
  · exact ⟨fun _ => Or.inl hth, fun _ => h1 hth⟩
  obtain ⟨L, l, e1, e2, h3⟩ := h2 (by omega)
  have e3 := st.eq hth
  rw [e1, Option.some.injEq] at e3
  subst e3
  rw [h3]
  have e4 : l = hpbl (R - 1) (R - 1) R := by
    have h4 := (D.rtgt_eq (show 0 < ⌈R⌉.toNat by omega)).1
    rw [e2, Option.some.injEq] at h4
    rw [h4, D.clear_rtgt hcl (by omega)]
    norm_num
  subst e4
  have hex : ∃ L : ℕ, hc (R - 1) (R - 1) (Real.pi / 2 ^ L) ≤ Real.cosh R := hc_exists (by simpa using D.pos)
  constructor
  · intro h
    refine Or.inr ⟨L, e1, ?_⟩
    rw [← hc_eq, sub_zero]
    exact hpbl_pos_lt (by omega)
  · rintro (h | ⟨L', e5, h⟩)
    · exact absurd h hth
    rw [e1, Option.some.injEq] at e5
    subst e5
    rw [← hc_eq, sub_zero] at h
    refine le_hpbl hex ?_
    intro k hk
    refine lt_of_lt_of_le h (hc_angle (mul_self_nonneg _) ?_)
    have hpi := Real.pi_pos
    have h2 : Real.pi / 2 ^ (L - 1) ≤ Real.pi / 2 ^ k := by
      refine div_le_div_of_nonneg_left hpi.le (by positivity) ?_
      exact pow_le_pow_right₀ (by norm_num) (by omega)
    refine Real.cos_le_cos_of_nonneg_of_le_pi (by positivity) ?_ h2
    exact div_le_self hpi.le (one_le_pow₀ (by norm_num))

/-! ### type double -/

theorem dw_vals {w : List ℝ} (hw : ∀ v ∈ w, B64.IsDouble v) : B64.rounded.Vals (dw w) w := by
  unfold dw
  induction w with
  | nil => exact List.Forall₂.nil
  | cons v w ih => exact List.Forall₂.cons (B64.round_double (hw v (by simp))) (ih fun v hv => hw v (by simp [hv]))

/-- supported input of type double (IEEE binary64, round to nearest, correctly rounded elementary functions) -/
theorem rinput_double {r a : List ℝ} {T R : ℝ} (h : RoundableHyp (2 ^ (-53 : ℤ)) (B64.rnd Real.pi) r a T R) (hr : ∀ v ∈ r, B64.IsDouble v)
    (ha : ∀ v ∈ a, B64.IsDouble v) (hT : B64.IsDouble T) (hR : B64.IsDouble R) :
    RInput B64.rounded (2 ^ (-53 : ℤ)) (B64.rnd Real.pi) (dw r) (dw a) (B64.round (XR.fin T)) (B64.round (XR.fin R)) r a T R :=
  ⟨B64.elem, by norm_num, by norm_num, dw_vals hr, dw_vals ha, B64.round_double hT, B64.round_double hR, h⟩

/-- C79 for type `double`: for radii in `(2^-53 R, R + 2^-44]`, angles in `[0, 2π)` and a disk radius for which no comparison level is a close call, every
returned list is a simple graph, two executions with the same random numbers return the same edges, and there is an execution that returns iff
there is only one thread or the condition of C44 holds. -/
theorem C79_double {r a : List ℝ} {T R : ℝ} (h : RoundableHyp (2 ^ (-53 : ℤ)) (B64.rnd Real.pi) r a T R) (hcl : ClearLevels R ⌈R⌉.toNat)
    (hr : ∀ v ∈ r, B64.IsDouble v) (ha : ∀ v ∈ a, B64.IsDouble v) (hT : B64.IsDouble T) (hR : B64.IsDouble R) (env : HEnv)
    (rng : Tree.Rng B64) (hrng : RoundedRng B64.rounded rng) (gens : ℕ → rng.G) :
    ((∃ out, HGenerateEdges env rng gens (dw r) (dw a) (B64.round (XR.fin T)) (B64.round (XR.fin R)) out) ↔
      env.threads = 1 ∨ ∃ L, HTree.firstParallelLevel B64 env.threads = some L ∧
        Real.cosh R < hypCosh (R - 1) (Real.pi / 2 ^ (L - 1)) (R - 1) 0) ∧
    (∀ out, HGenerateEdges env rng gens (dw r) (dw a) (B64.round (XR.fin T)) (B64.round (XR.fin R)) out → IsSimpleGraph r.length out) ∧
    (∀ out out', HGenerateEdges env rng gens (dw r) (dw a) (B64.round (XR.fin T)) (B64.round (XR.fin R)) out →
      HGenerateEdges env rng gens (dw r) (dw a) (B64.round (XR.fin T)) (B64.round (XR.fin R)) out' → out.Perm out') := by
  have I := rinput_double h hr ha hT hR
  have h1 := C79_rounded_simple_graph I (C79_levels I hcl).1 env rng hrng gens
  exact ⟨C79_rounded_returns_iff I hcl env rng hrng gens, h1.2.2.1, h1.2.2.2⟩

/-! ### an example -/

/-- a random number source for doubles -/
noncomputable def exampleRngH : Tree.Rng B64 where
  G := Unit
  uniform := fun _ => (ofRat 0, ())
  uniformTo := fun _ _ => (ofRat 0, ())
  geo := fun _ _ => (0, ())

theorem exampleRngH_rounded : RoundedRng B64.rounded exampleRngH where
  uniform _ := ⟨0, B64.rounded.val_zero, le_rfl, by norm_num⟩
  uniformTo _ y _ _ hy := ⟨0, B64.rounded.val_zero, le_rfl, hy⟩
  geo _ _ := by show 0 < _; norm_num

theorem cosh_sub_ge {x y : ℝ} (hx : 0 ≤ x) (hxy : x ≤ y) : (y ^ 2 - x ^ 2) / 2 ≤ Real.cosh y - Real.cosh x := by
  have e : Real.cosh y - Real.cosh x = 2 * (Real.sinh ((y + x) / 2) * Real.sinh ((y - x) / 2)) := by
    have h1 := Real.cosh_add ((y + x) / 2) ((y - x) / 2)
    have h2 := Real.cosh_sub ((y + x) / 2) ((y - x) / 2)
    rw [show (y + x) / 2 + (y - x) / 2 = y by ring] at h1
    rw [show (y + x) / 2 - (y - x) / 2 = x by ring] at h2
    rw [h1, h2]; ring
  rw [e]
  have h1 : (y + x) / 2 ≤ Real.sinh ((y + x) / 2) := Real.self_le_sinh_iff.2 (by linarith)
  have h2 : (y - x) / 2 ≤ Real.sinh ((y - x) / 2) := Real.self_le_sinh_iff.2 (by linarith)
  have := mul_le_mul h1 h2 (by linarith) (le_trans (by linarith) h1)
  nlinarith

theorem cosh_three : Real.cosh 3 ≤ 10.07 := by
  have h1 : Real.exp 3 ≤ 20.0856 := by
    rw [show (3 : ℝ) = (3 : ℕ) * 1 by norm_num, Real.exp_nat_mul]
    exact le_trans (pow_le_pow_left₀ (Real.exp_pos 1).le Real.exp_one_lt_d9.le 3) (by norm_num)
  have h2 : Real.exp (-3) ≤ 0.05 := by
    rw [Real.exp_neg, inv_le_comm₀ (Real.exp_pos _) (by norm_num)]
    rw [show (3 : ℝ) = (3 : ℕ) * 1 by norm_num, Real.exp_nat_mul]
    exact le_trans (by norm_num) (pow_le_pow_left₀ (by norm_num) Real.exp_one_gt_d9.le 3)
  rw [Real.cosh_eq]; linarith

theorem cosh_five_half : 6.09 ≤ Real.cosh (5 / 2) := by
  have h1 : 12.18 ≤ Real.exp (5 / 2) := by
    have h3 : (12.18 : ℝ) ^ 2 ≤ Real.exp (5 / 2) ^ 2 := by
      rw [← Real.exp_nat_mul, show ((2 : ℕ) : ℝ) * (5 / 2) = (5 : ℕ) * 1 by norm_num, Real.exp_nat_mul]
      exact le_trans (by norm_num) (pow_le_pow_left₀ (by norm_num) Real.exp_one_gt_d9.le 5)
    exact le_of_sq_le_sq h3 (Real.exp_pos _).le
  have := Real.exp_pos (-(5 / 2))
  rw [Real.cosh_eq]; linarith

/-- in a disk of radius 5/2 no comparison level is a close call -/
theorem exampleClear : ClearLevels (5 / 2) ⌈(5 / 2 : ℝ)⌉.toNat := by
  have hceil : ⌈(5 / 2 : ℝ)⌉.toNat = 3 := by
    have : ⌈(5 / 2 : ℝ)⌉ = 3 := by rw [Int.ceil_eq_iff]; norm_num
    rw [this]; rfl
  rw [hceil]
  have c3 := cosh_three
  have c25 := cosh_five_half
  have c25' : Real.cosh (5 / 2) ≤ Real.cosh 3 := Real.cosh_le_cosh.2 (by rw [abs_of_pos, abs_of_pos] <;> norm_num)
  have hsinh : ∀ x : ℝ, |x| ≤ 3 / 2 → |Real.sinh x| ≤ 11 := by
    intro x hx
    refine (abs_sinh_le_cosh x).trans ?_
    have : Real.cosh x ≤ Real.cosh 3 := Real.cosh_le_cosh.2 (by rw [abs_of_pos (by norm_num : (0 : ℝ) < 3)]; linarith)
    linarith
  intro i j L hij hj _ hk
  have hrho : ∀ n : ℕ, n < 3 → |(5 / 2 : ℝ) - n - 1| ≤ 3 / 2 := by
    intro n hn
    interval_cases n <;> norm_num [abs_le]
  have hS : |Real.sinh (5 / 2 - i - 1) * Real.sinh (5 / 2 - j - 1)| ≤ 121 := by
    rw [abs_mul]
    refine (mul_le_mul (hsinh _ (hrho i (by omega))) (hsinh _ (hrho j hj)) (abs_nonneg _) (by norm_num)).trans (by norm_num)
  have hlhs : 1 / 2 ^ 42 * (Real.cosh (5 / 2) + |Real.sinh (5 / 2 - i - 1) * Real.sinh (5 / 2 - j - 1)|) < 1 / 10 := by
    generalize |Real.sinh (5 / 2 - i - 1) * Real.sinh (5 / 2 - j - 1)| = S at *
    norm_num at c3 c25 ⊢
    linarith
  refine lt_of_lt_of_le hlhs ?_
  clear hlhs hS
  have e0 : ∀ x y : ℝ, hypCosh x (Real.pi / 2 ^ 0) y 0 = Real.cosh (x + y) := by
    intro x y
    unfold hypCosh
    rw [pow_zero, div_one, sub_zero, Real.cos_pi, Real.cosh_add]; ring
  by_cases h00 : i = 0 ∧ j = 0
  · obtain ⟨rfl, rfl⟩ := h00
    have e1 : hypCosh (5 / 2 - (0 : ℕ) - 1) (Real.pi / 2 ^ 1) (5 / 2 - (0 : ℕ) - 1) 0 ≤ 5.54 := by
      unfold hypCosh
      rw [pow_one, sub_zero, Real.cos_pi_div_two]
      norm_num
      have h1 := Real.cosh_two_mul (3 / 2 : ℝ)
      have h2 := Real.cosh_sq (3 / 2 : ℝ)
      norm_num at h1 h2 c3
      nlinarith
    rcases L with _ | _ | L
    · rw [e0, show (5 / 2 - ((0 : ℕ) : ℝ) - 1 + (5 / 2 - ((0 : ℕ) : ℝ) - 1)) = 3 by norm_num]
      have := cosh_sub_ge (x := 5 / 2) (y := 3) (by norm_num) (by norm_num)
      rw [abs_of_nonneg (by linarith)]
      linarith
    · rw [abs_of_nonpos (by norm_num at e1 c25 ⊢; linarith)]
      norm_num at e1 c25 ⊢
      linarith
    · have := hk 1 (by omega)
      norm_num at this e1 c25
      linarith
  · have hsum : |(5 / 2 - (i : ℝ) - 1 + (5 / 2 - (j : ℝ) - 1))| ≤ 2 := by
      have hi : i < 3 := by omega
      interval_cases j <;> interval_cases i <;> first | (exfalso; omega) | norm_num [abs_le]
    have h0 : Real.cosh (5 / 2 - (i : ℝ) - 1 + (5 / 2 - (j : ℝ) - 1)) ≤ Real.cosh 2 :=
      Real.cosh_le_cosh.2 (by rw [abs_of_pos (by norm_num : (0 : ℝ) < 2)]; exact hsum)
    have h1 := cosh_sub_ge (x := 2) (y := 5 / 2) (by norm_num) (by norm_num)
    rcases L with _ | L
    · rw [e0, abs_of_nonpos (by linarith)]
      linarith
    · have := hk 0 (by omega)
      rw [e0] at this
      linarith

theorem isDouble_quarter (x : ℝ) (z : ℤ) (hz : |z| ≤ 16) (he : x * 4 = z) : B64.IsDouble x := by
  have hzr : ((|z| : ℤ) : ℝ) ≤ ((16 : ℤ) : ℝ) := Int.cast_le.2 hz
  rw [Int.cast_abs] at hzr
  have e : x = z * 2 ^ (-2 : ℤ) := by rw [← he]; norm_num; ring
  have hx : |x| ≤ 8 := by
    rw [e, abs_mul, abs_of_pos (show (0 : ℝ) < 2 ^ (-2 : ℤ) by positivity)]
    norm_num at hzr ⊢
    linarith
  have := B64.rnd_rep (N := z) (k := -2) (le_trans hz (by norm_num)) (by norm_num)
  rw [← e] at this
  exact ⟨this, lt_of_le_of_lt hx (lt_of_lt_of_le (show (8 : ℝ) < 2 ^ 4 by norm_num) (pow_le_pow_right₀ (by norm_num) (by norm_num)))⟩

/-- three points in a disk of radius 5/2, temperature 1/2 -/
theorem exampleHypD : RoundableHyp (2 ^ (-53 : ℤ)) (B64.rnd Real.pi) [1, 2, 5 / 2] [0, 1, 7 / 2] (1 / 2) (5 / 2) where
  len := rfl
  pos := by simp
  small := by simp
  radius := by
    intro r hr
    simp only [List.mem_cons, List.not_mem_nil, or_false] at hr
    rcases hr with rfl | rfl | rfl <;> norm_num
  angle := by
    intro a ha
    have h1 : (3 : ℝ) ≤ B64.rnd Real.pi := by
      have := B64.rnd_mono Real.pi_gt_three.le
      have h3 := B64.rnd_int (z := 3) (by norm_num)
      push_cast at h3
      rwa [h3] at this
    simp only [List.mem_cons, List.not_mem_nil, or_false] at ha
    rcases ha with rfl | rfl | rfl <;> constructor <;> linarith
  temp := Or.inr ⟨by norm_num, by norm_num⟩
  disk := by
    have : ⌈(5 / 2 : ℝ)⌉ = 3 := by rw [Int.ceil_eq_iff]; norm_num
    rw [this]; norm_num
  disk34 := by norm_num
  disk_pos := by norm_num

/-- C79 at work: with one thread and type double the call returns for the example, and the result is a simple graph -/
example : ∃ out, HGenerateEdges (exampleHEnv true 1 (by norm_num) (by norm_num)) exampleRngH (fun _ => ()) (dw [1, 2, 5 / 2])
    (dw [0, 1, 7 / 2]) (B64.round (XR.fin (1 / 2))) (B64.round (XR.fin (5 / 2))) out ∧ IsSimpleGraph 3 out := by
  have hr : ∀ v ∈ ([1, 2, 5 / 2] : List ℝ), B64.IsDouble v := by
    intro v hv
    simp only [List.mem_cons, List.not_mem_nil, or_false] at hv
    rcases hv with rfl | rfl | rfl
    · exact isDouble_quarter _ 4 (by norm_num) (by norm_num)
    · exact isDouble_quarter _ 8 (by norm_num) (by norm_num)
    · exact isDouble_quarter _ 10 (by norm_num) (by norm_num)
  have ha : ∀ v ∈ ([0, 1, 7 / 2] : List ℝ), B64.IsDouble v := by
    intro v hv
    simp only [List.mem_cons, List.not_mem_nil, or_false] at hv
    rcases hv with rfl | rfl | rfl
    · exact isDouble_quarter _ 0 (by norm_num) (by norm_num)
    · exact isDouble_quarter _ 4 (by norm_num) (by norm_num)
    · exact isDouble_quarter _ 14 (by norm_num) (by norm_num)
  obtain ⟨h1, h2, _⟩ := C79_double exampleHypD exampleClear hr ha (isDouble_quarter _ 2 (by norm_num) (by norm_num))
    (isDouble_quarter _ 10 (by norm_num) (by norm_num)) (exampleHEnv true 1 (by norm_num) (by norm_num)) exampleRngH exampleRngH_rounded
    (fun _ => ())
  obtain ⟨out, h⟩ := h1.2 (Or.inl rfl)
  exact ⟨out, h, h2 out h⟩

/-! ### the limits: points next to the centre of a disk with integral radius -/

/-- `R - r` is rounded to `R` -/
theorem rnd_centre (k : ℕ) (hk : 1 ≤ k) (hk' : k ≤ 34) (x : ℝ) (h0 : 0 < x) (h1 : x ≤ 1 / 2 ^ 55) : B64.rnd (k - x) = k := by
  have hkr : (1 : ℝ) ≤ k := by exact_mod_cast hk
  have hrk : B64.rnd (k : ℝ) = k := by
    have := B64.rnd_int (z := (k : ℤ)) (by rw [abs_of_nonneg (by positivity)]; norm_num; omega)
    push_cast at this; exact this
  have hle : B64.rnd (k - x) ≤ k := by
    have := B64.rnd_mono (show (k : ℝ) - x ≤ k by linarith)
    rwa [hrk] at this
  refine le_antisymm hle (not_lt.1 fun hlt => ?_)
  have hg := B64.rnd_gap (B64.rnd_rnd _) hrk (by
    have := zpow_le_one_of_nonpos₀ (show (1 : ℝ) ≤ 2 by norm_num) (show (-1000 : ℤ) ≤ 0 by norm_num)
    linarith) hlt
  have hx1 : x ≤ 1 / 2 := h1.trans (by norm_num)
  have hpos : 0 < (k : ℝ) - x := by linarith
  have herr := B64.rnd_err (k - x)
  have hlp := B64.lastPlace_eq (y := k - x) (by
    have := zpow_le_zpow_right₀ (show (1 : ℝ) ≤ 2 by norm_num) (show (-1000 : ℤ) ≤ -1 by norm_num)
    norm_num at this ⊢
    linarith)
  have hlog : (2 : ℝ) ^ Int.log 2 ((k : ℝ) - x) ≤ k - 1 / 2 := by
    have h3 := Int.zpow_log_le_self (b := 2) (r := (k : ℝ) - x) (by norm_num) hpos
    push_cast at h3
    rcases le_or_gt 0 (Int.log 2 ((k : ℝ) - x)) with hl | hl
    · obtain ⟨n, hn⟩ := Int.eq_ofNat_of_zero_le hl
      rw [hn, zpow_natCast] at h3 ⊢
      have h4 : ((2 ^ n : ℕ) : ℝ) < ((k : ℕ) : ℝ) := by push_cast; linarith
      have h5 : 2 ^ n + 1 ≤ k := by exact_mod_cast h4
      have h6 : ((2 ^ n + 1 : ℕ) : ℝ) ≤ k := by exact_mod_cast h5
      push_cast at h6
      linarith
    · have := zpow_le_zpow_right₀ (show (1 : ℝ) ≤ 2 by norm_num) (show Int.log 2 ((k : ℝ) - x) ≤ -1 by omega)
      norm_num at this
      linarith
  rw [hlp, zpow_sub₀ (by norm_num)] at herr
  generalize (2 : ℝ) ^ Int.log 2 ((k : ℝ) - x) = w at *
  have h7 := (abs_le.1 herr).1
  norm_num at h7 hg h1
  linarith

/-- C79 (a limit of the code).  In a disk of integral radius `k`, a point with a radius of at most `2^-55` (which is in the range `(0, R]` that
exact arithmetic supports, see C49) is put in the layer with number `k`, but there are only `k` layers, and the table of levels is read out of
bounds: `hypergirgs::generateEdges` has undefined behaviour, whatever the other arguments. -/
theorem C79_centre_undefined (k : ℕ) (hk : 1 ≤ k) (hk' : k ≤ 34) (r : List ℝ) (hr : ∀ v ∈ r, B64.IsDouble v) (x : ℝ) (hx : x ∈ r) (h0 : 0 < x)
    (h1 : x ≤ 1 / 2 ^ 55) (angles : List B64) (T : B64) (env : HEnv) (rng : Tree.Rng B64) (gens : ℕ → rng.G) (out : List (ℕ × ℕ)) :
    ¬ HGenerateEdges env rng gens (dw r) angles T (B64.round (XR.fin k)) out := by
  have hkr : (1 : ℝ) ≤ k := by exact_mod_cast hk
  have hkr' : (k : ℝ) ≤ 34 := by exact_mod_cast hk'
  have hrk : B64.rnd (k : ℝ) = k := by
    have := B64.rnd_int (z := (k : ℤ)) (by rw [abs_of_nonneg (by positivity)]; norm_num; omega)
    push_cast at this; exact this
  have vR : B64.rounded.val (B64.round (XR.fin k)) = some (k : ℝ) := B64.round_double ⟨hrk, by
    rw [abs_of_pos (by linarith)]
    exact lt_of_le_of_lt (hkr'.trans (show (34 : ℝ) ≤ 2 ^ 6 by norm_num)) (pow_lt_pow_right₀ (by norm_num) (by norm_num))⟩
  rintro ⟨H, hH, _⟩
  obtain ⟨points, first, rls, r0, lp, fil, hpart, _⟩ := hH
  obtain ⟨nl, lol, fc, M, points0, e1, e2, e3, _, e4, _⟩ := hpart
  have v1 := B64.rounded.div _ _ _ _ vR B64.rounded.val_one one_ne_zero
    (two_pow_1023 (k := 6) (by norm_num) (by rw [div_one, abs_of_pos (by linarith)]; norm_num; linarith))
  rw [div_one, B64.rounded.rep _ _ vR] at v1
  have v2 := B64.rounded.ceil _ _ v1 (by rw [abs_of_pos (by linarith)]; norm_num; linarith)
  rw [Int.ceil_natCast] at v2
  have hnl : nl = k := by
    unfold numLayers at e1
    rw [B64.rounded.toU32_nonneg v2 (by push_cast; linarith) (by push_cast; norm_num; linarith)] at e1
    simpa using e1.symm
  have hlol : lol.length = k := by
    have := mapM_length' e2
    rw [List.length_range] at this
    omega
  obtain ⟨n, hn, en⟩ := List.mem_iff_getElem.1 hx
  have vx : B64.rounded.val (B64.round (XR.fin x)) = some x := B64.round_double (hr x hx)
  have v3 := B64.rounded.sub _ _ _ _ vR vx (two_pow_1023 (k := 6) (by norm_num) (by
    have : x ≤ 1 / 2 := h1.trans (by norm_num)
    rw [abs_of_pos (by linarith)]; norm_num; linarith))
  have hc : B64.rounded.rnd ((k : ℝ) - x) = k := rnd_centre k hk hk' x h0 h1
  rw [hc] at v3
  have v4 := B64.rounded.div _ _ _ _ v3 B64.rounded.val_one one_ne_zero
    (two_pow_1023 (k := 6) (by norm_num) (by rw [div_one, abs_of_pos (by linarith)]; norm_num; linarith))
  rw [div_one, B64.rounded.rep _ _ v3] at v4
  have hlay : radiusToLayer (B64.round (XR.fin (k : ℝ))) (B64.round (XR.fin x)) = some k := by
    unfold radiusToLayer
    rw [B64.rounded.toU32_nonneg v4 (by linarith) (by norm_num; linarith)]
    simp
  unfold classify at e4
  have hmem : n ∈ List.range (dw r).length := List.mem_range.2 (by unfold dw; rw [List.length_map]; exact hn)
  obtain ⟨y, _, hy⟩ := (mapM_elim e4).2 n hmem
  simp only [Option.bind_eq_bind, Option.bind_eq_some_iff] at hy
  obtain ⟨rf, hrf, af, _, hy⟩ := hy
  have : rf = B64.round (XR.fin x) := by
    unfold rd dw at hrf
    rw [List.getElem?_map, List.getElem?_eq_getElem hn, en] at hrf
    simpa using hrf.symm
  subst this
  unfold classifyOne at hy
  rw [hlay] at hy
  simp only [Option.bind_eq_bind, Option.bind_some, Option.bind_eq_some_iff] at hy
  obtain ⟨lv, hlv, _⟩ := hy
  unfold rd at hlv
  rw [List.getElem?_eq_none (by omega)] at hlv
  cases hlv

/-- the hypotheses of `C79_centre_undefined` hold for two points in a disk of radius 2 -/
example (out : List (ℕ × ℕ)) : ¬ HGenerateEdges (exampleHEnv true 1 (by norm_num) (by norm_num)) exampleRngH (fun _ => ())
    (dw [1, 2 ^ (-60 : ℤ)]) (dw [0, 1]) (ofRat 0) (B64.round (XR.fin ((2 : ℕ) : ℝ))) out := by
  refine C79_centre_undefined 2 (by norm_num) (by norm_num) _ ?_ (2 ^ (-60 : ℤ)) (by simp) (by positivity) (by norm_num) _ _ _ _ _ _
  intro v hv
  simp only [List.mem_cons, List.not_mem_nil, or_false] at hv
  rcases hv with rfl | rfl
  · exact isDouble_quarter _ 4 (by norm_num) (by norm_num)
  · have := B64.rnd_rep (N := 1) (k := -60) (by norm_num) (by norm_num)
    simp only [Int.cast_one, one_mul] at this
    refine ⟨this, ?_⟩
    rw [abs_of_pos (by positivity)]
    refine lt_of_le_of_lt (zpow_le_one_of_nonpos₀ (by norm_num) (by norm_num)) (one_lt_pow₀ (by norm_num) (by norm_num))

end Girgs.Props
