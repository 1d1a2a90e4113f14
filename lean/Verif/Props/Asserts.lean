import Verif.Proofs.AssertRun
import Verif.Proofs.AssertBuild
import Verif.Props.Exact
/-
C72: the debug assertions of the GIRG sampler.

`DebugRun env rng gens w x alpha checks` says that `checks` are the assertion instances some execution of `generateEdges` of
a debug build evaluates (`none` if evaluating one of them is undefined): see Verif/Model/Asserts.lean.
-/
namespace Girgs.Props
open Girgs.Spec CFloat Girgs.Tree

/-- C72, construction: no assertion of the constructor (including those of the sorter, the cell helper and the deposit
functions) fails, for any input within the machine's limits and any schedule of the parallel loops. -/
theorem C72_constructor {D : Nat} {w : List ℝ} {x : List (Fin D → ℝ)} (s : SupportedInput D w x) {alpha : XR} {T : Tree XR D}
    {checks : Option (List Check)} (hc : DebugConstructed (xw w) (xp x) alpha T checks) :
    ∃ L, checks = some L ∧ ∀ c ∈ L, c.holds = true := hc.checks s

/-- C72, complete calls: of all assertions only the one in SpatialTree.inl:245 can fail. -/
theorem C72_run {D : Nat} {w : List ℝ} {x : List (Fin D → ℝ)} (s : SupportedInput D w x) {alpha : XR} (env : Env) (rng : Rng XR)
    (hgeo : GeoBounded rng) (gens : Nat → rng.G) {checks : Option (List Check)}
    (h : DebugRun env rng gens (xw w) (xp x) alpha checks) :
    ∃ L, checks = some L ∧ ∀ c ∈ L, c.holds = false → c.file = "SpatialTree.inl" ∧ c.line = 245 := by
  obtain ⟨T, c0, hc, rfl⟩ := h
  obtain ⟨L0, rfl, h0⟩ := hc.checks s
  obtain ⟨m, b⟩ := hc.constructed.builtX s
  obtain ⟨L, h1, h2, _⟩ := b.tree_checks s env rng hgeo gens
  refine ⟨L0 ++ L, (obind rfl _).trans ((obind h1 _).trans rfl), ?_⟩
  intro c hc hf
  obtain ⟨e, _⟩ := ((AllHold.mostly h0 (Aborts T)).append h2) c hc hf
  subst e
  exact ⟨rfl, rfl⟩

/-- C72, exactly when: a debug build aborts iff the recursion makes a type II call for two non-empty cells whose weight bound
is not smaller than the distance bound (in exact arithmetic: is equal to it, `C57_weak_bound`). -/
theorem C72_aborts_iff {D : Nat} {w : List ℝ} {x : List (Fin D → ℝ)} (s : SupportedInput D w x) {alpha : XR} (env : Env)
    (rng : Rng XR) (hgeo : GeoBounded rng) (gens : Nat → rng.G) {T : Tree XR D} (hc : Constructed false (xw w) (xp x) alpha T) :
    ∃ L, treeChecks env T rng gens = some L ∧
      ((∃ c ∈ L, c.holds = false) ↔
        ∃ ts, visitCellPair T T.levels 0 0 0 = some ts ∧ ∃ t ∈ ts, t.two = true ∧ T.assertBound t = some false) := by
  obtain ⟨m, b⟩ := hc.builtX s
  have ok := b.ok
  have hon : OnLevel D 0 0 := ⟨by simp [levelStart], by simp [levelStart]⟩
  have hlev : T.levels - 1 + 1 = T.levels := by have := ok.levels_eq; omega
  have hv := ok.visit_eq (T.levels - 1) T.levels 0 0 0 (by omega) (by omega) hon hon
  rw [hlev] at hv
  obtain ⟨L, h1, h2, h3, _⟩ := b.tree_checks s env rng hgeo gens
  refine ⟨L, h1, ?_, ?_⟩
  · rintro ⟨c, hc, hf⟩
    obtain ⟨_, t, ht, h4⟩ := h2 c hc hf
    exact ⟨_, hv, t, ht, h4⟩
  · rintro ⟨ts, hts, t, ht, h4⟩
    rw [hv, Option.some.injEq] at hts
    subst hts
    exact ⟨_, h3 ⟨t, ht, h4⟩, rfl⟩

/-- C72, a sufficient condition: if the total weight is not a power of two times the square of the smallest weight, a debug
build does not abort. -/
theorem C72_no_abort {D : Nat} {w : List ℝ} {x : List (Fin D → ℝ)} (s : SupportedInput D w x) {alpha : XR} (env : Env) (rng : Rng XR)
    (hgeo : GeoBounded rng) (gens : Nat → rng.G) (hw : ∀ m ∈ w, (∀ u ∈ w, m ≤ u) → ∀ k : Nat, w.sum ≠ 2 ^ k * m ^ 2)
    {checks : Option (List Check)} (h : DebugRun env rng gens (xw w) (xp x) alpha checks) :
    ∃ L, checks = some L ∧ ∀ c ∈ L, c.holds = true := by
  obtain ⟨T, c0, hc, rfl⟩ := h
  obtain ⟨L0, rfl, h0⟩ := hc.checks s
  obtain ⟨m, b⟩ := hc.constructed.builtX s
  obtain ⟨L, h1, h2, _⟩ := b.tree_checks s env rng hgeo gens
  refine ⟨L0 ++ L, (obind rfl _).trans ((obind h1 _).trans rfl), ?_⟩
  intro c hc
  by_contra hf
  rw [Bool.not_eq_true] at hf
  obtain ⟨_, t, ht, h3, h4⟩ := ((AllHold.mostly h0 (Aborts T)).append h2) c hc hf
  have hon : OnLevel D 0 0 := ⟨by simp [levelStart], by simp [levelStart]⟩
  obtain ⟨k, hk⟩ := b.assertBound_powerOfTwo s (visitP_ok _ _ _ _ hon hon t ht) h3 h4
  exact hw m b.mem b.min k hk

/-- C72, the counters: whatever the schedule, the numbers of ordered pairs handled by type I and type II calls add up to
`n(n-1)`.  (`ts`: the sampling calls of all threads together, in any order.) -/
theorem C72_counters {D : Nat} {w : List ℝ} {x : List (Fin D → ℝ)} (s : SupportedInput D w x) {alpha : XR} {T : Tree XR D}
    (hc : Constructed false (xw w) (xp x) alpha T) {calls ts : List Task} (hv : visitCellPair T T.levels 0 0 0 = some calls)
    (hts : ts.Perm calls) :
    ∃ a b : Int, T.totals ts = some (a, b) ∧ a + b = (w.length : Int) * ((w.length : Int) - 1) := by
  obtain ⟨m, b⟩ := hc.builtX s
  have ok := b.ok
  have hon : OnLevel D 0 0 := ⟨by simp [levelStart], by simp [levelStart]⟩
  have hlev : T.levels - 1 + 1 = T.levels := by have := ok.levels_eq; omega
  have hv' := ok.visit_eq (T.levels - 1) T.levels 0 0 0 (by omega) (by omega) hon hon
  rw [hlev, hv, Option.some.injEq] at hv'
  subst hv'
  have := ok.final_check b.ndebug_eq 61 hts
  unfold Tree.finalCheck at this
  simp only [Option.bind_eq_bind, Option.bind_eq_some_iff, Option.some.injEq] at this
  obtain ⟨⟨p, q⟩, h1, h2⟩ := this
  refine ⟨p, q, h1, ?_⟩
  have h3 := congrArg Check.holds h2
  have h4 : p + q = (T.n : Int) * ((T.n : Int) - 1) := of_decide_eq_true h3
  rw [h4, b.n_eq]

/-- C72, the public query `pointsInCell` of a weight layer: its assertions hold for every cell of every level up to the
layer's target level. -/
theorem C72_points_in_cell {D : Nat} {ndebug : Bool} {w : List ℝ} {x : List (Fin D → ℝ)} (s : SupportedInput D w x) {alpha : XR}
    {T : Tree XR D} (hc : Constructed ndebug (xw w) (xp x) alpha T) {i : Nat} {wl : WeightLayer} (hi : T.weightLayers[i]? = some wl)
    {level cell : Nat} (hl : level ≤ wl.target) (hcell : levelStart D level ≤ cell ∧ cell < levelStart D (level + 1)) :
    ∃ L, Asserts.pointsInCell D wl cell level = some L ∧ ∀ c ∈ L, c.holds = true := by
  obtain ⟨m, b⟩ := hc.builtX s
  have ok := b.ok
  have hil : i < T.layers := by
    by_contra hge
    rw [ok.weightLayers_eq, List.getElem?_eq_none (by simpa using hge)] at hi
    cases hi
  have e := ok.rd_weightLayers hil
  unfold rd at e
  rw [e, Option.some.injEq] at hi
  subst hi
  simp only at hl
  have hdeep : D * (weightLayerTargetLevel D T.blc i + 1) ≤ 31 := by
    have h1 := target_mul_le D T.blc i
    have h2 := b.blc_le
    generalize weightLayerTargetLevel D T.blc i = t at h1
    have h3 : D * t ≤ 27 := by omega
    have h5 := ok.D5
    have h6 := ok.D1
    interval_cases D <;> omega
  have hlev1 : D * (level + 1) ≤ 31 := le_trans (Nat.mul_le_mul_left _ (by omega)) hdeep
  have hd' : D * level ≤ 31 := le_trans (Nat.mul_le_mul_left _ (by omega)) hlev1
  have hD5 := ok.D5
  obtain ⟨L, h1, h2⟩ := ok.levelled_checks' hil hl hlev1 hcell
  obtain ⟨h3, h4, h5⟩ := levelledCell_eq (o := layerOff D T.blc i) ok.D1 ok.D5 (ok.target_depth hil) hl hcell
  have ht1 : u32 (weightLayerTargetLevel D T.blc i + 1) = weightLayerTargetLevel D T.blc i + 1 := by
    apply u32_eq
    have := Nat.le_mul_of_pos_left (weightLayerTargetLevel D T.blc i + 1) ok.D1
    omega
  unfold Asserts.pointsInCell
  rw [obind h1, obind h3, obind (Coord.firstCellOfLevel_eq ok.D1 (by omega) hd')]
  simp only [ht1]
  rw [obind (Coord.firstCellOfLevel_eq ok.D1 (by omega) hdeep)]
  refine ⟨_, rfl, AllHold.append h2 ?_⟩
  have hmono : levelStart D level ≤ levelStart D (weightLayerTargetLevel D T.blc i) := levelStart_mono D hl
  have hlt : levelStart D (weightLayerTargetLevel D T.blc i + 1) < 2 ^ 32 := by
    have := levelStart_succ_lt D (weightLayerTargetLevel D T.blc i) ok.D1
    have h7 : 2 ^ (D * weightLayerTargetLevel D T.blc i) ≤ 2 ^ 30 := two_pow_le (ok.target_depth hil)
    norm_num at h7 ⊢
    omega
  rw [levelStart_succ] at hlt ⊢
  generalize 2 ^ (D * (weightLayerTargetLevel D T.blc i - level)) = q at *
  generalize (cell - levelStart D level) * q = p at *
  intro c hc
  simp only [List.mem_cons, List.not_mem_nil, or_false] at hc
  rcases hc with rfl | rfl
  · simp only [Asserts.layer, decide_eq_true_eq]
    rw [u32_eq (by omega)]
    omega
  · simp only [Asserts.layer, decide_eq_true_eq]
    rw [u32_eq (by omega)]
    omega

/-- C72 at work: three nodes in the plane, with total weight 7 and smallest weight 1: the debug build runs through, for every
number of threads. -/
example (env : Env) : ∃ L, DebugRun env exampleRng (fun _ => ()) (xw [1, 1, 5]) (xp [![0, 0], ![1 / 2, 1 / 4], ![7 / 8, 1 / 3]])
    (XR.fin 2) (some L) ∧ ∀ c ∈ L, c.holds = true := by
  obtain ⟨T, hc⟩ := constructedX_exists false (XR.fin 2) exampleInput 4 (by norm_num) (by norm_num)
  obtain ⟨c0, hd⟩ := hc.debug
  have hrun : DebugRun env exampleRng (fun _ => ()) (xw [1, 1, 5]) (xp [![0, 0], ![1 / 2, 1 / 4], ![7 / 8, 1 / 3]])
    (XR.fin 2) _ := ⟨T, c0, hd, rfl⟩
  obtain ⟨L, h1, h2⟩ := C72_no_abort exampleInput env exampleRng exampleRng_geo (fun _ => ()) (by
    intro m hm hmin k hk
    have hm1 : m = 1 := by
      have := hmin 1 (by simp)
      simp only [List.mem_cons, List.not_mem_nil, or_false] at hm
      rcases hm with rfl | rfl | rfl
      · rfl
      · rfl
      · norm_num at this
    subst hm1
    norm_num at hk
    have h7 : (7 : Nat) = 2 ^ k := by exact_mod_cast hk
    rcases k with _ | k
    · norm_num at h7
    · rw [pow_succ] at h7; omega) hrun
  rw [h1] at hrun
  exact ⟨L, hrun, h2⟩

/-- C72 at work: 16 unit weights on a circle: the debug build aborts (and at line 245), for every number of threads. -/
example (env : Env) {T : Tree XR 1} (hc : Constructed false (xw (List.replicate 16 1))
    (xp ((fun _ => 0) :: List.replicate 15 (fun _ => 1 / 2))) (XR.fin 2) T) :
    ∃ L, treeChecks env T exampleRng (fun _ => ()) = some L ∧ ∃ c ∈ L, c.holds = false := by
  obtain ⟨L, h1, h2⟩ := C72_aborts_iff assertInput env exampleRng exampleRng_geo (fun _ => ()) hc
  exact ⟨L, h1, h2.2 (C57_assertion_can_fire hc)⟩

end Girgs.Props
