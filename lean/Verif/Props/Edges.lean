import Verif.Proofs.Wrapper
import Verif.Props.Build
/-
C15, C16, C17, C22, C24, C25, C33: which pairs are examined, and what `girgs::generateEdges` returns in every execution.
-/
namespace Girgs.Props
open Spec Build Tree

/-! ### C15 -/

/-- C15.  `visitCellPair(0,0,0)` on the data structure built from supported input makes sampling calls which together
examine every unordered pair of distinct nodes exactly once, in one orientation, and never a node with itself.
(A release build with `alpha = infinity` is the next theorem.) -/
theorem C15_sequential {D : Nat} {ndebug : Bool} {w : List ℝ} {x : List (Fin D → ℝ)} {alpha : XR} {T : Tree XR D}
    (s : SupportedInput D w x) (hc : Constructed ndebug (xw w) (xp x) alpha T) (hm : ¬ (ndebug = true ∧ alpha = XR.pinf)) :
    ∃ ts cs, visitCellPair T T.levels 0 0 0 = some ts ∧ T.allCandidates ts = some cs ∧
      EachPairOnce w.length (cs.map T.idxPair) := by
  obtain ⟨m, b⟩ := hc.builtX s
  have ok := b.ok
  have hon : OnLevel D 0 0 := ⟨by simp [levelStart], by simp [levelStart]⟩
  have hlev : T.levels - 1 + 1 = T.levels := by have := ok.levels_eq; omega
  have hv := ok.visit_eq (T.levels - 1) T.levels 0 0 0 (by omega) (by omega) hon hon
  rw [hlev] at hv
  obtain ⟨cs, h1, h2⟩ := ok.eachPairOnce (by
    rintro ⟨h3, h4⟩
    refine hm ⟨by rw [← b.ndebug_eq]; exact h3, ?_⟩
    unfold Tree.isThreshold at h4
    rw [b.alpha_eq] at h4
    cases alpha <;> first | rfl | cases h4) (List.Perm.refl _)
  exact ⟨_, cs, hv, h1, by rw [← b.n_eq]; exact h2⟩

/-- C15 for every floating point type: the same for the data structure built from any input for which the conversions
from floating point to integers stay in range (`InputOK`), whatever the rounding of the arithmetic operations. -/
theorem C15_any_float {F : Type} [CFloat F] {D : Nat} {ndebug : Bool} {weights : List F} {positions : List (Fin D → F)}
    {alpha : F} {T : Tree F D} {h : Header F} (eh : header D weights = some h) (ok : InputOK D weights positions h)
    (hc : Constructed ndebug weights positions alpha T) (hm : ¬ (ndebug = true ∧ CFloat.eq alpha CFloat.inf = true)) :
    ∃ ts cs, visitCellPair T T.levels 0 0 0 = some ts ∧ T.allCandidates ts = some cs ∧
      EachPairOnce weights.length (cs.map T.idxPair) := by
  have b := hc.builtFrom eh ok
  have ok := b.ok
  have hon : OnLevel D 0 0 := ⟨by simp [levelStart], by simp [levelStart]⟩
  have hlev : T.levels - 1 + 1 = T.levels := by have := ok.levels_eq; omega
  have hv := ok.visit_eq (T.levels - 1) T.levels 0 0 0 (by omega) (by omega) hon hon
  rw [hlev] at hv
  obtain ⟨cs, h1, h2⟩ := ok.eachPairOnce (by
    rintro ⟨h3, h4⟩
    refine hm ⟨by rw [← b.ndebug_eq]; exact h3, ?_⟩
    unfold Tree.isThreshold at h4
    rw [b.alpha_eq] at h4
    exact h4) (List.Perm.refl _)
  exact ⟨_, cs, hv, h1, by rw [← b.n_eq]; exact h2⟩

/-- C15 for a release build with `alpha = infinity`: exactly the type II calls are left out (they could not have
produced an edge, see C18), so every pair is examined at most once. -/
theorem C15_release_threshold {D : Nat} {w : List ℝ} {x : List (Fin D → ℝ)} {T : Tree XR D}
    (s : SupportedInput D w x) (hc : Constructed true (xw w) (xp x) XR.pinf T) :
    ∃ ts tsDebug, visitCellPair T T.levels 0 0 0 = some ts ∧
      visitCellPair { T with ndebug := false } T.levels 0 0 0 = some tsDebug ∧ ts = tsDebug.filter fun t => !t.two := by
  obtain ⟨m, b⟩ := hc.builtX s
  have ok := b.ok
  have hon : OnLevel D 0 0 := ⟨by simp [levelStart], by simp [levelStart]⟩
  have hlev : T.levels - 1 + 1 = T.levels := by have := ok.levels_eq; omega
  have hv := ok.visit_eq (T.levels - 1) T.levels 0 0 0 (by omega) (by omega) hon hon
  have hv' := ok.debug.visit_eq (T.levels - 1) T.levels 0 0 0 (by omega) (by show 0 + _ = T.levels; omega) hon hon
  rw [hlev] at hv hv'
  refine ⟨_, _, hv, hv', visitP_release ⟨b.ndebug_eq, ?_⟩ _ _ _ _⟩
  unfold Tree.isThreshold
  rw [b.alpha_eq]; rfl

/-! ### C16 -/

/-- C16.  For every parallel start level `fpl` (with `D*fpl ≤ 31`) and every distribution of the iterations to threads
the sequential start and the parallel loop together make exactly the sampling calls of the sequential recursion, as a
multiset. -/
theorem C16_same_calls {D : Nat} {ndebug : Bool} {w : List ℝ} {x : List (Fin D → ℝ)} {alpha : XR} {T : Tree XR D}
    (s : SupportedInput D w x) (hc : Constructed ndebug (xw w) (xp x) alpha T) (fpl : Nat) (hf : D * fpl ≤ 31)
    (chunks : List (List Nat)) (hch : chunks.flatten.Perm (List.range (2 ^ (D * fpl)))) :
    ∃ ts start shares, visitCellPair T T.levels 0 0 0 = some ts ∧ parallelPlan T fpl chunks = some (start, shares) ∧
      shares.length = chunks.length ∧ (start ++ shares.flatten).Perm ts := by
  obtain ⟨m, b⟩ := hc.builtX s
  have ok := b.ok
  have hon : OnLevel D 0 0 := ⟨by simp [levelStart], by simp [levelStart]⟩
  have hlev : T.levels - 1 + 1 = T.levels := by have := ok.levels_eq; omega
  have hv := ok.visit_eq (T.levels - 1) T.levels 0 0 0 (by omega) (by omega) hon hon
  rw [hlev] at hv
  obtain ⟨ev, h1, h2⟩ := ok.plan_eq hf hch
  exact ⟨_, _, _, hv, h1, by simp, h2⟩

/-- C16 (start level).  The start level chosen for up to 2^23 threads is defined, and is a level to which C16 applies. -/
theorem C16_start_level {D : Nat} (h1 : 1 ≤ D) (h5 : D ≤ 5) (env : Env) (ht : env.threads ≠ 1) :
    ∃ fpl, firstParallelLevel XR D env.threads = some fpl ∧ D * fpl ≤ 31 := startOK_XR h1 h5 env ht

/-- C16 (a complete call).  In a call of `generateEdges` with any number of threads and any static schedule, thread `k` makes
the sampling calls `tss[k]` one after the other with its own generator `gens k` and passes their edges to the callback; all
threads together make exactly the sampling calls of the sequential recursion. -/
theorem C16_call {D : Nat} {ndebug : Bool} {w : List ℝ} {x : List (Fin D → ℝ)} {alpha : XR} {T : Tree XR D}
    (s : SupportedInput D w x) (hc : Constructed ndebug (xw w) (xp x) alpha T) (env : Env) (rng : Rng XR) (hgeo : GeoBounded rng) :
    ∃ (ts : List Task) (tss : List (List Task)), visitCellPair T T.levels 0 0 0 = some ts ∧ tss.length = env.threads ∧ tss.flatten.Perm ts ∧
      ∀ gens : Nat → rng.G, ∃ calls, treeCallbacks env T rng gens = some calls ∧ calls.length = env.threads ∧
        ∀ (k : Nat) (own : List Task), tss[k]? = some own → ∃ r, runTasks T rng own (gens k) = some r ∧ calls[k]? = some r.1 := by
  obtain ⟨m, b⟩ := hc.builtX s
  have ok := b.ok
  have hon : OnLevel D 0 0 := ⟨by simp [levelStart], by simp [levelStart]⟩
  have hlev : T.levels - 1 + 1 = T.levels := by have := ok.levels_eq; omega
  have hv := ok.visit_eq (T.levels - 1) T.levels 0 0 0 (by omega) (by omega) hon hon
  rw [hlev] at hv
  obtain ⟨tss, h1, h2⟩ := ok.callbacks_plan env (startOK_XR s.D1 s.D5 env) rng hgeo
  refine ⟨_, tss, hv, h1, h2.perm, fun gens => ?_⟩
  obtain ⟨calls, h3, h4, h5⟩ := h2.run gens
  exact ⟨calls, h3, by rw [h4, h1], h5⟩

/-- C16 (consequence).  All threads together examine every unordered pair exactly once. -/
theorem C16_parallel {D : Nat} {ndebug : Bool} {w : List ℝ} {x : List (Fin D → ℝ)} {alpha : XR} {T : Tree XR D}
    (s : SupportedInput D w x) (hc : Constructed ndebug (xw w) (xp x) alpha T) (hm : ¬ (ndebug = true ∧ alpha = XR.pinf))
    (fpl : Nat) (hf : D * fpl ≤ 31) (chunks : List (List Nat)) (hch : chunks.flatten.Perm (List.range (2 ^ (D * fpl)))) :
    ∃ start shares cs, parallelPlan T fpl chunks = some (start, shares) ∧ T.allCandidates (start ++ shares.flatten) = some cs ∧
      EachPairOnce w.length (cs.map T.idxPair) := by
  obtain ⟨m, b⟩ := hc.builtX s
  have ok := b.ok
  obtain ⟨ev, h1, h2⟩ := ok.plan_eq hf hch
  obtain ⟨cs, h3, h4⟩ := ok.eachPairOnce (by
    rintro ⟨h3, h4⟩
    refine hm ⟨by rw [← b.ndebug_eq]; exact h3, ?_⟩
    unfold Tree.isThreshold at h4
    rw [b.alpha_eq] at h4
    cases alpha <;> first | rfl | cases h4) h2
  exact ⟨_, _, cs, h1, h3, by rw [← b.n_eq]; exact h4⟩

/-! ### C17 -/

/-- C17.  For supported input, every random number source (with geometric samples below 2^63), every thread count and
every build: `girgs::generateEdges` has an execution that returns, nothing it executes is undefined, and every execution
returns a simple graph on the nodes `0..n-1` and prints nothing. -/
theorem C17_simple_graph {D : Nat} {w : List ℝ} {x : List (Fin D → ℝ)} (s : SupportedInput D w x) (alpha : XR) (env : Env)
    (rng : Rng XR) (hgeo : GeoBounded rng) (gens : Nat → rng.G) :
    (∃ out notice, GenerateEdges env rng gens (xw w) (xl x) alpha out notice) ∧
    (∀ T, Constructed env.ndebug (xw w) (xp x) alpha T → ∃ calls, treeCallbacks env T rng gens = some calls) ∧
    ∀ out notice, GenerateEdges env rng gens (xw w) (xl x) alpha out notice → IsSimpleGraph w.length out ∧ notice = .none := by
  refine ⟨?_, ?_, ?_⟩
  · obtain ⟨T, hT⟩ := constructedX_exists env.ndebug alpha s env.threads env.threads_pos (by have := env.threads_le; omega)
    obtain ⟨m, b⟩ := hT.builtX s
    obtain ⟨calls, h1, _, _⟩ := b.ok.callbacks env (startOK_XR s.D1 s.D5 env) rng hgeo gens
    obtain ⟨out, h2⟩ := EdgeBuffer.run_exists (block := blockSize) (by unfold blockSize; omega) calls
    exact ⟨out, .none, (generateEdges_xl s env rng gens alpha out .none).2 ⟨⟨T, hT, calls, h1, h2⟩, rfl⟩⟩
  · intro T hT
    obtain ⟨m, b⟩ := hT.builtX s
    obtain ⟨calls, h1, _, _⟩ := b.ok.callbacks env (startOK_XR s.D1 s.D5 env) rng hgeo gens
    exact ⟨calls, h1⟩
  · intro out notice h
    obtain ⟨⟨T, hT, calls, h1, h2⟩, h3⟩ := (generateEdges_xl s env rng gens alpha out notice).1 h
    obtain ⟨m, b⟩ := hT.builtX s
    obtain ⟨calls', h4, _, h5⟩ := b.ok.callbacks env (startOK_XR s.D1 s.D5 env) rng hgeo gens
    rw [h1, Option.some.injEq] at h4
    subst h4
    refine ⟨?_, h3⟩
    rw [← b.n_eq]
    exact perm_simple (EdgeBuffer.IsMerge.perm (h2.isMerge (by unfold blockSize; omega))) (h5.simple hgeo b.ok)

/-- C17 for every floating point type, whatever the rounding, if the conversions to integers stay in range. -/
theorem C17_any_float {F : Type} [CFloat F] {D : Nat} {weights : List F} {points : List (Fin D → F)} {h : Header F}
    (eh : header D weights = some h) (ok : InputOK D weights points h) (alpha : F) (env : Env)
    (hs : env.threads ≠ 1 → ∃ fpl, firstParallelLevel F D env.threads = some fpl ∧ D * fpl ≤ 31)
    (rng : Rng F) (hgeo : GeoBounded rng) (gens : Nat → rng.G) (out : List (Nat × Nat)) (notice : Notice)
    (hg : GenerateEdges env rng gens weights (points.map List.ofFn) alpha out notice) : IsSimpleGraph weights.length out := by
  have hx := asPoints_ofFn points
  cases points with
  | nil => have := ok.len; have := ok.pos; simp at *; omega
  | cons p ps =>
    rw [List.map_cons] at hx hg
    obtain ⟨⟨y, e, T, hT, calls, h1, h2⟩, _⟩ := (generateEdges_dispatch ok.D1 ok.D5 env rng gens weights (by simp) alpha out notice).1 hg
    rw [hx, Option.some.injEq] at e
    subst e
    have b := hT.builtFrom eh ok
    obtain ⟨calls', h4, _, h5⟩ := b.ok.callbacks env hs rng hgeo gens
    rw [h1, Option.some.injEq] at h4
    subst h4
    rw [← b.n_eq]
    exact perm_simple (EdgeBuffer.IsMerge.perm (h2.isMerge (by unfold blockSize; omega))) (h5.simple hgeo b.ok)

/-! ### C22 -/

/-- C22 (decoding).  `r ↦ (first_A + r mod |A|, first_B + r div |A|)` is a bijection from `0..|A|*|B|-1` onto the pairs of
positions in the two ranges. -/
theorem C22_decoding (ra rb : Nat × Nat) :
    (∀ r, r < (ra.2 - ra.1) * (rb.2 - rb.1) → ra.1 ≤ (decodeII ra rb r).1 ∧ (decodeII ra rb r).1 < ra.2 ∧
      rb.1 ≤ (decodeII ra rb r).2 ∧ (decodeII ra rb r).2 < rb.2) ∧
    (∀ r r', r < (ra.2 - ra.1) * (rb.2 - rb.1) → r' < (ra.2 - ra.1) * (rb.2 - rb.1) → decodeII ra rb r = decodeII ra rb r' → r = r') ∧
    ∀ p q, ra.1 ≤ p → p < ra.2 → rb.1 ≤ q → q < rb.2 → ∃ r, r < (ra.2 - ra.1) * (rb.2 - rb.1) ∧ decodeII ra rb r = (p, q) := by
  refine ⟨?_, fun r r' _ _ h => decodeII_inj h, ?_⟩
  · intro r hr
    have : decodeII ra rb r ∈ pairListII ra rb := List.mem_map.2 ⟨r, List.mem_range.2 hr, rfl⟩
    obtain ⟨h1, h2⟩ := mem_pairListII.1 this
    exact ⟨h1.1, h1.2, h2.1, h2.2⟩
  · intro p q h1 h2 h3 h4
    obtain ⟨r, hr, e⟩ := List.mem_map.1 (mem_pairListII.2 ⟨⟨h1, h2⟩, ⟨h3, h4⟩⟩ : (p, q) ∈ pairListII ra rb)
    exact ⟨r, List.mem_range.1 hr, e⟩

/-- C22 (loop).  For ranges inside the node array (fewer than 2^31 nodes), every bound and every stream of geometric
samples below 2^63, the skipping loop terminates without an undefined access, and the edges it emits are, in this order,
decoded pairs of strictly increasing numbers below `|A|*|B|`. -/
theorem C22_loop {F : Type} [CFloat F] {D : Nat} (T : Tree F D) (rng : Rng F) (hgeo : GeoBounded rng) (ra rb : Nat × Nat)
    (hA : ra.2 ≤ T.nodes.length) (hB : rb.2 ≤ T.nodes.length) (hn : T.nodes.length < 2147483648) (bound : F) (g : rng.G) :
    ∃ es g', loopII T rng ra rb bound ((ra.2 - ra.1) * (rb.2 - rb.1) + 1) (rng.geo bound g).1 (rng.geo bound g).2 = some (es, g') ∧
      ∃ rs : List Nat, rs.Pairwise (· < ·) ∧ (∀ r ∈ rs, r < (ra.2 - ra.1) * (rb.2 - rb.1)) ∧
        es = rs.map fun r => T.idxPair (decodeII ra rb r) := by
  have hg := hgeo bound g
  obtain ⟨es, g', h1, h2⟩ := loopII_spec rng hgeo hA hB hn bound ((ra.2 - ra.1) * (rb.2 - rb.1) + 1) (rng.geo bound g).1 (rng.geo bound g).2
    (by omega) (by omega) (by omega)
  obtain ⟨rs, h3, rfl⟩ := List.sublist_map_iff.1 h2
  refine ⟨_, g', h1, rs, ?_, ?_, rfl⟩
  · exact (List.pairwise_lt_range' 1).sublist h3
  · intro r hr
    have := List.mem_range'_1.1 (h3.subset hr)
    omega

/-! ### C24 -/

/-- C24.  For every block size ≥ 1, all sequences of callbacks of the threads and every interleaving: the returned vector
is a merge of the sequences (a permutation of all edges in which the edges of every thread keep their order). -/
theorem C24_nothing_lost {E : Type} (block : Nat) (hb : 1 ≤ block) (calls : List (List E)) (out : List E)
    (h : EdgeBuffer.Run block calls out) : IsMerge calls out ∧ out.Perm calls.flatten :=
  ⟨h.isMerge hb, EdgeBuffer.IsMerge.perm (h.isMerge hb)⟩

/-- C24 (mutual exclusion and safety).  Every schedule can be executed without undefined behaviour, and in every state it
reaches at most one thread is between lock and unlock. -/
theorem C24_mutual_exclusion {E : Type} (block : Nat) (hb : 1 ≤ block) (calls : List (List E)) (sched : List Nat)
    (hs : ∀ t ∈ sched, t < calls.length) :
    ∃ s, EdgeBuffer.run block (EdgeBuffer.init calls) sched = some s ∧
      ∀ (t t' : Nat) (th th' : EdgeBuffer.Th E), s.ths[t]? = some th → s.ths[t']? = some th' →
        ((∃ k, th.pc = .copy k) ∨ th.pc = .release) → ((∃ k, th'.pc = .copy k) ∨ th'.pc = .release) → t = t' := by
  obtain ⟨s, h1, h2⟩ := EdgeBuffer.run_inv hb sched hs _ (EdgeBuffer.init_inv block hb calls)
  refine ⟨s, h1, ?_⟩
  intro t t' th th' ht ht' hi hi'
  have e1 := (h2.mutex t th ht).1 hi
  have e2 := (h2.mutex t' th' ht').1 hi'
  rw [e1, Option.some.injEq] at e2
  exact e2

/-- C24 (no deadlock).  Every execution can be continued to one in which all threads have returned. -/
theorem C24_no_deadlock {E : Type} (block : Nat) (hb : 1 ≤ block) (calls : List (List E)) (sched : List Nat) (s : EdgeBuffer.State E)
    (h : EdgeBuffer.run block (EdgeBuffer.init calls) sched = some s) :
    ∃ more s', EdgeBuffer.run block (EdgeBuffer.init calls) (sched ++ more) = some s' ∧ ∀ th ∈ s'.ths, th.finished := by
  obtain ⟨more, s', h1, h2⟩ := EdgeBuffer.finish_exists hb _ _ (EdgeBuffer.reach_inv hb h) le_rfl
  exact ⟨more, s', EdgeBuffer.run_append h h1, h2⟩

/-- two threads and blocks of two edges: an execution in which both flush exists -/
example : ∃ out, EdgeBuffer.Run 2 [[(1, 2), (1, 3), (1, 4)], [(2, 3), (2, 4)]] out ∧ out.length = 5 := by
  obtain ⟨out, h⟩ := EdgeBuffer.run_exists (block := 2) (by norm_num) [[(1, 2), (1, 3), (1, 4)], [(2, 3), (2, 4)]]
  exact ⟨out, h, (C24_nothing_lost 2 (by norm_num) _ _ h).2.length_eq⟩

/-- the order between threads is not fixed: two executions with different results -/
example : EdgeBuffer.Run 1 [["a"], ["b"]] ["a", "b"] ∧ EdgeBuffer.Run 1 [["a"], ["b"]] ["b", "a"] := by
  refine ⟨⟨[0, 0, 0, 0, 0, 0, 1, 1, 1, 1, 1, 1], _, rfl, ?_, rfl⟩, ⟨[1, 1, 1, 1, 1, 1, 0, 0, 0, 0, 0, 0], _, rfl, ?_, rfl⟩⟩ <;>
    simp [EdgeBuffer.Th.finished, EdgeBuffer.init]

/-! ### C25 -/

/-- C25.  With a non-negative seed (such that `seed + threads ≤ 2^31`), fixed thread count and static schedule, any two
executions (whatever `random_device` would return) yield the same edges up to their order; and the same list if fewer
than 2^20 edges are returned. -/
theorem C25_reproducible {D : Nat} {w : List ℝ} {x : List (Fin D → ℝ)} (s : SupportedInput D w x) (alpha : XR) (env : Env)
    (rng : Rng XR) (hgeo : GeoBounded rng) (seedFn : Int → rng.G) (seed : Int) (hseed : 0 ≤ seed)
    (device device' : Nat → rng.G) (gens gens' : Nat → rng.G)
    (hg : seedGens env.threads seedFn device seed = some gens) (hg' : seedGens env.threads seedFn device' seed = some gens')
    (out out' : List (Nat × Nat)) (notice notice' : Notice)
    (h : GenerateEdges env rng gens (xw w) (xl x) alpha out notice)
    (h' : GenerateEdges env rng gens' (xw w) (xl x) alpha out' notice') :
    out.Perm out' ∧ (out.length < 1048576 → out = out') := by
  obtain rfl : gens = gens' := by
    unfold seedGens at hg hg'
    rw [if_pos hseed] at hg hg'
    split at hg
    · rename_i hlt
      rw [if_pos hlt] at hg'
      rw [← Option.some.inj hg, ← Option.some.inj hg']
    · cases hg
  obtain ⟨⟨T, hT, calls, h1, h2⟩, _⟩ := (generateEdges_xl s env rng gens alpha out notice).1 h
  obtain ⟨⟨T', hT', calls', h1', h2'⟩, _⟩ := (generateEdges_xl s env rng gens alpha out' notice').1 h'
  obtain ⟨hd, m, hx⟩ := headerX_exists s
  obtain rfl := hT.unique hT' hx.eq (hx.inputOK s)
  obtain rfl : calls = calls' := by rw [h1] at h1'; exact Option.some.inj h1'
  have p1 := EdgeBuffer.IsMerge.perm (h2.isMerge (by unfold blockSize; omega))
  have p2 := EdgeBuffer.IsMerge.perm (h2'.isMerge (by unfold blockSize; omega))
  refine ⟨p1.trans p2.symm, ?_⟩
  intro hlen
  have hsm : ∀ l ∈ calls, l.length < blockSize := by
    intro l hl
    have : l.length ≤ calls.flatten.length := (List.sublist_flatten_of_mem hl).length_le
    rw [← p1.length_eq] at this
    unfold blockSize; omega
  rw [h2.eq_flatten hsm, h2'.eq_flatten hsm]

/-- C25 (full blocks).  More precisely: if no single thread passes 2^20 edges, the returned list is fixed. -/
theorem C25_same_list {D : Nat} {w : List ℝ} {x : List (Fin D → ℝ)} (s : SupportedInput D w x) (alpha : XR) (env : Env)
    (rng : Rng XR) (gens : Nat → rng.G) (T : Tree XR D) (hT : Constructed env.ndebug (xw w) (xp x) alpha T)
    (calls : List (List (Nat × Nat))) (hcalls : treeCallbacks env T rng gens = some calls) (hsm : ∀ l ∈ calls, l.length < 1048576)
    (out : List (Nat × Nat)) (notice : Notice) (h : GenerateEdges env rng gens (xw w) (xl x) alpha out notice) :
    out = calls.flatten := by
  obtain ⟨⟨T', hT', calls', h1', h2'⟩, _⟩ := (generateEdges_xl s env rng gens alpha out notice).1 h
  obtain ⟨hd, m, hx⟩ := headerX_exists s
  obtain rfl := hT.unique hT' hx.eq (hx.inputOK s)
  obtain rfl : calls = calls' := by rw [hcalls] at h1'; exact Option.some.inj h1'
  exact h2'.eq_flatten hsm

/-- C25 (seeds).  With a non-negative seed the generator of thread `k` starts as the engine seeded with `seed + k`: no two
threads start from the same seed, and what a thread contributes depends on nothing but its sampling calls and that seed. -/
theorem C25_seeds {D : Nat} {ndebug : Bool} {w : List ℝ} {x : List (Fin D → ℝ)} {alpha : XR} {T : Tree XR D}
    (s : SupportedInput D w x) (hc : Constructed ndebug (xw w) (xp x) alpha T) (env : Env) (rng : Rng XR) (hgeo : GeoBounded rng)
    (seedFn : Int → rng.G) : ∃ tss : List (List Task), tss.length = env.threads ∧
      ∀ (seed : Int) (device gens : Nat → rng.G), 0 ≤ seed → seedGens env.threads seedFn device seed = some gens →
        ∃ calls, treeCallbacks env T rng gens = some calls ∧ ∀ (k : Nat) (own : List Task), tss[k]? = some own →
          ∃ r, runTasks T rng own (seedFn (seed + k)) = some r ∧ calls[k]? = some r.1 := by
  obtain ⟨_, tss, _, h1, _, h2⟩ := C16_call s hc env rng hgeo
  refine ⟨tss, h1, fun seed device gens hseed hg => ?_⟩
  obtain ⟨calls, h3, _, h5⟩ := h2 gens
  refine ⟨calls, h3, fun k own hk => ?_⟩
  have e : gens k = seedFn (seed + k) := by
    unfold seedGens at hg
    rw [if_pos hseed] at hg
    split at hg
    · rw [← Option.some.inj hg]
    · cases hg
  rw [← e]
  exact h5 k own hk

/-! ### C33 -/

/-- C33 (unsupported dimensions).  If the first position has a dimension other than 1..5, the call returns an empty edge
list and prints the notice, and it does so for every environment. -/
theorem C33_unsupported {F : Type} [CFloat F] (env : Env) (rng : Rng F) (gens : Nat → rng.G) (weights : List F) (p : List F)
    (ps : List (List F)) (hd : p.length = 0 ∨ 5 < p.length) (alpha : F) (out : List (Nat × Nat)) (notice : Notice) :
    GenerateEdges env rng gens weights (p :: ps) alpha out notice ↔ out = [] ∧ notice = .unsupported p.length := by
  have hrun : EdgeBuffer.Run (E := Nat × Nat) blockSize (List.replicate env.threads []) out ↔ out = [] := by
    constructor
    · intro h
      have := (C24_nothing_lost blockSize (by unfold blockSize; omega) _ _ h).2
      rw [flatten_replicate_nil] at this
      exact List.perm_nil.1 this
    · rintro rfl
      obtain ⟨o, ho⟩ := EdgeBuffer.run_exists (E := Nat × Nat) (block := blockSize) (by unfold blockSize; omega) (List.replicate env.threads [])
      have := (C24_nothing_lost blockSize (by unfold blockSize; omega) _ _ ho).2
      rw [flatten_replicate_nil] at this
      rwa [List.perm_nil.1 this] at ho
  rw [← hrun]
  unfold GenerateEdges
  simp only [List.head?_cons]
  split
  · omega
  · omega
  · omega
  · omega
  · omega
  · exact Iff.rfl

/-- C33 (dispatch).  In dimension 1..5 the call is a run of the sampler of exactly that dimension, without notice. -/
theorem C33_dispatch {F : Type} [CFloat F] {D : Nat} (h1 : 1 ≤ D) (h5 : D ≤ 5) (env : Env) (rng : Rng F) (gens : Nat → rng.G)
    (weights : List F) (p : Fin D → F) (ps : List (Fin D → F)) (alpha : F) (out : List (Nat × Nat)) (notice : Notice) :
    GenerateEdges env rng gens weights ((p :: ps).map List.ofFn) alpha out notice ↔
      TreeRun env rng gens weights (p :: ps) alpha out ∧ notice = .none := by
  have hx := asPoints_ofFn (p :: ps)
  rw [List.map_cons] at hx ⊢
  rw [generateEdges_dispatch h1 h5 env rng gens weights (by simp) alpha out notice, hx]
  simp

/-! ### a concrete environment: two threads, generators returning 1/2 -/

/-- two threads, each gets half of the iterations -/
def exampleEnv (ndebug : Bool) : Env where
  ndebug := ndebug
  threads := 2
  chunks N := [List.range (N / 2), List.range' (N / 2) (N - N / 2)]
  threads_pos := by norm_num
  threads_le := by norm_num
  chunks_length _ := rfl
  chunks_flatten N := by
    simp only [List.flatten_cons, List.flatten_nil, List.append_nil]
    rw [List.range_eq_range', List.range_eq_range']
    have := List.range'_append_1 (s := 0) (m := N / 2) (n := N - N / 2)
    rw [Nat.zero_add] at this
    rw [this]
    congr 1; omega

/-- a generator that always returns the middle of the interval, and never skips -/
noncomputable def exampleRng : Rng XR where
  G := Unit
  uniform _ := (XR.fin (1 / 2), ())
  uniformTo b _ := (b *. XR.fin (1 / 2), ())
  geo _ _ := (0, ())

theorem exampleRng_geo : GeoBounded exampleRng := fun _ _ => by show 0 < _; norm_num

/-- the hypotheses of C15 - C17 and C25 hold for the three nodes of `exampleInput` -/
example : ∃ out notice, GenerateEdges (exampleEnv true) exampleRng (fun _ => ()) (xw [1, 1, 5])
    (xl [![0, 0], ![1 / 2, 1 / 4], ![7 / 8, 1 / 3]]) (XR.fin 2) out notice ∧ IsSimpleGraph 3 out := by
  obtain ⟨⟨out, notice, h⟩, _, h3⟩ := C17_simple_graph exampleInput (XR.fin 2) (exampleEnv true) exampleRng exampleRng_geo (fun _ => ())
  exact ⟨out, notice, h, (h3 out notice h).1⟩

end Girgs.Props
