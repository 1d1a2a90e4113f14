import Verif.Proofs.HUnique
import Verif.Props.Edges
import Verif.Spec.Circle
/-
C39 - C44, C48, C49: the data structure of hypergirgs, the pairs it examines, its task queue, and what `hypergirgs::generateEdges` returns in
every execution.
-/
namespace Girgs.Props
open Angle Spec
open Real

variable {ndebug : Bool} {radii angles : List ℝ} {T R : ℝ} {H : HTree XR}

/-! ### a concrete input -/

/-- four points in a disk of radius 6 -/
theorem exampleHyp {T : ℝ} (hT : 0 ≤ T) : HypInput [1, 2, 9 / 2, 5] [0, 1, 3 / 2, 4] T 6 where
  len := rfl
  pos := by simp
  small := by simp
  radius := by
    intro r hr
    simp only [List.mem_cons, List.not_mem_nil, or_false] at hr
    rcases hr with rfl | rfl | rfl | rfl <;> norm_num
  angle := by
    intro a ha
    have := pi_gt_three
    simp only [List.mem_cons, List.not_mem_nil, or_false] at ha
    rcases ha with rfl | rfl | rfl | rfl <;> constructor <;> linarith
  temp := hT
  disk := Or.inr ⟨by norm_num, by norm_num⟩

/-- an environment with any number of threads up to 2^25; `std::partition` keeps the order -/
def exampleHEnv (ndebug : Bool) (t : ℕ) (h1 : 1 ≤ t) (h2 : t ≤ 33554432) : HEnv where
  ndebug := ndebug
  threads := t
  partition l := (l.filter fun p => p.1 = p.2) ++ l.filter fun p => !decide (p.1 = p.2)
  threads_pos := h1
  threads_le := h2
  partition_perm l := List.filter_append_perm _ l
  partition_front l := by
    rw [List.pairwise_append]
    refine ⟨?_, ?_, ?_⟩
    · rw [List.pairwise_filter]
      exact List.pairwise_of_forall fun a b h _ _ => by simpa using h
    · rw [List.pairwise_filter]
      exact List.pairwise_of_forall fun a b _ hb e => absurd e (by simpa using hb)
    · intro a ha b _ _
      simpa using (List.mem_filter.1 ha).2

/-- `exampleRng` draws from the required intervals -/
theorem exampleRng_unit : UnitRng exampleRng where
  uniform _ := ⟨1 / 2, rfl, by norm_num, by norm_num⟩
  uniformTo b _ hb := ⟨b * (1 / 2), rfl, by positivity, by linarith⟩
  geo _ _ := by show 0 < _; norm_num

/-- the data structure exists for the example -/
theorem exampleHyp_constructed (ndebug : Bool) {T : ℝ} (hT : 0 ≤ T) :
    ∃ H, HConstructed ndebug (xw [1, 2, 9 / 2, 5]) (xw [0, 1, 3 / 2, 4]) (XR.fin T) (XR.fin 6) H :=
  hconstructed_exists ndebug (XR.fin T) (HypInput.inputOK (exampleHyp hT)) 4 (by norm_num) (by norm_num)

/-! ### C39 -/

theorem inArc_iff {l A : ℕ} (hA : OnBinLevel l A) (a : ℝ) : InArc l A a ↔ InArcNo l (A + 1 - 2 ^ l) a := by
  have h : 2 ^ l ≤ A + 1 := by have := hA.1; omega
  unfold InArc InArcNo
  have e : ((A + 1 - 2 ^ l : ℕ) : ℝ) = (A : ℝ) + 1 - 2 ^ l := by push_cast [Nat.cast_sub h]; ring
  rw [e]
  constructor <;> rintro ⟨h1, h2⟩ <;> refine ⟨h1, lt_of_lt_of_eq h2 (by ring)⟩

theorem inArcNo_unique {l i j : ℕ} {a : ℝ} (hi : InArcNo l i a) (hj : InArcNo l j a) : i = j := by
  have hw : (0 : ℝ) < 2 * π / 2 ^ l := by have := pi_pos; positivity
  have h1 : (i : ℝ) < j + 1 := lt_of_mul_lt_mul_right (lt_of_le_of_lt hi.1 hj.2) hw.le
  have h2 : (j : ℝ) < i + 1 := lt_of_mul_lt_mul_right (lt_of_le_of_lt hj.1 hi.2) hw.le
  have h1' : i < j + 1 := by exact_mod_cast h1
  have h2' : j < i + 1 := by exact_mod_cast h2
  omega

/-- C39.  In the data structure built from supported input: the stored points are the input points (every index once, with the stored form of
its radius and angle); every radius is in the band `(R-i-1, R-i]` of one of the layers that are kept; and for every layer `i`, every level `l`
up to its target level and every cell `A` of level `l`, `cellIterators` returns a range `[b,e)` containing exactly the points with radius in
`(R-i-1, R-i]` and angle in the arc of `A`; `pointsInCell` is the length of the range and `kthPoint` its `k`-th element. -/
theorem C39_layers_hand_out (hin : HypInput radii angles T R) (hc : HConstructed ndebug (xw radii) (xw angles) (XR.fin T) (XR.fin R) H) :
    (H.points.map HPoint.id).Perm (List.range radii.length) ∧
    (∀ x ∈ H.points, ∃ r a, radii[x.id]? = some r ∧ angles[x.id]? = some a ∧ x = HPoint.make x.id (XR.fin r) (XR.fin a) x.cellId) ∧
    (∀ r ∈ radii, ∃ i, i < H.radiusLayers.length ∧ R - i - 1 < r ∧ r ≤ R - i) ∧
    ∀ (i l A : ℕ) (rl : RadiusLayer XR), H.radiusLayers[i]? = some rl → l ≤ rl.target → OnBinLevel l A →
      ∃ b e, rl.cellIterators H.firstInCell A l = some (b, e) ∧ b ≤ e ∧ e ≤ radii.length ∧
        (∀ (p : ℕ) (x : HPoint XR) (r a : ℝ), H.points[p]? = some x → radii[x.id]? = some r → angles[x.id]? = some a →
          (b ≤ p ∧ p < e ↔ R - i - 1 < r ∧ r ≤ R - i ∧ InArcNo l (A + 1 - 2 ^ l) a)) ∧
        rl.pointsInCell H.firstInCell A l = some (e - b) ∧ ∀ k, rl.kthPos H.firstInCell A l k = some (b + k) := by
  have b := hc.builtX hin
  have ok := b.ok
  have hlen : H.n = radii.length := by rw [b.n_eq, xw, List.length_map]
  have hperm := ok.id_perm
  rw [hlen] at hperm
  refine ⟨hperm, ?_, ?_, ?_⟩
  · intro x hx
    obtain ⟨r, a, h1, h2, _, _, _, _, h3, _⟩ := b.point_data hin hx
    exact ⟨r, a, h1, h2, h3⟩
  · intro r hr
    obtain ⟨k, hk, ek⟩ := List.mem_iff_getElem.1 hr
    obtain ⟨x, hx, hid⟩ := List.mem_map.1 (hperm.mem_iff.2 (List.mem_range.2 hk))
    obtain ⟨r', a, h1, _, _, _, _, _, _, h4⟩ := b.point_data hin hx
    obtain ⟨i, hi, hI⟩ := ok.exists_hin hx
    rw [hid, List.getElem?_eq_getElem hk, Option.some.injEq, ek] at h1
    subst h1
    exact ⟨i, by rw [ok.length_layers]; exact hi, (h4 i 0 0 hI).1, (h4 i 0 0 hI).2.1⟩
  · intro i l A rl hrl hl hA
    have hi : i < H.layers := by rw [← ok.length_layers]; exact (List.getElem?_eq_some_iff.1 hrl).1
    have ht := (ok.layer_eq i rl hrl).1
    obtain ⟨rl', b', e', g1, g2, g3, g4, g5, g6, g7⟩ := ok.cells_spec hi (by rw [← ht]; exact hl) hA
    rw [rd, hrl, Option.some.injEq] at g1
    subst g1
    refine ⟨b', e', g2, g5, by rw [← hlen]; exact g6, ?_, g3, g4⟩
    intro p x r a hp hr ha
    rw [g7 p x hp]
    have hx := List.mem_of_getElem? hp
    obtain ⟨r', a', h1, h2, _, _, _, _, _, h4⟩ := b.point_data hin hx
    rw [h1, Option.some.injEq] at hr
    rw [h2, Option.some.injEq] at ha
    subst hr; subst ha
    constructor
    · intro h
      obtain ⟨k1, k2, k3⟩ := h4 _ _ _ h
      exact ⟨k1, k2, (inArc_iff hA _).1 k3⟩
    · rintro ⟨k1, k2, k3⟩
      obtain ⟨j, hj, hJ⟩ := ok.exists_hin hx
      obtain ⟨q1, q2, _⟩ := h4 _ _ _ hJ
      obtain rfl : i = j := by
        have e1 : (i : ℝ) < j + 1 := by linarith
        have e2 : (j : ℝ) < i + 1 := by linarith
        have e1' : i < j + 1 := by exact_mod_cast e1
        have e2' : j < i + 1 := by exact_mod_cast e2
        omega
      obtain ⟨c', hC⟩ := hJ.exists_level (m := l) (by rw [← ht]; exact hl)
      have hc' := hC.onLv
      have := inArcNo_unique ((inArc_iff hc' _).1 (h4 _ _ _ hC).2.2) k3
      obtain rfl : c' = A := by have := hc'.1; have := hA.1; omega
      exact hC

/-! ### C40 -/

/-- without the type II calls the recursion makes the type I calls -/
theorem hvisit_release {layers levels : ℕ} {pbl : ℕ → ℕ → ℕ} : ∀ (k A B l : ℕ),
    hvisit layers levels pbl false k A B l = (hvisit layers levels pbl true k A B l).filter fun t => !t.two := by
  intro k
  induction k with
  | zero => intro A B l; rfl
  | succ k ih =>
    intro A B l
    rw [hvisit_succ, hvisit_succ]
    split
    · simp only [Bool.false_eq_true, if_false, if_true]
      symm
      rw [List.filter_eq_nil_iff]
      intro t ht
      simp [(mem_htasksII.1 ht).1]
    · rw [List.filter_append]
      congr 1
      · symm
        rw [List.filter_eq_self]
        intro t ht
        simp [(mem_htasksI.1 ht).1]
      · split
        · rfl
        · rw [List.filter_flatMap]
          congr 1
          funext p
          exact ih _ _ _

theorem HBuiltX.full_iff (b : HBuiltX ndebug radii angles T R H) : H.full = !(ndebug && decide (T = 0)) := by
  unfold HTree.full
  rw [b.ndebug_eq, b.tZero_iff]

/-- C40.  With one thread the recursion `visitCellPair(0,0,0)` makes sampling calls which together examine every unordered pair of distinct
points exactly once, in one orientation.  (A release build with `T = 0` is the next theorem.) -/
theorem C40_sequential (hin : HypInput radii angles T R) (hc : HConstructed ndebug (xw radii) (xw angles) (XR.fin T) (XR.fin R) H)
    (hm : ¬ (ndebug = true ∧ T = 0)) :
    ∃ ts cs, HTree.visitCellPair H H.levels 0 0 0 = some ts ∧ H.allCandidates ts = some cs ∧ EachPairOnce radii.length (cs.map H.idxPair) := by
  have b := hc.builtX hin
  have hf : H.full = true := by rw [HBuiltX.full_iff b]; cases ndebug <;> simp_all
  have hr := b.ok.root_eq
  rw [hf] at hr
  obtain ⟨cs, h1, h2⟩ := b.ok.eachPairOnce (List.Perm.refl _)
  rw [b.n_eq, xw, List.length_map] at h2
  exact ⟨_, cs, hr, h1, h2⟩

/-- C40 for a release build with `T = 0`: exactly the type II calls of the debug build are left out (they could not have produced an edge, see
C45). -/
theorem C40_release_threshold (hin : HypInput radii angles 0 R) (hc : HConstructed true (xw radii) (xw angles) (XR.fin 0) (XR.fin R) H) :
    ∃ ts tsDebug cs, HTree.visitCellPair H H.levels 0 0 0 = some ts ∧
      HTree.visitCellPair { H with ndebug := false } H.levels 0 0 0 = some tsDebug ∧ (ts = tsDebug.filter fun t => !t.two) ∧
      H.allCandidates tsDebug = some cs ∧ EachPairOnce radii.length (cs.map H.idxPair) := by
  have b := hc.builtX hin
  have hf : H.full = false := by rw [HBuiltX.full_iff b]; simp
  have hr := b.ok.root_eq
  rw [hf] at hr
  have ok' : HTreeOK { H with ndebug := false } (htgt R) (hpair R) ⌈R⌉.toNat := by
    obtain ⟨h1, h2, h3, h4, h5, h6, h7, h8, h9, h10, h11, h12, h13, h14, h15, h16⟩ := b.ok
    exact ⟨h1, h2, h3, h4, h5, h6, h7, h8, h9, h10, h11, h12, h13, h14, h15, h16⟩
  have hr' := ok'.root_eq
  obtain ⟨cs, h1, h2⟩ := b.ok.eachPairOnce (List.Perm.refl _)
  rw [b.n_eq, xw, List.length_map] at h2
  exact ⟨_, _, cs, hr, hr', hvisit_release _ _ _ _, h1, h2⟩

/-- the hypotheses of C39 and C40 hold for the example -/
example : ∃ (H : HTree XR) (ts : List Task) (cs : List (ℕ × ℕ)), HTree.visitCellPair H H.levels 0 0 0 = some ts ∧ H.allCandidates ts = some cs ∧
    EachPairOnce 4 (cs.map H.idxPair) ∧ (H.points.map HPoint.id).Perm (List.range 4) := by
  obtain ⟨H, hH⟩ := exampleHyp_constructed true (T := 1 / 2) (by norm_num)
  obtain ⟨ts, cs, h1, h2, h3⟩ := C40_sequential (exampleHyp (by norm_num)) hH (by norm_num)
  exact ⟨H, ts, cs, h1, h2, h3, (C39_layers_hand_out (exampleHyp (by norm_num)) hH).1⟩

/-! ### C41 -/

/-- C41.  For any start level `fpl` between 1 and 31 and any number of threads from 2: the shares of the `threads - 1` workers and the calls of
the tasks are defined, and together they are the calls of the sequential recursion, as a multiset. -/
theorem C41_same_calls (hin : HypInput radii angles T R) (hc : HConstructed ndebug (xw radii) (xw angles) (XR.fin T) (XR.fin R) H)
    (hm : ¬ (ndebug = true ∧ T = 0)) (env : HEnv) (hth : 2 ≤ env.threads) (fpl : ℕ) (h1 : 1 ≤ fpl) (h31 : fpl ≤ 31) :
    ∃ ts shares tasks taskCalls, HTree.visitCellPair H H.levels 0 0 0 = some ts ∧
      (List.range (env.threads - 1)).mapM (HTree.shareOf H fpl env.threads) = some shares ∧
      (if fpl < H.levels then HTree.taskList env fpl else some []) = some tasks ∧
      tasks.mapM (fun p => HTree.visitCellPair H H.levels p.1 p.2 fpl) = some taskCalls ∧
      (shares.flatten ++ taskCalls.flatten).Perm ts := by
  have b := hc.builtX hin
  have hf : H.full = true := by rw [HBuiltX.full_iff b]; cases ndebug <;> simp_all
  have hr := b.ok.root_eq
  rw [hf] at hr
  have hp := b.ok.units_perm env h1 hf
  have hU : hUnits env H (hpair R) fpl =
      ((List.range (env.threads - 1)).map (hShare env H (hpair R) fpl)) ++ (hTasks env H fpl).map (hTaskCalls H (hpair R) fpl) := by
    unfold hUnits
    rw [if_neg (by omega)]
  rw [hU, List.flatten_append] at hp
  refine ⟨_, _, _, _, hr, mapM_some_of (g := hShare env H (hpair R) fpl) ?_, b.ok.tasks_eq env h1 h31,
    mapM_some_of (g := hTaskCalls H (hpair R) fpl) ?_, hp⟩
  · intro tid ht
    exact b.ok.share_eq hth fpl tid (by have := List.mem_range.1 ht; omega)
  · intro p hp
    exact b.ok.taskCalls_eq env hp

/-- C41 (consequence).  All workers and tasks together examine every unordered pair exactly once. -/
theorem C41_parallel (hin : HypInput radii angles T R) (hc : HConstructed ndebug (xw radii) (xw angles) (XR.fin T) (XR.fin R) H)
    (hm : ¬ (ndebug = true ∧ T = 0)) (env : HEnv) (hth : 2 ≤ env.threads) (fpl : ℕ) (h1 : 1 ≤ fpl) (h31 : fpl ≤ 31) :
    ∃ shares tasks taskCalls cs,
      (List.range (env.threads - 1)).mapM (HTree.shareOf H fpl env.threads) = some shares ∧
      (if fpl < H.levels then HTree.taskList env fpl else some []) = some tasks ∧
      tasks.mapM (fun p => HTree.visitCellPair H H.levels p.1 p.2 fpl) = some taskCalls ∧
      H.allCandidates (shares.flatten ++ taskCalls.flatten) = some cs ∧ EachPairOnce radii.length (cs.map H.idxPair) := by
  obtain ⟨ts, shares, tasks, taskCalls, h2, h3, h4, h5, h6⟩ := C41_same_calls hin hc hm env hth fpl h1 h31
  have b := hc.builtX hin
  have hf : H.full = true := by rw [HBuiltX.full_iff b]; cases ndebug <;> simp_all
  have hr := b.ok.root_eq
  rw [hf, h2, Option.some.injEq] at hr
  subst hr
  obtain ⟨cs, k1, k2⟩ := b.ok.eachPairOnce h6
  rw [b.n_eq, xw, List.length_map] at k2
  exact ⟨shares, tasks, taskCalls, cs, h3, h4, h5, k1, k2⟩

/-! ### C42 -/

/-- C42.  For 2 to 2^25 threads the start level `L` is between 2 and 26; `visitCellPairCreateTasks` creates exactly the precomputed number of
tasks, which is 10 for `L = 2` and `2^(L+1) + 3*2^(L-1)` for larger `L`; and `initialize_prngs` provides exactly one generator for each of the
`threads - 1` workers and each task. -/
theorem C42_task_count (env : HEnv) (hth : 2 ≤ env.threads) :
    ∃ L nt ts, HTree.firstParallelLevel XR env.threads = some L ∧ 2 ≤ L ∧ L ≤ 26 ∧ HTree.numTasks L = some nt ∧
      nt = (if L = 2 then 10 else 2 ^ (L + 1) + 3 * 2 ^ (L - 1)) ∧
      HTree.taskList env L = some ts ∧ ts.length = nt ∧
      ∀ {G : Type} (e : HEngine G) (seed : ℤ) (device : ℕ), ∃ gens, e.gens XR env.threads seed device = some gens ∧
        gens.length = env.threads - 1 + ts.length := by
  have st := hstartOK_XR env
  have e1 := st.eq (by omega)
  have h2 := st.two
  have h26 := st.le
  generalize startLevel env.threads = L at *
  have hl : L < 31 + 1 := by omega
  obtain ⟨k, rfl⟩ : ∃ k, L = k + 2 := ⟨L - 2, by omega⟩
  have ht : HTree.taskList env (k + 2) = some (env.partition (hcreate (k + 2) 0 0 0)) := by
    unfold HTree.taskList
    exact (obind (createTasks_eq (by omega) (k + 1) (k + 2 + 1) 0 0 0 (by omega) (by omega) onLv_zero onLv_zero) _).trans rfl
  have hlen : (env.partition (hcreate (k + 2) 0 0 0)).length = if k = 0 then 10 else 2 ^ (k + 3) + 3 * 2 ^ (k + 1) := by
    rw [(env.partition_perm _).length_eq, length_hcreate_root]
  have hnt : HTree.numTasks (k + 2) = some (if k = 0 then 10 else 2 ^ (k + 3) + 3 * 2 ^ (k + 1)) := by
    unfold HTree.numTasks
    by_cases hk : k = 0
    · subst hk; rfl
    · rw [if_neg (by omega), if_neg (by omega), if_neg hk]
      have hp : 2 ^ (k + 2) ≤ 2 ^ 26 := two_pow_le h26
      have hp2 : 2 ^ (k + 1) ≤ 2 ^ 25 := two_pow_le (by omega)
      have hp3 : 2 ^ (k + 3) = 2 * 2 ^ (k + 2) := by rw [pow_succ]; ring
      rw [hp3, show k + 2 - 1 = k + 1 by omega]
      have c1 : ((2 ^ (k + 2) : ℕ) : ℤ) ≤ 2 ^ 26 := by exact_mod_cast hp
      have c2 : ((2 ^ (k + 1) : ℕ) : ℤ) ≤ 2 ^ 25 := by exact_mod_cast hp2
      push_cast at c1 c2
      have p1 : (0 : ℤ) ≤ 2 ^ (k + 2) := by positivity
      have p2 : (0 : ℤ) ≤ 2 ^ (k + 1) := by positivity
      refine (obind (Coord.int32_eq (by omega) (by omega)) _).trans ?_
      refine (obind (Coord.int32_eq (by omega) (by omega)) _).trans ?_
      refine (obind (Coord.int32_eq (by omega) (by omega)) _).trans ?_
      have : ((2 : ℤ) * 2 ^ (k + 2) + 3 * 2 ^ (k + 1)) = ((2 * 2 ^ (k + 2) + 3 * 2 ^ (k + 1) : ℕ) : ℤ) := by push_cast; ring
      rw [this, Int.toNat_natCast]
  have hk0 : (k + 2 = 2) ↔ k = 0 := by omega
  refine ⟨k + 2, _, _, e1, h2, h26, hnt, ?_, ht, hlen, ?_⟩
  · simp only [hk0]; rfl
  · intro G e seed device
    refine ⟨e.initialize (env.threads - 1 + (if k = 0 then 10 else 2 ^ (k + 3) + 3 * 2 ^ (k + 1))) (if 0 ≤ seed then seed.toNat else device), ?_, ?_⟩
    · unfold HEngine.gens
      rw [if_neg (by omega)]
      refine (obind e1 _).trans ?_
      exact (obind hnt _).trans rfl
    · unfold HEngine.initialize
      rw [List.length_map, List.length_range, hlen]

/-! ### C43 -/

/-- C43.  `threads` threads and `m` tasks (none, if the last thread does not create tasks); every schedule, including spurious wake-ups: it can
be executed without undefined access; in every state reached, no task has been executed twice and only existing tasks have been executed; at
most one thread holds the mutex; and when all threads have left the parallel region, every task has been executed exactly once. -/
theorem C43_each_task_once (threads m : ℕ) (gen : Bool) (hn : 2 ≤ threads) (hg : gen = false → m = 0) (hb : m + threads + 1 < 2 ^ 32)
    (sched : List TaskQueue.Act) :
    ((∀ a ∈ sched, a.thread < threads) → ∃ s, TaskQueue.run m (TaskQueue.init threads gen) sched = some s) ∧
    ∀ s, TaskQueue.run m (TaskQueue.init threads gen) sched = some s →
      s.log.flatten.Nodup ∧ (∀ i ∈ s.log.flatten, i < m) ∧
      (∀ (t t' : ℕ) (p p' : TaskQueue.PC), s.pcs[t]? = some p → s.pcs[t']? = some p' →
        (p = .setFlag ∨ p = .setUnlock ∨ p = .waitTest ∨ p = .waitUnlock) →
        (p' = .setFlag ∨ p' = .setUnlock ∨ p' = .waitTest ∨ p' = .waitUnlock) → t = t') ∧
      (s.finished → s.log.flatten.Perm (List.range m)) := by
  have h0 := TaskQueue.init_inv hn hg
  refine ⟨fun ha => TaskQueue.Inv.run_total hb sched h0 ha, ?_⟩
  intro s hs
  have h := TaskQueue.Inv.of_run hb sched h0 hs
  have hlt : ∀ i ∈ s.log.flatten, i < m := by
    intro i hi
    obtain ⟨l, hl, hi⟩ := List.mem_flatten.1 hi
    exact h.log_lt l hl i hi
  refine ⟨?_, hlt, ?_, fun hf => h.done_log (by omega) hf⟩
  · rw [List.nodup_iff_count_le_one]
    intro i
    by_cases hi : i < m
    · have := h.count i hi
      split at this <;> omega
    · rw [List.count_eq_zero_of_not_mem (fun hm => hi (hlt i hm))]
      omega
  · intro t t' p p' ht ht' hp hp'
    have e1 := (h.mutex t p ht).1 (by rcases hp with rfl | rfl | rfl | rfl <;> rfl)
    have e2 := (h.mutex t' p' ht').1 (by rcases hp' with rfl | rfl | rfl | rfl <;> rfl)
    rw [e1, Option.some.injEq] at e2
    exact e2

/-- three threads and ten tasks: an execution exists, and in it every task is executed once -/
example : ∃ sched s, TaskQueue.run 10 (TaskQueue.init 3 true) sched = some s ∧ s.finished ∧ s.log.flatten.Perm (List.range 10) := by
  obtain ⟨sched, s, _, h1, h2⟩ := TaskQueue.Inv.can_finish (n := 3) (m := 10) (by norm_num) _ le_rfl
    (TaskQueue.init_inv (gen := true) (by norm_num) (by simp))
  exact ⟨sched, s, h1, h2, ((C43_each_task_once 3 10 true (by norm_num) (by simp) (by norm_num) sched).2 s h1).2.2.2 h2⟩

/-! ### C44 -/

/-- C44 (no deadlock).  If the task list is created, every fair infinite execution (every thread is scheduled again and again, and spurious
wake-ups stop eventually) ends with all threads having left the parallel region. -/
theorem C44_fair_terminates (threads m : ℕ) (hn : 2 ≤ threads) (hb : m + threads + 1 < 2 ^ 32) (σ : ℕ → TaskQueue.State) (a : ℕ → TaskQueue.Act)
    (h0 : σ 0 = TaskQueue.init threads true) (hstep : ∀ k, TaskQueue.step m (σ k) (a k) = some (σ (k + 1)))
    (hfair : ∀ t, t < threads → ∀ k, ∃ j, k ≤ j ∧ a j = .run t) (hsp : ∃ K, ∀ k, K ≤ k → ∀ t, a k ≠ .spurious t) :
    ∃ k, (σ k).finished :=
  TaskQueue.fair_finishes hb σ a (by rw [h0]; exact TaskQueue.init_inv hn (by simp)) hstep hfair hsp

/-- C44 (hang).  If the recursion has at most as many levels as the start level, no task list is created and no execution ends: the workers
wait for ever. -/
theorem C44_hang (threads : ℕ) (hn : 2 ≤ threads) (hb : threads + 1 < 2 ^ 32) (sched : List TaskQueue.Act) (s : TaskQueue.State)
    (hs : TaskQueue.run 0 (TaskQueue.init threads false) sched = some s) : ¬ s.finished :=
  (TaskQueue.Inv.of_run (by omega) sched (TaskQueue.init_inv hn (by simp)) hs).stuck hn

/-- for supported input, the recursion has more than `L ≥ 1` levels iff two points of radius `R-1` at angle `π/2^(L-1)` are more than `R` apart -/
theorem levels_iff (hin : HypInput radii angles T R) (b : HBuiltX ndebug radii angles T R H) {L : ℕ} (hL : 1 ≤ L) :
    L < H.levels ↔ cosh R < hypCosh (R - 1) (π / 2 ^ (L - 1)) (R - 1) 0 := by
  have hR := (HypInput.R_pos hin)
  have e : H.levels = htgt R 0 + 1 := b.levels_eq
  have e2 : htgt R 0 = hpbl (R - 1) (R - 1) R := by unfold htgt; norm_num
  rw [e, e2, ← hc_eq, sub_zero]
  have hex : ∃ L : ℕ, hc (R - 1) (R - 1) (π / 2 ^ L) ≤ cosh R := hc_exists (by simpa using hR)
  constructor
  · intro h
    exact hpbl_pos_lt (by omega)
  · intro h
    have : L ≤ hpbl (R - 1) (R - 1) R := by
      refine le_hpbl hex ?_
      intro k hk
      refine lt_of_lt_of_le h (hc_angle (mul_self_nonneg _) ?_)
      have hpi := pi_pos
      have h2 : π / 2 ^ (L - 1) ≤ π / 2 ^ k := by
        refine div_le_div_of_nonneg_left hpi.le (by positivity) ?_
        exact pow_le_pow_right₀ (by norm_num) (by omega)
      refine cos_le_cos_of_nonneg_of_le_pi (by positivity) ?_ h2
      exact div_le_self hpi.le (one_le_pow₀ (by norm_num))
    omega

/-- C44.  For supported input and every source of random numbers, `hypergirgs::generateEdges` has an execution that returns iff there is only
one thread, or two points of radius `R-1` at angle `π/2^(L-1)` are more than `R` apart, where `L = ceil(log2(2*threads))`.  Otherwise every
execution hangs. -/
theorem C44_returns_iff (hin : HypInput radii angles T R) (env : HEnv) (rng : Tree.Rng XR) (u : UnitRng rng) (gens : ℕ → rng.G) :
    (∃ out, HGenerateEdges env rng gens (xw radii) (xw angles) (XR.fin T) (XR.fin R) out) ↔
      env.threads = 1 ∨ ∃ L, HTree.firstParallelLevel XR env.threads = some L ∧ cosh R < hypCosh (R - 1) (π / 2 ^ (L - 1)) (R - 1) 0 := by
  have st := hstartOK_XR env
  have h2 := st.two
  have h26 := st.le
  constructor
  · rintro ⟨out, H, hH, calls, hg, _⟩
    by_cases h1 : env.threads = 1
    · exact Or.inl h1
    right
    have b := hH.builtX hin
    unfold HTree.Generate at hg
    rw [if_neg h1] at hg
    obtain ⟨fpl, tasks, sched, s, e1, e2, hrun, hfin, _⟩ := hg
    have e3 := st.eq h1
    rw [e1, Option.some.injEq] at e3
    refine ⟨fpl, e1, ?_⟩
    rw [← levels_iff hin b (by omega)]
    by_contra hlt
    rw [if_neg hlt, Option.some.injEq] at e2
    subst e2
    rw [decide_eq_false hlt] at hrun
    have := env.threads_pos
    have := env.threads_le
    exact C44_hang env.threads (by omega) (by omega) sched s hrun hfin
  · intro h
    obtain ⟨H, hH⟩ := hconstructed_exists env.ndebug (XR.fin T) (HypInput.inputOK hin) env.threads env.threads_pos (by have := env.threads_le; omega)
    have b := hH.builtX hin
    have hlev : env.threads = 1 ∨ startLevel env.threads < H.levels := by
      rcases h with h | ⟨L, e1, h⟩
      · exact Or.inl h
      · by_cases h1 : env.threads = 1
        · exact Or.inl h1
        right
        have e3 := st.eq h1
        rw [e1, Option.some.injEq] at e3
        subst e3
        exact (levels_iff hin b (by omega)).2 h
    obtain ⟨calls, hc⟩ := b.ok.generate_exists u.geo (b.draws hin.temp u) b.fo st gens hlev
    obtain ⟨out, ho⟩ := EdgeBuffer.run_exists (block := blockSize) (by unfold blockSize; omega) calls
    exact ⟨out, H, hH, calls, hc, ho⟩

/-- C44 (a hanging input).  With two or more threads and a disk of radius at most 2, `hypergirgs::generateEdges` never returns. -/
theorem C44_small_disk_hangs (hin : HypInput radii angles T R) (hR : R ≤ 2) (env : HEnv) (hth : 2 ≤ env.threads) (rng : Tree.Rng XR)
    (u : UnitRng rng) (gens : ℕ → rng.G) (out : List (ℕ × ℕ)) :
    ¬ HGenerateEdges env rng gens (xw radii) (xw angles) (XR.fin T) (XR.fin R) out := by
  intro h
  rcases (C44_returns_iff hin env rng u gens).1 ⟨out, h⟩ with h | ⟨L, _, h⟩
  · omega
  · rw [← hc_eq, sub_zero] at h
    have h1 := hc_self_le (a := R - 1) (φ := π / 2 ^ (L - 1))
    have h2 : cosh (2 * (R - 1)) ≤ cosh R := by
      rw [cosh_le_cosh, abs_le, abs_of_pos (HypInput.R_pos hin)]
      have := hin.disk
      constructor <;> rcases this with h | h <;> linarith
    linarith

/-! ### C48 -/

theorem unitEdges_congr {rng : Tree.Rng XR} {gens gens' : ℕ → rng.G} (units : List (List Task)) {k : ℕ} (h : gens k = gens' k) :
    unitEdges H rng gens units k = unitEdges H rng gens' units k := by
  unfold unitEdges
  rw [h]

/-- C48.  Fixed non-negative seed and thread count; any two executions (whatever `random_device` returns, whatever the schedules): the two
returned edge lists are permutations of each other. -/
theorem C48_reproducible (hin : HypInput radii angles T R) (env : HEnv) (rng : Tree.Rng XR) (u : UnitRng rng) (e : HEngine rng.G) (seed : ℤ)
    (hseed : 0 ≤ seed) (device device' : ℕ) (gs gs' : List rng.G) (hgs : e.gens XR env.threads seed device = some gs)
    (hgs' : e.gens XR env.threads seed device' = some gs') (gens gens' : ℕ → rng.G)
    (hg : ∀ (k : ℕ) (g : rng.G), gs[k]? = some g → gens k = g) (hg' : ∀ (k : ℕ) (g : rng.G), gs'[k]? = some g → gens' k = g)
    (out out' : List (ℕ × ℕ)) (h : HGenerateEdges env rng gens (xw radii) (xw angles) (XR.fin T) (XR.fin R) out)
    (h' : HGenerateEdges env rng gens' (xw radii) (xw angles) (XR.fin T) (XR.fin R) out') : out.Perm out' := by
  obtain rfl : gs = gs' := by
    have : e.gens XR env.threads seed device = e.gens XR env.threads seed device' := by
      unfold HEngine.gens
      simp only [if_pos hseed]
    rw [hgs, hgs'] at this
    exact Option.some.inj this
  obtain ⟨H, hH, calls, hc, ho⟩ := h
  obtain ⟨H', hH', calls', hc', ho'⟩ := h'
  obtain rfl := hH.unique hH' (HypInput.inputOK hin)
  have b := hH.builtX hin
  have st := hstartOK_XR env
  have p1 := b.ok.generate_perm u.geo (b.draws hin.temp u) b.fo st gens hc
  have p2 := b.ok.generate_perm u.geo (b.draws hin.temp u) b.fo st gens' hc'
  have q1 := EdgeBuffer.IsMerge.perm (ho.isMerge (by unfold blockSize; omega))
  have q2 := EdgeBuffer.IsMerge.perm (ho'.isMerge (by unfold blockSize; omega))
  have hlen : (hUnits env H (hpair R) (startLevel env.threads)).length ≤ gs.length := by
    rw [length_hUnits]
    by_cases h1 : env.threads = 1
    · rw [if_pos h1]
      unfold HEngine.gens at hgs
      rw [if_pos h1, Option.some.injEq] at hgs
      rw [← hgs]; simp
    · rw [if_neg h1]
      have := env.threads_pos
      obtain ⟨L, nt, ts, e1, _, _, e2, _, e3, e4, e5⟩ := C42_task_count env (by omega)
      obtain ⟨gs'', e6, e7⟩ := e5 e seed device
      rw [hgs, Option.some.injEq] at e6
      subst e6
      rw [e7]
      have e8 := st.eq h1
      rw [e1, Option.some.injEq] at e8
      subst e8
      obtain ⟨nt', k1, _, k2, _⟩ := length_hTasks (H := H) env st.two st.le
      rw [e2, Option.some.injEq] at k1
      omega
  have heq : (List.range (hUnits env H (hpair R) (startLevel env.threads)).length).flatMap
        (unitEdges H rng gens (hUnits env H (hpair R) (startLevel env.threads))) =
      (List.range (hUnits env H (hpair R) (startLevel env.threads)).length).flatMap
        (unitEdges H rng gens' (hUnits env H (hpair R) (startLevel env.threads))) := by
    refine List.flatMap_congr ?_
    intro k hk
    have hk := List.mem_range.1 hk
    have hk' : k < gs.length := by omega
    exact unitEdges_congr _ ((hg k _ (List.getElem?_eq_getElem hk')).trans (hg' k _ (List.getElem?_eq_getElem hk')).symm)
  rw [heq] at p1
  exact (q1.trans p1).trans ((q2.trans p2).symm)

theorem length_hdraws {G : Type} (e : HEngine G) (k : ℕ) (g : G) : (e.draws k g).length = k := by
  induction k generalizing g with
  | zero => rfl
  | succ k ih => simp [HEngine.draws, ih]

/-- the windows of length `s` of a list of length `n*s` -/
theorem windows_flatten {α : Type} (s : ℕ) : ∀ (n : ℕ) (L : List α), L.length = n * s →
    ((List.range n).map fun i => (L.drop (i * s)).take s).flatten = L := by
  intro n
  induction n with
  | zero => intro L hL; simp at hL; simp [hL]
  | succ n ih =>
    intro L hL
    rw [List.range_succ_eq_map, List.map_cons, List.flatten_cons, List.map_map]
    have h2 := ih (L.drop s) (by rw [List.length_drop, hL, Nat.succ_mul]; omega)
    have : ((List.range n).map ((fun i => (L.drop (i * s)).take s) ∘ Nat.succ)) = (List.range n).map fun i => ((L.drop s).drop (i * s)).take s := by
      apply List.map_congr_left
      intro i _
      simp only [Function.comp, List.drop_drop]
      congr 2
      rw [Nat.succ_mul]; omega
    rw [this, h2]
    simp

/-- C48 (seeds).  With several threads and a non-negative seed, the generators are seeded with consecutive, non-overlapping blocks of
`state_size` numbers each, drawn from one engine seeded with the given seed; and there is a generator for every thread but the last, and one
for every task.  (With one thread the only generator is the engine seeded with the seed.) -/
theorem C48_seeds {G : Type} (env : HEnv) (e : HEngine G) (seed : ℤ) (hseed : 0 ≤ seed) (device : ℕ) :
    (env.threads = 1 → e.gens XR env.threads seed device = some [e.seed seed.toNat]) ∧
    (1 < env.threads → ∃ (L : ℕ) (tasks : List (ℕ × ℕ)) (seqs : List (List ℕ)), HTree.firstParallelLevel XR env.threads = some L ∧ HTree.taskList env L = some tasks ∧
      e.gens XR env.threads seed device = some (seqs.map e.ofSeq) ∧ seqs.length = (env.threads - 1) + tasks.length ∧
      (∀ s ∈ seqs, s.length = e.stateSize) ∧ seqs.flatten = e.draws (seqs.length * e.stateSize) (e.seed seed.toNat)) := by
  constructor
  · intro h1
    unfold HEngine.gens
    rw [if_pos h1, if_pos hseed]
  · intro h1
    obtain ⟨L, nt, ts, e1, _, _, e2, _, e3, e4, _⟩ := C42_task_count env h1
    have hl := length_hdraws e ((env.threads - 1 + nt) * e.stateSize) (e.seed seed.toNat)
    refine ⟨L, ts, (List.range (env.threads - 1 + nt)).map fun i =>
      ((e.draws ((env.threads - 1 + nt) * e.stateSize) (e.seed seed.toNat)).drop (i * e.stateSize)).take e.stateSize, e1, e3, ?_, ?_, ?_, ?_⟩
    · unfold HEngine.gens
      rw [if_neg (by omega), obind e1, obind e2, if_pos hseed]
      unfold HEngine.initialize
      rw [List.map_map]
      rfl
    · rw [List.length_map, List.length_range, e4]
    · intro s hs
      obtain ⟨i, hi, rfl⟩ := List.mem_map.1 hs
      have hi' := List.mem_range.1 hi
      rw [List.length_take, List.length_drop, hl]
      have : (i + 1) * e.stateSize ≤ (env.threads - 1 + nt) * e.stateSize := Nat.mul_le_mul_right _ hi'
      rw [Nat.succ_mul] at this
      omega
    · rw [windows_flatten _ _ _ hl, List.length_map, List.length_range]

/-! ### C49 -/

/-- C49.  For supported input, every source of random numbers, thread count, build and schedule, every execution of
`hypergirgs::generateEdges` that returns, returns a simple graph on the nodes `0..n-1`. -/
theorem C49_simple_graph (hin : HypInput radii angles T R) (env : HEnv) (rng : Tree.Rng XR) (u : UnitRng rng) (gens : ℕ → rng.G)
    (out : List (ℕ × ℕ)) (h : HGenerateEdges env rng gens (xw radii) (xw angles) (XR.fin T) (XR.fin R) out) :
    IsSimpleGraph radii.length out := by
  obtain ⟨H, hH, calls, hc, ho⟩ := h
  have b := hH.builtX hin
  have st := hstartOK_XR env
  have p1 := b.ok.generate_perm u.geo (b.draws hin.temp u) b.fo st gens hc
  have q1 := EdgeBuffer.IsMerge.perm (ho.isMerge (by unfold blockSize; omega))
  have hs := b.ok.units_simple u.geo (b.draws hin.temp u) b.fo st gens
  rw [b.n_eq, xw, List.length_map] at hs
  exact perm_simple (q1.trans p1) hs

/-- C49 (no undefined behaviour).  For every source of random numbers: the sequential run is defined; and with more threads, whatever the
schedule and the state it has reached, all sampling done so far by any thread is defined. -/
theorem C49_defined (hin : HypInput radii angles T R) (env : HEnv) (rng : Tree.Rng XR) (u : UnitRng rng)
    (gens : ℕ → rng.G) (hH : HConstructed env.ndebug (xw radii) (xw angles) (XR.fin T) (XR.fin R) H) :
    (∃ ts r, HTree.visitCellPair H H.levels 0 0 0 = some ts ∧ HTree.runTasks H rng ts (gens 0) = some r) ∧
    (2 ≤ env.threads → ∃ fpl tasks, HTree.firstParallelLevel XR env.threads = some fpl ∧
      (if fpl < H.levels then HTree.taskList env fpl else some []) = some tasks ∧
      ∀ (sched : List TaskQueue.Act) (s : TaskQueue.State),
        TaskQueue.run tasks.length (TaskQueue.init env.threads (decide (fpl < H.levels))) sched = some s →
        ∀ (k : ℕ) (l : List ℕ), s.log[k]? = some l → ∃ es, HTree.threadCallbacks H rng gens fpl env.threads tasks k l = some es) := by
  have b := hH.builtX hin
  constructor
  · have hok : ∀ t ∈ hvisit H.layers H.levels (hpair R) H.full H.levels 0 0 0, HTaskOK H (hpair R) t :=
      hvisit_ok _ _ _ _ onLv_zero onLv_zero
    obtain ⟨_, es, g', _, h2, _⟩ := hrunTasks_spec u.geo (b.draws hin.temp u) b.ok b.fo _ hok (gens 0)
    exact ⟨_, _, b.ok.root_eq, h2⟩
  · intro hth
    have st := hstartOK_XR env
    have h2 := st.two
    have h26 := st.le
    refine ⟨startLevel env.threads, hTasks env H (startLevel env.threads), st.eq (by omega), b.ok.tasks_eq env (by omega) (by omega), ?_⟩
    intro sched s hs k l hl
    have hlog : ∀ i ∈ l, i < (hTasks env H (startLevel env.threads)).length := by
      obtain ⟨nt, _, hnt, hle, _⟩ := length_hTasks (H := H) env st.two st.le
      have hb : (hTasks env H (startLevel env.threads)).length + env.threads + 1 < 2 ^ 32 := by have := env.threads_le; omega
      have := (C43_each_task_once env.threads _ (decide (startLevel env.threads < H.levels)) hth (by
        intro h
        unfold hTasks
        rw [if_neg (by simpa using h)]; rfl) hb sched).2 s hs
      intro i hi
      exact this.2.1 i (List.mem_flatten.2 ⟨l, List.mem_of_getElem? hl, hi⟩)
    exact ⟨_, b.ok.threadCallbacks_eq u.geo (b.draws hin.temp u) b.fo st gens hth k l hlog⟩

/-- two points of radius 5 at a right angle are more than 6 apart -/
theorem example_far : cosh 6 < hypCosh (6 - 1) (π / 2 ^ (2 - 1)) (6 - 1) 0 := by
  unfold hypCosh
  rw [show π / 2 ^ (2 - 1) - 0 = π / 2 by norm_num, cos_pi_div_two, mul_zero, sub_zero]
  have h1 : cosh (5 : ℝ) * cosh 5 = (cosh 10 + 1) / 2 := by
    have := cosh_two_mul (5 : ℝ)
    have h2 := cosh_sq (5 : ℝ)
    norm_num at this
    nlinarith
  norm_num
  rw [h1]
  have h3 : (10 : ℝ) = 6 + 4 := by norm_num
  have h4 : cosh (10 : ℝ) = cosh 6 * cosh 4 + sinh 6 * sinh 4 := by rw [h3, cosh_add]
  have h5 : (4 : ℝ) ≤ sinh 4 := self_le_sinh_iff.2 (by norm_num)
  have h6 : (6 : ℝ) ≤ sinh 6 := self_le_sinh_iff.2 (by norm_num)
  have h7 : sinh (4 : ℝ) < cosh 4 := sinh_lt_cosh 4
  have h8 : 1 ≤ cosh (6 : ℝ) := one_le_cosh 6
  nlinarith

/-- with two threads (start level 2) the call returns for the example, and the result is a simple graph (C41 - C44, C48, C49 apply) -/
example : ∃ out, HGenerateEdges (exampleHEnv true 2 (by norm_num) (by norm_num)) exampleRng (fun _ => ()) (xw [1, 2, 9 / 2, 5])
    (xw [0, 1, 3 / 2, 4]) (XR.fin (1 / 2)) (XR.fin 6) out ∧ IsSimpleGraph 4 out := by
  obtain ⟨out, h⟩ := (C44_returns_iff (exampleHyp (T := 1 / 2) (by norm_num)) (exampleHEnv true 2 (by norm_num) (by norm_num)) exampleRng
    exampleRng_unit (fun _ => ())).2 (Or.inr ⟨2, by
      have h := (hstartOK_XR (exampleHEnv true 2 (by norm_num) (by norm_num))).eq (by show (2 : ℕ) ≠ 1; norm_num)
      rw [h]
      unfold startLevel
      rw [if_neg (by show (2 : ℕ) ≠ 1; norm_num)]
      have : Real.logb 2 (2 * ((2 : ℕ) : ℝ)) = 2 := by
        rw [show (2 * ((2 : ℕ) : ℝ)) = 2 ^ (2 : ℝ) by norm_num, Real.logb_rpow (by norm_num) (by norm_num)]
      show some (⌈Real.logb 2 (2 * ((2 : ℕ) : ℝ))⌉.toNat) = some 2
      rw [this]
      norm_num
      rfl, example_far⟩)
  exact ⟨out, h, C49_simple_graph (exampleHyp (by norm_num)) _ _ exampleRng_unit _ out h⟩

/-- the hypotheses of `C44_small_disk_hangs` hold for one point in a disk of radius 1 -/
example (out : List (ℕ × ℕ)) : ¬ HGenerateEdges (exampleHEnv true 2 (by norm_num) (by norm_num)) exampleRng (fun _ => ()) (xw [1 / 2])
    (xw [0]) (XR.fin 0) (XR.fin 1) out :=
  C44_small_disk_hangs (radii := [1 / 2]) (angles := [0]) ⟨rfl, by simp, by simp, by intro r hr; rw [List.mem_singleton.1 hr]; norm_num,
    by intro r hr; rw [List.mem_singleton.1 hr]; exact ⟨le_rfl, by positivity⟩, le_rfl, Or.inl ⟨by norm_num, le_rfl⟩⟩ (by norm_num) _ le_rfl
    exampleRng exampleRng_unit _ out

end Girgs.Props
