import Verif.Props.IntSort
import Verif.Proofs.RaceSort
import Verif.Proofs.RaceQueueHB
import Verif.Proofs.HConstruct
/-
C69 - C71: data races in the parallel regions (see Spec/Race.lean for the definitions).
-/
namespace Girgs.Props
open Spec

/-! ### C69: intsort -/

section
open IntSort

/-- C69.  `intsort`, under the conditions of C10: in each of the three phases between its barriers (counting the first digits,
scattering into the buffer, sorting the buckets) no reachable state has a data race.  The counting starts with the chunks and
cleared counters; the scattering with the writes computed from the counters; the bucket loop with the buffer that some
interleaving of those writes produced. -/
theorem C69_intsort {T : Type} (key : T → Nat) (maxKey omp t : Nat) (A B0 : List T)
    (ht1 : 1 ≤ t) (ht : t ≤ maxThreads omp A.length ∨ t = 1) (hn : A.length ≤ 17179869184) (hB : B0.length = A.length)
    (hk : ∀ x ∈ A, key x < 2 ^ ilog2 maxKey) :
    (∀ chunks, (countRegion key (cfg maxKey)).RaceFree (countInit chunks)) ∧
    ∃ wss splitter, msdPhase key (cfg maxKey) t A = some (wss, splitter) ∧
      writeRegion.RaceFree ⟨wss, B0⟩ ∧
      ∀ s, writeRegion.Reaches ⟨wss, B0⟩ s → (∀ l ∈ s.todo, l = []) →
        (lsdRegion key (cfg maxKey) splitter).RaceFree (lsdInit (cfg maxKey) splitter A s.mem) := by
  have hth : (t - 1) * (t - 1) ≤ A.length := by
    rcases ht with h | h
    · exact threads_ok h hn
    · subst h; exact Nat.zero_le _
  have hk' : KeysOk key maxKey A := Or.inl hk
  obtain ⟨f1, f2, f3, f4, f5, f6, f7⟩ := cfg_facts maxKey
  obtain ⟨wss, e1, e2⟩ := msd_spec (c := cfg maxKey) ht1 hth hk'.d_lt
  refine ⟨fun chunks => count_raceFree _ _ _, wss, _, e1, (msd_separate ht1 hth hk'.d_lt e1).raceFree B0, ?_⟩
  intro s hs hd
  obtain ⟨ws, hi, ha⟩ := write_complete_iff.2 ⟨s, hs, hd, rfl⟩
  rw [e2 ws hi B0 hB] at ha
  rw [← Option.some.inj ha]
  obtain ⟨_, _, hsp, hLs, hLN, hg⟩ := lsd_start (t := t) hk
  exact lsd_raceFree f4 hsp hLs (le_of_eq hLN) hg

/-- C69, the counting is the one of `intsort`: in every execution that has counted all elements the counters of thread `r` are
those that the rest of the algorithm is computed from (`countChunk` in `msdPhase`). -/
theorem C69_counting {T : Type} (key : T → Nat) (maxKey : Nat) (chunks : List (List T)) (s : CountState T)
    (hr : (countRegion key (cfg maxKey)).Reaches (countInit chunks) s) (hd : ∀ l ∈ s.todo, l = []) :
    chunks.mapM (countChunk key (cfg maxKey)) = some s.counters := by
  obtain ⟨h1, h2, h3⟩ := count_reach (by rw [countInit]; exact List.length_map _) hr
  have h1 : s.counters.length = chunks.length := h1
  have h2 : s.todo.length = chunks.length := h2
  refine mapM_of_get h1 ?_
  intro i xs row hx hrow
  have hi : i < chunks.length := (List.getElem?_eq_some_iff.1 hx).1
  have a1 : s.todo[i]? = some [] := by
    have hl : i < s.todo.length := by omega
    rw [List.getElem?_eq_getElem hl, hd _ (List.getElem_mem hl)]
  have a4 : (countInit chunks).counters[i]? = some (List.replicate 264 0) := by
    rw [countInit, List.getElem?_map, List.getElem?_eq_getElem hi, Option.map_some]
  exact (h3 i _ _ _ _ a1 hrow hx a4).symm

/-- C69, the scattering is the one of `intsort`: the buffers that the interleavings of C10 produce are those of the complete
executions of the scattering loop. -/
theorem C69_scattering {T : Type} (wss : List (List (Nat × T))) (B0 B : List T) :
    (∃ ws, Interleaving wss ws ∧ applyWrites B0 ws = some B) ↔
      ∃ s, writeRegion.Reaches ⟨wss, B0⟩ s ∧ (∀ l ∈ s.todo, l = []) ∧ s.mem = B := write_complete_iff

/-- C69, the accesses that the regions declare are the accesses their steps make: a step changes only locations it is declared
to write, and what it does depends only on private data and on the locations it is declared to read. -/
theorem C69_accesses {T : Type} (key : T → Nat) (c : Cfg) (splitter : List Nat) :
    (countRegion key c).Honest id (fun s (l : Nat × Nat) => s.counters[l.1]?.bind fun row => row[l.2]?) (fun s t => s.todo[t]?) ∧
    (writeRegion (T := T)).Honest id (fun s (l : Nat) => s.mem[l]?) (fun s t => s.todo[t]?) ∧
    (lsdRegion key c splitter).Honest id (fun g (l : Bool × Nat) => if l.1 then g.B[l.2]? else g.A[l.2]?) (fun g i => g.priv[i]?) :=
  ⟨count_honest key c, write_honest, lsd_honest key c splitter⟩

/-- hypotheses of C69 at work, with keys of two digits -/
example : ∃ wss splitter, msdPhase (fun x : Nat => x) (cfg 1000) 1 [999, 5, 999] = some (wss, splitter) ∧
    writeRegion.RaceFree ⟨wss, [0, 0, 0]⟩ := by
  obtain ⟨_, wss, sp, h1, h2, _⟩ := C69_intsort (fun x : Nat => x) 1000 1 1 [999, 5, 999] [0, 0, 0] (by norm_num) (Or.inr rfl)
    (by norm_num) rfl (C10_keys_below_max _ 1000 _ (by norm_num) (by decide))
  exact ⟨wss, sp, h1, h2⟩

/-- hypotheses of C69 at work with a team of two threads: 2^17 + 1 elements -/
example : ∃ wss splitter, msdPhase (fun x : Nat => x) (cfg 1000) 2 (List.replicate 131073 7) = some (wss, splitter) ∧
    writeRegion.RaceFree ⟨wss, List.replicate 131073 0⟩ := by
  obtain ⟨_, wss, sp, h1, h2, _⟩ := C69_intsort (fun x : Nat => x) 1000 8 2 (List.replicate 131073 7) (List.replicate 131073 0)
    (by norm_num) (Or.inl (by rw [List.length_replicate]; decide)) (by rw [List.length_replicate]; norm_num) (by rw [List.length_replicate, List.length_replicate])
    (C10_keys_below_max _ 1000 _ (by norm_num) (fun x hx => by rw [(List.mem_replicate.1 hx).2]; norm_num))
  exact ⟨wss, sp, h1, h2⟩

/-- the definition does find races: two threads that both write element 3 -/
example : ¬ (writeRegion (T := Nat)).RaceFree ⟨[[(3, 1)], [(3, 2)]], [0, 0, 0, 0]⟩ :=
  fun h => h _ Region.Reaches.refl 0 1 3 ⟨by norm_num, by simp [writeRegion], true, by simp [writeRegion]⟩

end

/-! ### C70: construction of the cell index -/

section
open Build

/-- C70.  Construction of the cell index over `M` cells (the same code in SpatialTree.inl and RadiusLayer.cpp), under the
conditions of C12.  The marking loop has no data race, however its iterations are distributed over threads.  The repair loops of
`threads` threads, started behind the `single` construct, have a data race if and only if there are at least two threads and at
least two cells.  Every race is between a thread `r` that reads and the next thread that writes the first entry of its own
chunk; and every two neighbouring non-empty chunks do race. -/
theorem C70_index (M threads : Nat) (cells : List Nat) (hs : cells.Pairwise (· ≤ ·)) (hlt : ∀ c ∈ cells, c < M)
    (h1 : 1 ≤ cells.length) (hn : cells.length < 2147483648) (hM : M < 2147483648) (ht1 : 1 ≤ threads)
    (ht : threads < 2147483648) :
    (∀ (wss : List (List (Nat × Nat))) (a0 : List Nat), wss.flatten.Perm (marks cells) →
      IntSort.writeRegion.RaceFree ⟨wss, a0⟩) ∧
    ∀ a0 ws a1 a2, markInit M cells = some a0 → ws.Perm (marks cells) → IntSort.applyWrites a0 ws = some a1 →
      singleBlock M threads a1 = some a2 →
      ((repairRegion M threads).RaceFree ((List.range threads).map (rinit M threads), a2) ↔ ¬ (2 ≤ threads ∧ 2 ≤ M)) ∧
      (∀ g w r l, (repairRegion M threads).Reaches ((List.range threads).map (rinit M threads), a2) g →
        (repairRegion M threads).Conflict g w r l →
        w = r + 1 ∧ w < threads ∧ l = (M + threads - 1) / threads * w ∧ l < M ∧ (l, false) ∈ (repairRegion M threads).access g r) ∧
      ∀ r, r + 1 < threads → (M + threads - 1) / threads * (r + 1) < M →
        ∃ g, (repairRegion M threads).Reaches ((List.range threads).map (rinit M threads), a2) g ∧
          (repairRegion M threads).Conflict g (r + 1) r ((M + threads - 1) / threads * (r + 1)) := by
  have hc : Cells M cells := ⟨hs, hlt, h1, by omega, hM⟩
  refine ⟨fun wss a0 hp => (hc.marks_separate hp).raceFree a0, ?_⟩
  intro a0 ws a1 a2 e0 hp e1 e2
  obtain ⟨c, hch, a2', e2', hgi⟩ := hc.start ht1 ht
  rw [hc.marking e0 hp] at e1
  cases e1
  rw [e2] at e2'
  cases e2'
  obtain ⟨rfl, hiff⟩ := hch.lt_iff hc.M_pos hM ht1 ht
  have A1 : ∀ g w r l, (repairRegion M threads).Reaches ((List.range threads).map (rinit M threads), a2) g →
        (repairRegion M threads).Conflict g w r l →
        w = r + 1 ∧ w < threads ∧ l = (M + threads - 1) / threads * w ∧ l < M ∧ (l, false) ∈ (repairRegion M threads).access g r :=
    fun g w r l hr hcf => repair_conflict hch hc hgi refOk_init hr hcf
  have A2 : ∀ r, r + 1 < threads → (M + threads - 1) / threads * (r + 1) < M →
        ∃ g, (repairRegion M threads).Reaches ((List.range threads).map (rinit M threads), a2) g ∧
          (repairRegion M threads).Conflict g (r + 1) r ((M + threads - 1) / threads * (r + 1)) :=
    fun r hr hne => repair_race hch hc hgi hr hne
  refine ⟨⟨?_, ?_⟩, A1, A2⟩
  · intro hf hcon
    obtain ⟨g, hr, hcf⟩ := A2 0 (by omega) (by simpa using hiff.2 hcon)
    exact hf g hr _ _ _ hcf
  · intro hno g hr w r l hcf
    obtain ⟨q1, q2, q3, q4, _⟩ := A1 g w r l hr hcf
    refine hno (hiff.1 (lt_of_le_of_lt ?_ (q3 ▸ q4)))
    exact Nat.le_mul_of_pos_right _ (by omega)

/-- C70 for the radius layers of hypergirgs: same statement, with the initialisation of RadiusLayer.cpp -/
theorem C70_hyper (M threads : Nat) (cells : List Nat) (hs : cells.Pairwise (· ≤ ·)) (hlt : ∀ c ∈ cells, c < M)
    (h1 : 1 ≤ cells.length) (hn : cells.length < 2147483648) (hM : M < 2147483648) (ht1 : 1 ≤ threads)
    (ht : threads < 2147483648) (a0 a1 a2 : List Nat) (ws : List (Nat × Nat)) (h0 : HBuild.markInit M cells = some a0)
    (hw : ws.Perm (marks cells)) (ha : IntSort.applyWrites a0 ws = some a1) (hb : singleBlock M threads a1 = some a2) :
    ((repairRegion M threads).RaceFree ((List.range threads).map (rinit M threads), a2) ↔ ¬ (2 ≤ threads ∧ 2 ≤ M)) ∧
    ∀ g w r l, (repairRegion M threads).Reaches ((List.range threads).map (rinit M threads), a2) g →
      (repairRegion M threads).Conflict g w r l →
      w = r + 1 ∧ w < threads ∧ l = (M + threads - 1) / threads * w ∧ l < M ∧ (l, false) ∈ (repairRegion M threads).access g r := by
  have hc : Cells M cells := ⟨hs, hlt, h1, by omega, hM⟩
  rw [HBuild.markInit_eq hc] at h0
  obtain ⟨q1, q2, _⟩ := (C70_index M threads cells hs hlt h1 hn hM ht1 ht).2 a0 ws a1 a2 h0 hw ha hb
  exact ⟨q1, q2⟩

/-- C70, the declared accesses are those of the steps -/
theorem C70_accesses (M threads : Nat) :
    (repairRegion M threads).Honest id (fun g (l : Nat) => g.2[l]?) (fun g r => g.1[r]?) := repair_honest

/-- C70 at work: ten cells and four threads; thread 1 writes entry 3 while thread 0 reads it -/
example : ∃ a2 g, (repairRegion 10 4).Reaches ((List.range 4).map (rinit 10 4), a2) g ∧ (repairRegion 10 4).Conflict g 1 0 3 := by
  obtain ⟨a0, e0, h⟩ : IndexSafe 10 4 [0, 2, 2, 5, 9] :=
    (⟨by decide, by decide, by decide, by decide, by decide⟩ : Cells 10 [0, 2, 2, 5, 9]).indexSafe (by decide) (by decide)
  obtain ⟨a1, a2, e1, e2, _⟩ := h _ (List.Perm.refl _)
  obtain ⟨g, hr, hcf⟩ := ((C70_index 10 4 [0, 2, 2, 5, 9] (by decide) (by decide) (by decide) (by decide) (by decide) (by decide)
    (by decide)).2 a0 _ a1 a2 e0 (List.Perm.refl _) e1 e2).2.2 0 (by decide) (by decide)
  exact ⟨a2, g, hr, hcf⟩

end

/-! ### C71: task queue of the hyperbolic sampler -/

section
open TaskQueue

/-- C71.  Parallel sampling of hyperbolic edges with at least two threads, `m` tasks below the first parallel level.  In every
reachable state the only possible data race is on the flag: its writer is the last thread, holding the mutex, and the other thread is in
its test before locking the mutex.  If there is a task list to create, that race is reached with every number of threads; if
there is none, no state has a race. -/
theorem C71_flag (threads m : Nat) (gen : Bool) (hn : 2 ≤ threads) (hb : m + threads + 1 < 2 ^ 32) (hg : gen = false → m = 0) :
    (∀ s t u l, (region m).Reaches (init threads gen) s → (region m).Conflict s t u l →
      l = .flag ∧ t + 1 = threads ∧ s.pcs[t]? = some .setFlag ∧ s.owner = some t ∧ s.pcs[u]? = some .readFlag) ∧
    ((region m).RaceFree (init threads gen) ↔ gen = false) := by
  have A : ∀ s t u l, (region m).Reaches (init threads gen) s → (region m).Conflict s t u l →
      l = .flag ∧ t + 1 = threads ∧ s.pcs[t]? = some .setFlag ∧ s.owner = some t ∧ s.pcs[u]? = some .readFlag := by
    intro s t u l hr hc
    have hI := reach_inv hb (init_inv hn hg) hr
    obtain ⟨h1, h2, h3, h4⟩ := queue_conflict hI hn hc
    exact ⟨h1, h2, h3, (hI.mutex t _ h3).1 rfl, h4⟩
  refine ⟨A, ?_, ?_⟩
  · intro hf
    cases gen with
    | false => rfl
    | true =>
      obtain ⟨s, hr, hc⟩ := queue_race (m := m) hn
      exact absurd hc (hf s hr _ _ _)
  · rintro rfl s hr t u l hc
    obtain ⟨_, h2, h3, _⟩ := A s t u l hr hc
    have hI := reach_inv hb (init_inv hn hg) hr
    rcases (hI.last .setFlag (by rw [show threads - 1 = t by omega]; exact h3)).1 with ⟨_, h⟩ | h
    · cases h
    · simp [phase2] at h

/-- C71, the task list.  In a trace of events ordered by program order, by unlocking and later locking the mutex and by the
atomic counter: a thread that has locked the mutex before it accesses the task list happens after the creation of the list.  But
a thread that finds the flag set in its test without the mutex is not ordered after the creation: with every number of threads
from two on there is an execution in which the number of tasks is read in a data race with the creation of the task list. -/
theorem C71_tasks (threads m : Nat) (gen : Bool) (hn : 2 ≤ threads) (hb : m + threads + 1 < 2 ^ 32) (hg : gen = false → m = 0) :
    (∀ sched tr s, trace m (init threads gen) sched = some (tr, s) →
      ∀ i j e f w, tr[i]? = some e → tr[j]? = some f → (Var.tasks, true) ∈ e.access → (Var.tasks, w) ∈ f.access →
        e.thread ≠ f.thread → (∃ k f', k < j ∧ tr[k]? = some f' ∧ f'.thread = f.thread ∧ Sync.mutex ∈ f'.acquire) →
        HappensBefore tr i j) ∧
    (gen = true → ∃ sched tr s i j, trace m (init threads gen) sched = some (tr, s) ∧ DataRace tr i j .tasks) := by
  refine ⟨?_, ?_⟩
  · intro sched tr s ht i j e f w hi hj he hf hne hl
    exact locked_ordered hn hb hg ht hi hj he hf hne hl
  · rintro rfl
    obtain ⟨sched, tr, s, h1, h2⟩ := tasks_race m hn
    exact ⟨sched, tr, s, 0, 7, h1, h2⟩

/-- C71, the traces are the executions of C44, and the declared accesses are those of the steps -/
theorem C71_accesses (m : Nat) :
    (∀ s sched, (trace m s sched).map Prod.snd = run m s sched) ∧
    (region m).Honest Act.run
      (fun s l => match l with
        | .tasks => some s.size
        | .flag => some (if s.flag then 1 else 0))
      (fun s t => (s.pcs[t]?, s.owner, s.counter, s.log[t]?)) := by
  refine ⟨fun s sched => trace_run sched s, ?_⟩
  have e : queueVal = (fun s l => match l with
        | .tasks => some s.size
        | .flag => some (if s.flag then 1 else 0)) := by
    funext s l; cases l <;> rfl
  rw [← e]
  exact queue_honest m

/-- C71 at work: three threads, ten tasks -/
example : (∃ s, (region 10).Reaches (init 3 true) s ∧ (region 10).Conflict s 2 0 .flag) ∧ ¬ (region 10).RaceFree (init 3 true) :=
  ⟨queue_race (by norm_num), fun h => by
    have := (C71_flag 3 10 true (by norm_num) (by norm_num) (by simp)).2.1 h
    cases this⟩

end

end Girgs.Props
