import Verif.Model.HyperGenerate
/-
OpenMP may execute a parallel region with fewer threads than `num_threads(...)` requests: if dynamic adjustment is on, if the
thread limit is reached, or if the region is nested in another one (then the team has one thread, while
`omp_get_max_threads()` still returns the usual number).  Here the team of the parallel regions in
`HyperbolicTree::generate` and `SpatialTree::generateEdges` is a parameter.
-/
namespace Girgs
open CFloat

namespace TaskQueue

/-- start of the parallel region of `HyperbolicTree::generate`, HyperbolicTree.inl:96-124, executed by a team of `team` threads:
the roles depend on the requested number `threads` (`tid + 1 == num_threads`, `tid + 1 < num_threads`) -/
def initTeam (threads team : Nat) (gen : Bool) : State :=
  { pcs := (List.range team).map fun k => if k + 1 = threads then (if gen then .create else .fetch) else .share
    owner := none, flag := false, size := 0, counter := 0, log := List.replicate team [] }

end TaskQueue

/-- `generate(seed)` as `HTree.Generate` (HyperbolicTree.inl:56-145), with a team of `team` threads in the parallel region -/
def HTree.GenerateTeam {F : Type} [CFloat F] (env : HEnv) (team : Nat) (H : HTree F) (rng : Tree.Rng F) (gens : Nat → rng.G)
    (calls : List (List (Nat × Nat))) : Prop :=
  if env.threads = 1 then
    ∃ ts r, HTree.visitCellPair H H.levels 0 0 0 = some ts ∧ HTree.runTasks H rng ts (gens 0) = some r ∧ calls = [r.1]
  else
    ∃ fpl tasks sched s, HTree.firstParallelLevel F env.threads = some fpl ∧
      (if fpl < H.levels then HTree.taskList env fpl else some []) = some tasks ∧
      TaskQueue.run tasks.length (TaskQueue.initTeam env.threads team (decide (fpl < H.levels))) sched = some s ∧ s.finished ∧
      calls.length = env.threads ∧
      (∀ (k : Nat) (l : List Nat), s.log[k]? = some l →
        ∃ es, HTree.threadCallbacks H rng gens fpl env.threads tasks k l = some es ∧ calls[k]? = some es) ∧
      ∀ k, team ≤ k → k < env.threads → calls[k]? = some []

/-- `hypergirgs::generateEdges` as `HGenerateEdges` (Generator.cpp:132-171), with a team of `team` threads -/
def HGenerateEdgesTeam {F : Type} [CFloat F] (env : HEnv) (team : Nat) (rng : Tree.Rng F) (gens : Nat → rng.G) (radii angles : List F)
    (T R : F) (out : List (Nat × Nat)) : Prop :=
  ∃ H, HConstructed env.ndebug radii angles T R H ∧
    ∃ calls, HTree.GenerateTeam env team H rng gens calls ∧ EdgeBuffer.Run blockSize calls out

/-- `SpatialTree::generateEdges`, SpatialTree.inl:75-80, with a team of `team ≤ threads` threads: the iterations are split among the
threads of the team (`split`, contiguous chunks in the order of the thread numbers as `schedule(static)` demands); the requested
threads that are not in the team make no calls -/
def teamEnv (ndebug : Bool) (threads team : Nat) (split : Nat → List (List Nat)) (h1 : 1 ≤ team) (ht : team ≤ threads)
    (hm : threads ≤ 8388608) (hlen : ∀ N, (split N).length = team) (hfl : ∀ N, (split N).flatten = List.range N) : Env where
  ndebug := ndebug
  threads := threads
  chunks N := split N ++ List.replicate (threads - team) []
  threads_pos := by omega
  threads_le := hm
  chunks_length N := by rw [List.length_append, hlen, List.length_replicate]; omega
  chunks_flatten N := by
    rw [List.flatten_append, hfl]
    have : (List.replicate (threads - team) ([] : List Nat)).flatten = [] := by simp
    rw [this, List.append_nil]

end Girgs
