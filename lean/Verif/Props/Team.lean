import Verif.Model.Team
import Verif.Props.HyperEdges
import Verif.Props.Exact
/-
C78: teams smaller than requested.
-/
namespace Girgs.Props
open Girgs.Spec Girgs.Tree Real

/-! ### The hyperbolic sampler -/

namespace Team
open TaskQueue

/-- nobody creates the task list: the flag is never set and every thread stays before the second phase -/
structure Lost (n : ℕ) (s : State) : Prop where
  len : s.pcs.length = n
  flag : s.flag = false
  pcs : ∀ p ∈ s.pcs, p = .share ∨ p = .readFlag ∨ p = .waitLock ∨ p = .waitTest ∨ p = .waiting

theorem Lost.set {n : ℕ} {s : State} (h : Lost n s) {t : ℕ} {p : PC} (o : Option ℕ)
    (hp : p = .share ∨ p = .readFlag ∨ p = .waitLock ∨ p = .waitTest ∨ p = .waiting) :
    Lost n { s with pcs := s.pcs.set t p, owner := o } := by
  refine ⟨by simpa using h.len, h.flag, ?_⟩
  intro q hq
  rcases List.mem_or_eq_of_mem_set hq with hq | rfl
  · exact h.pcs q hq
  · exact hp

theorem Lost.step {n m : ℕ} {s s' : State} (h : Lost n s) {a : Act} (hs : step m s a = some s') : Lost n s' := by
  cases a with
  | spurious t =>
    simp only [TaskQueue.step, Option.bind_eq_bind, Option.bind_eq_some_iff] at hs
    obtain ⟨p, _, hs⟩ := hs
    split at hs <;> (rw [Option.some.injEq] at hs; subst hs)
    · exact h.set s.owner (by simp)
    · exact h
  | run t =>
    simp only [TaskQueue.step, Option.bind_eq_bind, Option.bind_eq_some_iff] at hs
    obtain ⟨p, hp, hs⟩ := hs
    have hp' := h.pcs p (List.mem_of_getElem? hp)
    rcases hp' with rfl | rfl | rfl | rfl | rfl
    · simp only [Option.some.injEq] at hs
      subst hs
      exact h.set s.owner (by simp)
    · simp only [Option.some.injEq] at hs
      subst hs
      exact h.set s.owner (by simp [h.flag])
    · simp only at hs
      split at hs <;> (rw [Option.some.injEq] at hs; subst hs)
      · exact h.set (some t) (by simp)
      · exact h
    · simp only [h.flag, Bool.false_eq_true, if_false, Option.some.injEq] at hs
      subst hs
      have := h.set (t := t) (p := .waiting) none (by simp)
      rwa [h.flag] at this
    · simp only [Option.some.injEq] at hs
      subst hs
      exact h

theorem Lost.run {n m : ℕ} : ∀ (sched : List Act) {s s' : State}, Lost n s → run m s sched = some s' → Lost n s'
  | [], s, s', h, hs => by
    simp only [TaskQueue.run, List.foldlM_nil, Option.pure_def, Option.some.injEq] at hs
    subst hs; exact h
  | a :: sched, s, s', h, hs => by
    simp only [TaskQueue.run, List.foldlM_cons, Option.bind_eq_bind, Option.bind_eq_some_iff] at hs
    obtain ⟨s1, h1, h2⟩ := hs
    exact Lost.run sched (h.step h1) h2

theorem initTeam_lost {threads team : ℕ} (h : team < threads) (gen : Bool) : Lost team (initTeam threads team gen) := by
  refine ⟨by simp [initTeam], rfl, ?_⟩
  intro p hp
  simp only [initTeam, List.mem_map, List.mem_range] at hp
  obtain ⟨k, hk, rfl⟩ := hp
  rw [if_neg (by omega)]
  exact Or.inl rfl

/-- a full team starts in the state of the model without teams -/
theorem initTeam_full (threads : ℕ) (gen : Bool) : initTeam threads threads gen = init threads gen := rfl

end Team

/-- C78, hang: if the team of the parallel region is smaller than requested, no schedule brings even one of its threads to the end of the
region, whatever the input is. -/
theorem C78_smaller_team_hangs {threads team : ℕ} (h : team < threads) (m : ℕ) (gen : Bool) (sched : List TaskQueue.Act)
    (s : TaskQueue.State) (hs : TaskQueue.run m (TaskQueue.initTeam threads team gen) sched = some s) :
    ∀ p ∈ s.pcs, p ≠ TaskQueue.PC.done := by
  intro p hp
  rcases (Team.Lost.run sched (Team.initTeam_lost h gen) hs).pcs p hp with rfl | rfl | rfl | rfl | rfl <;> simp

theorem generateTeam_full {F : Type} [CFloat F] (env : HEnv) (H : HTree F) (rng : Rng F) (gens : ℕ → rng.G) (calls : List (List (ℕ × ℕ))) :
    HTree.GenerateTeam env env.threads H rng gens calls ↔ HTree.Generate env H rng gens calls := by
  unfold HTree.GenerateTeam HTree.Generate
  by_cases h1 : env.threads = 1
  · rw [if_pos h1, if_pos h1]
  rw [if_neg h1, if_neg h1]
  constructor
  · rintro ⟨fpl, tasks, sched, s, e1, e2, e3, e4, e5, e6, _⟩
    exact ⟨fpl, tasks, sched, s, e1, e2, e3, e4, e5, e6⟩
  · rintro ⟨fpl, tasks, sched, s, e1, e2, e3, e4, e5, e6⟩
    exact ⟨fpl, tasks, sched, s, e1, e2, e3, e4, e5, e6, fun k hk hk' => by omega⟩

/-- C78, full team: with as many threads as requested the executions are those of the other theorems. -/
theorem C78_full_team {F : Type} [CFloat F] (env : HEnv) (rng : Rng F) (gens : ℕ → rng.G) (radii angles : List F) (T R : F)
    (out : List (ℕ × ℕ)) :
    HGenerateEdgesTeam env env.threads rng gens radii angles T R out ↔ HGenerateEdges env rng gens radii angles T R out := by
  unfold HGenerateEdgesTeam HGenerateEdges
  simp only [generateTeam_full]

/-- C78, hyperbolic sampler: with more than one thread requested and a non-empty but smaller team, `hypergirgs::generateEdges` never returns:
for every floating point type, every input and every source of random numbers. -/
theorem C78_hyper_never_returns {F : Type} [CFloat F] (env : HEnv) {team : ℕ} (h1 : 1 ≤ team) (ht : team < env.threads) (rng : Rng F)
    (gens : ℕ → rng.G) (radii angles : List F) (T R : F) (out : List (ℕ × ℕ)) :
    ¬ HGenerateEdgesTeam env team rng gens radii angles T R out := by
  rintro ⟨H, _, calls, hg, _⟩
  unfold HTree.GenerateTeam at hg
  rw [if_neg (by omega)] at hg
  obtain ⟨fpl, tasks, sched, s, _, _, hs, hf, _⟩ := hg
  have hl := (Team.Lost.run sched (Team.initTeam_lost ht _) hs).len
  have hm : s.pcs[0] ∈ s.pcs := List.getElem_mem (by omega)
  exact C78_smaller_team_hangs ht _ _ sched s hs _ hm (hf _ hm)

/-- C78, exactly when `hypergirgs::generateEdges` has an execution that returns, for supported input: one thread is requested, or the
team is complete and the recursion is deep enough (C44). -/
theorem C78_hyper_returns_iff {radii angles : List ℝ} {T R : ℝ} (hin : HypInput radii angles T R) (env : HEnv) {team : ℕ} (h1 : 1 ≤ team)
    (ht : team ≤ env.threads) (rng : Rng XR) (u : UnitRng rng) (gens : ℕ → rng.G) :
    (∃ out, HGenerateEdgesTeam env team rng gens (xw radii) (xw angles) (XR.fin T) (XR.fin R) out) ↔
      env.threads = 1 ∨ team = env.threads ∧
        ∃ L, HTree.firstParallelLevel XR env.threads = some L ∧ cosh R < hypCosh (R - 1) (π / 2 ^ (L - 1)) (R - 1) 0 := by
  rcases Nat.lt_or_ge team env.threads with hlt | hge
  · constructor
    · rintro ⟨out, h⟩
      exact absurd h (C78_hyper_never_returns env h1 hlt rng gens _ _ _ _ out)
    · rintro (h | ⟨h, _⟩) <;> omega
  · obtain rfl : team = env.threads := by omega
    simp only [C78_full_team]
    rw [C44_returns_iff hin env rng u gens]
    tauto

/-! ### The GIRG sampler -/

/-- C78, GIRG sampler: the number of threads of the team does not matter.  Whatever number of threads is requested, for every team and
every split of the iterations among its threads, `girgs::generateEdges` has an execution that returns, and every execution returns a
simple graph (for `alpha = infinity`: the threshold graph). -/
theorem C78_girg_any_team {D : ℕ} {w : List ℝ} {x : List (Fin D → ℝ)} (s : SupportedInput D w x) (alpha : XR) (ndebug : Bool)
    {threads team : ℕ} (split : ℕ → List (List ℕ)) (h1 : 1 ≤ team) (ht : team ≤ threads) (hm : threads ≤ 8388608)
    (hlen : ∀ N, (split N).length = team) (hfl : ∀ N, (split N).flatten = List.range N) (rng : Rng XR) (hgeo : GeoBounded rng)
    (gens : ℕ → rng.G) :
    (∃ out notice, GenerateEdges (teamEnv ndebug threads team split h1 ht hm hlen hfl) rng gens (xw w) (xl x) alpha out notice) ∧
    ∀ out notice, GenerateEdges (teamEnv ndebug threads team split h1 ht hm hlen hfl) rng gens (xw w) (xl x) alpha out notice →
      IsSimpleGraph w.length out ∧ (alpha = XR.pinf → IsGraphOf w.length (ThresholdRule w x) out) := by
  have h := C17_simple_graph s alpha (teamEnv ndebug threads team split h1 ht hm hlen hfl) rng hgeo gens
  refine ⟨h.1, ?_⟩
  intro out notice hg
  refine ⟨(h.2.2 out notice hg).1, ?_⟩
  rintro rfl
  exact (C18_threshold_exact s _ rng hgeo gens out notice hg).1

/-- C78 at work: eight threads requested, but the region is nested (team of one thread): the hyperbolic sampler hangs on the four points that
it handles with one requested thread (below). -/
example (out : List (ℕ × ℕ)) : ¬ HGenerateEdgesTeam (exampleHEnv true 8 (by norm_num) (by norm_num)) 1 exampleRng (fun _ => ())
    (xw [1, 2, 9 / 2, 5]) (xw [0, 1, 3 / 2, 4]) (XR.fin (1 / 2)) (XR.fin 6) out :=
  C78_hyper_never_returns _ (by norm_num) (by show 1 < 8; norm_num) _ _ _ _ _ _ _

example : ∃ out, HGenerateEdgesTeam (exampleHEnv true 1 (by norm_num) (by norm_num)) 1 exampleRng (fun _ => ())
    (xw [1, 2, 9 / 2, 5]) (xw [0, 1, 3 / 2, 4]) (XR.fin (1 / 2)) (XR.fin 6) out :=
  (C78_hyper_returns_iff (exampleHyp (T := 1 / 2) (by norm_num)) _ le_rfl le_rfl _ exampleRng_unit _).2 (Or.inl rfl)

/-- C78 at work: the GIRG sampler with eight requested threads and a team of one -/
example : ∃ out notice, GenerateEdges (teamEnv true 8 1 (fun N => [List.range N]) le_rfl (by norm_num) (by norm_num) (fun _ => rfl)
    (fun _ => by simp)) exampleRng (fun _ => ()) (xw [1, 1, 5]) (xl [![0, 0], ![1 / 2, 1 / 4], ![7 / 8, 1 / 3]]) XR.pinf out notice :=
  (C78_girg_any_team exampleInput XR.pinf true _ le_rfl (by norm_num) (by norm_num) (fun _ => rfl) (fun _ => by simp) exampleRng
    exampleRng_geo (fun _ => ())).1

end Girgs.Props
