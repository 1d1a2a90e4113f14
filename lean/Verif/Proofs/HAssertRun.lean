import Verif.Proofs.HAssertTasks
import Verif.Proofs.AssertRun
/-
The final assertion about the pair counters of the hyperbolic sampler, and the assertions of complete executions of `generate`.
-/
namespace Girgs
open CFloat HTree Spec

theorem HMostly.one {Z : Prop} {c : Check} (h : c.holds = true) : HMostly Z [c] := (allHold_one h).hmostly Z

section final
variable {F : Type} [CFloat F] {H : HTree F} {tgt : Nat → Nat} {pbl : Nat → Nat → Nat} {nl : Nat}

/-- the final assertion holds -/
theorem HTreeOK.final_check (ok : HTreeOK H tgt pbl nl) (fo : HFiltersOK H pbl) (line : Nat) {ts : List Task}
    (hts : ts.Perm (hvisit H.layers H.levels pbl true H.levels 0 0 0)) : H.finalCheck line ts = some (HAsserts.tree line true) := by
  obtain ⟨a, b, cs, h1, h2, h3⟩ := ok.totals_spec fo ts (fun t ht => hvisit_ok _ _ _ _ onLv_zero onLv_zero t (hts.mem_iff.1 ht))
  obtain ⟨cs', h4, h5⟩ := ok.eachPairOnce hts
  rw [h2, Option.some.injEq] at h4
  subst h4
  have h6 := eachPairOnce_length h5
  rw [List.length_map] at h6
  have h7 : a + b = ((H.n : Int) - 1) * (H.n : Int) := by
    rw [h3]
    cases hn : H.n with
    | zero => rw [hn] at h6; simp at h6 ⊢; omega
    | succ k =>
      rw [hn] at h6
      simp only [Nat.add_sub_cancel] at h6
      have : (2 * cs.length : Int) = ((k + 1 : Nat) : Int) * (k : Int) := by exact_mod_cast h6
      rw [this]; push_cast; ring
  unfold HTree.finalCheck
  rw [obind h1, h7]
  simp

/-- the calls of the queued task `i` -/
theorem HTreeOK.queuedCalls_eq (ok : HTreeOK H tgt pbl nl) (env : HEnv) {fpl i : Nat} (hi : i < (hTasks env H fpl).length) :
    H.queuedCalls fpl (hTasks env H fpl) i = some (hTaskCalls H pbl fpl ((hTasks env H fpl).getD i (0, 0))) := by
  have e : rd (hTasks env H fpl) i = some ((hTasks env H fpl).getD i (0, 0)) := by
    unfold rd
    rw [List.getD_eq_getElem?_getD, List.getElem?_eq_getElem hi]; rfl
  unfold HTree.queuedCalls
  rw [obind e]
  refine ok.taskCalls_eq env ?_
  rw [List.getD_eq_getElem?_getD, List.getElem?_eq_getElem hi]
  exact List.getElem_mem hi

end final

theorem flatMap_getD {α β : Type} (L : List α) (d : α) (f : α → List β) :
    (List.range L.length).flatMap (fun i => f (L.getD i d)) = L.flatMap f := by
  induction L with
  | nil => rfl
  | cons a L ih =>
    rw [List.length_cons, Nat.add_comm, flatMap_range_add, List.flatMap_cons, ← ih]
    simp [Nat.add_comm 1]

section exact
variable {radii angles : List ℝ} {T R : ℝ} {H : HTree XR}

theorem HBuiltX.full_eq (b : HBuiltX false radii angles T R H) : H.full = true := by
  unfold HTree.full; rw [b.ndebug_eq]; rfl

/-- every assertion `generate` evaluates holds, except possibly HyperbolicTree.inl:331; the one about the counters is among them -/
theorem HBuiltX.generate_checks (b : HBuiltX false radii angles T R H) (hin : HypInput radii angles T R) (hrad : LayerRadii R H)
    {rng : Tree.Rng XR} (ur : UnitRng rng) (hgeo : GeoBounded rng) (gens : Nat → rng.G) {env : HEnv} {checks : Option (List Check)}
    (hg : HTree.DebugGenerate env H (xw radii) (xw angles) rng gens checks) :
    ∃ L, checks = some L ∧ HMostly (ShortcutUnsafe T R) L ∧ HAsserts.tree (if env.threads = 1 then 66 else 144) true ∈ L := by
  have ok := b.ok
  have fo := b.fo
  have st := hstartOK_XR env
  generalize hfl : startLevel env.threads = fpl at st
  have hfull := b.full_eq
  unfold HTree.DebugGenerate at hg
  by_cases h1 : env.threads = 1
  · rw [if_pos h1] at hg
    have hroot := ok.root_eq
    rw [hfull] at hroot
    obtain ⟨C, h2, h3⟩ := b.tasks_checks hin hrad ur hgeo _ (fun t ht => ht) (gens 0)
    rw [obind hroot, obind h2, obind (ok.final_check fo 66 (List.Perm.refl _))] at hg
    refine ⟨_, hg, h3.append (HMostly.one rfl), ?_⟩
    rw [if_pos h1]; simp
  · rw [if_neg h1] at hg ⊢
    obtain ⟨fpl', tasks, sched, s, h2, h3, h4, h5, h6⟩ := hg
    rw [st.eq h1, Option.some.injEq] at h2
    subst h2
    rw [ok.tasks_eq env (by have := st.two; omega) (by have := st.le; omega), Option.some.injEq] at h3
    subst h3
    have hth : 2 ≤ env.threads := by have := env.threads_pos; omega
    have hsub : ∀ t ∈ (hUnits env H (hpair R) fpl).flatten, t ∈ hvisit H.layers H.levels (hpair R) true H.levels 0 0 0 :=
      fun t ht => (ok.units_subperm env (by have := st.two; omega)).subset ht
    have hunits : hUnits env H (hpair R) fpl = (List.range (env.threads - 1)).map (hShare env H (hpair R) fpl) ++
        (hTasks env H fpl).map (hTaskCalls H (hpair R) fpl) := by unfold hUnits; rw [if_neg h1]
    obtain ⟨nt, hnte, hnt, hle, heq⟩ := length_hTasks (H := H) env st.two st.le
    have hb : (hTasks env H fpl).length + env.threads + 1 < 2 ^ 32 := by have := env.threads_le; omega
    have hinv := (TaskQueue.init_inv (n := env.threads) (m := (hTasks env H fpl).length) (gen := decide (fpl < H.levels)) hth (by
      intro hf
      unfold hTasks
      rw [if_neg (by simpa using hf)]; rfl)).of_run hb sched h4
    have hlog := hinv.done_log (by omega) h5
    have hlt : ∀ i ∈ s.log.flatten, i < (hTasks env H fpl).length := fun i hi => List.mem_range.1 (hlog.mem_iff.1 hi)
    -- the shares
    obtain ⟨A, a1, a2⟩ := HMostly.concatM (Z := ShortcutUnsafe T R) (L := List.range (env.threads - 1))
      (f := H.shareChecks (xw radii) (xw angles) rng gens fpl env.threads) (by
        intro k hk
        rw [List.mem_range] at hk
        obtain ⟨C, c1, c2⟩ := b.tasks_checks hin hrad ur hgeo (hShare env H (hpair R) fpl k) (fun t ht => hsub t (by
          rw [hunits, List.flatten_append]
          exact List.mem_append_left _ (List.mem_flatten.2 ⟨_, List.mem_map.2 ⟨k, List.mem_range.2 hk, rfl⟩, ht⟩))) (gens k)
        refine ⟨C, ?_, c2⟩
        unfold HTree.shareChecks
        rw [obind (ok.share_eq hth fpl k (by omega))]
        exact c1)
    -- the queued tasks
    obtain ⟨B, b1, b2⟩ := HMostly.concatM (Z := ShortcutUnsafe T R) (L := s.log.flatten)
      (f := H.queuedChecks (xw radii) (xw angles) rng gens fpl env.threads (hTasks env H fpl)) (by
        intro i hi
        have hi' := hlt i hi
        obtain ⟨C, c1, c2⟩ := b.tasks_checks hin hrad ur hgeo (hTaskCalls H (hpair R) fpl ((hTasks env H fpl).getD i (0, 0))) (fun t ht => hsub t (by
          rw [hunits, List.flatten_append]
          refine List.mem_append_right _ (List.mem_flatten.2 ⟨_, List.mem_map.2 ⟨_, ?_, rfl⟩, ht⟩)
          rw [List.getD_eq_getElem?_getD, List.getElem?_eq_getElem hi']
          exact List.getElem_mem hi')) (gens (env.threads - 1 + i))
        refine ⟨C, ?_, c2⟩
        unfold HTree.queuedChecks
        rw [obind hnte, obind (ok.queuedCalls_eq env hi'), if_pos (by omega)]
        exact c1)
    have d1 := concatM_some (L := List.range (env.threads - 1)) (f := H.shareOf fpl env.threads) (g := hShare env H (hpair R) fpl)
      (fun k hk => ok.share_eq hth fpl k (by rw [List.mem_range] at hk; omega))
    have d2 := concatM_some (L := s.log.flatten) (f := H.queuedCalls fpl (hTasks env H fpl))
      (g := fun i => hTaskCalls H (hpair R) fpl ((hTasks env H fpl).getD i (0, 0))) (fun i hi => ok.queuedCalls_eq env (hlt i hi))
    have hperm : ((List.range (env.threads - 1)).flatMap (hShare env H (hpair R) fpl) ++
        s.log.flatten.flatMap (fun i => hTaskCalls H (hpair R) fpl ((hTasks env H fpl).getD i (0, 0)))).Perm
        (hvisit H.layers H.levels (hpair R) true H.levels 0 0 0) := by
      refine List.Perm.trans ?_ (ok.units_perm env (fpl := fpl) (by have := st.two; omega) hfull)
      rw [hunits, List.flatten_append, ← List.flatMap_def, ← List.flatMap_def]
      refine List.Perm.append_left _ ?_
      refine (hlog.flatMap_right _).trans ?_
      rw [flatMap_getD]
    rw [obind hnte, obind a1, obind b1, obind d1, obind d2, obind (ok.final_check fo 144 hperm)] at h6
    have h112 : AllHold (if fpl < H.levels then [HAsserts.tree 112 (decide (nt = (hTasks env H fpl).length))] else []) := by
      split
      · rename_i hf
        exact allHold_one (decide_eq_true (heq hf).symm)
      · exact allHold_nil
    refine ⟨_, h6, ((((HMostly.one (decide_eq_true st.two)).append (h112.hmostly _)).append a2).append b2).append (HMostly.one rfl), ?_⟩
    simp

end exact
end Girgs
