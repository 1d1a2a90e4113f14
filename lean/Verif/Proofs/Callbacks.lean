import Verif.Proofs.Parallel
import Verif.Model.Generator
/-
The edge callbacks of all threads, in terms of the calls of the sequential recursion.
-/
namespace Girgs
open CFloat Tree Spec
variable {F : Type} [CFloat F] {D : Nat} {T : Tree F D}

theorem runTasks_append (rng : Rng F) {ts ts' : List Task} {g : rng.G} {r r' : List (Nat × Nat) × rng.G}
    (h : runTasks T rng ts g = some r) (h' : runTasks T rng ts' r.2 = some r') :
    runTasks T rng (ts ++ ts') g = some (r.1 ++ r'.1, r'.2) := by
  induction ts generalizing g r with
  | nil =>
    simp only [runTasks, Option.some.injEq] at h
    subst h
    simpa using h'
  | cons t ts ih =>
    unfold runTasks at h
    cases h1 : runTask T rng t g with
    | none => rw [h1] at h; cases h
    | some x =>
      rw [obind h1] at h
      cases h2 : runTasks T rng ts x.2 with
      | none => rw [h2] at h; cases h
      | some y =>
        rw [obind h2] at h
        simp only [Option.some.injEq] at h
        subst h
        rw [List.cons_append]
        unfold runTasks
        refine (obind h1 _).trans ?_
        refine (obind (ih h2 h') _).trans ?_
        simp

/-- every thread executes a list of sampling calls; all lists together are the calls of the sequential recursion -/
structure Distributed (T : Tree F D) (rng : Rng F) (calls : List (List (Nat × Nat))) : Prop where
  ex : ∃ tss : List (List Task), tss.length = calls.length ∧ tss.flatten.Perm (visitP T T.levels 0 0 0) ∧
    ∀ (k : Nat) (ts : List Task), tss[k]? = some ts → ∃ g r, runTasks T rng ts g = some r ∧ calls[k]? = some r.1

/-- the calls of every thread, independently of the generators: thread `k` runs `tss[k]` with generator `gens k` -/
structure Plan (T : Tree F D) (rng : Rng F) (out : (Nat → rng.G) → Option (List (List (Nat × Nat)))) (tss : List (List Task)) : Prop where
  perm : tss.flatten.Perm (visitP T T.levels 0 0 0)
  run : ∀ gens : Nat → rng.G, ∃ calls, out gens = some calls ∧ calls.length = tss.length ∧
    ∀ (k : Nat) (ts : List Task), tss[k]? = some ts → ∃ r, runTasks T rng ts (gens k) = some r ∧ calls[k]? = some r.1

theorem Plan.dist {rng : Rng F} {out : (Nat → rng.G) → Option (List (List (Nat × Nat)))} {tss : List (List Task)}
    (p : Plan T rng out tss) (gens : Nat → rng.G) : ∃ calls, out gens = some calls ∧ calls.length = tss.length ∧ Distributed T rng calls := by
  obtain ⟨calls, h1, h2, h3⟩ := p.run gens
  exact ⟨calls, h1, h2, ⟨tss, h2.symm, p.perm, fun k ts hk => by obtain ⟨r, hr⟩ := h3 k ts hk; exact ⟨gens k, r, hr⟩⟩⟩

theorem TreeOK.sequential_plan (ok : TreeOK T) (rng : Rng F) (hgeo : GeoBounded rng) :
    Plan T rng (fun gens => (generateSequential T rng gens).map fun es => [es]) [visitP T T.levels 0 0 0] := by
  have hon : OnLevel D 0 0 := ⟨by simp [levelStart], by simp [levelStart]⟩
  have hlev : T.levels - 1 + 1 = T.levels := by have := ok.levels_eq; omega
  have hv := ok.visit_eq (T.levels - 1) T.levels 0 0 0 (by omega) (by omega) hon hon
  rw [hlev] at hv
  refine ⟨by simp, fun gens => ?_⟩
  obtain ⟨cs, es, g', h1, h2, h3⟩ := runTasks_spec rng hgeo ok (visitP T T.levels 0 0 0) (visitP_ok _ _ _ _ hon hon) (gens 0)
  refine ⟨[es], ?_, rfl, ?_⟩
  · have : generateSequential T rng gens = some es := by
      unfold generateSequential
      refine (obind hv _).trans ?_
      exact (obind h2 _).trans rfl
    simp [this]
  · intro k ts hk
    cases k with
    | zero => simp only [List.getElem?_cons_zero, Option.some.injEq] at hk; subst hk; exact ⟨_, h2, rfl⟩
    | succ k => simp at hk

theorem TreeOK.parallel_plan (ok : TreeOK T) (rng : Rng F) (hgeo : GeoBounded rng) {fpl : Nat}
    (hf : D * fpl ≤ 31) {chunks : List (List Nat)} (hne : chunks ≠ [])
    (hch : chunks.flatten.Perm (List.range (2 ^ (D * fpl)))) :
    ∃ tss, tss.length = chunks.length ∧ Plan T rng (fun gens => generateParallel T rng gens fpl chunks) tss := by
  have hon : OnLevel D 0 0 := ⟨by simp [levelStart], by simp [levelStart]⟩
  obtain ⟨ev, hplan, hperm⟩ := ok.plan_eq hf hch
  have hok : ∀ t ∈ eventTasks ev ++ (chunks.map (shareP T fpl ev)).flatten, TaskOK T t :=
    fun t ht => visitP_ok _ _ _ _ hon hon t (hperm.mem_iff.1 ht)
  set shares := chunks.map (shareP T fpl ev) with hshares
  have hlen : shares.length = chunks.length := by simp [hshares]
  have hsl0 : 0 < shares.length := by rw [hlen]; exact List.length_pos_iff.2 hne
  obtain ⟨sh0, shs, hshe⟩ := List.exists_cons_of_length_pos hsl0
  refine ⟨(eventTasks ev ++ sh0) :: shs, by rw [← hlen, hshe]; rfl, ⟨by rw [hshe] at hperm; simpa [List.append_assoc] using hperm, fun gens => ?_⟩⟩
  obtain ⟨cs0, e0, g0, h1, h2, h3⟩ := runTasks_spec rng hgeo ok (eventTasks ev) (fun t ht => hok t (by simp [ht])) (gens 0)
  obtain ⟨rs, cs, h4, h5, h6, h7⟩ := runShares_spec rng hgeo ok (fun k => if k = 0 then g0 else gens k) shares 0
    (fun ts hts t ht => hok t (List.mem_append_right _ (List.mem_flatten.2 ⟨ts, hts, ht⟩)))
  have hl0 : 0 < rs.length := by rw [h4, hlen]; exact List.length_pos_iff.2 hne
  obtain ⟨r0, rs', rfl⟩ := List.exists_cons_of_length_pos hl0
  refine ⟨(e0 ++ r0) :: rs', ?_, ?_, ?_⟩
  · unfold generateParallel
    refine (obind hplan _).trans ?_
    refine (obind h2 _).trans ?_
    have hm := mapM_some' (L := List.range shares.length) (f := fun k => do
      let ts ← rd shares k
      let r ← runTasks T rng ts (if k = 0 then g0 else gens k)
      some (if k = 0 then e0 ++ r.1 else r.1)) (g := fun k => (((e0 ++ r0) :: rs')[k]?).getD []) (by
        intro k hk
        rw [List.mem_range] at hk
        obtain ⟨r, hr, hr'⟩ := h5 k _ (List.getElem?_eq_getElem hk)
        rw [Nat.zero_add] at hr
        refine (obind (List.getElem?_eq_getElem hk) _).trans ?_
        refine (obind hr _).trans ?_
        cases k with
        | zero => simp at hr'; simp [hr']
        | succ k => simp at hr'; simp [hr'])
    refine (obind hm _).trans ?_
    congr 1
    apply List.ext_getElem?
    intro k
    rw [List.getElem?_map]
    by_cases hk : k < shares.length
    · rw [List.getElem?_range hk]
      have : k < ((e0 ++ r0) :: rs').length := by
        have : (r0 :: rs').length = ((e0 ++ r0) :: rs').length := rfl
        omega
      rw [Option.map_some, List.getElem?_eq_getElem this, Option.getD_some]
    · rw [List.getElem?_eq_none (by simpa using hk), List.getElem?_eq_none]
      · rfl
      · have : (r0 :: rs').length = ((e0 ++ r0) :: rs').length := rfl
        omega
  · rw [hshe] at h4; simpa using h4
  · rw [hshe] at h5
    intro k ts hk
    cases k with
    | zero =>
      simp only [List.getElem?_cons_zero, Option.some.injEq] at hk
      subst hk
      obtain ⟨r, hr, hr'⟩ := h5 0 sh0 rfl
      simp only [Nat.zero_add, if_true] at hr
      simp only [List.getElem?_cons_zero, Option.some.injEq] at hr' ⊢
      exact ⟨_, runTasks_append rng h2 hr, by rw [hr']⟩
    | succ k =>
      rw [List.getElem?_cons_succ] at hk
      obtain ⟨r, hr, hr'⟩ := h5 (k + 1) ts (by simpa using hk)
      rw [Nat.zero_add, if_neg (Nat.succ_ne_zero k)] at hr
      exact ⟨r, hr, by simpa using hr'⟩

/-- all callbacks together: a part of the examined pairs -/
theorem Distributed.subperm {rng : Rng F} {calls : List (List (Nat × Nat))} (d : Distributed T rng calls) (hgeo : GeoBounded rng)
    (ok : TreeOK T) : ∃ ts cs, ts.Perm (visitP T T.levels 0 0 0) ∧ T.allCandidates ts = some cs ∧ calls.flatten.Subperm (cs.map T.idxPair) := by
  have hon : OnLevel D 0 0 := ⟨by simp [levelStart], by simp [levelStart]⟩
  obtain ⟨tss, hlen, hp, hr⟩ := d.ex
  have hok : ∀ t ∈ tss.flatten, TaskOK T t := fun t ht => visitP_ok _ _ _ _ hon hon t (hp.mem_iff.1 ht)
  refine ⟨tss.flatten, ?_⟩
  clear d
  suffices h : ∀ (tss : List (List Task)) (calls : List (List (Nat × Nat))), tss.length = calls.length →
      (∀ t ∈ tss.flatten, TaskOK T t) →
      (∀ (k : Nat) (ts : List Task), tss[k]? = some ts → ∃ g r, runTasks T rng ts g = some r ∧ calls[k]? = some r.1) →
      ∃ cs, T.allCandidates tss.flatten = some cs ∧ calls.flatten.Subperm (cs.map T.idxPair) by
    obtain ⟨cs, h1, h2⟩ := h tss calls hlen hok hr
    exact ⟨cs, hp, h1, h2⟩
  intro tss
  induction tss with
  | nil =>
    intro calls hlen _ _
    obtain rfl : calls = [] := List.length_eq_zero_iff.1 hlen.symm
    exact ⟨[], rfl, by simp⟩
  | cons ts tss ih =>
    intro calls hlen hok hr
    cases calls with
    | nil => simp at hlen
    | cons c calls =>
      obtain ⟨cs, h1, h2⟩ := ih calls (by simpa using hlen) (fun t ht => hok t (by rw [List.flatten_cons]; exact List.mem_append_right _ ht))
        (fun k ts hk => by simpa using hr (k + 1) ts (by simpa using hk))
      obtain ⟨g, r, h3, h4⟩ := hr 0 ts rfl
      simp only [List.getElem?_cons_zero, Option.some.injEq] at h4
      obtain ⟨cs0, es, g', h5, h6, h7⟩ := runTasks_spec rng hgeo ok ts (fun t ht => hok t (by rw [List.flatten_cons]; exact List.mem_append_left _ ht)) g
      rw [h3, Option.some.injEq] at h6
      subst h6
      subst h4
      refine ⟨cs0 ++ cs, allCandidates_append h5 h1, ?_⟩
      rw [List.flatten_cons, List.map_append]
      exact h7.append h2

theorem Distributed.simple {rng : Rng F} {calls : List (List (Nat × Nat))} (d : Distributed T rng calls) (hgeo : GeoBounded rng)
    (ok : TreeOK T) : IsSimpleGraph T.n calls.flatten := by
  obtain ⟨ts, cs, h1, h2, h3⟩ := d.subperm hgeo ok
  exact ok.simple h1.subperm h2 h3

/-- if the edges a call emits do not depend on the generator, the callbacks are determined -/
theorem Distributed.determined {rng : Rng F} {calls : List (List (Nat × Nat))} (d : Distributed T rng calls) (f : Task → List (Nat × Nat))
    (hf : ∀ t ∈ visitP T T.levels 0 0 0, ∀ g, ∃ g', runTask T rng t g = some (f t, g')) :
    calls.flatten.Perm ((visitP T T.levels 0 0 0).flatMap f) := by
  obtain ⟨tss, hlen, hp, hr⟩ := d.ex
  have hf' : ∀ t ∈ tss.flatten, ∀ g, ∃ g', runTask T rng t g = some (f t, g') := fun t ht => hf t (hp.mem_iff.1 ht)
  have hrun : ∀ ts : List Task, (∀ t ∈ ts, ∀ g, ∃ g', runTask T rng t g = some (f t, g')) → ∀ g,
      ∃ g', runTasks T rng ts g = some (ts.flatMap f, g') := by
    intro ts
    induction ts with
    | nil => intro _ g; exact ⟨g, rfl⟩
    | cons t ts ih =>
      intro h g
      obtain ⟨g1, h1⟩ := h t (by simp) g
      obtain ⟨g2, h2⟩ := ih (fun t ht => h t (by simp [ht])) g1
      refine ⟨g2, ?_⟩
      unfold runTasks
      refine (obind h1 _).trans ?_
      exact (obind h2 _).trans rfl
  have key : calls = tss.map (fun ts => ts.flatMap f) := by
    apply List.ext_getElem?
    intro k
    by_cases hk : k < tss.length
    · obtain ⟨g, r, h1, h2⟩ := hr k _ (List.getElem?_eq_getElem hk)
      obtain ⟨g', h3⟩ := hrun tss[k] (fun t ht => hf' t (List.mem_flatten.2 ⟨_, List.getElem_mem hk, ht⟩)) g
      rw [h1, Option.some.injEq] at h3
      rw [h2, h3, List.getElem?_map, List.getElem?_eq_getElem hk]
      rfl
    · rw [List.getElem?_eq_none (by omega), List.getElem?_eq_none (by simpa using hk)]
  rw [key]
  have : (tss.map fun ts => ts.flatMap f).flatten = tss.flatten.flatMap f := by
    clear * -
    induction tss with
    | nil => rfl
    | cons a tss ih => rw [List.map_cons, List.flatten_cons, List.flatten_cons, List.flatMap_append, ih]
  rw [this]
  exact hp.flatMap_right f

/-- the parallel start level is usable -/
def StartOK (F : Type) [CFloat F] (D : Nat) (env : Env) : Prop :=
  env.threads ≠ 1 → ∃ fpl, Tree.firstParallelLevel F D env.threads = some fpl ∧ D * fpl ≤ 31

theorem TreeOK.callbacks_plan (ok : TreeOK T) (env : Env) (hs : StartOK F D env) (rng : Rng F) (hgeo : GeoBounded rng) :
    ∃ tss, tss.length = env.threads ∧ Plan T rng (treeCallbacks env T rng) tss := by
  by_cases h1 : env.threads = 1
  · have := ok.sequential_plan rng hgeo
    refine ⟨_, by simp [h1], this.perm, fun gens => ?_⟩
    obtain ⟨calls, h2, h3⟩ := this.run gens
    refine ⟨calls, ?_, h3⟩
    unfold treeCallbacks
    rw [if_pos h1]
    rw [← h2]
    cases generateSequential T rng gens <;> rfl
  · obtain ⟨fpl, h2, h3⟩ := hs h1
    have hcells : Coord.numCellsInLevel D fpl = some (2 ^ (D * fpl)) := Coord.numCellsInLevel_eq (by omega)
    have hne : env.chunks (2 ^ (D * fpl)) ≠ [] := by
      intro e
      have := env.chunks_length (2 ^ (D * fpl))
      rw [e] at this
      have := env.threads_pos
      simp at *
      omega
    obtain ⟨tss, h5, h6⟩ := ok.parallel_plan rng hgeo h3 hne (by rw [env.chunks_flatten])
    refine ⟨tss, by rw [h5, env.chunks_length], h6.perm, fun gens => ?_⟩
    obtain ⟨calls, h7, h8⟩ := h6.run gens
    refine ⟨calls, ?_, h8⟩
    unfold treeCallbacks
    rw [if_neg h1]
    refine (obind h2 _).trans ?_
    refine (obind hcells _).trans ?_
    exact h7

theorem TreeOK.callbacks (ok : TreeOK T) (env : Env) (hs : StartOK F D env) (rng : Rng F) (hgeo : GeoBounded rng) (gens : Nat → rng.G) :
    ∃ calls, treeCallbacks env T rng gens = some calls ∧ calls.length = env.threads ∧ Distributed T rng calls := by
  obtain ⟨tss, h1, h2⟩ := ok.callbacks_plan env hs rng hgeo
  obtain ⟨calls, h3, h4, h5⟩ := h2.dist gens
  exact ⟨calls, h3, by rw [h4, h1], h5⟩

end Girgs
