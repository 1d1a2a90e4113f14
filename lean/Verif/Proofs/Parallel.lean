import Verif.Proofs.Sample
import Verif.Model.GenerateEdges
/-!
The parallel recursion makes the same calls as the sequential one (C16); edges of complete runs (C17).
-/
namespace Girgs
open Spec Tree
set_option linter.unusedSectionVars false
variable {F : Type} [CFloat F] {D : Nat} {T : Tree F D}

/-- `visitCellPair_sequentialStart` without undefined behaviour -/
def seqP (T : Tree F D) (fpl : Nat) : Nat → Nat → Nat → Nat → List Event
  | 0, _, _, _ => []
  | k + 1, A, B, l =>
    if touchB D l A B = false then (tasksII T A B l).map Event.task
    else (tasksI T A B l).map Event.task ++ (if k = 0 then [] else (kids D A B).flatMap fun p =>
      if l + 1 = fpl then [Event.push (p.1 - levelStart D fpl) p.2] else seqP T fpl k p.1 p.2 (l + 1))

theorem TreeOK.seq_eq (ok : TreeOK T) (fpl : Nat) (hf : D * fpl ≤ 31) : ∀ (k fuel A B l : Nat), k + 1 ≤ fuel → l + (k + 1) = T.levels →
    OnLevel D l A → OnLevel D l B →
    Tree.sequentialStart T fpl (2 ^ (D * fpl)) fuel A B l = some (seqP T fpl (k + 1) A B l) := by
  intro k
  induction k with
  | zero =>
    intro fuel A B l hfu hl hA hB
    obtain ⟨fuel, rfl⟩ : ∃ f, fuel = f + 1 := ⟨fuel - 1, by omega⟩
    unfold Tree.sequentialStart seqP
    refine (obind (Coord.touching_eq ok.D1 ok.D5 (ok.depth_le (by omega)) hA hB) _).trans ?_
    show (if (!touchB D l A B) = true then _ else _) = _
    cases touchB D l A B
    · simp [ok.typeII_eq A B l]
    · refine (obind (ok.typeI_eq A B l (by omega)) _).trans ?_
      have : l = subU T.levels 1 := by rw [ok.subU_levels]; omega
      simp [this]
  | succ k ih =>
    intro fuel A B l hfu hl hA hB
    obtain ⟨fuel, rfl⟩ : ∃ f, fuel = f + 1 := ⟨fuel - 1, by omega⟩
    unfold Tree.sequentialStart seqP
    refine (obind (Coord.touching_eq ok.D1 ok.D5 (ok.depth_le (by omega)) hA hB) _).trans ?_
    show (if (!touchB D l A B) = true then _ else _) = _
    cases touchB D l A B
    · simp [ok.typeII_eq A B l]
    · refine (obind (ok.typeI_eq A B l (by omega)) _).trans ?_
      have : ¬ (l = subU T.levels 1) := by rw [ok.subU_levels]; omega
      rw [if_neg this]
      refine (obind (childPairs_eq ok.D1 (ok.depth_le (by omega)) hA hB) _).trans ?_
      refine (obind (concatM_some (g := fun p => if l + 1 = fpl then [Event.push (p.1 - levelStart D fpl) p.2]
        else seqP T fpl (k + 1) p.1 p.2 (l + 1)) ?_) _).trans ?_
      · intro p hp
        have hon := kids_onLevel hA hB hp
        split
        · rename_i he
          subst he
          refine (obind (Coord.firstCellOfLevel_eq ok.D1 (by have := ok.D5; omega) hf) _).trans ?_
          have hlt := hon.1.local_lt
          have : subU p.1 (levelStart D (l + 1)) = p.1 - levelStart D (l + 1) :=
            subU_eq (Coord.onLevel_lt32 ok.D1 hf hon.1) hon.1.1
          simp only [this, hlt, if_true]
        · exact ih fuel p.1 p.2 (l + 1) (by omega) (by omega) hon.1 hon.2
      · simp

/-- the calls an event finally leads to -/
def expandE (T : Tree F D) (fpl : Nat) : Event → List Task
  | .task t => [t]
  | .push idx b => visitP T (T.levels - fpl) (levelStart D fpl + idx) b fpl

theorem expand_tasks (fpl : Nat) (ts : List Task) : (ts.map Event.task).flatMap (expandE T fpl) = ts := by
  induction ts with
  | nil => rfl
  | cons t ts ih => simp only [List.map_cons, List.flatMap_cons, ih, expandE, List.singleton_append]

theorem expand_seqP (fpl : Nat) : ∀ (k A B l : Nat), l + k = T.levels → OnLevel D l A → OnLevel D l B →
    (seqP T fpl k A B l).flatMap (expandE T fpl) = visitP T k A B l := by
  intro k
  induction k with
  | zero => intros; rfl
  | succ k ih =>
    intro A B l hl hA hB
    unfold seqP visitP
    split
    · exact expand_tasks fpl _
    · rw [List.flatMap_append, expand_tasks]
      congr 1
      split
      · rfl
      · rw [List.flatMap_assoc]
        apply List.flatMap_congr
        intro p hp
        have hon := kids_onLevel hA hB hp
        split
        · rename_i he
          subst he
          have e1 : levelStart D (l + 1) + (p.1 - levelStart D (l + 1)) = p.1 := by have := hon.1.1; omega
          have e2 : T.levels - (l + 1) = k := by omega
          simp only [List.flatMap_cons, List.flatMap_nil, expandE, e1, e2, List.append_nil]
        · exact ih p.1 p.2 (l + 1) (by omega) hon.1 hon.2

/-- every recorded call is for an existing slot and for cells of the parallel level -/
theorem seqP_push (fpl : Nat) : ∀ (k A B l : Nat), l + k = T.levels → OnLevel D l A → OnLevel D l B → ∀ idx b,
    Event.push idx b ∈ seqP T fpl k A B l → idx < 2 ^ (D * fpl) ∧ OnLevel D fpl b ∧ fpl < T.levels := by
  intro k
  induction k with
  | zero => intro A B l _ _ _ idx b h; simp [seqP] at h
  | succ k ih =>
    intro A B l hl hA hB idx b h
    unfold seqP at h
    split at h
    · simp at h
    · rw [List.mem_append] at h
      rcases h with h | h
      · simp at h
      · split at h
        · simp at h
        · rename_i hk
          rw [List.mem_flatMap] at h
          obtain ⟨p, hp, h⟩ := h
          have hon := kids_onLevel hA hB hp
          split at h
          · rename_i he
            subst he
            simp only [List.mem_singleton, Event.push.injEq] at h
            obtain ⟨rfl, rfl⟩ := h
            exact ⟨hon.1.local_lt, hon.2, by omega⟩
          · exact ih p.1 p.2 (l + 1) (by omega) hon.1 hon.2 idx b h

/-- grouping the recorded calls by slot only reorders them -/
theorem group_perm (T : Tree F D) (fpl N : Nat) (ev : List Event) (h : ∀ idx b, Event.push idx b ∈ ev → idx < N) :
    (ev.flatMap (expandE T fpl)).Perm (eventTasks ev ++ (List.range N).flatMap fun i =>
      (eventCalls ev i).flatMap fun b => visitP T (T.levels - fpl) (levelStart D fpl + i) b fpl) := by
  induction ev with
  | nil => simp [eventTasks, eventCalls]
  | cons e ev ih =>
    have ih' := ih (fun idx b hb => h idx b (by simp [hb]))
    cases e with
    | task t =>
      have e1 : eventTasks (Event.task t :: ev) = t :: eventTasks ev := rfl
      have e2 : ∀ i, eventCalls (Event.task t :: ev) i = eventCalls ev i := fun i => rfl
      rw [List.flatMap_cons, e1]
      simp only [e2, expandE, List.singleton_append, List.cons_append]
      exact List.Perm.cons _ ih'
    | push idx b =>
      have hidx := h idx b (by simp)
      have e1 : eventTasks (Event.push idx b :: ev) = eventTasks ev := rfl
      rw [List.flatMap_cons, e1]
      simp only [expandE]
      -- pull slot `idx` to the front on both sides
      have hsplit : ∀ f : Nat → List Task, ((List.range N).flatMap f).Perm (f idx ++ ((List.range N).erase idx).flatMap f) := by
        intro f
        have := (List.perm_cons_erase (List.mem_range.2 hidx)).flatMap_right f
        simpa using this
      have hother : ∀ i ∈ (List.range N).erase idx, eventCalls (Event.push idx b :: ev) i = eventCalls ev i := by
        intro i hi
        have hne : i ≠ idx := by
          rintro rfl
          exact (List.Nodup.not_mem_erase List.nodup_range) hi
        simp [eventCalls, Ne.symm hne]
      have hself : eventCalls (Event.push idx b :: ev) idx = b :: eventCalls ev idx := by
        simp [eventCalls]
      refine (List.Perm.append_left _ ih').trans ?_
      refine List.Perm.trans ?_ (List.Perm.append_left _ (hsplit _).symm)
      rw [hself, List.flatMap_cons]
      rw [List.flatMap_congr (l := (List.range N).erase idx)
        (g := fun i => (eventCalls ev i).flatMap fun b => visitP T (T.levels - fpl) (levelStart D fpl + i) b fpl)
        (fun i hi => by rw [hother i hi])]
      refine (List.Perm.append_left _ (List.Perm.append_left _ (hsplit _))).trans ?_
      simp only [← List.append_assoc]
      apply List.Perm.append_right
      apply List.Perm.append_right
      exact List.perm_append_comm

theorem mapM_some' {α β : Type} {L : List α} {f : α → Option β} {g : α → β} (h : ∀ a ∈ L, f a = some (g a)) :
    L.mapM f = some (L.map g) := by
  induction L with
  | nil => rfl
  | cons a L ih =>
    rw [List.mapM_cons, h a (by simp), ih (fun b hb => h b (by simp [hb]))]
    rfl

/-- shares of the threads without undefined behaviour -/
def shareP (T : Tree F D) (fpl : Nat) (ev : List Event) (chunk : List Nat) : List Task :=
  chunk.flatMap fun i => (eventCalls ev i).flatMap fun b => visitP T (T.levels - fpl) (levelStart D fpl + i) b fpl

theorem map_shareP_flatten (T : Tree F D) (fpl : Nat) (ev : List Event) (chunks : List (List Nat)) :
    (chunks.map (shareP T fpl ev)).flatten = chunks.flatten.flatMap fun i => (eventCalls ev i).flatMap fun b =>
          visitP T (T.levels - fpl) (levelStart D fpl + i) b fpl := by
  induction chunks with
  | nil => rfl
  | cons c chunks ih => rw [List.map_cons, List.flatten_cons, List.flatten_cons, List.flatMap_append, ih]; rfl

theorem mem_eventCalls {ev : List Event} {i b : Nat} : b ∈ eventCalls ev i ↔ Event.push i b ∈ ev := by
  unfold eventCalls
  rw [List.mem_filterMap]
  constructor
  · rintro ⟨e, he, h⟩
    cases e with
    | task t => simp at h
    | push idx b' =>
      simp only at h
      split at h
      · rename_i heq
        simp only [Option.some.injEq] at h
        subst heq; subst h; exact he
      · simp at h
  · intro h
    exact ⟨_, h, by simp⟩

theorem TreeOK.plan_eq (ok : TreeOK T) {fpl : Nat} (hf : D * fpl ≤ 31) {chunks : List (List Nat)}
    (hch : chunks.flatten.Perm (List.range (2 ^ (D * fpl)))) :
    ∃ ev, Tree.parallelPlan T fpl chunks = some (eventTasks ev, chunks.map (shareP T fpl ev)) ∧
      (eventTasks ev ++ (chunks.map (shareP T fpl ev)).flatten).Perm (visitP T T.levels 0 0 0) := by
  have hon : OnLevel D 0 0 := ⟨by simp [levelStart], by simp [levelStart]⟩
  have hlev : 0 + (T.levels - 1 + 1) = T.levels := by have := ok.levels_eq; omega
  have hlev' : T.levels - 1 + 1 = T.levels := by omega
  have hD : D ≤ 31 := by have := ok.D5; omega
  have hpush := seqP_push (T := T) fpl T.levels 0 0 0 (by omega) hon hon
  refine ⟨seqP T fpl T.levels 0 0 0, ?_, ?_⟩
  · unfold Tree.parallelPlan
    refine (obind (Coord.numCellsInLevel_eq hf) _).trans ?_
    refine (obind (Coord.firstCellOfLevel_eq ok.D1 hD hf) _).trans ?_
    have hs := ok.seq_eq fpl hf (T.levels - 1) T.levels 0 0 0 (by omega) hlev hon hon
    rw [hlev'] at hs
    refine (obind hs _).trans ?_
    refine (obind (mapM_some' (g := shareP T fpl (seqP T fpl T.levels 0 0 0)) ?_) _).trans rfl
    intro chunk hc
    unfold Tree.chunkTasks shareP
    apply concatM_some
    intro i hi
    apply concatM_some
    intro b hb
    rw [mem_eventCalls] at hb
    obtain ⟨h1, h2, h3⟩ := hpush i b hb
    have hoi : OnLevel D fpl (levelStart D fpl + i) := onLevel_add h1
    have e : u32 (levelStart D fpl + i) = levelStart D fpl + i := u32_eq (Coord.onLevel_lt32 ok.D1 hf hoi)
    rw [e]
    have := ok.visit_eq (T.levels - fpl - 1) T.levels (levelStart D fpl + i) b fpl (by omega) (by omega) hoi h2
    rw [show T.levels - fpl - 1 + 1 = T.levels - fpl by omega] at this
    exact this
  · have h1 := group_perm T fpl (2 ^ (D * fpl)) (seqP T fpl T.levels 0 0 0) (fun idx b h => (hpush idx b h).1)
    rw [expand_seqP fpl T.levels 0 0 0 (by omega) hon hon] at h1
    refine List.Perm.trans (List.Perm.append_left _ ?_) h1.symm
    have h2 : (chunks.map (shareP T fpl (seqP T fpl T.levels 0 0 0))).flatten =
        chunks.flatten.flatMap fun i => (eventCalls (seqP T fpl T.levels 0 0 0) i).flatMap fun b =>
          visitP T (T.levels - fpl) (levelStart D fpl + i) b fpl := by
      rw [map_shareP_flatten]
    rw [h2]
    exact hch.flatMap_right _

/-! ### release builds in threshold mode skip the type II calls -/

/-- the same data structure compiled without `NDEBUG` -/
def Tree.debug (T : Tree F D) : Tree F D := { T with ndebug := false }

theorem TreeOK.debug (ok : TreeOK T) : TreeOK T.debug :=
  ⟨ok.D1, ok.D5, ok.levels_eq, ok.depth, ok.layerPairs_eq, ok.weightLayers_eq, ok.total, ok.small, ok.layers_le, ok.index_perm,
    ok.sorted, ok.cell_lt, ok.first_eq⟩

/-- the calls of a release build in threshold mode are the type I calls -/
theorem visitP_release (h : T.ndebug = true ∧ T.isThreshold = true) : ∀ (k A B l : Nat),
    visitP T k A B l = (visitP T.debug k A B l).filter (fun t => !t.two) := by
  have hI : ∀ A B l, tasksI T.debug A B l = tasksI T A B l := fun _ _ _ => rfl
  intro k
  induction k with
  | zero => intros; rfl
  | succ k ih =>
    intro A B l
    unfold visitP
    split
    · rw [List.filter_eq_nil_iff.2]
      · unfold tasksII; simp [h]
      · intro t ht
        have := (mem_tasksII.1 ht).2.1
        simp [this]
    · rw [List.filter_append, hI]
      congr 1
      · symm
        rw [List.filter_eq_self]
        intro t ht
        have := (mem_tasksI.1 ht).1
        simp [this]
      · split
        · rfl
        · rw [List.filter_flatMap]
          apply List.flatMap_congr
          intro p _
          exact ih p.1 p.2 (l + 1)

theorem visitP_debug_of_full (h : ¬ (T.ndebug = true ∧ T.isThreshold = true)) : ∀ (k A B l : Nat),
    visitP T.debug k A B l = visitP T k A B l := by
  have hI : ∀ A B l, tasksI T.debug A B l = tasksI T A B l := fun _ _ _ => rfl
  have hII : ∀ A B l, tasksII T.debug A B l = tasksII T A B l := by
    intro A B l
    unfold tasksII
    rw [if_neg (by simp [Tree.debug]), if_neg (by simpa using h)]
    rfl
  intro k
  induction k with
  | zero => intros; rfl
  | succ k ih =>
    intro A B l
    unfold visitP
    rw [hI, hII]
    simp only [ih]

theorem visitP_sublist_debug (k A B l : Nat) : (visitP T k A B l).Sublist (visitP T.debug k A B l) := by
  by_cases h : T.ndebug = true ∧ T.isThreshold = true
  · rw [visitP_release h]; exact List.filter_sublist
  · rw [visitP_debug_of_full h]

theorem allCandidates_append {ts ts' : List Task} {cs cs' : List (Nat × Nat)} (h : T.allCandidates ts = some cs)
    (h' : T.allCandidates ts' = some cs') : T.allCandidates (ts ++ ts') = some (cs ++ cs') := by
  induction ts generalizing cs with
  | nil => obtain rfl : [] = cs := by simpa [Tree.allCandidates, Tree.concatM] using h
           exact h'
  | cons t ts ih =>
    unfold Tree.allCandidates Tree.concatM at h
    cases h1 : T.candidates t with
    | none => rw [h1] at h; simp at h
    | some c =>
      rw [h1] at h
      simp only [Option.bind_eq_bind, Option.bind_some] at h
      cases h2 : concatM ts T.candidates with
      | none => rw [h2] at h; simp at h
      | some c' =>
        rw [h2] at h
        simp only [Option.bind_some, Option.some.injEq] at h
        subst h
        have := ih (cs := c') h2
        unfold Tree.allCandidates at this
        rw [List.cons_append]
        unfold Tree.allCandidates Tree.concatM
        rw [h1, this]
        simp

/-- any run of calls which are a sub-multiset of the calls of the recursion emits a simple graph -/
theorem TreeOK.simple (ok : TreeOK T) {ts : List Task} (hts : ts.Subperm (visitP T T.levels 0 0 0)) {cs es : List (Nat × Nat)}
    (hc : T.allCandidates ts = some cs) (he : es.Subperm (cs.map T.idxPair)) : IsSimpleGraph T.n es := by
  have hon : OnLevel D 0 0 := ⟨by simp [levelStart], by simp [levelStart]⟩
  have hok : ∀ t ∈ ts, TaskOK T t := fun t ht => visitP_ok _ _ _ _ hon hon t (hts.subset ht)
  obtain ⟨cs', h1, h2, h3⟩ := ok.allCandidates_count ts hok
  obtain rfl : cs' = cs := by rw [hc] at h1; exact (Option.some.inj h1).symm
  have hle : ∀ p q, cnt T ts p q ≤ cnt T.debug (visitP T.debug T.levels 0 0 0) p q := by
    intro p q
    have := hts.trans (visitP_sublist_debug T.levels 0 0 0).subperm
    exact this.countP_le _
  have hnd : ¬ (T.debug.ndebug = true ∧ T.debug.isThreshold = true) := by simp [Tree.debug]
  refine simple_of_subperm he ?_ ?_
  · intro e he
    obtain ⟨c, hc, rfl⟩ := List.mem_map.1 he
    obtain ⟨h4, h5⟩ := h2 c hc
    refine ⟨ok.idx_lt h4, ok.idx_lt h5, ?_⟩
    intro heq
    have := ok.idx_inj h4 h5 heq
    obtain ⟨p, q⟩ := c
    simp only at this; subst this
    have h6 := h3 p p
    rw [cnt_self] at h6
    exact (List.count_pos_iff.2 hc).ne' h6
  · intro u v huv
    by_cases hu : u < T.n
    · by_cases hv : v < T.n
      · obtain ⟨p, hp, rfl⟩ := ok.idx_surj hu
        obtain ⟨q, hq, rfl⟩ := ok.idx_surj hv
        unfold occurrences
        rw [ok.count_map_idx h2 hp hq, ok.count_map_idx h2 hq hp, h3, h3]
        have hp' := hp; have hq' := hq
        rw [← ok.length_nodes] at hp' hq'
        have hr := cnt_visit_root ok.debug hnd (List.getElem?_eq_getElem hp') (List.getElem?_eq_getElem hq') (fun h => huv (by rw [h]))
        have e1 := hle p q; have e2 := hle q p
        change cnt T.debug (visitP T.debug T.levels 0 0 0) p q + cnt T.debug (visitP T.debug T.levels 0 0 0) q p = 1 at hr
        omega
      · have h1 : (cs'.map T.idxPair).count (u, v) = 0 := by
          rw [List.count_eq_zero]; intro hm
          obtain ⟨c, hc, he⟩ := List.mem_map.1 hm
          have := ok.idx_lt (h2 c hc).2
          have e := (Prod.mk.inj he).2; omega
        have h2 : (cs'.map T.idxPair).count (v, u) = 0 := by
          rw [List.count_eq_zero]; intro hm
          obtain ⟨c, hc, he⟩ := List.mem_map.1 hm
          have := ok.idx_lt (h2 c hc).1
          have e := (Prod.mk.inj he).1; omega
        unfold occurrences; omega
    · have h1 : (cs'.map T.idxPair).count (u, v) = 0 := by
        rw [List.count_eq_zero]; intro hm
        obtain ⟨c, hc, he⟩ := List.mem_map.1 hm
        have := ok.idx_lt (h2 c hc).1
        have e := (Prod.mk.inj he).1; omega
      have h2 : (cs'.map T.idxPair).count (v, u) = 0 := by
        rw [List.count_eq_zero]; intro hm
        obtain ⟨c, hc, he⟩ := List.mem_map.1 hm
        have := ok.idx_lt (h2 c hc).2
        have e := (Prod.mk.inj he).2; omega
      unfold occurrences; omega

/-- Complete sequential run. -/
theorem TreeOK.sequential_simple (ok : TreeOK T) (rng : Rng F) (hgeo : GeoBounded rng) (gens : Nat → rng.G) :
    ∃ es, generateSequential T rng gens = some es ∧ IsSimpleGraph T.n es := by
  have hon : OnLevel D 0 0 := ⟨by simp [levelStart], by simp [levelStart]⟩
  have hlev : T.levels - 1 + 1 = T.levels := by have := ok.levels_eq; omega
  have hv := ok.visit_eq (T.levels - 1) T.levels 0 0 0 (by omega) (by omega) hon hon
  rw [hlev] at hv
  obtain ⟨cs, es, g', h1, h2, h3⟩ := runTasks_spec rng hgeo ok (visitP T T.levels 0 0 0) (visitP_ok _ _ _ _ hon hon) (gens 0)
  refine ⟨es, ?_, ok.simple (List.Subperm.refl _) h1 h3⟩
  unfold generateSequential
  refine (obind hv _).trans ?_
  refine (obind h2 _).trans rfl

theorem runShares_spec (rng : Rng F) (hgeo : GeoBounded rng) (ok : TreeOK T) (g : Nat → rng.G) : ∀ (shares : List (List Task)) (s : Nat),
    (∀ ts ∈ shares, ∀ t ∈ ts, TaskOK T t) → ∃ (rs : List (List (Nat × Nat))) (cs : List (Nat × Nat)),
      rs.length = shares.length ∧
      (∀ k ts, shares[k]? = some ts → ∃ r, runTasks T rng ts (g (s + k)) = some r ∧ rs[k]? = some r.1) ∧
      T.allCandidates shares.flatten = some cs ∧ rs.flatten.Subperm (cs.map T.idxPair) := by
  intro shares
  induction shares with
  | nil => intro s _; exact ⟨[], [], rfl, by simp, rfl, by simp⟩
  | cons ts shares ih =>
    intro s h
    obtain ⟨cs, es, g', h1, h2, h3⟩ := runTasks_spec rng hgeo ok ts (h ts (by simp)) (g s)
    obtain ⟨rs, cs', h4, h5, h6, h7⟩ := ih (s + 1) (fun ts hts => h ts (by simp [hts]))
    refine ⟨es :: rs, cs ++ cs', by simp [h4], ?_, ?_, ?_⟩
    · intro k ts' hk
      cases k with
      | zero =>
        simp only [List.getElem?_cons_zero, Option.some.injEq] at hk
        subst hk
        exact ⟨(es, g'), h2, rfl⟩
      | succ k =>
        rw [List.getElem?_cons_succ] at hk
        obtain ⟨r, hr, hr'⟩ := h5 k ts' hk
        refine ⟨r, ?_, by simpa using hr'⟩
        rw [show s + (k + 1) = s + 1 + k by omega]; exact hr
    · rw [List.flatten_cons]; exact allCandidates_append h1 h6
    · rw [List.flatten_cons, List.map_append]; exact h3.append h7

/-- Complete parallel run. -/
theorem TreeOK.parallel_simple (ok : TreeOK T) (rng : Rng F) (hgeo : GeoBounded rng) (gens : Nat → rng.G) {fpl : Nat}
    (hf : D * fpl ≤ 31) {chunks : List (List Nat)} (hne : chunks ≠ [])
    (hch : chunks.flatten.Perm (List.range (2 ^ (D * fpl)))) :
    ∃ rs, generateParallel T rng gens fpl chunks = some rs ∧ rs.length = chunks.length ∧ IsSimpleGraph T.n rs.flatten := by
  have hon : OnLevel D 0 0 := ⟨by simp [levelStart], by simp [levelStart]⟩
  obtain ⟨ev, hplan, hperm⟩ := ok.plan_eq hf hch
  have hok : ∀ t ∈ eventTasks ev ++ (chunks.map (shareP T fpl ev)).flatten, TaskOK T t :=
    fun t ht => visitP_ok _ _ _ _ hon hon t (hperm.mem_iff.1 ht)
  obtain ⟨cs0, e0, g0, h1, h2, h3⟩ := runTasks_spec rng hgeo ok (eventTasks ev) (fun t ht => hok t (by simp [ht])) (gens 0)
  set shares := chunks.map (shareP T fpl ev) with hshares
  obtain ⟨rs, cs, h4, h5, h6, h7⟩ := runShares_spec rng hgeo ok (fun k => if k = 0 then g0 else gens k) shares 0
    (fun ts hts t ht => hok t (List.mem_append_right _ (List.mem_flatten.2 ⟨ts, hts, ht⟩)))
  have hlen : shares.length = chunks.length := by simp [hshares]
  have hl0 : 0 < rs.length := by rw [h4, hlen]; exact List.length_pos_iff.2 hne
  obtain ⟨r0, rs', rfl⟩ := List.exists_cons_of_length_pos hl0
  refine ⟨(e0 ++ r0) :: rs', ?_, by rw [← hlen, ← h4]; rfl, ?_⟩
  · unfold generateParallel
    refine (obind hplan _).trans ?_
    refine (obind h2 _).trans ?_
    have hm := mapM_some' (L := List.range shares.length) (f := fun k => do
      let ts ← rd shares k
      let r ← runTasks T rng ts (if k = 0 then g0 else gens k)
      some (if k = 0 then e0 ++ r.1 else r.1)) (g := fun k => (((e0 ++ r0) :: rs')[k]?).getD []) (by
        intro k hk
        rw [List.mem_range] at hk
        obtain ⟨r, hr, hr'⟩ := h5 k _ (List.getElem?_eq_getElem hk)
        rw [Nat.zero_add] at hr
        refine (obind (List.getElem?_eq_getElem hk) _).trans ?_
        refine (obind hr _).trans ?_
        cases k with
        | zero => simp at hr'; simp [hr']
        | succ k => simp at hr'; simp [hr'])
    refine (obind hm _).trans ?_
    congr 1
    apply List.ext_getElem?
    intro k
    rw [List.getElem?_map]
    by_cases hk : k < shares.length
    · rw [List.getElem?_range hk]
      have : k < ((e0 ++ r0) :: rs').length := by
        have : (r0 :: rs').length = ((e0 ++ r0) :: rs').length := rfl
        omega
      rw [Option.map_some, List.getElem?_eq_getElem this, Option.getD_some]
    · rw [List.getElem?_eq_none (by simpa using hk), List.getElem?_eq_none]
      · rfl
      · have : (r0 :: rs').length = ((e0 ++ r0) :: rs').length := rfl
        omega
  · refine ok.simple (ts := eventTasks ev ++ shares.flatten) hperm.subperm (allCandidates_append h1 h6) ?_
    rw [List.map_append, List.flatten_cons, List.append_assoc]
    exact h3.append (by simpa using h7)

end Girgs
