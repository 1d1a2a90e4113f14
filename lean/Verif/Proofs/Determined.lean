import Verif.Proofs.Callbacks
/-
Samplers whose decisions do not depend on random numbers (`alpha = infinity`, `alpha = 0`): the callbacks are exactly the
pairs that satisfy the rule.
-/
namespace Girgs
open CFloat Tree Spec
variable {F : Type} [CFloat F] {D : Nat} {T : Tree F D}

/-- type I calls decide every pair of node positions by the rule `dec` -/
def DecidesI (T : Tree F D) (rng : Rng F) (dec : Nat → Nat → Bool) : Prop :=
  ∀ (p q : Nat) (x y : Node F D), T.nodes[p]? = some x → T.nodes[q]? = some y → ∀ g, ∃ g', decideI T rng x y g = (dec p q, g')

/-- the sampler decides every pair of node positions by the rule `dec` -/
structure Decided (T : Tree F D) (rng : Rng F) (dec : Nat → Nat → Bool) : Prop where
  decide : DecidesI T rng dec
  two : ∀ t, TaskOK T t → t.two = true → ∀ mp, T.maxProb t = some mp →
    (ofRat (1 / 5) <. mp) = true ∨
      ((∀ k : Nat, ((ofNat k *. mp : F) <. ofRat (1 / 1000000)) = true) ∧ ∀ p q, Hit T t p q → dec p q = false)

def emitted (T : Tree F D) (dec : Nat → Nat → Bool) (t : Task) : List (Nat × Nat) :=
  match T.ranges t with
  | some (ra, rb) => ((pairListI t ra rb).filter fun c => dec c.1 c.2).map T.idxPair
  | none => []

theorem runPairsI_dec (rng : Rng F) {dec : Nat → Nat → Bool} (h : DecidesI T rng dec) : ∀ (L : List (Nat × Nat)),
    (∀ c ∈ L, c.1 < T.nodes.length ∧ c.2 < T.nodes.length) →
    ∀ g : rng.G, ∃ g', runPairsI T rng L g = some ((L.filter fun c => dec c.1 c.2).map T.idxPair, g') := by
  intro L
  induction L with
  | nil => intro _ g; exact ⟨g, rfl⟩
  | cons c L ih =>
    intro hL g
    obtain ⟨a, b⟩ := c
    obtain ⟨ha, hb⟩ := hL (a, b) (by simp)
    have ea : T.nodes[a]? = some T.nodes[a] := List.getElem?_eq_getElem ha
    have eb : T.nodes[b]? = some T.nodes[b] := List.getElem?_eq_getElem hb
    obtain ⟨g1, hd⟩ := h a b _ _ ea eb g
    obtain ⟨g', h1⟩ := ih (fun c hc => hL c (by simp [hc])) g1
    refine ⟨g', ?_⟩
    unfold runPairsI
    refine (obind ea _).trans ?_
    refine (obind eb _).trans ?_
    simp only [hd]
    refine (obind h1 _).trans ?_
    have e : T.idxPair (a, b) = (T.nodes[a].index, T.nodes[b].index) := by
      unfold Tree.idxPair; rw [Tree.idx_eq ea, Tree.idx_eq eb]
    by_cases hdec : dec a b = true
    · simp [hdec, List.filter_cons, e]
    · simp [hdec, List.filter_cons]

theorem sampleTypeI_dec (rng : Rng F) (ok : TreeOK T) {dec : Nat → Nat → Bool} (h : DecidesI T rng dec) {t : Task}
    {ra rb : Nat × Nat} (hr : RangesOK T t ra rb) (g : rng.G) : ∃ g', sampleTypeI T rng t g = some (emitted T dec t, g') := by
  have he : emitted T dec t = ((pairListI t ra rb).filter fun c => dec c.1 c.2).map T.idxPair := by
    unfold emitted; rw [hr.eq]
  rw [he]
  unfold sampleTypeI
  refine (exists_congr fun g' => by rw [obind hr.eq]).2 ?_
  by_cases hc : ra.1 = ra.2 ∨ rb.1 = rb.2
  · have : pairListI t ra rb = [] := by
      rw [List.eq_nil_iff_forall_not_mem]
      rintro ⟨p, q⟩ hm
      have := hr.mem_pairListI.1 hm
      omega
    rw [this]
    exact ⟨g, by simp [hc]⟩
  · obtain ⟨g', h1⟩ := runPairsI_dec rng h (pairListI t ra rb) (by
      rintro ⟨p, q⟩ hm
      rw [hr.mem_pairListI] at hm
      have := hr.nA; have := hr.nB
      rw [ok.length_nodes]; exact ⟨by omega, by omega⟩) g
    refine ⟨g', ?_⟩
    simp only [hc, if_false]
    rw [hr.pairsI_eq]
    exact h1

theorem mem_pair_hit (ok : TreeOK T) {t : Task} {ra rb : Nat × Nat} (hr : RangesOK T t ra rb) {p q : Nat}
    (hm : (p, q) ∈ pairListI t ra rb) : Hit T t p q := by
  obtain ⟨h1, h2, h3⟩ := hr.mem_pairListI.1 hm
  have hp : p < T.nodes.length := by rw [ok.length_nodes]; have := hr.nA; omega
  have hq : q < T.nodes.length := by rw [ok.length_nodes]; have := hr.nB; omega
  have ep : T.nodes[p]? = some T.nodes[p] := List.getElem?_eq_getElem hp
  have eq : T.nodes[q]? = some T.nodes[q] := List.getElem?_eq_getElem hq
  exact ⟨_, _, ep, eq, (hr.memA _ _ ep).1 h1, (hr.memB _ _ eq).1 h2, h3⟩

theorem emitted_nil (ok : TreeOK T) {dec : Nat → Nat → Bool} {t : Task} (ht : TaskOK T t)
    (h : ∀ p q, Hit T t p q → dec p q = false) : emitted T dec t = [] := by
  obtain ⟨ra, rb, hr⟩ := ok.ranges_ok ht
  unfold emitted
  rw [hr.eq]
  simp only [List.map_eq_nil_iff, List.filter_eq_nil_iff]
  rintro ⟨p, q⟩ hm
  rw [h p q (mem_pair_hit ok hr hm)]
  simp

theorem runTask_dec (rng : Rng F) (ok : TreeOK T) {dec : Nat → Nat → Bool} (h : Decided T rng dec) {t : Task} (ht : TaskOK T t)
    (g : rng.G) : ∃ g', runTask T rng t g = some (emitted T dec t, g') := by
  obtain ⟨ra, rb, hr⟩ := ok.ranges_ok ht
  unfold runTask
  cases h2 : t.two
  · simpa using sampleTypeI_dec rng ok h.decide hr g
  · simp only [if_true]
    obtain ⟨mp, hmp⟩ := ok.maxProb_some ht
    unfold sampleTypeII
    refine (exists_congr fun g' => by rw [obind hr.eq]).2 ?_
    by_cases hc : ra.1 = ra.2 ∨ rb.1 = rb.2
    · have he : emitted T dec t = [] := by
        unfold emitted; rw [hr.eq]
        have : pairListI t ra rb = [] := by
          rw [List.eq_nil_iff_forall_not_mem]
          rintro ⟨p, q⟩ hm
          have := hr.mem_pairListI.1 hm
          omega
        simp [this]
      rw [he]
      exact ⟨g, by simp [hc]⟩
    · simp only [hc, if_false]
      refine (exists_congr fun g' => by rw [obind hmp]).2 ?_
      rcases h.two t ht h2 mp hmp with h3 | ⟨h3, h4⟩
      · simp only [h3, if_true]
        exact sampleTypeI_dec rng ok h.decide hr g
      · by_cases h5 : (ofRat (1 / 5) <. mp) = true
        · simp only [h5, if_true]
          exact sampleTypeI_dec rng ok h.decide hr g
        · simp only [h5, h3, if_true, if_false]
          rw [emitted_nil ok ht h4]
          exact ⟨g, rfl⟩

theorem emitted_flatMap (ok : TreeOK T) (dec : Nat → Nat → Bool) : ∀ (ts : List Task), (∀ t ∈ ts, TaskOK T t) → ∀ cs,
    T.allCandidates ts = some cs → (ts.flatMap (emitted T dec)).Perm ((cs.filter fun c => dec c.1 c.2).map T.idxPair) := by
  intro ts
  induction ts with
  | nil => intro _ cs h; obtain rfl : [] = cs := by simpa [Tree.allCandidates, Tree.concatM] using h
           simp
  | cons t ts ih =>
    intro hts cs h
    obtain ⟨ra, rb, hr⟩ := ok.ranges_ok (hts t (by simp))
    obtain ⟨cs', h1, _, _⟩ := ok.allCandidates_count ts (fun t ht => hts t (by simp [ht]))
    have hcs : cs = candList t ra rb ++ cs' := by
      unfold Tree.allCandidates Tree.concatM at h
      rw [obind hr.candidates_eq, obind (show Tree.concatM ts T.candidates = some cs' from h1), Option.some.injEq] at h
      exact h.symm
    subst hcs
    rw [List.flatMap_cons, List.filter_append, List.map_append]
    refine List.Perm.append ?_ (ih (fun t ht => hts t (by simp [ht])) cs' h1)
    unfold emitted
    rw [hr.eq]
    simp only
    refine (List.Perm.filter _ ?_).map _
    unfold candList
    split
    · rename_i h2
      exact hr.pairLists_perm ((hts t (by simp)).two h2).1
    · exact List.Perm.refl _

/-- the calls of release and debug builds emit the same if type II calls emit nothing in threshold mode -/
theorem emitted_debug (ok : TreeOK T) {dec : Nat → Nat → Bool}
    (h : T.ndebug = true ∧ T.isThreshold = true → ∀ t, TaskOK T t → t.two = true → ∀ p q, Hit T t p q → dec p q = false) :
    (visitP T T.levels 0 0 0).flatMap (emitted T dec) = (visitP T.debug T.levels 0 0 0).flatMap (emitted T dec) := by
  by_cases hr : T.ndebug = true ∧ T.isThreshold = true
  · have hon : OnLevel D 0 0 := ⟨by simp [levelStart], by simp [levelStart]⟩
    have hok : ∀ t ∈ visitP T.debug T.levels 0 0 0, TaskOK T t := fun t ht => by
      have := visitP_ok (T := T.debug) _ _ _ _ hon hon t ht
      exact ⟨this.hi, this.hj, this.hA, this.hB, this.hl, this.two, this.one⟩
    rw [visitP_release hr]
    generalize visitP T.debug T.levels 0 0 0 = L at hok
    induction L with
    | nil => rfl
    | cons t L ih =>
      rw [List.flatMap_cons, ← ih (fun t ht => hok t (by simp [ht]))]
      cases h2 : t.two
      · simp [List.filter_cons, h2]
      · have := emitted_nil ok (hok t (by simp)) (h hr t (hok t (by simp)) h2)
        simp [List.filter_cons, h2, this]
  · rw [visitP_debug_of_full hr]

/-- `dec` on input indices, for symmetric rules: the callbacks contain every pair satisfying the rule once, and nothing else -/
theorem Distributed.decided {rng : Rng F} {calls : List (List (Nat × Nat))} (d : Distributed T rng calls) (ok : TreeOK T)
    {dec : Nat → Nat → Bool} (h : Decided T rng dec) (hsym : ∀ p q, p < T.n → q < T.n → dec p q = dec q p)
    (hrel : T.ndebug = true ∧ T.isThreshold = true → ∀ t, TaskOK T t → t.two = true → ∀ p q, Hit T t p q → dec p q = false) :
    ∀ p q, p < T.n → q < T.n → p ≠ q → occurrences calls.flatten (T.idx p) (T.idx q) = if dec p q then 1 else 0 := by
  have hon : OnLevel D 0 0 := ⟨by simp [levelStart], by simp [levelStart]⟩
  have hperm := d.determined (emitted T dec) (fun t ht g => runTask_dec rng ok h (visitP_ok _ _ _ _ hon hon t ht) g)
  rw [emitted_debug ok hrel] at hperm
  have hok : ∀ t ∈ visitP T.debug T.levels 0 0 0, TaskOK T t := fun t ht => by
    have := visitP_ok (T := T.debug) _ _ _ _ hon hon t ht
    exact ⟨this.hi, this.hj, this.hA, this.hB, this.hl, this.two, this.one⟩
  obtain ⟨cs, h1, h2, h3⟩ := ok.allCandidates_count _ hok
  have hp2 := hperm.trans (emitted_flatMap ok dec _ hok cs h1)
  intro p q hp hq hpq
  unfold occurrences
  have hcs : ∀ c ∈ cs.filter (fun c => dec c.1 c.2), c.1 < T.n ∧ c.2 < T.n := fun c hc => h2 c (List.mem_of_mem_filter hc)
  rw [hp2.count_eq, hp2.count_eq, ok.count_map_idx hcs hp hq, ok.count_map_idx hcs hq hp]
  have hnd : ¬ (T.debug.ndebug = true ∧ T.debug.isThreshold = true) := by simp [Tree.debug]
  have hp' := hp; have hq' := hq
  rw [← ok.length_nodes] at hp' hq'
  have hr := cnt_visit_root ok.debug hnd (List.getElem?_eq_getElem hp') (List.getElem?_eq_getElem hq') hpq
  change cnt T (visitP T.debug T.levels 0 0 0) p q + cnt T (visitP T.debug T.levels 0 0 0) q p = 1 at hr
  rw [← h3, ← h3] at hr
  have hs := hsym p q hp hq
  cases hdec : dec p q
  · rw [List.count_eq_zero.2 (fun hm => by have := (List.mem_filter.1 hm).2; simp [hdec] at this),
      List.count_eq_zero.2 (fun hm => by have := (List.mem_filter.1 hm).2; rw [← hs] at this; simp [hdec] at this)]
    simp
  · rw [List.count_filter (by simpa using hdec), List.count_filter (by simpa [← hs] using hdec), hr]
    simp

/-- A release build in threshold mode makes only type I calls.  If these decide by `dec`, every callback is a pair satisfying
`dec`, and a pair satisfying `dec` in both orders is a callback unless it belongs to a type II call of the full recursion. -/
theorem Distributed.released {rng : Rng F} {calls : List (List (Nat × Nat))} (d : Distributed T rng calls) (ok : TreeOK T)
    {dec : Nat → Nat → Bool} (h : DecidesI T rng dec) (hr : T.ndebug = true ∧ T.isThreshold = true) :
    (∀ e ∈ calls.flatten, ∃ p q, p < T.n ∧ q < T.n ∧ e = (T.idx p, T.idx q) ∧ dec p q = true) ∧
    ∀ p q, p < T.n → q < T.n → p ≠ q → (∃ t, TaskOK T t ∧ t.two = true ∧ (Hit T t p q ∨ Hit T t q p)) ∨
      (dec p q = true → dec q p = true → (T.idx p, T.idx q) ∈ calls.flatten ∨ (T.idx q, T.idx p) ∈ calls.flatten) := by
  have hon : OnLevel D 0 0 := ⟨by simp [levelStart], by simp [levelStart]⟩
  have hdok : ∀ t ∈ visitP T.debug T.levels 0 0 0, TaskOK T t := fun t ht => by
    have := visitP_ok (T := T.debug) _ _ _ _ hon hon t ht
    exact ⟨this.hi, this.hj, this.hA, this.hB, this.hl, this.two, this.one⟩
  have hrel := visitP_release hr T.levels 0 0 0
  have hmem : ∀ t, t ∈ visitP T T.levels 0 0 0 ↔ t ∈ visitP T.debug T.levels 0 0 0 ∧ t.two = false := by
    intro t
    rw [hrel, List.mem_filter]
    simp
  have hperm := d.determined (emitted T dec) (fun t ht g => by
    have ht2 := ((hmem t).1 ht).2
    obtain ⟨ra, rb, hrg⟩ := ok.ranges_ok (hdok t ((hmem t).1 ht).1)
    unfold runTask
    rw [ht2]
    simpa using sampleTypeI_dec rng ok h hrg g)
  have hem : ∀ t, TaskOK T t → ∀ e, e ∈ emitted T dec t ↔ ∃ p q, Hit T t p q ∧ dec p q = true ∧ e = (T.idx p, T.idx q) := by
    intro t ht e
    obtain ⟨ra, rb, hrg⟩ := ok.ranges_ok ht
    unfold emitted
    rw [hrg.eq]
    simp only [List.mem_map, List.mem_filter]
    constructor
    · rintro ⟨⟨p, q⟩, ⟨h1, h2⟩, rfl⟩
      exact ⟨p, q, mem_pair_hit ok hrg h1, h2, rfl⟩
    · rintro ⟨p, q, ⟨x, y, hx, hy, h3, h4, h5⟩, h2, rfl⟩
      exact ⟨(p, q), ⟨hrg.mem_pairListI.2 ⟨(hrg.memA _ _ hx).2 h3, (hrg.memB _ _ hy).2 h4, h5⟩, h2⟩, rfl⟩
  have hlt : ∀ {p : Nat} {x : Node F D}, T.nodes[p]? = some x → p < T.n := fun hx => by
    rw [← ok.length_nodes]; exact (List.getElem?_eq_some_iff.1 hx).1
  constructor
  · intro e he
    obtain ⟨t, ht, he⟩ := List.mem_flatMap.1 (hperm.mem_iff.1 he)
    obtain ⟨p, q, ⟨x, y, hx, hy, _⟩, h2, rfl⟩ := (hem t (hdok t ((hmem t).1 ht).1) e).1 he
    exact ⟨p, q, hlt hx, hlt hy, rfl, h2⟩
  · intro p q hp hq hpq
    have hnd : ¬ (T.debug.ndebug = true ∧ T.debug.isThreshold = true) := by simp [Tree.debug]
    have hp' := hp; have hq' := hq
    rw [← ok.length_nodes] at hp' hq'
    have hc := cnt_visit_root ok.debug hnd (List.getElem?_eq_getElem hp') (List.getElem?_eq_getElem hq') hpq
    change cnt T (visitP T.debug T.levels 0 0 0) p q + cnt T (visitP T.debug T.levels 0 0 0) q p = 1 at hc
    have hpos : ∀ p q, 0 < cnt T (visitP T.debug T.levels 0 0 0) p q → ∃ t ∈ visitP T.debug T.levels 0 0 0, Hit T t p q := by
      intro p q h0
      by_contra hne
      push Not at hne
      rw [cnt_zero hne] at h0
      omega
    obtain ⟨t, ht, hh⟩ : ∃ t ∈ visitP T.debug T.levels 0 0 0, Hit T t p q ∨ Hit T t q p := by
      rcases Nat.eq_zero_or_pos (cnt T (visitP T.debug T.levels 0 0 0) p q) with h0 | h0
      · obtain ⟨t, h1, h2⟩ := hpos q p (by omega)
        exact ⟨t, h1, Or.inr h2⟩
      · obtain ⟨t, h1, h2⟩ := hpos p q h0
        exact ⟨t, h1, Or.inl h2⟩
    cases h2 : t.two
    · right
      intro d1 d2
      have hin : ∀ e ∈ emitted T dec t, e ∈ calls.flatten := fun e he =>
        hperm.mem_iff.2 (List.mem_flatMap.2 ⟨t, (hmem t).2 ⟨ht, h2⟩, he⟩)
      rcases hh with hh | hh
      · exact Or.inl (hin _ ((hem t (hdok t ht) _).2 ⟨p, q, hh, d1, rfl⟩))
      · exact Or.inr (hin _ ((hem t (hdok t ht) _).2 ⟨q, p, hh, d2, rfl⟩))
    · exact Or.inl ⟨t, hdok t ht, h2, hh⟩

end Girgs
