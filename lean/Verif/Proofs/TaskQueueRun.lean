import Verif.Proofs.TaskQueue
/-!
The task queue of the hyperbolic sampler: whole executions.
-/
namespace Girgs.TaskQueue

/-- the thread an action belongs to -/
def Act.thread : Act → Nat
  | .run t => t
  | .spurious t => t

theorem step_none {m : Nat} {s : State} {a : Act} (h : s.pcs.length ≤ a.thread) : step m s a = none := by
  cases a <;>
  · rename_i t
    have : rd s.pcs t = none := by unfold rd; exact List.getElem?_eq_none h
    show (rd s.pcs t >>= _) = none
    rw [this]; rfl

theorem Inv.spurious {n m : Nat} {gen : Bool} {s : State} (h : Inv n m gen s) {t : Nat} (ht : t < n) :
    ∃ s', TaskQueue.step m s (.spurious t) = some s' ∧ Inv n m gen s' := by
  have hlen := h.len
  obtain ⟨p, hp⟩ : ∃ p, s.pcs[t]? = some p := ⟨_, List.getElem?_eq_getElem (by omega)⟩
  have hrd : rd s.pcs t = some p := hp
  obtain ⟨pl, hpl⟩ : ∃ pl, s.pcs[n - 1]? = some pl := ⟨_, List.getElem?_eq_getElem (by omega)⟩
  have hL := h.last pl hpl
  by_cases e : p = .waiting
  · subst e
    have hl : t + 1 ≠ n := by
      intro hl
      have : pl = PC.waiting := by
        have e : n - 1 = t := by omega
        rw [e, hp] at hpl; exact (Option.some.inj hpl).symm
      subst this
      simp [before, phase2] at hL
    refine ⟨_, (obind hrd _).trans (if_pos rfl), ⟨h.toCtl.move hp ?_ ?_ ?_, h.toCnt.move hp ?_ ?_ ?_ ?_ ?_⟩⟩
    all_goals (try simp_all [holds, before, phase2, early, held, over, weight, passed])
  · exact ⟨s, (obind hrd _).trans (if_neg e), h⟩

theorem Inv.step_total {n m : Nat} {gen : Bool} {s : State} (h : Inv n m gen s) (hb : m + n + 1 < 2 ^ 32) {a : Act} (ha : a.thread < n) :
    ∃ s', step m s a = some s' ∧ Inv n m gen s' := by
  cases a with
  | run t => obtain ⟨s', h1, h2, _⟩ := h.next (t := t) ha hb; exact ⟨s', h1, h2⟩
  | spurious t => exact h.spurious ha

theorem Inv.of_step {n m : Nat} {gen : Bool} {s s' : State} (h : Inv n m gen s) (hb : m + n + 1 < 2 ^ 32) {a : Act}
    (hs : step m s a = some s') : Inv n m gen s' := by
  have ha : a.thread < n := by
    by_contra hc
    rw [step_none (by rw [h.len]; omega)] at hs; cases hs
  obtain ⟨s'', h1, h2⟩ := h.step_total hb ha
  rw [h1] at hs; cases hs; exact h2

theorem Inv.of_run {n m : Nat} {gen : Bool} (hb : m + n + 1 < 2 ^ 32) : ∀ (sched : List Act) {s s' : State}, Inv n m gen s →
    run m s sched = some s' → Inv n m gen s' := by
  intro sched
  induction sched with
  | nil => intro s s' h hr; cases hr; exact h
  | cons a L ih =>
    intro s s' h hr
    rw [run, List.foldlM_cons] at hr
    cases hs : step m s a with
    | none => rw [hs] at hr; cases hr
    | some s1 =>
      rw [hs] at hr
      exact ih (h.of_step hb hs) hr

/-- no action of an existing thread is undefined behaviour -/
theorem Inv.run_total {n m : Nat} {gen : Bool} (hb : m + n + 1 < 2 ^ 32) : ∀ (sched : List Act) {s : State}, Inv n m gen s →
    (∀ a ∈ sched, a.thread < n) → ∃ s', run m s sched = some s' := by
  intro sched
  induction sched with
  | nil => intro s h _; exact ⟨s, rfl⟩
  | cons a L ih =>
    intro s h ha
    obtain ⟨s1, h1, h2⟩ := h.step_total hb (ha a (by simp))
    obtain ⟨s2, h3⟩ := ih h2 (fun b hb => ha b (by simp [hb]))
    exact ⟨s2, by rw [run, List.foldlM_cons, h1]; exact h3⟩

theorem Inv.done_log {n m : Nat} {gen : Bool} {s : State} (h : Inv n m gen s) (hn : 1 ≤ n) (hf : s.finished) :
    s.log.flatten.Perm (List.range m) := by
  rw [List.perm_iff_count]
  intro i
  have h0 : s.pcs[0]? = some PC.done := by
    have hl : 0 < s.pcs.length := by rw [h.len]; omega
    rw [List.getElem?_eq_getElem hl, hf _ (List.getElem_mem hl)]
  have hc := h.done_ge 0 h0
  by_cases hi : i < m
  · have h1 := h.count i hi
    rw [sum_zero (held i) s.pcs (fun a ha => by rw [hf a ha]; rfl), if_pos (by omega)] at h1
    rw [List.count_range, if_pos hi]; omega
  · rw [List.count_range, if_neg hi, List.count_eq_zero]
    intro hm
    obtain ⟨l, hl, hil⟩ := List.mem_flatten.1 hm
    exact hi (h.log_lt l hl i hil)

/-- while the region has not ended, some thread can proceed -/
theorem Inv.progress {n m : Nat} {s : State} (h : Inv n m true s) (hf : ¬ s.finished) : ∃ t : Nat, t < n ∧ ¬ blocked s t := by
  have hlen := h.len
  cases ho : s.owner with
  | some t =>
    have ht := h.owner_lt t ho
    refine ⟨t, ht, ?_⟩
    obtain ⟨p, hp⟩ : ∃ p, s.pcs[t]? = some p := ⟨_, List.getElem?_eq_getElem (by omega)⟩
    have := (h.mutex t p hp).2 ho
    unfold blocked
    rw [hp]
    rintro (e | e | ⟨e | e, _⟩) <;> (cases e; simp [holds] at this)
  | none =>
    unfold State.finished at hf
    push Not at hf
    obtain ⟨p, hp, hne⟩ := hf
    obtain ⟨t, ht, e⟩ := List.getElem_of_mem hp
    have hp' : s.pcs[t]? = some p := by rw [List.getElem?_eq_getElem ht, e]
    by_cases hw : p = .waiting
    · subst hw
      obtain ⟨pl, hpl⟩ : ∃ pl, s.pcs[n - 1]? = some pl := ⟨_, List.getElem?_eq_getElem (by omega)⟩
      have := (h.last pl hpl).2.2.2 rfl t hp'
      refine ⟨n - 1, by omega, ?_⟩
      unfold blocked
      rw [hpl, ho]
      rintro (e | e | ⟨_, e⟩)
      · cases e; simp [before] at this
      · cases e; simp [before] at this
      · exact e rfl
    · refine ⟨t, by omega, ?_⟩
      unfold blocked
      rw [hp', ho]
      rintro (e | e | ⟨_, e⟩)
      · exact hne (Option.some.inj e)
      · exact hw (Option.some.inj e)
      · exact e rfl

/-- without a task list the workers never get past the condition variable -/
theorem Inv.stuck {n m : Nat} {s : State} (h : Inv n m false s) (hn : 2 ≤ n) : ¬ s.finished := by
  intro hf
  have hlen := h.len
  have h0 : s.pcs[0]? = some PC.done := by
    rw [List.getElem?_eq_getElem (by omega), hf _ (List.getElem_mem (by omega))]
  have h1 := (h.work 0 _ h0 (by omega)).2 rfl
  obtain ⟨pl, hpl⟩ : ∃ pl, s.pcs[n - 1]? = some pl := ⟨_, List.getElem?_eq_getElem (by omega)⟩
  have := ((h.last pl hpl).2.1.1 h1).1
  cases this

/-- a non-increasing sequence of natural numbers is eventually constant -/
theorem eventually_const (f : Nat → Nat) (K : Nat) (hf : ∀ k, K ≤ k → f (k + 1) ≤ f k) : ∃ K', K ≤ K' ∧ ∀ k, K' ≤ k → f k = f K' := by
  have hmono : ∀ d k, K ≤ k → f (k + d) ≤ f k := by
    intro d
    induction d with
    | zero => intro k _; exact Nat.le_refl _
    | succ d ih => intro k hk; exact (hf (k + d) (by omega)).trans (ih k hk)
  have hP : ∃ v, ∃ k, K ≤ k ∧ f k = v := ⟨f K, K, Nat.le_refl _, rfl⟩
  classical
  obtain ⟨K', hK', e⟩ := Nat.find_spec hP
  refine ⟨K', hK', fun k hk => ?_⟩
  have h1 := hmono (k - K') K' hK'
  have h2 : Nat.find hP ≤ f k := Nat.find_min' hP ⟨k, by omega, rfl⟩
  have : K' + (k - K') = k := by omega
  rw [this] at h1
  omega

/-- every fair execution ends -/
theorem fair_finishes {n m : Nat} (hb : m + n + 1 < 2 ^ 32) (σ : Nat → State) (a : Nat → Act) (h0 : Inv n m true (σ 0))
    (hstep : ∀ k, step m (σ k) (a k) = some (σ (k + 1)))
    (hfair : ∀ t, t < n → ∀ k, ∃ j, k ≤ j ∧ a j = .run t)
    (hsp : ∃ K, ∀ k, K ≤ k → ∀ t, a k ≠ .spurious t) : ∃ k, (σ k).finished := by
  have hinv : ∀ k, Inv n m true (σ k) := by
    intro k
    induction k with
    | zero => exact h0
    | succ k ih => exact ih.of_step hb (hstep k)
  obtain ⟨K, hK⟩ := hsp
  have hdec : ∀ k, K ≤ k → ∃ t, a k = .run t ∧ t < n ∧ ((blocked (σ k) t ∧ σ (k + 1) = σ k) ∨
      (¬ blocked (σ k) t ∧ measure n m (σ (k + 1)) < measure n m (σ k))) := by
    intro k hk
    cases ha : a k with
    | spurious t => exact absurd ha (hK k hk t)
    | run t =>
      have hs := hstep k
      rw [ha] at hs
      have ht : t < n := by
        by_contra hc
        rw [step_none (by rw [(hinv k).len]; simpa [Act.thread] using hc)] at hs; cases hs
      obtain ⟨s', h1, _, h3⟩ := (hinv k).next ht hb
      rw [h1] at hs; cases hs
      exact ⟨t, rfl, ht, h3⟩
  obtain ⟨K', hK', hc⟩ := eventually_const (fun k => measure n m (σ k)) K (by
    intro k hk
    obtain ⟨t, _, _, h⟩ := hdec k hk
    rcases h with ⟨_, e⟩ | ⟨_, h⟩
    · show measure n m (σ (k + 1)) ≤ _; rw [e]
    · exact h.le)
  have hconst : ∀ d, σ (K' + d) = σ K' := by
    intro d
    induction d with
    | zero => rfl
    | succ d ih =>
      obtain ⟨t, _, _, h⟩ := hdec (K' + d) (by omega)
      rcases h with ⟨_, e⟩ | ⟨_, h⟩
      · exact e.trans ih
      · have h1 := hc (K' + d) (by omega)
        have h2 := hc (K' + d + 1) (by omega)
        omega
  refine ⟨K', ?_⟩
  by_contra hf
  obtain ⟨t, ht, hnb⟩ := (hinv K').progress hf
  obtain ⟨j, hj, e⟩ := hfair t ht K'
  obtain ⟨t', e', _, h⟩ := hdec j (by omega)
  rw [e] at e'
  have e'' : t' = t := by cases e'; rfl
  subst e''
  have hj' : σ j = σ K' := by
    have := hconst (j - K')
    rwa [show K' + (j - K') = j by omega] at this
  rw [hj'] at h
  rcases h with ⟨h, _⟩ | ⟨_, h⟩
  · exact hnb h
  · have h2 := hc (j + 1) (by omega)
    omega

/-- from every reachable state some schedule of at most `measure` steps ends the region -/
theorem Inv.can_finish {n m : Nat} (hb : m + n + 1 < 2 ^ 32) : ∀ (k : Nat) {s : State}, measure n m s ≤ k → Inv n m true s →
    ∃ sched s', sched.length ≤ k ∧ run m s sched = some s' ∧ s'.finished := by
  intro k
  induction k with
  | zero =>
    intro s hk h
    by_cases hf : s.finished
    · exact ⟨[], s, by simp, rfl, hf⟩
    · obtain ⟨t, ht, hnb⟩ := h.progress hf
      obtain ⟨s', _, _, h3⟩ := h.next ht hb
      rcases h3 with ⟨h3, _⟩ | ⟨_, h3⟩
      · exact absurd h3 hnb
      · omega
  | succ k ih =>
    intro s hk h
    by_cases hf : s.finished
    · exact ⟨[], s, by simp, rfl, hf⟩
    · obtain ⟨t, ht, hnb⟩ := h.progress hf
      obtain ⟨s1, h1, h2, h3⟩ := h.next ht hb
      rcases h3 with ⟨h3, _⟩ | ⟨_, h3⟩
      · exact absurd h3 hnb
      · obtain ⟨sched, s', g1, g2, g3⟩ := ih (by omega) h2
        exact ⟨.run t :: sched, s', by simp; omega, by rw [run, List.foldlM_cons, h1]; exact g2, g3⟩

end Girgs.TaskQueue
