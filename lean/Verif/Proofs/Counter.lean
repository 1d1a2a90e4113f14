import Verif.Model.Bench
namespace Girgs.Counter

/-- every counter holds the number of completed calls of its thread -/
structure Inv (maxThreads : Nat) (calls : List Nat) (s : State) : Prop where
  slots : s.slots.length = maxThreads
  ths : s.ths.length = calls.length
  thread : ∀ (t : Nat) th, s.ths[t]? = some th → ∃ c d, calls[t]? = some c ∧ c = d + th.todo + (if th.loaded.isSome then 1 else 0) ∧
    s.slots[t]? = some (d % 18446744073709551616) ∧ ∀ v, th.loaded = some v → v = d % 18446744073709551616
  rest : ∀ t, calls.length ≤ t → t < maxThreads → s.slots[t]? = some 0

theorem init_inv {maxThreads : Nat} {calls : List Nat} (h : calls.length ≤ maxThreads) : Inv maxThreads calls (init maxThreads calls) := by
  refine ⟨by simp [init], by simp [init], ?_, ?_⟩
  · intro t th ht
    simp only [init, List.getElem?_map, Option.map_eq_some_iff] at ht
    obtain ⟨c, hc, rfl⟩ := ht
    have : t < calls.length := (List.getElem?_eq_some_iff.1 hc).1
    refine ⟨c, 0, hc, by simp, ?_, by simp⟩
    simp only [init]
    rw [List.getElem?_replicate, if_pos (by omega)]
  · intro t h1 h2
    simp only [init]
    rw [List.getElem?_replicate, if_pos h2]

theorem step_inv {maxThreads : Nat} {calls : List Nat} (hle : calls.length ≤ maxThreads) {s : State} (h : Inv maxThreads calls s) {t : Nat} (ht : t < calls.length) :
    ∃ s', step id s t = some s' ∧ Inv maxThreads calls s' := by
  have hlt : t < s.ths.length := by rw [h.ths]; exact ht
  have hth : s.ths[t]? = some s.ths[t] := List.getElem?_eq_getElem hlt
  obtain ⟨c, d, h1, h2, h3, h4⟩ := h.thread t _ hth
  have hsl : t < s.slots.length := by rw [h.slots]; omega
  generalize s.ths[t] = th at hth h2 h4
  obtain ⟨todo, loaded⟩ := th
  simp only [step, rd, hth, Option.bind_eq_bind, Option.bind_some]
  cases loaded with
  | none =>
    cases todo with
    | zero => exact ⟨s, rfl, h⟩
    | succ k =>
      refine ⟨{ s with ths := s.ths.set t ⟨k, some (d % 18446744073709551616)⟩ }, by simp only [id, h3, Option.bind_some], by simpa using h.slots, by simpa using h.ths, ?_, h.rest⟩
      intro t' th' ht'
      simp only [List.getElem?_set] at ht'
      by_cases e : t = t'
      · subst e
        simp only [if_true, if_pos hlt, Option.some.injEq] at ht'
        subst ht'
        refine ⟨c, d, h1, ?_, h3, ?_⟩
        · simp at h2 ⊢; omega
        · intro v hv
          exact (Option.some.inj hv).symm
      · rw [if_neg e] at ht'
        exact h.thread t' th' ht'
  | some v =>
    have hv := h4 v rfl
    simp only [wr, id, if_pos hsl, Option.bind_some]
    refine ⟨_, rfl, by simpa using h.slots, by simpa using h.ths, ?_, ?_⟩
    · intro t' th' ht'
      simp only [List.getElem?_set] at ht' ⊢
      by_cases e : t = t'
      · subst e
        simp only [if_true, if_pos hlt, Option.some.injEq] at ht'
        subst ht'
        refine ⟨c, d + 1, h1, ?_, ?_, by simp⟩
        · simp at h2 ⊢; omega
        · simp only [if_true, if_pos hsl]
          congr 1
          rw [hv]; omega
      · rw [if_neg e] at ht' ⊢
        exact h.thread t' th' ht'
    · intro t' a b
      simp only [List.getElem?_set]
      rw [if_neg (by omega)]
      exact h.rest t' a b

theorem run_inv {maxThreads : Nat} {calls : List Nat} (hle : calls.length ≤ maxThreads) (sched : List Nat) (hs : ∀ t ∈ sched, t < calls.length) {s : State}
    (h : Inv maxThreads calls s) : ∃ s', run id s sched = some s' ∧ Inv maxThreads calls s' := by
  induction sched generalizing s with
  | nil => exact ⟨s, rfl, h⟩
  | cons t ts ih =>
    obtain ⟨s1, e1, i1⟩ := step_inv hle h (hs t (by simp))
    obtain ⟨s2, e2, i2⟩ := ih (fun x hx => hs x (by simp [hx])) i1
    refine ⟨s2, ?_, i2⟩
    simp only [run, List.foldlM_cons, Option.bind_eq_bind] at e2 ⊢
    rw [e1]; exact e2

/-- in a schedule that is defined every step is of an existing thread -/
theorem run_sched {maxThreads : Nat} {calls : List Nat} (hle : calls.length ≤ maxThreads) (sched : List Nat) {s s' : State}
    (h : Inv maxThreads calls s) (e : run id s sched = some s') : ∀ t ∈ sched, t < calls.length := by
  induction sched generalizing s with
  | nil => simp
  | cons t ts ih =>
    simp only [run, List.foldlM_cons, Option.bind_eq_bind, Option.bind_eq_some_iff] at e
    obtain ⟨s1, e1, e2⟩ := e
    have ht : t < calls.length := by
      by_contra hc
      rw [step, rd, List.getElem?_eq_none (by rw [h.ths]; omega)] at e1
      simp at e1
    obtain ⟨s1', e1', i1⟩ := step_inv hle h ht
    rw [e1] at e1'
    cases Option.some.inj e1'
    intro x hx
    rcases List.mem_cons.1 hx with rfl | hx
    · exact ht
    · exact ih i1 e2 x hx

theorem total_append (l : List Nat) (a : Nat) : l.foldl (fun val x => (val + x) % 18446744073709551616) a % 18446744073709551616 = (a + l.sum) % 18446744073709551616 := by
  induction l generalizing a with
  | nil => simp
  | cons x l ih =>
    rw [List.foldl_cons, ih, List.sum_cons]
    omega

theorem foldl_lt (l : List Nat) (a : Nat) (ha : a < 18446744073709551616) : l.foldl (fun val x => (val + x) % 18446744073709551616) a < 18446744073709551616 := by
  induction l generalizing a with
  | nil => exact ha
  | cons x l ih =>
    rw [List.foldl_cons]
    exact ih _ (Nat.mod_lt _ (by omega))

theorem total_eq (l : List Nat) : total l = l.sum % 18446744073709551616 := by
  have h := total_append l 0
  rw [Nat.mod_eq_of_lt (foldl_lt l 0 (by omega))] at h
  rw [total, h, Nat.zero_add]

theorem sum_mod (l : List Nat) : (l.map (· % 18446744073709551616)).sum % 18446744073709551616 = l.sum % 18446744073709551616 := by
  induction l with
  | nil => rfl
  | cons x l ih => simp only [List.map_cons, List.sum_cons]; omega

theorem finished_slots {maxThreads : Nat} {calls : List Nat} (hle : calls.length ≤ maxThreads) {s : State} (h : Inv maxThreads calls s)
    (hf : ∀ th ∈ s.ths, th.finished) : s.slots = calls.map (· % 18446744073709551616) ++ List.replicate (maxThreads - calls.length) 0 := by
  apply List.ext_getElem?
  intro t
  by_cases ht : t < calls.length
  · have hth : s.ths[t]? = some (s.ths[t]'(by rw [h.ths]; exact ht)) := List.getElem?_eq_getElem _
    obtain ⟨c, d, h1, h2, h3, _⟩ := h.thread t _ hth
    obtain ⟨f1, f2⟩ := hf _ (List.mem_of_getElem? hth)
    rw [f1, f2] at h2
    rw [h3, List.getElem?_append_left (by simpa using ht), List.getElem?_map, h1]
    simp at h2 ⊢
    rw [h2]
  · rw [List.getElem?_append_right (by simpa using ht), List.getElem?_replicate]
    simp only [List.length_map]
    by_cases h2 : t < maxThreads
    · rw [if_pos (by omega), h.rest t (by omega) h2]
    · rw [if_neg (by omega), List.getElem?_eq_none (by rw [h.slots]; omega)]

theorem finished_total {maxThreads : Nat} {calls : List Nat} (hle : calls.length ≤ maxThreads) {s : State} (h : Inv maxThreads calls s)
    (hf : ∀ th ∈ s.ths, th.finished) : total s.slots = calls.sum % 18446744073709551616 := by
  rw [total_eq, finished_slots hle h hf, List.sum_append]
  have h0 : (List.replicate (maxThreads - calls.length) 0).sum = 0 := by
    induction maxThreads - calls.length with
    | zero => rfl
    | succ k ih => rw [List.replicate_succ, List.sum_cons, ih]
  rw [h0]
  exact sum_mod calls

/-- one thread finishes when it runs alone -/
theorem finish_one {maxThreads : Nat} {calls : List Nat} (hle : calls.length ≤ maxThreads) (t : Nat) (ht : t < calls.length) (k : Nat) :
    ∀ {s : State}, Inv maxThreads calls s → (∀ th, s.ths[t]? = some th → th.loaded = none ∧ th.todo = k) → ∃ sched s', run id s sched = some s' ∧ Inv maxThreads calls s' ∧
      (∀ th, s'.ths[t]? = some th → th.finished) ∧ ∀ u, u ≠ t → s'.ths[u]? = s.ths[u]? := by
  induction k with
  | zero => exact fun {s} h hk => ⟨[], s, rfl, h, fun th hth => ⟨(hk th hth).2, (hk th hth).1⟩, fun _ _ => rfl⟩
  | succ k ih =>
    intro s h hk
    have hlt : t < s.ths.length := by rw [h.ths]; exact ht
    have hth : s.ths[t]? = some s.ths[t] := List.getElem?_eq_getElem hlt
    obtain ⟨k1, k2⟩ := hk _ hth
    have hsl : t < s.slots.length := by rw [h.slots]; omega
    generalize s.ths[t] = th at hth k1 k2
    obtain ⟨todo, loaded⟩ := th
    subst k1 k2
    have e1 : step id s t = some { s with ths := s.ths.set t ⟨k, some s.slots[t]⟩ } := by
      simp only [step, rd, hth, Option.bind_eq_bind, Option.bind_some, id, List.getElem?_eq_getElem hsl]
    obtain ⟨s1, e1', i1⟩ := step_inv hle h ht
    rw [e1] at e1'; cases Option.some.inj e1'
    have hth1 : (s.ths.set t ⟨k, some s.slots[t]⟩)[t]? = some ⟨k, some s.slots[t]⟩ := by
      rw [List.getElem?_set, if_pos rfl, if_pos hlt]
    obtain ⟨s2, e2, i2⟩ := step_inv hle i1 ht
    have e2' := e2
    simp only [step, rd, hth1, Option.bind_eq_bind, Option.bind_some, wr, id, if_pos hsl, Option.some.injEq] at e2'
    have hl2 : ∀ th, s2.ths[t]? = some th → th.loaded = none ∧ th.todo = k := by
      intro th hth
      rw [← e2'] at hth
      simp only [List.set_set, List.getElem?_set, if_true, if_pos hlt, Option.some.injEq] at hth
      subst hth
      exact ⟨rfl, rfl⟩
    obtain ⟨sched, s3, e3, i3, f3, g3⟩ := ih i2 hl2
    refine ⟨t :: t :: sched, s3, ?_, i3, f3, ?_⟩
    · simp only [run, List.foldlM_cons, Option.bind_eq_bind] at e3 ⊢
      rw [e1]
      simp only [Option.bind_some]
      rw [e2]; exact e3
    · intro u hu
      rw [g3 u hu, ← e2']
      simp only [List.set_set, List.getElem?_set, if_neg (Ne.symm hu)]

theorem finish_all {maxThreads : Nat} {calls : List Nat} (hle : calls.length ≤ maxThreads) (j : Nat) (hj : j ≤ calls.length) :
    ∃ sched s, run id (init maxThreads calls) sched = some s ∧ Inv maxThreads calls s ∧ (∀ t th, t < j → s.ths[t]? = some th → th.finished) ∧
      ∀ t, j ≤ t → s.ths[t]? = (init maxThreads calls).ths[t]? := by
  induction j with
  | zero => exact ⟨[], _, rfl, init_inv hle, fun _ _ h => absurd h (by omega), fun _ _ => rfl⟩
  | succ j ih =>
    obtain ⟨sched, s, e, i, f, g⟩ := ih (by omega)
    have hjth : s.ths[j]? = some ⟨calls[j], none⟩ := by
      rw [g j le_rfl]
      simp only [init, List.getElem?_map, List.getElem?_eq_getElem (show j < calls.length by omega), Option.map_some]
    obtain ⟨sched', s', e', i', f', g'⟩ := finish_one hle j (by omega) calls[j] i (fun th hth => by rw [hjth] at hth; cases Option.some.inj hth; exact ⟨rfl, rfl⟩)
    refine ⟨sched ++ sched', s', ?_, i', ?_, ?_⟩
    · simp only [run, List.foldlM_append, Option.bind_eq_bind] at e e' ⊢
      rw [e]; exact e'
    · intro t th ht hth
      by_cases et : t = j
      · subst et; exact f' th hth
      · rw [g' t et] at hth
        exact f t th (by omega) hth
    · intro t ht
      rw [g' t (by omega)]
      exact g t (by omega)

theorem run_iff {maxThreads : Nat} {calls : List Nat} (hle : calls.length ≤ maxThreads) (result : Nat) :
    Run maxThreads id calls result ↔ result = calls.sum % 18446744073709551616 := by
  constructor
  · rintro ⟨sched, s, e, hf, rfl⟩
    obtain ⟨s', e', i'⟩ := run_inv hle sched (run_sched hle sched (init_inv hle) e) (init_inv hle)
    rw [e] at e'; cases Option.some.inj e'
    exact finished_total hle i' hf
  · rintro rfl
    obtain ⟨sched, s, e, i, f, _⟩ := finish_all hle calls.length le_rfl
    have hf : ∀ th ∈ s.ths, th.finished := by
      intro th hth
      obtain ⟨t, ht⟩ := List.mem_iff_getElem?.1 hth
      exact f t th (by have := (List.getElem?_eq_some_iff.1 ht).1; rw [i.ths] at this; exact this) ht
    exact ⟨sched, s, e, hf, (finished_total hle i hf).symm⟩

end Girgs.Counter
