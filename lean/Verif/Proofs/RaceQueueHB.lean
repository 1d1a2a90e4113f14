import Verif.Proofs.RaceQueue
/-
The task list itself is accessed without happens-before by a thread that sees the flag set in its unsynchronised test.
-/
namespace Girgs.TaskQueue
open Spec

/-- the events of: the last thread creates the tasks and publishes the flag, thread 0 reads the flag without locking, fetches
a number and compares it to the number of tasks -/
def racyTrace (n : Nat) : List (Event Var Sync) :=
  [⟨n - 1, [(.tasks, true)], [], []⟩, ⟨n - 1, [], [.mutex], []⟩, ⟨n - 1, [(.flag, true)], [], []⟩, ⟨n - 1, [], [], [.mutex]⟩,
   ⟨0, [], [], []⟩, ⟨0, [(.flag, false)], [], []⟩, ⟨0, [], [.counter], [.counter]⟩, ⟨0, [(.tasks, false)], [], []⟩]

theorem racy_run {n : Nat} (m : Nat) (hn : 2 ≤ n) :
    ∃ s, trace m (init n true) [.run (n - 1), .run (n - 1), .run (n - 1), .run (n - 1), .run 0, .run 0, .run 0, .run 0] =
      some (racyTrace n, s) := by
  obtain ⟨hL, h0⟩ := init_pcs hn
  have hlen : n - 1 < (init n true).pcs.length := (List.getElem?_eq_some_iff.1 hL).1
  have h0len : 0 < (init n true).pcs.length := by omega
  have hne : n - 1 ≠ 0 := by omega
  let P0 := (init n true).pcs
  let p1 := P0.set (n - 1) .setLock
  let p2 := p1.set (n - 1) .setFlag
  let p3 := p2.set (n - 1) .setUnlock
  let p4 := p3.set (n - 1) .notify
  let p5 := p4.set 0 .readFlag
  let p6 := p5.set 0 .fetch
  let p7 := p6.set 0 (.compare 0)
  let s1 : State := { init n true with pcs := p1, size := m }
  let s2 : State := { s1 with pcs := p2, owner := some (n - 1) }
  let s3 : State := { s2 with pcs := p3, flag := true }
  let s4 : State := { s3 with pcs := p4, owner := none }
  let s5 : State := { s4 with pcs := p5 }
  let s6 : State := { s5 with pcs := p6 }
  let s7 : State := { s6 with pcs := p7, counter := u32 1 }
  have q1 : s1.pcs[n - 1]? = some .setLock := List.getElem?_set_self hlen
  have q2 : s2.pcs[n - 1]? = some .setFlag := List.getElem?_set_self (by simpa [p1] using hlen)
  have q3 : s3.pcs[n - 1]? = some .setUnlock := List.getElem?_set_self (by simpa [p2, p1] using hlen)
  have q4 : s4.pcs[0]? = some .share := by
    show (((P0.set (n - 1) _).set (n - 1) _).set (n - 1) _ |>.set (n - 1) _)[0]? = _
    rw [List.getElem?_set_ne hne, List.getElem?_set_ne hne, List.getElem?_set_ne hne, List.getElem?_set_ne hne]
    exact h0
  have q5 : s5.pcs[0]? = some .readFlag := List.getElem?_set_self (by simpa [p4, p3, p2, p1] using h0len)
  have q6 : s6.pcs[0]? = some .fetch := List.getElem?_set_self (by simpa [p5, p4, p3, p2, p1] using h0len)
  have q7 : s7.pcs[0]? = some (.compare 0) := List.getElem?_set_self (by simpa [p6, p5, p4, p3, p2, p1] using h0len)
  have e1 : step m (init n true) (.run (n - 1)) = some s1 := (run_pc hL).trans rfl
  have e2 : step m s1 (.run (n - 1)) = some s2 := (run_pc q1).trans rfl
  have e3 : step m s2 (.run (n - 1)) = some s3 := (run_pc q2).trans rfl
  have e4 : step m s3 (.run (n - 1)) = some s4 := (run_pc q3).trans rfl
  have e5 : step m s4 (.run 0) = some s5 := (run_pc q4).trans rfl
  have e6 : step m s5 (.run 0) = some s6 := (run_pc q5).trans rfl
  have e7 : step m s6 (.run 0) = some s7 := (run_pc q6).trans rfl
  have e8 : ∃ s8, step m s7 (.run 0) = some s8 := ⟨_, (run_pc q7).trans rfl⟩
  obtain ⟨s8, e8⟩ := e8
  refine ⟨s8, ?_⟩
  simp only [trace, e1, e2, e3, e4, e5, e6, e7, e8, Option.bind_eq_bind, Option.bind_some, event_run hL, event_run q1, event_run q2,
    event_run q3, event_run q4, event_run q5, event_run q6, event_run q7]
  rfl

theorem racy_stay {n : Nat} (hn : 2 ≤ n) {i j : Nat} (h : HappensBefore (racyTrace n) i j) (hi : i < 4) : j < 4 := by
  have one : ∀ i j, Ordered (racyTrace n) i j → i < 4 → j < 4 := by
    rintro i j ⟨_, e, f, h1, h2, h3⟩ hi
    by_contra hj
    have hl := (List.getElem?_eq_some_iff.1 h2).1
    have hl : j < 8 := hl
    have hf : f.thread = 0 ∧ Sync.mutex ∉ f.acquire := by
      have : j = 4 ∨ j = 5 ∨ j = 6 ∨ j = 7 := by omega
      rcases this with rfl | rfl | rfl | rfl <;> (cases h2; exact ⟨rfl, by simp⟩)
    have he : e.thread = n - 1 ∧ ∀ x ∈ e.release, x = Sync.mutex := by
      have : i = 0 ∨ i = 1 ∨ i = 2 ∨ i = 3 := by omega
      rcases this with rfl | rfl | rfl | rfl <;> (cases h1; exact ⟨rfl, by simp⟩)
    rcases h3 with h3 | ⟨x, h3, h4⟩
    · rw [he.1, hf.1] at h3; omega
    · rw [he.2 x h3] at h4; exact hf.2 h4
  induction h with
  | single h => exact one _ _ h hi
  | tail _ h ih => exact one _ _ h ih

theorem tasks_race {n : Nat} (m : Nat) (hn : 2 ≤ n) :
    ∃ sched tr s, trace m (init n true) sched = some (tr, s) ∧ DataRace tr 0 7 .tasks := by
  obtain ⟨s, h⟩ := racy_run m hn
  refine ⟨_, _, s, h, by omega, fun hc => absurd (racy_stay hn hc (by omega)) (by omega), _, _, true, false, rfl, rfl, ?_, ?_, ?_, Or.inl rfl⟩
  · show n - 1 ≠ 0; omega
  · simp
  · simp

end Girgs.TaskQueue
