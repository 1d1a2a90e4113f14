import Mathlib.Data.List.Perm.Basic
/-
Interleavings of the action sequences of several threads.
-/
namespace Girgs

/-- `m` is an interleaving of the sequences `ls`: at every moment some sequence with remaining elements makes a step. -/
inductive Interleaving {α : Type} : List (List α) → List α → Prop
  | done (ls : List (List α)) : (∀ l ∈ ls, l = []) → Interleaving ls []
  | step (pre post : List (List α)) (a : α) (l m : List α) :
      Interleaving (pre ++ l :: post) m → Interleaving (pre ++ (a :: l) :: post) (a :: m)

theorem Interleaving.perm {α : Type} {ls : List (List α)} {m : List α} (h : Interleaving ls m) : m.Perm ls.flatten := by
  induction h with
  | done ls h =>
    have : ls.flatten = [] := by
      rw [List.flatten_eq_nil_iff]; exact h
    rw [this]
  | step pre post a l m _ ih =>
    rw [List.flatten_append, List.flatten_cons] at ih ⊢
    rw [List.cons_append]
    refine (List.Perm.cons a ih).trans ?_
    exact (List.perm_middle).symm

/-- executing the threads one after the other is an interleaving -/
theorem Interleaving.sequential {α : Type} (ls : List (List α)) : Interleaving ls ls.flatten := by
  have key : ∀ (k : Nat) (ls : List (List α)), ls.flatten.length = k → Interleaving ls ls.flatten := by
    intro k
    induction k with
    | zero =>
      intro ls h
      rw [List.length_eq_zero_iff] at h
      rw [h]
      exact Interleaving.done _ (List.flatten_eq_nil_iff.1 h)
    | succ k ih =>
      intro ls h
      have : ∃ pre a l post, ls = pre ++ (a :: l) :: post ∧ ∀ x ∈ pre, x = [] := by
        clear ih
        induction ls with
        | nil => simp at h
        | cons x ls ih' =>
          cases x with
          | nil =>
            obtain ⟨pre, a, l, post, h1, h2⟩ := ih' (by simpa using h)
            refine ⟨[] :: pre, a, l, post, by rw [h1]; rfl, ?_⟩
            intro y hy
            rcases List.mem_cons.1 hy with h | h
            · exact h
            · exact h2 y h
          | cons a l => exact ⟨[], a, l, ls, rfl, by simp⟩
      obtain ⟨pre, a, l, post, rfl, hpre⟩ := this
      have hp : pre.flatten = [] := List.flatten_eq_nil_iff.2 hpre
      have e : (pre ++ (a :: l) :: post).flatten = a :: (pre ++ l :: post).flatten := by
        simp [hp]
      rw [e] at h ⊢
      apply Interleaving.step
      apply ih
      simpa using h
  exact key _ ls rfl

end Girgs
