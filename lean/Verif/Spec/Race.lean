import Mathlib.Logic.Relation
/-
Specification: data races of a parallel region.

A region is given by the steps of its threads, `step s a` (scheduler action `a`, usually a thread number, executed in
state `s`), and by the accesses to shared memory that the next step of thread `t` makes, `access s t`: pairs (location,
`true` for a write, `false` for a read).  A state is reached by some sequence of actions.  Two threads race on a location if in
some reachable state their next steps both access it and one of the two writes.  (For programs executed with interleaved
steps this is the existence of a data race in the sense of C++: two conflicting accesses that are adjacent in some execution
have no synchronisation between them.)  Accesses to mutexes and atomics are not listed.
-/
namespace Girgs.Spec

/-- a parallel region -/
structure Region (S Act Loc : Type) where
  step : S → Act → Option S
  access : S → Nat → List (Loc × Bool)

variable {S Act Loc : Type}

/-- `s` is reached from `s0` by some schedule -/
def Region.Reaches (R : Region S Act Loc) (s0 s : S) : Prop := ∃ sched : List Act, sched.foldlM R.step s0 = some s

/-- the next steps of the threads `t` and `u` conflict at location `l`, and `t` writes -/
def Region.Conflict (R : Region S Act Loc) (s : S) (t u : Nat) (l : Loc) : Prop :=
  t ≠ u ∧ (l, true) ∈ R.access s t ∧ ∃ w, (l, w) ∈ R.access s u

/-- no reachable state has a conflict -/
def Region.RaceFree (R : Region S Act Loc) (s0 : S) : Prop := ∀ s, R.Reaches s0 s → ∀ t u l, ¬ R.Conflict s t u l

/-- The declared accesses are the accesses of the program: with `act t` the action "thread `t` executes its next step",
`val s l` the contents of location `l` (`none` if there is no such location) and `view s t` everything else the next step of
`t` may use (private variables, synchronisation objects), a step changes only locations it is declared to write, and whether
it is defined, what it does to its view and what it writes depends only on the view and on the locations it is declared to
read. -/
structure Region.Honest (R : Region S Act Loc) (act : Nat → Act) {V P : Type} (val : S → Loc → Option V) (view : S → Nat → P) :
    Prop where
  writes : ∀ s t s' l, R.step s (act t) = some s' → val s' l ≠ val s l → (l, true) ∈ R.access s t
  exist : ∀ s t s' l, R.step s (act t) = some s' → (val s' l).isSome = (val s l).isSome
  reads : ∀ s1 s2 t, view s1 t = view s2 t → (∀ l, (val s1 l).isSome = (val s2 l).isSome) →
    (∀ l, (l, false) ∈ R.access s1 t → val s1 l = val s2 l) →
    R.access s1 t = R.access s2 t ∧
      ((R.step s1 (act t)).map fun s' => view s' t) = ((R.step s2 (act t)).map fun s' => view s' t) ∧
      ∀ l, (l, true) ∈ R.access s1 t →
        ((R.step s1 (act t)).map fun s' => val s' l) = ((R.step s2 (act t)).map fun s' => val s' l)

/-! ### happens-before -/

/-- what one executed step did: accesses to plain variables (as above), synchronisation objects it acquired and released (a
lock acquires its mutex, an unlock releases it, an atomic read-modify-write does both with its variable) -/
structure Event (Loc Sync : Type) where
  thread : Nat
  access : List (Loc × Bool)
  acquire : List Sync
  release : List Sync

variable {Sync : Type}

/-- event number `i` of the trace is `e` and precedes event number `j`, `f`, in program order, or by releasing an object that
`f` acquires later -/
def Ordered (tr : List (Event Loc Sync)) (i j : Nat) : Prop :=
  i < j ∧ ∃ e f, tr[i]? = some e ∧ tr[j]? = some f ∧ (e.thread = f.thread ∨ ∃ x, x ∈ e.release ∧ x ∈ f.acquire)

/-- the happens-before relation of a trace -/
def HappensBefore (tr : List (Event Loc Sync)) : Nat → Nat → Prop := Relation.TransGen (Ordered tr)

/-- the events number `i` and (later) `j` are a data race at `l`: different threads access it, one of them writes, and they are
not ordered by happens-before -/
def DataRace (tr : List (Event Loc Sync)) (i j : Nat) (l : Loc) : Prop :=
  i < j ∧ ¬ HappensBefore tr i j ∧ ∃ e f w w', tr[i]? = some e ∧ tr[j]? = some f ∧ e.thread ≠ f.thread ∧
    (l, w) ∈ e.access ∧ (l, w') ∈ f.access ∧ (w = true ∨ w' = true)

end Girgs.Spec
