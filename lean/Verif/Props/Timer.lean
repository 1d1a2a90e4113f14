import Verif.Proofs.Timer
import Verif.Proofs.B64Rounded
import Verif.Proofs.HFilterXR
import Mathlib.Order.Monotone.Basic
/-
C86: what a timer measures, prints and stores.  C87: the output of the library with profiling, and the times of the benchmarks.
-/
namespace Girgs
namespace Props
open Timer

section
variable {F : Type} [CFloat F]

/-- the label, the variable and the argument `autostart` of a constructor; the constructor without arguments does not start the timer -/
def ctorArgs : Ctor → String × Option String × Bool
  | .default => ("", none, false)
  | .labelled l a => (l, none, a)
  | .output v a => ("", some v, a)
  | .both l v a => (l, some v, a)

/-- the number of clock readings of the constructor -/
def ctorReads : Ctor → ℕ
  | .default => 1
  | c => if (ctorArgs c).2.2 then 1 else 0

omit [CFloat F] in
theorem construct_eq (c : Ctor) (w : World F) :
    (construct c w).1.label = (ctorArgs c).1 ∧ (construct c w).1.output = (ctorArgs c).2.1 ∧ (construct c w).1.started = (ctorArgs c).2.2 ∧
    ((ctorArgs c).2.2 = true → (construct c w).1.start = w.clock w.reads ∧ ctorReads c = 1) ∧
    (construct c w).2 = { w with reads := w.reads + ctorReads c } := by
  cases c with
  | default => exact ⟨rfl, rfl, rfl, fun h => absurd h (by simp [ctorArgs]), rfl⟩
  | labelled l a => cases a <;> exact ⟨rfl, rfl, rfl, by simp [ctorArgs, construct, doStart, now, ctorReads], rfl⟩
  | output v a => cases a <;> exact ⟨rfl, rfl, rfl, by simp [ctorArgs, construct, doStart, now, ctorReads], rfl⟩
  | both l v a => cases a <;> exact ⟨rfl, rfl, rfl, by simp [ctorArgs, construct, doStart, now, ctorReads], rfl⟩

/-- What the destruction of a timer leaves, if the clock showed `begun` when the timer was started the last time, and `reads` readings of the clock were made before
the destruction: a line iff the label is not empty, the time in the variable if there is one; the line is printed before the variable is set. -/
structure Measured (c : Ctor) (w : World F) (begun : ℤ) (reads prints : ℕ) (w' : World F) : Prop where
  clock : w'.clock = w.clock
  out : ∃ reports, reports.length = prints ∧
    w'.out = w.out ++ reports ++ if (ctorArgs c).1 = "" then [] else [.elapsed (ctorArgs c).1 (toMs F (w.clock reads - begun))]
  vars : ∀ x, w'.vars x = if (ctorArgs c).2.1 = some x then some (toMs F (w.clock (w'.reads - 1) - begun)) else w.vars x
  later : reads ≤ w'.reads ∧ w'.reads ≤ reads + 2

theorem measured_destruct {ndebug : Bool} {c : Ctor} {t : Timer} {w w1 w2 : World F} {begun : ℤ} {reads prints : ℕ}
    (hs : t.started = true) (hb : t.start = begun) (hl : t.label = (ctorArgs c).1) (ho : t.output = (ctorArgs c).2.1)
    (hc : w1.clock = w.clock) (hr : w1.reads = reads) (hv : w1.vars = w.vars) (hout : ∃ rs, w1.out = w.out ++ rs ∧ rs.length = prints)
    (h : destruct ndebug t w1 = some w2) : Measured c w begun reads prints w2 := by
  rw [destruct_started hs] at h
  cases h
  obtain ⟨rs, h1, h2⟩ := hout
  refine ⟨hc, ⟨rs, h2, ?_⟩, fun x => ?_, ?_⟩
  · simp only [h1, hl, hb, hc, hr]
  · simp only [hl, hb, hc, hr, ho, hv]
    by_cases e : (ctorArgs c).2.1 = some x
    · simp only [e, reduceCtorEq, if_false]
      congr 4
    · rw [if_neg e, if_neg e]
  · simp only [hr]
    constructor
    · omega
    · split <;> split <;> omega

/-- **C86**: If `start` is called, then what is printed and stored in the end is the time since the last call of `start`: earlier calls and `autostart` have no
influence. -/
theorem C86_restart (ndebug : Bool) (c : Ctor) (before after : List Op) (hafter : Op.start ∉ after) (w w' : World F)
    (h : life ndebug c (before ++ .start :: after) w = some w') :
    Measured c w (w.clock (w.reads + ctorReads c + before.length)) (w.reads + ctorReads c + before.length + 1 + after.length)
      (before.countP Op.reports + after.countP Op.reports) w' := by
  obtain ⟨c1, c2, c3, c4, c5⟩ := construct_eq c w
  unfold life at h
  simp only [Option.bind_eq_bind, Option.bind_eq_some_iff] at h
  obtain ⟨⟨t1, w1⟩, h1, h2⟩ := h
  rw [calls_append, Option.bind_eq_some_iff] at h1
  obtain ⟨⟨t2, w2⟩, h3, h4⟩ := h1
  obtain ⟨a1, a2, a3, a4, a5, ⟨r1, a6, a6'⟩, -, -⟩ := calls_some h3
  simp only [calls, Option.bind_eq_bind, Option.bind_eq_some_iff] at h4
  obtain ⟨⟨t3, w3⟩, h5, h6⟩ := h4
  obtain ⟨b1, b2, b3, b4, b5, ⟨r2, b6, b6'⟩, -, b8⟩ := call_some h5
  obtain ⟨d1, d2, d3, d4, d5, ⟨r3, d6, d6'⟩, d7, -⟩ := calls_some h6
  rw [c5] at a1 a2 a3 a6
  simp only at a1 a2 a3 a6
  refine measured_destruct (t := t1) (w1 := w1) (by rw [d7 hafter]; exact (b8 rfl).1) ?_ ?_ ?_ ?_ ?_ ?_ ?_ h2
  · rw [d7 hafter, (b8 rfl).2, a1, a2]
  · rw [d4, b4, a4, c1]
  · rw [d5, b5, a5, c2]
  · rw [d1, b1, a1]
  · rw [d2, b2, a2]
  · rw [d3, b3, a3]
  · refine ⟨r1 ++ r2 ++ r3, by rw [d6, b6, a6]; simp, ?_⟩
    rw [List.length_append, List.length_append, a6', b6', d6']
    simp [Op.reports]

/-- **C86**: A timer with `autostart` and without calls of `start` measures from its construction to its destruction. -/
theorem C86_autostart (ndebug : Bool) (c : Ctor) (hauto : (ctorArgs c).2.2 = true) (os : List Op) (hos : Op.start ∉ os) (w : World F) :
    ∃ w', life ndebug c os w = some w' ∧ Measured c w (w.clock w.reads) (w.reads + 1 + os.length) (os.countP Op.reports) w' := by
  obtain ⟨c1, c2, c3, c4, c5⟩ := construct_eq c w
  cases hc : calls ndebug os (construct c w).1 (construct c w).2 with
  | none =>
    have := (calls_none.1 hc).2.1
    rw [c3, hauto] at this
    cases this
  | some r =>
    obtain ⟨t1, w1⟩ := r
    obtain ⟨a1, a2, a3, a4, a5, a6, a7, -⟩ := calls_some hc
    have hs : t1.started = true := by rw [a7 hos, c3, hauto]
    have hd := destruct_started (ndebug := ndebug) hs w1
    refine ⟨_, ?_, measured_destruct (t := t1) (w1 := w1) hs (begun := w.clock w.reads) ?_ ?_ ?_ ?_ ?_ ?_ ?_ hd⟩
    · unfold life
      rw [hc]
      exact hd
    · rw [a7 hos]; exact (c4 hauto).1
    · rw [a4, c1]
    · rw [a5, c2]
    · rw [a1, c5]
    · rw [a2, c5, (c4 hauto).2]
    · rw [a3, c5]
    · rw [c5] at a6; exact a6

/-- **C86**: A timer that is never started, in particular one constructed without arguments, sets no variable, and prints nothing by itself. -/
theorem C86_never (ndebug : Bool) (c : Ctor) (hauto : (ctorArgs c).2.2 = false) (os : List Op) (hos : Op.start ∉ os) (w w' : World F)
    (h : life ndebug c os w = some w') :
    w'.vars = w.vars ∧ ∃ reports, w'.out = w.out ++ reports ∧ reports.length = os.countP Op.reports ∧ (ndebug = false → reports = []) := by
  obtain ⟨c1, c2, c3, c4, c5⟩ := construct_eq c w
  unfold life at h
  simp only [Option.bind_eq_bind, Option.bind_eq_some_iff] at h
  obtain ⟨⟨t1, w1⟩, h1, h2⟩ := h
  obtain ⟨a1, a2, a3, a4, a5, ⟨rs, a6, a6'⟩, a7, -⟩ := calls_some h1
  have hs : t1.started = false := by rw [a7 hos, c3, hauto]
  simp only [destruct, hs, Bool.not_false, if_true, Option.some.injEq] at h2
  subst h2
  rw [c5] at a3 a6
  refine ⟨a3, rs, a6, a6', fun hn => ?_⟩
  rw [← List.length_eq_zero_iff, a6', List.countP_eq_zero]
  intro o ho hr
  obtain ⟨a, b, e⟩ := List.append_of_mem ho
  have : calls ndebug os (construct c w).1 (construct c w).2 = none :=
    calls_none.2 ⟨hn, by rw [c3, hauto], a, o, b, e, hr, fun hm => hos (by rw [e]; exact List.mem_append_left _ hm)⟩
  rw [this] at h1
  cases h1

/-- **C86**: The assertion in `report` fails exactly if the timer has not been started before the call; nothing else fails. -/
theorem C86_abort (ndebug : Bool) (c : Ctor) (os : List Op) (w : World F) :
    life ndebug c os w = none ↔ ndebug = false ∧ (ctorArgs c).2.2 = false ∧ ∃ a o b, os = a ++ o :: b ∧ o.reports = true ∧ Op.start ∉ a := by
  obtain ⟨c1, c2, c3, c4, c5⟩ := construct_eq c w
  rw [← c3, ← calls_none (w := (construct c w).2)]
  unfold life
  cases hc : calls ndebug os (construct c w).1 (construct c w).2 with
  | none => simp
  | some r =>
    simp only [Option.bind_eq_bind, Option.bind_some, reduceCtorEq, iff_false]
    by_cases hs : r.1.started = true
    · rw [destruct_started hs]; simp
    · simp [destruct, hs]

/-- the lines printed by calls of a timer with label `label` that was started when the clock showed `begun`, if the next reading of the clock is number `k`: `report`
prints the label of the timer, `report(prefix)` the given one, with the time since the last start; every call reads the clock once -/
def linesOf (label : String) (clock : ℕ → ℤ) : ℤ → ℕ → List Op → List (Item F)
  | _, _, [] => []
  | _, k, .start :: os => linesOf label clock (clock k) (k + 1) os
  | b, k, .elapsed :: os => linesOf label clock b (k + 1) os
  | b, k, .report :: os => .elapsed label (toMs F (clock k - b)) :: linesOf label clock b (k + 1) os
  | b, k, .reportAs l :: os => .elapsed l (toMs F (clock k - b)) :: linesOf label clock b (k + 1) os

theorem calls_lines {ndebug : Bool} {os : List Op} {t t' : Timer} {w w' : World F} (ht : t.started = true) (h : calls ndebug os t w = some (t', w')) (more : List Op) :
    w'.out ++ linesOf t.label w.clock t'.start (w.reads + os.length) more = w.out ++ linesOf t.label w.clock t.start w.reads (os ++ more) ∧
    t'.label = t.label ∧ t'.started = true ∧ w'.clock = w.clock ∧ w'.reads = w.reads + os.length := by
  induction os generalizing t w with
  | nil =>
    simp only [calls, Option.some.injEq, Prod.mk.injEq] at h
    obtain ⟨rfl, rfl⟩ := h
    exact ⟨by simp, rfl, ht, rfl, by simp⟩
  | cons o os ih =>
    simp only [calls, Option.bind_eq_bind, Option.bind_eq_some_iff] at h
    obtain ⟨⟨t1, w1⟩, h1, h2⟩ := h
    cases o <;> simp only [call, report, reportAs, elapsed, doStart, now, ht, Bool.not_true, Bool.and_false, Bool.false_eq_true, if_false, Option.map_some,
        Option.some.injEq, Prod.mk.injEq] at h1 <;> obtain ⟨rfl, rfl⟩ := h1 <;>
      obtain ⟨b1, b2, b3, b4, b5⟩ := ih (by first | rfl | exact ht) h2 <;>
      refine ⟨?_, b2, b3, b4, by rw [b5, List.length_cons]; dsimp only; omega⟩ <;>
      dsimp only at b1 <;>
      rw [List.length_cons, show w.reads + (os.length + 1) = w.reads + 1 + os.length by omega, b1] <;>
      simp [linesOf]

/-- **C86**: What a timer with `autostart` prints: the calls of `report` print its label, those of `report(prefix)` the prefix, with the times since the last start,
in order; in the end its destruction prints a line like `report`, if the label is not empty. -/
theorem C86_lines (ndebug : Bool) (c : Ctor) (hauto : (ctorArgs c).2.2 = true) (os : List Op) (w w' : World F) (h : life ndebug c os w = some w') :
    w'.out = w.out ++ linesOf (ctorArgs c).1 w.clock (w.clock w.reads) (w.reads + 1) (os ++ if (ctorArgs c).1 = "" then [] else [.report]) := by
  obtain ⟨c1, c2, c3, c4, c5⟩ := construct_eq c w
  obtain ⟨c4, c6⟩ := c4 hauto
  unfold life at h
  simp only [Option.bind_eq_bind, Option.bind_eq_some_iff] at h
  obtain ⟨⟨t1, w1⟩, h1, h2⟩ := h
  obtain ⟨b1, b2, b3, b4, b5⟩ := calls_lines (by rw [c3, hauto]) h1 (if (ctorArgs c).1 = "" then [] else [.report])
  rw [destruct_started b3, Option.some.injEq] at h2
  rw [c1, c4, c5, c6] at b1
  rw [c5, c6] at b4 b5
  dsimp only at b1 b4 b5
  rw [← b1, ← h2]
  dsimp only
  rw [b2, c1, b4, b5]
  split_ifs <;> simp [linesOf]

/-- **C86**: With a clock that does not go back, a timer with a label and a variable prints a time that is not negative, and stores one that is not smaller. -/
theorem C86_order (ndebug : Bool) (label var : String) (hl : label ≠ "") (w : World F) (hm : Monotone w.clock) :
    ∃ w' printed stored, life ndebug (.both label var true) [] w = some w' ∧ w'.out = w.out ++ [.elapsed label (toMs F printed)] ∧
      w'.vars var = some (toMs F stored) ∧ 0 ≤ printed ∧ printed ≤ stored := by
  have e : life ndebug (.both label var true) [] w = some
      { clock := w.clock
        reads := w.reads + 3
        out := w.out ++ [.elapsed label (toMs F (w.clock (w.reads + 1) - w.clock w.reads))]
        vars := fun x => if x = var then some (toMs F (w.clock (w.reads + 2) - w.clock w.reads)) else w.vars x } := by
    simp [life, calls, construct, doStart, now, destruct, report, reportAs, elapsed, hl]
  refine ⟨_, _, _, e, rfl, by simp only [if_true]; rfl, ?_, ?_⟩
  · have := hm (show w.reads ≤ w.reads + 1 by omega); omega
  · have := hm (show w.reads + 1 ≤ w.reads + 2 by omega); omega

/-- **C87**: Without profiling nothing is printed, no variable is touched and the clock is not read. -/
theorem C87_off (ndebug positive : Bool) (threads levels : ℕ) (w w' : World F) :
    spatialTree ndebug false w = some w ∧ hyperbolicTree ndebug false positive w = some w ∧ (generate ndebug false threads levels w = some w' → w' = w) := by
  refine ⟨?_, ?_, fun h => ?_⟩
  · simp [spatialTree, buildPartition, scope, inOrder, construct, destruct]
  · cases positive <;> simp [hyperbolicTree, buildPartition, scope, inOrder, construct, destruct]
  · unfold generate at h
    split at h
    · exact (Option.some.inj h).symm
    · simp only [Option.bind_eq_bind, Option.bind_eq_some_iff, Bool.false_eq_true, if_false] at h
      obtain ⟨fpl, -, h⟩ := h
      split at h
      · simp [scope, construct, destruct] at h; exact h.symm
      · exact (Option.some.inj h).symm

/-- **C87**: The constructor of `SpatialTree` with profiling prints exactly these six lines, the inner parts first; with a clock that does not go back, the times are
not negative, and every time is at least the sum of the times of its parts. -/
theorem C87_spatialTree (ndebug : Bool) (w : World F) (hm : Monotone w.clock) :
    ∃ w' t1 t2 t3 t4 t5 t6, spatialTree ndebug true w = some w' ∧ w'.vars = w.vars ∧ w'.clock = w.clock ∧
      w'.out = w.out ++ [.elapsed "Classify points & precompute coordinates" (toMs F t1), .elapsed "Sort points" (toMs F t2), .elapsed "Find first point in cell" (toMs F t3),
        .elapsed "Build data structure" (toMs F t4), .elapsed "Build DS" (toMs F t5), .elapsed "Preprocessing" (toMs F t6)] ∧
      0 ≤ t1 ∧ 0 ≤ t2 ∧ 0 ≤ t3 ∧ 0 ≤ t4 ∧ t1 + t2 + t3 + t4 ≤ t5 ∧ t5 ≤ t6 ∧ t6 = w.clock (w'.reads - 1) - w.clock w.reads := by
  have e : spatialTree ndebug true w = some
      { w with
        reads := w.reads + 12
        out := w.out ++ [.elapsed "Classify points & precompute coordinates" (toMs F (w.clock (w.reads + 3) - w.clock (w.reads + 2))),
          .elapsed "Sort points" (toMs F (w.clock (w.reads + 5) - w.clock (w.reads + 4))),
          .elapsed "Find first point in cell" (toMs F (w.clock (w.reads + 7) - w.clock (w.reads + 6))),
          .elapsed "Build data structure" (toMs F (w.clock (w.reads + 9) - w.clock (w.reads + 8))),
          .elapsed "Build DS" (toMs F (w.clock (w.reads + 10) - w.clock (w.reads + 1))),
          .elapsed "Preprocessing" (toMs F (w.clock (w.reads + 11) - w.clock w.reads))] } := by
    simp [spatialTree, buildPartition, scope, inOrder, construct, doStart, now, destruct, report, reportAs, elapsed]
  refine ⟨_, _, _, _, _, _, _, e, rfl, rfl, rfl, ?_⟩
  have h : ∀ k, w.clock (w.reads + k) ≤ w.clock (w.reads + (k + 1)) := fun k => hm (by omega)
  have h0 := h 0
  have h1 := h 1
  have h2 := h 2
  have h3 := h 3
  have h4 := h 4
  have h5 := h 5
  have h6 := h 6
  have h7 := h 7
  have h8 := h 8
  have h9 := h 9
  have h10 := h 10
  simp only [Nat.add_zero, zero_add, Nat.reduceAdd] at *
  refine ⟨by omega, by omega, by omega, by omega, by omega, by omega, rfl⟩

/-- the lines of the constructor of `HyperbolicTree` with profiling -/
def hyperLines (positive : Bool) (t1 t2 t3 t4 t5 t6 : ℤ) : List (Item F) :=
  [.elapsed "Classify points & precompute coordinates" (toMs F t1), .elapsed "Sort points" (toMs F t2), .elapsed "Find first point in cell" (toMs F t3),
    .elapsed "Build data structure" (toMs F t4), .elapsed "Layer Pairs" (toMs F t5)] ++ if positive then [.elapsed "Max Connection Prob." (toMs F t6)] else []

theorem hyperbolicTree_true (ndebug positive : Bool) (w : World F) :
    hyperbolicTree ndebug true positive w = some
      { w with
        reads := w.reads + if positive then 12 else 10
        out := w.out ++ hyperLines positive (w.clock (w.reads + 1) - w.clock w.reads) (w.clock (w.reads + 3) - w.clock (w.reads + 2))
          (w.clock (w.reads + 5) - w.clock (w.reads + 4)) (w.clock (w.reads + 7) - w.clock (w.reads + 6)) (w.clock (w.reads + 9) - w.clock (w.reads + 8))
          (w.clock (w.reads + 11) - w.clock (w.reads + 10)) } := by
  cases positive <;>
    simp [hyperLines, hyperbolicTree, buildPartition, scope, inOrder, construct, doStart, now, destruct, report, reportAs, elapsed]

/-- **C87**: The constructor of `HyperbolicTree` with profiling prints exactly these lines; their times are not negative, and their sum is at most the time between
the first and the last reading of the clock. -/
theorem C87_hyperbolicTree (ndebug positive : Bool) (w : World F) (hm : Monotone w.clock) :
    ∃ w' t1 t2 t3 t4 t5 t6, hyperbolicTree ndebug true positive w = some w' ∧ w'.vars = w.vars ∧ w'.clock = w.clock ∧
      w'.out = w.out ++ hyperLines positive t1 t2 t3 t4 t5 t6 ∧ 0 ≤ t1 ∧ 0 ≤ t2 ∧ 0 ≤ t3 ∧ 0 ≤ t4 ∧ 0 ≤ t5 ∧ 0 ≤ t6 ∧
      t1 + t2 + t3 + t4 + t5 + (if positive then t6 else 0) ≤ w.clock (w'.reads - 1) - w.clock w.reads := by
  refine ⟨_, _, _, _, _, _, _, hyperbolicTree_true ndebug positive w, rfl, rfl, rfl, ?_⟩
  have h : ∀ k, w.clock (w.reads + k) ≤ w.clock (w.reads + (k + 1)) := fun k => hm (by omega)
  have h0 := h 0
  have h1 := h 1
  have h2 := h 2
  have h3 := h 3
  have h4 := h 4
  have h5 := h 5
  have h6 := h 6
  have h7 := h 7
  have h8 := h 8
  have h9 := h 9
  have h10 := h 10
  simp only [Nat.add_zero, zero_add, Nat.reduceAdd] at *
  cases positive
  · simp only [Bool.false_eq_true, if_false]
    rw [show w.reads + 10 - 1 = w.reads + 9 by omega]
    refine ⟨by omega, by omega, by omega, by omega, by omega, by omega, by omega⟩
  · simp only [if_true]
    rw [show w.reads + 12 - 1 = w.reads + 11 by omega]
    refine ⟨by omega, by omega, by omega, by omega, by omega, by omega, by omega⟩

/-- the lines of `generate` with profiling, if the first parallel level is `fpl` -/
def generateLines (threads levels fpl : ℕ) (t : ℤ) : List (Item F) :=
  if threads = 1 then [] else .parallelLevel fpl :: if fpl < levels then [.elapsed "Gen Tasks" (toMs F t)] else []

theorem generate_true (ndebug : Bool) (threads levels fpl : ℕ) (h : threads = 1 ∨ HTree.firstParallelLevel F threads = some fpl) (w : World F) :
    generate ndebug true threads levels w = some
      { w with
        reads := w.reads + if threads = 1 ∨ levels ≤ fpl then 0 else 2
        out := w.out ++ generateLines threads levels fpl (w.clock (w.reads + 1) - w.clock w.reads) } := by
  by_cases h1 : threads = 1
  · simp [generate, generateLines, h1]
  · have h' := h.resolve_left h1
    by_cases h2 : fpl < levels
    · simp [generate, generateLines, h1, h', h2, Nat.not_le.2 h2, scope, construct, doStart, now, destruct, report, reportAs, elapsed]
    · simp [generate, generateLines, h1, h', h2, Nat.not_lt.1 h2]

/-- **C87**: `generate` with profiling prints nothing with one thread; with more it prints the first parallel level, and the time to create the tasks iff there are
tasks. -/
theorem C87_generate (ndebug : Bool) (threads levels fpl : ℕ) (h : threads = 1 ∨ HTree.firstParallelLevel F threads = some fpl) (w : World F) (hm : Monotone w.clock) :
    ∃ w' t, generate ndebug true threads levels w = some w' ∧ w'.vars = w.vars ∧ w'.clock = w.clock ∧ w'.out = w.out ++ generateLines threads levels fpl t ∧ 0 ≤ t := by
  refine ⟨_, _, generate_true ndebug threads levels fpl h w, rfl, rfl, rfl, ?_⟩
  have := hm (show w.reads ≤ w.reads + 1 by omega)
  omega

/-- **C87**: `measure` of bench_girg sets all the variables it prints, prints nothing else, and the times of the parts add up to at most the total time. -/
theorem C87_benchGirg (ndebug : Bool) (w : World F) (hm : Monotone w.clock) :
    ∃ w' tw tp tb tpre te tt, benchGirg ndebug w = some w' ∧ w'.out = w.out ∧
      w'.vars "time_weights" = some (toMs F tw) ∧ w'.vars "time_positions" = some (toMs F tp) ∧ w'.vars "time_binary" = some (toMs F tb) ∧
      w'.vars "time_pre" = some (toMs F tpre) ∧ w'.vars "time_edges" = some (toMs F te) ∧ w'.vars "time_total" = some (toMs F tt) ∧
      0 ≤ tw ∧ 0 ≤ tp ∧ 0 ≤ tb ∧ 0 ≤ tpre ∧ 0 ≤ te ∧ tw + tp + tb + tpre + te ≤ tt ∧ tt = w.clock (w'.reads - 1) - w.clock w.reads := by
  have e : benchGirg ndebug w = some
      { w with
        reads := w.reads + 12
        vars := fun x => if x = "time_total" then some (toMs F (w.clock (w.reads + 11) - w.clock w.reads))
          else if x = "time_edges" then some (toMs F (w.clock (w.reads + 10) - w.clock (w.reads + 9)))
          else if x = "time_pre" then some (toMs F (w.clock (w.reads + 8) - w.clock (w.reads + 7)))
          else if x = "time_binary" then some (toMs F (w.clock (w.reads + 6) - w.clock (w.reads + 5)))
          else if x = "time_positions" then some (toMs F (w.clock (w.reads + 4) - w.clock (w.reads + 3)))
          else if x = "time_weights" then some (toMs F (w.clock (w.reads + 2) - w.clock (w.reads + 1))) else none } := by
    simp [benchGirg, benchEdges, spatialTree, buildPartition, scope, inOrder, construct, doStart, now, destruct, elapsed]
  refine ⟨_, _, _, _, _, _, _, e, rfl, rfl, rfl, rfl, rfl, rfl, rfl, ?_⟩
  have h : ∀ k, w.clock (w.reads + k) ≤ w.clock (w.reads + (k + 1)) := fun k => hm (by omega)
  have h0 := h 0
  have h1 := h 1
  have h2 := h 2
  have h3 := h 3
  have h4 := h 4
  have h5 := h 5
  have h6 := h 6
  have h7 := h 7
  have h8 := h 8
  have h9 := h 9
  have h10 := h 10
  simp only [Nat.add_zero, zero_add, Nat.reduceAdd] at *
  refine ⟨by omega, by omega, by omega, by omega, by omega, by omega, rfl⟩

/-- **C87**: `benchmark` of bench_hyper sets the four variables it prints; it prints exactly these lines; the times of the parts add up to at most the total time,
and the times printed are at most the stored ones. -/
theorem C87_benchHyper (ndebug positive : Bool) (threads levels fpl : ℕ) (h : threads = 1 ∨ HTree.firstParallelLevel F threads = some fpl) (w : World F)
    (hm : Monotone w.clock) :
    ∃ w' p1 p2 p3 p4 s1 s2 s3 s4 t1 t2 t3 t4 t5 t6 t7, benchHyper ndebug positive threads levels w = some w' ∧
      w'.out = w.out ++ [.elapsed "Generate points" (toMs F p1)] ++ hyperLines positive t1 t2 t3 t4 t5 t6 ++ [.elapsed "Preprocess" (toMs F p2)] ++
        generateLines threads levels fpl t7 ++ [.elapsed "Generate edges" (toMs F p3), .elapsed "Total" (toMs F p4)] ∧
      w'.vars "time_points" = some (toMs F s1) ∧ w'.vars "time_preprocess" = some (toMs F s2) ∧ w'.vars "time_sample" = some (toMs F s3) ∧
      w'.vars "time_total" = some (toMs F s4) ∧
      0 ≤ p1 ∧ p1 ≤ s1 ∧ 0 ≤ p2 ∧ p2 ≤ s2 ∧ 0 ≤ p3 ∧ p3 ≤ s3 ∧ s1 + s2 + s3 ≤ p4 ∧ p4 ≤ s4 ∧
      0 ≤ t1 ∧ 0 ≤ t2 ∧ 0 ≤ t3 ∧ 0 ≤ t4 ∧ 0 ≤ t5 ∧ t1 + t2 + t3 + t4 + t5 + (if positive then t6 else 0) ≤ p2 := by
  obtain ⟨A, hA⟩ : ∃ A, (if positive = true then 12 else 10) = A := ⟨_, rfl⟩
  obtain ⟨B, hB⟩ : ∃ B, (if threads = 1 ∨ levels ≤ fpl then 0 else 2) = B := ⟨_, rfl⟩
  have hT : ∀ v : World F, _ := hyperbolicTree_true (F := F) ndebug positive
  have hG : ∀ v : World F, _ := generate_true (F := F) ndebug threads levels fpl h
  simp only [hA] at hT
  simp only [hB] at hG
  have e : benchHyper ndebug positive threads levels w = some
      { w with
        reads := w.reads + 12 + A + B
        out := w.out ++ [.elapsed "Generate points" (toMs F (w.clock (w.reads + 2) - w.clock (w.reads + 1)))] ++
          hyperLines positive (w.clock (w.reads + 6) - w.clock (w.reads + 5)) (w.clock (w.reads + 8) - w.clock (w.reads + 7))
            (w.clock (w.reads + 10) - w.clock (w.reads + 9)) (w.clock (w.reads + 12) - w.clock (w.reads + 11)) (w.clock (w.reads + 14) - w.clock (w.reads + 13))
            (w.clock (w.reads + 16) - w.clock (w.reads + 15)) ++
          [.elapsed "Preprocess" (toMs F (w.clock (w.reads + 5 + A) - w.clock (w.reads + 4)))] ++
          generateLines threads levels fpl (w.clock (w.reads + 9 + A) - w.clock (w.reads + 8 + A)) ++
          [.elapsed "Generate edges" (toMs F (w.clock (w.reads + 8 + A + B) - w.clock (w.reads + 7 + A))),
            .elapsed "Total" (toMs F (w.clock (w.reads + 10 + A + B) - w.clock w.reads))]
        vars := fun x => if x = "time_total" then some (toMs F (w.clock (w.reads + 11 + A + B) - w.clock w.reads))
          else if x = "time_sample" then some (toMs F (w.clock (w.reads + 9 + A + B) - w.clock (w.reads + 7 + A)))
          else if x = "time_preprocess" then some (toMs F (w.clock (w.reads + 6 + A) - w.clock (w.reads + 4)))
          else if x = "time_points" then some (toMs F (w.clock (w.reads + 3) - w.clock (w.reads + 1))) else none } := by
    simp [benchHyper, scope, inOrder, construct, doStart, now, destruct, report, reportAs, elapsed, hT, hG, Nat.add_assoc]
    have e1 : ∀ k, 4 + (1 + (A + k)) = 5 + k + A := fun k => by omega
    have e2 : ∀ k, 4 + (1 + (A + (2 + (1 + (B + k))))) = 8 + k + (A + B) := fun k => by omega
    have e3 : 4 + (1 + (A + (2 + (1 + B)))) = 8 + (A + B) := by omega
    have e4 : 4 + (1 + A) = 5 + A := by omega
    simp only [e2, e3, e4, e1, Nat.reduceAdd, and_self]
  refine ⟨_, _, _, _, _, _, _, _, _, _, _, _, _, _, _, _, e, rfl, rfl, rfl, rfl, rfl, ?_⟩
  have g1 := hm (show w.reads ≤ w.reads + 1 by omega)
  have g2 := hm (show w.reads + 1 ≤ w.reads + 2 by omega)
  have g3 := hm (show w.reads + 2 ≤ w.reads + 3 by omega)
  have g4 := hm (show w.reads + 3 ≤ w.reads + 4 by omega)
  have g5 := hm (show w.reads + 4 ≤ w.reads + 5 + A by omega)
  have g6 := hm (show w.reads + 5 + A ≤ w.reads + 6 + A by omega)
  have g7 := hm (show w.reads + 6 + A ≤ w.reads + 7 + A by omega)
  have g8 := hm (show w.reads + 7 + A ≤ w.reads + 8 + A + B by omega)
  have g9 := hm (show w.reads + 8 + A + B ≤ w.reads + 9 + A + B by omega)
  have g10 := hm (show w.reads + 9 + A + B ≤ w.reads + 10 + A + B by omega)
  have g11 := hm (show w.reads + 10 + A + B ≤ w.reads + 11 + A + B by omega)
  have g : ∀ k, w.clock (w.reads + k) ≤ w.clock (w.reads + (k + 1)) := fun k => hm (by omega)
  have k4 := g 4
  have k5 := g 5
  have k6 := g 6
  have k7 := g 7
  have k8 := g 8
  have k9 := g 9
  have k10 := g 10
  have k11 := g 11
  have k12 := g 12
  have k13 := g 13
  simp only [Nat.reduceAdd] at *
  refine ⟨by omega, by omega, by omega, by omega, by omega, by omega, by omega, by omega, by omega, by omega, by omega, by omega, by omega, ?_⟩
  cases positive
  · simp only [Bool.false_eq_true, if_false] at hA ⊢
    have k14 := hm (show w.reads + 14 ≤ w.reads + 5 + A by omega)
    omega
  · simp only [if_true] at hA ⊢
    have k14 := g 14
    have k15 := g 15
    have k16 := hm (show w.reads + 16 ≤ w.reads + 5 + A by omega)
    simp only [Nat.reduceAdd] at *
    omega

end

/-- **C86**: In IEEE arithmetic the time in milliseconds is the exact one up to a relative error of `2^-53` (times below `2^53` nanoseconds, which is 104 days), and it is
monotone: smaller times do not become larger ones. -/
theorem C86_rounded (a b : ℤ) (ha : 0 ≤ a) (hab : a ≤ b) (hb : b ≤ 2 ^ 53) :
    ∃ x y : ℝ, B64.val (toMs B64 a) = some x ∧ B64.val (toMs B64 b) = some y ∧ 0 ≤ x ∧ x ≤ y ∧ |x - a / 10 ^ 6| ≤ (2 : ℝ) ^ (-53 : ℤ) * (a / 10 ^ 6) := by
  have key : ∀ c : ℤ, 0 ≤ c → c ≤ 2 ^ 53 → B64.val (toMs B64 c) = some (B64.rnd (c / 1000000)) := by
    intro c h0 h1
    have hc : |(c : ℝ)| ≤ 2 ^ 53 := by rw [abs_of_nonneg (by exact_mod_cast h0)]; exact_mod_cast h1
    have e1 : B64.val (CFloat.ofInt c : B64) = some (c : ℝ) := by
      have := B64.rounded.ofRat (c : ℚ) (by push_cast; exact hc.trans (pow_le_pow_right₀ (by norm_num) (by norm_num)))
      rw [show B64.rounded.rnd = B64.rnd from rfl] at this
      rw [show ((c : ℚ) : ℝ) = (c : ℝ) by push_cast; rfl, B64.rnd_int (by rw [abs_of_nonneg h0]; exact h1)] at this
      exact this
    have e2 : B64.val (CFloat.ofNat 1000000 : B64) = some (1000000 : ℝ) := by
      have := B64.rounded.ofRat ((1000000 : ℕ) : ℚ) (by
        push_cast
        rw [abs_of_nonneg (by norm_num)]
        exact le_trans (by norm_num : (1000000 : ℝ) ≤ 2 ^ 20) (pow_le_pow_right₀ (by norm_num) (by norm_num)))
      rw [show B64.rounded.rnd = B64.rnd from rfl] at this
      rw [show (((1000000 : ℕ) : ℚ) : ℝ) = ((1000000 : ℤ) : ℝ) by push_cast; rfl, B64.rnd_int (by norm_num)] at this
      rw [show ((1000000 : ℤ) : ℝ) = 1000000 by norm_num] at this
      exact this
    refine B64.rounded.div _ _ _ _ e1 e2 (by norm_num) ?_
    rw [abs_div, abs_of_nonneg (by norm_num : (0 : ℝ) ≤ 1000000)]
    refine le_trans (div_le_self (abs_nonneg _) (by norm_num)) (hc.trans (pow_le_pow_right₀ (by norm_num) (by norm_num)))
  have ha' : (0 : ℝ) ≤ a := by exact_mod_cast ha
  refine ⟨_, _, key a ha (hab.trans hb), key b (ha.trans hab) hb, B64.rnd_nonneg (by positivity), B64.rnd_mono ?_, ?_⟩
  · exact div_le_div_of_nonneg_right (by exact_mod_cast hab) (by norm_num)
  · rw [show (10 : ℝ) ^ 6 = 1000000 by norm_num]
    rcases ha.eq_or_lt with h | h
    · subst h
      have := B64.rnd_int (z := 0) (by norm_num)
      simp only [Int.cast_zero] at this ⊢
      simp [this]
    · have h1 : (1 : ℝ) ≤ a := by exact_mod_cast h
      have hp : (0 : ℝ) ≤ (a : ℝ) / 1000000 := by positivity
      have := B64.rnd_rel (x := (a : ℝ) / 1000000) (by
        rw [abs_of_nonneg hp]
        have h2 : (2 : ℝ) ^ (-1022 : ℤ) ≤ 2 ^ (-20 : ℤ) := zpow_le_zpow_right₀ (by norm_num) (by norm_num)
        have h3 : (2 : ℝ) ^ (-20 : ℤ) ≤ 1 / 1000000 := by norm_num
        have h4 : (1 : ℝ) / 1000000 ≤ a / 1000000 := div_le_div_of_nonneg_right h1 (by norm_num)
        exact h2.trans (h3.trans h4))
      rwa [abs_of_nonneg hp] at this

section Example

/-- a clock that shows `i` milliseconds at the `i`-th reading -/
def exampleWorld (F : Type) : World F := ⟨fun i => 1000000 * i, 5, [], fun _ => none⟩

theorem exampleWorld_mono (F : Type) : Monotone (exampleWorld F).clock := by
  intro a b h
  show (1000000 : ℤ) * a ≤ 1000000 * b
  have : (a : ℤ) ≤ b := by exact_mod_cast h
  omega

variable {F : Type} [CFloat F]

/-- a timer that is started twice: the second start counts -/
example : ∃ w', life false (.both "x" "v" false) [.start, .report, .start, .elapsed] (exampleWorld F) = some w' ∧ w'.reads = 11 ∧ w'.vars "v" = some (toMs F 3000000) ∧
    w'.out = [.elapsed "x" (toMs F 1000000), .elapsed "x" (toMs F 2000000)] := by
  refine ⟨_, rfl, rfl, ?_, ?_⟩
  · simp [exampleWorld, construct, elapsed, now]
  · simp [exampleWorld, construct, elapsed, now]

example : ∃ w', life false (.both "x" "v" false) [.start, .report, .start, .elapsed] (exampleWorld F) = some w' ∧
    Measured (.both "x" "v" false) (exampleWorld F) 7000000 9 1 w' :=
  ⟨_, rfl, C86_restart false (.both "x" "v" false) [.start, .report] [.elapsed] (by simp) (exampleWorld F) _ rfl⟩

/-- `C86_lines`: two reports, a restart and the destruction -/
example : ∃ w', life false (.labelled "x" true) [.reportAs "y", .start, .report] (exampleWorld F) = some w' ∧
    w'.out = (exampleWorld F).out ++ linesOf "x" (exampleWorld F).clock ((exampleWorld F).clock (exampleWorld F).reads) ((exampleWorld F).reads + 1)
      [.reportAs "y", .start, .report, .report] :=
  ⟨_, rfl, C86_lines false (.labelled "x" true) rfl [.reportAs "y", .start, .report] (exampleWorld F) _ rfl⟩

/-- a report before the start aborts a debug build -/
example : life false (.labelled "x" false) [.elapsed, .report, .start] (exampleWorld F) = none :=
  (C86_abort _ _ _ _).2 ⟨rfl, rfl, [.elapsed], .report, [.start], rfl, rfl, by simp⟩

/-- a timer without arguments does nothing -/
example : ∃ w', life true .default [.elapsed] (exampleWorld F) = some w' ∧ w'.vars = (exampleWorld F).vars := by
  exact ⟨_, rfl, (C86_never true .default rfl [.elapsed] (by simp) (exampleWorld F) _ rfl).1⟩

/-- four threads: the first parallel level is 3 -/
example : ∃ w' t, generate false true 4 10 (exampleWorld XR) = some w' ∧ w'.out = [.parallelLevel 3, .elapsed "Gen Tasks" (toMs XR t)] := by
  have e : HTree.firstParallelLevel XR 4 = some 3 := by
    have := (hstart_eq 4 (by norm_num) (by norm_num)).1
    rw [this]
    have : Real.logb 2 (2 * (4 : ℕ)) = (3 : ℤ) := by
      rw [show (2 * (4 : ℕ) : ℝ) = 2 ^ (3 : ℕ) by norm_num, Real.logb_pow, Real.logb_self_eq_one (by norm_num)]; norm_num
    rw [this, Int.ceil_intCast]
    rfl
  obtain ⟨w', t, h1, -, -, h2, -⟩ := C87_generate (F := XR) false 4 10 3 (Or.inr e) (exampleWorld XR) (exampleWorld_mono XR)
  exact ⟨w', t, h1, h2⟩

end Example
end Props
end Girgs
