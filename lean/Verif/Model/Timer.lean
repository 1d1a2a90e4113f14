import Verif.Model.HyperGenerate
import Verif.Model.Bench
/-
Model of `ScopedTimer` (girgs/include/girgs/ScopedTimer.h and the identical file of hypergirgs), of its use in the constructors of the trees and in `generate`
with `profile`, and of the time measurements of the benchmark programs.

The clock is an arbitrary sequence of readings, in nanoseconds; every call of `Clock::now()` consumes the next one.  The code between two calls does nothing
with the timers: time passes, but nothing else happens in this model.  What that code computes is in the other files of the model.
-/
namespace Girgs
namespace Timer
open CFloat

/-- something written to `std::cout` -/
inductive Item (F : Type)
  /-- `prefix << " Time elapsed: " << ms << "ms" << std::endl` -/
  | elapsed (label : String) (ms : F)
  /-- `"First Parallel Level: " << level << "\n"` -/
  | parallelLevel (level : Nat)

/-- what the timers depend on and change: the clock, the number of readings so far, the output, the variables of type `double` (`none`: uninitialised) -/
structure World (F : Type) where
  clock : Nat → Int
  reads : Nat
  out : List (Item F)
  vars : String → Option F

/-- a timer, ScopedTimer.h:37-41; `output` is the variable behind the pointer `m_output` -/
structure Timer where
  start : Int
  started : Bool
  label : String
  output : Option String

variable {F : Type} [CFloat F]

/-- `Clock::now()` -/
def now (w : World F) : Int × World F := (w.clock w.reads, { w with reads := w.reads + 1 })

/-- nanoseconds to milliseconds: `duration_cast<duration<double, std::milli>>(d).count()`, ScopedTimer.h:86, which divides the count by 10^6 as a `double` -/
def toMs (F : Type) [CFloat F] (ns : Int) : F := ofInt ns /. ofNat 1000000

/-- `start()`, ScopedTimer.h:79-82 -/
def doStart (t : Timer) (w : World F) : Timer × World F :=
  let (b, w) := now w
  ({ t with start := b, started := true }, w)

/-- `elapsed()`, ScopedTimer.h:84-87 -/
def elapsed (t : Timer) (w : World F) : F × World F :=
  let (b, w) := now w
  (toMs F (b - t.start), w)

/-- `report(prefix)`, ScopedTimer.h:93-99; `none`: the assertion of a debug build fails -/
def reportAs (ndebug : Bool) (label : String) (t : Timer) (w : World F) : Option (F × World F) :=
  if !ndebug && !t.started then none
  else
    let (ms, w) := elapsed t w
    some (ms, { w with out := w.out ++ [.elapsed label ms] })

/-- `report()`, ScopedTimer.h:89-91 -/
def report (ndebug : Bool) (t : Timer) (w : World F) : Option (F × World F) := reportAs ndebug t.label t w

/-- the arguments of the constructors -/
inductive Ctor
  | default
  | labelled (label : String) (autostart : Bool)
  | output (var : String) (autostart : Bool)
  | both (label var : String) (autostart : Bool)

/-- the constructors, ScopedTimer.h:44-64; a `time_point` is zero unless set -/
def construct (c : Ctor) (w : World F) : Timer × World F :=
  match c with
  | .default => let (b, w) := now w; (⟨b, false, "", none⟩, w)
  | .labelled label autostart => if autostart then doStart ⟨0, false, label, none⟩ w else (⟨0, false, label, none⟩, w)
  | .output var autostart => if autostart then doStart ⟨0, false, "", some var⟩ w else (⟨0, false, "", some var⟩, w)
  | .both label var autostart => if autostart then doStart ⟨0, false, label, some var⟩ w else (⟨0, false, label, some var⟩, w)

/-- the destructor, ScopedTimer.h:67-76 -/
def destruct (ndebug : Bool) (t : Timer) (w : World F) : Option (World F) :=
  if !t.started then some w
  else do
    let w ← if t.label ≠ "" then (report ndebug t w).map (·.2) else some w
    match t.output with
    | some v => let (ms, w) := elapsed t w; some { w with vars := fun x => if x = v then some ms else w.vars x }
    | none => some w

/-- a call of a method of a timer -/
inductive Op
  | start
  | elapsed
  | report
  | reportAs (label : String)

/-- execute a call of a method; results are dropped -/
def call (ndebug : Bool) (o : Op) (t : Timer) (w : World F) : Option (Timer × World F) :=
  match o with
  | .start => some (doStart t w)
  | .elapsed => some (t, (elapsed t w).2)
  | .report => (report ndebug t w).map fun r => (t, r.2)
  | .reportAs label => (reportAs ndebug label t w).map fun r => (t, r.2)

/-- execute calls of methods, one after the other -/
def calls (ndebug : Bool) : List Op → Timer → World F → Option (Timer × World F)
  | [], t, w => some (t, w)
  | o :: os, t, w => do
    let (t, w) ← call ndebug o t w
    calls ndebug os t w

/-- the life of a timer: it is constructed, methods are called, it is destroyed -/
def life (ndebug : Bool) (c : Ctor) (os : List Op) (w : World F) : Option (World F) := do
  let (t, w) ← calls ndebug os (construct c w).1 (construct c w).2
  destruct ndebug t w

/-- a block `{ ScopedTimer timer(…); body }` -/
def scope (ndebug : Bool) (c : Ctor) (body : World F → Option (World F)) (w : World F) : Option (World F) := do
  let r := construct c w
  let w ← body r.2
  destruct ndebug r.1 w

/-- one after the other -/
def inOrder : List (World F → Option (World F)) → World F → Option (World F)
  | [], w => some w
  | f :: fs, w => do
    let w ← f w
    inOrder fs w

/-- the timers of `SpatialTree::buildPartition`, SpatialTree.inl:364, 378, 393, 467, and of `RadiusLayer::buildPartition`, RadiusLayer.cpp:83, 99, 116, 190 -/
def buildPartition (ndebug profile : Bool) : World F → Option (World F) :=
  inOrder
    [scope ndebug (.labelled "Classify points & precompute coordinates" profile) some,
     scope ndebug (.labelled "Sort points" profile) some,
     scope ndebug (.labelled "Find first point in cell" profile) some,
     scope ndebug (.labelled "Build data structure" profile) some]

/-- the timers of the constructor of `SpatialTree`, SpatialTree.inl:25-38 -/
def spatialTree (ndebug profile : Bool) : World F → Option (World F) :=
  scope ndebug (.labelled "Preprocessing" profile) (scope ndebug (.labelled "Build DS" profile) (buildPartition ndebug profile))

/-- the timers of the constructor of `HyperbolicTree`, HyperbolicTree.inl:18-53; `positive`: `T` is not zero -/
def hyperbolicTree (ndebug profile positive : Bool) : World F → Option (World F) :=
  inOrder
    [buildPartition ndebug profile,
     scope ndebug (.labelled "Layer Pairs" profile) some,
     if positive then scope ndebug (.labelled "Max Connection Prob." profile) some else some]

/-- the output of `HyperbolicTree::generate` with this number of threads for a tree of this number of levels, HyperbolicTree.inl:62-67, 78-79, 102-103; only one
thread uses a timer -/
def generate (ndebug profile : Bool) (threads levels : Nat) (w : World F) : Option (World F) :=
  if threads = 1 then some w
  else do
    let fpl ← HTree.firstParallelLevel F threads
    let w := if profile then { w with out := w.out ++ [.parallelLevel fpl] } else w
    if fpl < levels then scope ndebug (.labelled "Gen Tasks" profile) some w else some w

/-- the timers of `measure_edge_generation`, bench_girg main.cpp:24-33; `makeSpatialTree` has no argument `profile` there, which means `false` -/
def benchEdges (ndebug : Bool) : World F → Option (World F) :=
  inOrder
    [scope ndebug (.both "" "time_pre" true) (spatialTree ndebug false),
     scope ndebug (.both "" "time_edges" true) some]

/-- the timers of `measure`, bench_girg main.cpp:45-77: the variables are not initialised (line 45).  The cases of the `switch` for the dimension do the same. -/
def benchGirg (ndebug : Bool) (w : World F) : Option (World F) :=
  scope ndebug (.both "" "time_total" true)
    (inOrder
      [scope ndebug (.both "" "time_weights" true) some,
       scope ndebug (.both "" "time_positions" true) some,
       scope ndebug (.both "" "time_binary" true) some,
       benchEdges ndebug]) { w with vars := fun _ => none }

/-- the timers of `benchmark`, bench_hyper main.cpp:33-62, for a tree with this number of levels -/
def benchHyper (ndebug positive : Bool) (threads levels : Nat) (w : World F) : Option (World F) :=
  scope ndebug (.both "Total" "time_total" true)
    (inOrder
      [scope ndebug (.both "Generate points" "time_points" true) some,
       scope ndebug (.both "Preprocess" "time_preprocess" true) (hyperbolicTree ndebug true positive),
       scope ndebug (.both "Generate edges" "time_sample" true) (generate ndebug true threads levels)]) { w with vars := fun _ => none }

end Timer
end Girgs
