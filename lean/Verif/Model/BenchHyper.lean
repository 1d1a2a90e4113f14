import Verif.Model.Bench
/-
Model of `main` of source/examples/bench_hyper/main.cpp.  The measured times are arbitrary values: every run of `benchmark` comes with some time, and the program
decides by it.  Not modelled: the header and the progress messages.
-/
namespace Girgs
namespace Bench
open CFloat Tools
variable {F : Type} [CFloat F]

/-- a loop `for (x : list) body`: the body takes a state to a state and produces a list of events -/
inductive Loop {α S E : Type} (body : α → S → List E → S → Prop) : List α → S → List E → S → Prop
  | done (s) : Loop body [] s [] s
  | step {x xs s es s' es' s''} : body x s es s' → Loop body xs s' es' s'' → Loop body (x :: xs) s (es ++ es') s''

/-- the variables `seed` and `skip_n` -/
structure HMState where
  seed : Nat
  skip : Nat

/-- `nMax`, bench_hyper main.cpp:95 -/
def nMax : Nat := 100000000

/-- `timeout`, bench_hyper main.cpp:97 -/
def timeout (F : Type) [CFloat F] : F := ofRat 100 *. ofRat 1000

/-- `n = n0 * std::pow(10.0, 1.0 * ni / steps_per_dec)`, bench_hyper main.cpp:130; the conversion to `unsigned` is undefined if the value does not fit. -/
def nextSize (F : Type) [CFloat F] (ni : Nat) : Option Nat := toU32 (ofNat 10000 *. pow (ofRat 10) (ofRat 1 *. ofNat ni /. ofNat 3) : F)

/-- the variables of the outer loops: `iter`, `T`, `ple`, `alpha` -/
structure HGroup (F : Type) where
  iter : Nat
  T : F
  ple : F
  alpha : F

/-- what happens to one pair of sizes `n` and degree `avgDeg`: the printed row and the measured time, or `none` if the size is skipped -/
structure HEntry (F : Type) where
  avgDeg : Nat
  n : Nat
  seed : Nat
  outcome : Option (HRow F × F)

/-- the loop over the sizes, bench_hyper main.cpp:128-152 -/
inductive SizeLoop (m : Machine F) (threads : Nat) (g : HGroup F) (avgDeg : Nat) : Nat → Nat → HMState → List (HEntry F) → HMState → Prop
  | done {n ni s} : ¬ n ≤ nMax → SizeLoop m threads g avgDeg n ni s [] s
  /-- `continue`, lines 131-132 -/
  | small {n ni n' s es s'} : n ≤ nMax → avgDeg * 20 > n → nextSize F ni = some n' → SizeLoop m threads g avgDeg n' (ni + 1) s es s' →
      SizeLoop m threads g avgDeg n ni s es s'
  /-- lines 138-145 and 150 -/
  | run {n ni n' s es s' row} (time : F) : n ≤ nMax → ¬ avgDeg * 20 > n → n < s.skip → Benchmark m threads n avgDeg g.alpha g.T s.seed row → nextSize F ni = some n' →
      SizeLoop m threads g avgDeg n' (ni + 1) ⟨(s.seed + 10) % 4294967296, if timeout F <. time then n else s.skip⟩ es s' →
      SizeLoop m threads g avgDeg n ni s (⟨avgDeg, n, s.seed, some (row, time)⟩ :: es) s'
  /-- lines 146-150 -/
  | skip {n ni n' s es s'} : n ≤ nMax → ¬ avgDeg * 20 > n → ¬ n < s.skip → nextSize F ni = some n' →
      SizeLoop m threads g avgDeg n' (ni + 1) ⟨(s.seed + 10) % 4294967296, s.skip⟩ es s' →
      SizeLoop m threads g avgDeg n ni s (⟨avgDeg, n, s.seed, none⟩ :: es) s'

/-- the body of the loop over `ple`, bench_hyper main.cpp:122-153.  The event is the list of the entries. -/
def GroupBody (m : Machine F) (threads iter : Nat) (T ple : F) (s : HMState) (es : List (HGroup F × List (HEntry F))) (s' : HMState) : Prop :=
  ∃ g : HGroup F, g = ⟨iter, T, ple, (ple -. ofRat 1) /. ofRat 2⟩ ∧
  ∃ entries, Loop (fun avgDeg => SizeLoop m threads g avgDeg 10000 1) [10, 100, 1000] ⟨s.seed, nMax + 1⟩ entries s' ∧ es = [(g, entries)]

/-- `main`, bench_hyper main.cpp:91-158: some execution ends normally, with these entries -/
def HyperMain (m : Machine F) (threads : Nat) (groups : List (HGroup F × List (HEntry F))) : Prop :=
  ∃ s, Loop (fun iter => Loop (fun T => Loop (fun ple => GroupBody m threads iter T ple) [ofRat (11 / 5), ofRat 3]) [ofRat 0, ofRat (1 / 2), ofRat (9 / 10)])
    (List.range 5) ⟨0, 0⟩ groups s

end Bench
end Girgs
