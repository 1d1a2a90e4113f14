import Verif.Base.Machine
/-
Model of the graph helpers of the example programs: source/examples/inclusion_single/main.cpp:21-54 and source/examples/inclusion_range/main.cpp:20-52.
Edges are pairs of `int`s, compared lexicographically as `std::pair` does.
-/
namespace Girgs
namespace Examples

abbrev Edge := Int × Int

/-- `operator<` of `std::pair<int,int>` -/
def edgeLt (a b : Edge) : Bool := decide (a.1 < b.1) || (!(decide (b.1 < a.1)) && decide (a.2 < b.2))

/-- state of the loop of `edge_diff`: the rests behind the two iterators and the two results -/
structure DiffState where
  rest1 : List Edge
  rest2 : List Edge
  only1 : List Edge
  only2 : List Edge

/-- one iteration, inclusion_single main.cpp:38-49; `none` if the loop condition fails -/
def diffStep (s : DiffState) : Option DiffState :=
  match s.rest1, s.rest2 with
  | a :: r1, b :: r2 =>
    if a = b then some { s with rest1 := r1, rest2 := r2 }
    else if edgeLt a b then some { s with rest1 := r1, only1 := s.only1 ++ [a] }
    else some { s with rest2 := r2, only2 := s.only2 ++ [b] }
  | _, _ => none

/-- the loop, with a bound on the number of iterations (every iteration advances an iterator, see `edgeDiff`) -/
def diffLoop : Nat → DiffState → DiffState
  | 0, s => s
  | fuel + 1, s => match diffStep s with
    | none => s
    | some s' => diffLoop fuel s'

/-- `edge_diff(g1, g2)`, inclusion_single main.cpp:32-54; lines 50-51 copy the rests.  At most `|g1| + |g2|` iterations are possible. -/
def edgeDiff (g1 g2 : List Edge) : List Edge × List Edge :=
  let s := diffLoop (g1.length + g2.length) ⟨g1, g2, [], []⟩
  (s.only1 ++ s.rest1, s.only2 ++ s.rest2)

/-- state of the counting version -/
structure CountState where
  rest1 : List Edge
  rest2 : List Edge
  only1 : Nat
  only2 : Nat

/-- one iteration, inclusion_range main.cpp:36-47 -/
def countStep (s : CountState) : Option CountState :=
  match s.rest1, s.rest2 with
  | a :: r1, b :: r2 =>
    if a = b then some { s with rest1 := r1, rest2 := r2 }
    else if edgeLt a b then some { s with rest1 := r1, only1 := s.only1 + 1 }
    else some { s with rest2 := r2, only2 := s.only2 + 1 }
  | _, _ => none

/-- the loop -/
def countLoop : Nat → CountState → CountState
  | 0, s => s
  | fuel + 1, s => match countStep s with
    | none => s
    | some s' => countLoop fuel s'

/-- `edge_diff(g1, g2)`, inclusion_range main.cpp:30-52.  Simplification: the `int` counters do not overflow (lists shorter than `2^31`). -/
def edgeDiffCount (g1 g2 : List Edge) : Nat × Nat :=
  let s := countLoop (g1.length + g2.length) ⟨g1, g2, 0, 0⟩
  (s.only1 + s.rest1.length, s.only2 + s.rest2.length)

/-- the loop of `createReverseEdges`, inclusion_single main.cpp:24-25: entry `i` is read from the growing vector -/
def reverseLoop (g : List Edge) : List Nat → Option (List Edge)
  | [] => some g
  | i :: is => do
    let e ← rd g i
    reverseLoop (g ++ [(e.2, e.1)]) is

/-- `createReverseEdges(g)`, inclusion_single main.cpp:21-26.  The loop variable is an `int`. -/
def createReverseEdges (g : List Edge) : Option (List Edge) :=
  if g.length < 2147483648 then reverseLoop g (List.range g.length) else none

/-- `unifyEdges(g)`, inclusion_range main.cpp:20-24 -/
def unifyEdges (g : List Edge) : List Edge := g.map fun e => if e.2 < e.1 then (e.2, e.1) else e

end Examples
end Girgs
