import Verif.Model.GenerateEdges
/-
The work of `SpatialTree::generateEdges`, source/girgs/include/girgs/SpatialTree.inl:41-296: the functions of
Verif/Model/SpatialTree.lean with other observations.  `look…` returns the node pairs the code looks at (computes the distance of)
instead of the edges, and passes the same generator states on; `visitSteps` counts the calls of `visitCellPair` and the iterations of
its loops instead of collecting the sampling calls.
-/
namespace Girgs.Tree
open CFloat
variable {F : Type} [CFloat F] {D : Nat}

/-- the two loops of `sampleTypeI`, SpatialTree.inl:186-219: the pairs looked at, in order -/
def lookPairsI (T : Tree F D) (rng : Rng F) : List (Nat × Nat) → rng.G → Option (List (Nat × Nat) × rng.G)
  | [], g => some ([], g)
  | (a, b) :: L, g => do
    let u ← rd T.nodes a
    let v ← rd T.nodes b
    let d := decideI T rng u v g
    let rest ← lookPairsI T rng L d.2
    some ((u.index, v.index) :: rest.1, rest.2)

/-- `sampleTypeI`, SpatialTree.inl:156-221 -/
def lookTypeI (T : Tree F D) (rng : Rng F) (t : Task) (g : rng.G) : Option (List (Nat × Nat) × rng.G) := do
  let (ra, rb) ← T.ranges t
  if ra.1 = ra.2 ∨ rb.1 = rb.2 then some ([], g)
  else
    let ps ← pairsI t ra rb
    lookPairsI T rng ps g

/-- the skipping loop, SpatialTree.inl:270-295 -/
def loopLook (T : Tree F D) (rng : Rng F) (ra rb : Nat × Nat) (mp : F) :
    Nat → Nat → rng.G → Option (List (Nat × Nat) × rng.G)
  | 0, _, _ => none
  | fuel + 1, r, g =>
    let sizeA := ra.2 - ra.1
    let sizeB := rb.2 - rb.1
    if r < sizeA * sizeB then do
      let u ← rd T.nodes (ra.1 + r % sizeA)
      let v ← rd T.nodes (rb.1 + r / sizeA)
      let x := rng.uniformTo mp g
      let jump := rng.geo mp x.2
      let rest ← loopLook T rng ra rb mp fuel ((r + 1 + jump.1) % 18446744073709551616) jump.2
      some ((u.index, v.index) :: rest.1, rest.2)
    else some ([], g)

/-- `sampleTypeII`, SpatialTree.inl:224-296 -/
def lookTypeII (T : Tree F D) (rng : Rng F) (t : Task) (g : rng.G) : Option (List (Nat × Nat) × rng.G) := do
  let (ra, rb) ← T.ranges t
  if ra.1 = ra.2 ∨ rb.1 = rb.2 then some ([], g)
  else
    let mp ← T.maxProb t
    let numPairs := (ra.2 - ra.1) * (rb.2 - rb.1)
    let expected : F := ofNat numPairs *. mp
    if ofRat (1 / 5) <. mp then lookTypeI T rng t g
    else if expected <. ofRat (1 / 1000000) then some ([], g)
    else
      let r := rng.geo mp g
      loopLook T rng ra rb mp (numPairs + 1) r.1 r.2

/-- one sampling call -/
def lookTask (T : Tree F D) (rng : Rng F) (t : Task) (g : rng.G) : Option (List (Nat × Nat) × rng.G) :=
  if t.two then lookTypeII T rng t g else lookTypeI T rng t g

/-- a sequence of sampling calls with one generator -/
def lookTasks (T : Tree F D) (rng : Rng F) : List Task → rng.G → Option (List (Nat × Nat) × rng.G)
  | [], g => some ([], g)
  | t :: L, g => do
    let x ← lookTask T rng t g
    let y ← lookTasks T rng L x.2
    some (x.1 ++ y.1, y.2)

/-- add up the results of a loop whose iterations may be undefined -/
def sumM {α : Type} (L : List α) (f : α → Option Nat) : Option Nat :=
  match L with
  | [] => some 0
  | a :: L => do
    let x ← f a
    let y ← sumM L f
    some (x + y)

/-- `visitCellPair`, SpatialTree.inl:86-114: the number of calls of the function and of iterations of its loops over levels and layer
pairs -/
def visitSteps (T : Tree F D) : Nat → Nat → Nat → Nat → Option Nat
  | 0, _, _, _ => none
  | fuel + 1, cellA, cellB, level => do
    let t ← Coord.touching D cellA cellB level
    if !t then
      if T.ndebug && T.isThreshold then some 1
      else do
        let k ← sumM (List.range' level (T.levels - level)) fun l => do
          let ps ← rd T.layerPairs l
          some (1 + ps.length)
        some (1 + k)
    else do
      let own ← rd T.layerPairs level
      if level = subU T.levels 1 then some (1 + own.length)
      else
        let ps ← childPairs D cellA cellB
        let rest ← sumM ps fun p => visitSteps T fuel p.1 p.2 (level + 1)
        some (1 + own.length + rest)

/-- one thread, SpatialTree.inl:58-63: all calls and iterations of the recursion, and all pairs looked at -/
def sequentialWork (T : Tree F D) (rng : Rng F) (g : rng.G) : Option Nat := do
  let steps ← visitSteps T T.levels 0 0 0
  let ts ← visitCellPair T T.levels 0 0 0
  let r ← lookTasks T rng ts g
  some (steps + r.1.length)

end Girgs.Tree
