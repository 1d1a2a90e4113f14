import Verif.Model.HyperTree
import Verif.Model.Work
/-
The work of `HyperbolicTree::generate` with one thread, source/hypergirgs/include/hypergirgs/HyperbolicTree.inl:148-183 and 268-443: the
functions of Verif/Model/HyperTree.lean with other observations.  `look…` returns the pairs of points the code looks at (decides about)
instead of the edges, and passes the same generator states on; `visitSteps` counts the calls of `visitCellPair` and the iterations of its
loops instead of collecting the sampling calls.
-/
namespace Girgs.HTree
open CFloat
open Tree (Rng sumM)
variable {F : Type} [CFloat F]

/-- the loops of `sampleTypeI`, HyperbolicTree.inl:298-341: the pairs looked at, in order -/
def lookPairsI (H : HTree F) (rng : Rng F) : List (Nat × Nat) → rng.G → Option (List (Nat × Nat) × rng.G)
  | [], g => some ([], g)
  | (a, b) :: L, g => do
    let u ← rd H.points a
    let v ← rd H.points b
    let d ← decideI H rng u v g
    let rest ← lookPairsI H rng L d.2
    some ((u.id, v.id) :: rest.1, rest.2)

/-- `sampleTypeI`, HyperbolicTree.inl:268-342 -/
def lookTypeI (H : HTree F) (rng : Rng F) (t : Task) (g : rng.G) : Option (List (Nat × Nat) × rng.G) := do
  let (ra, rb) ← H.ranges t
  if ra.1 = ra.2 ∨ rb.1 = rb.2 then some ([], g)
  else
    let ps ← Tree.pairsI t ra rb
    lookPairsI H rng ps g

/-- the skipping loop, HyperbolicTree.inl:400-442 -/
def loopLook (H : HTree F) (rng : Rng F) (f : DistFilter F) (sA sB nA nB : Nat) :
    Nat → Nat → rng.G → Option (List (Nat × Nat) × rng.G)
  | 0, _, _ => none
  | fuel + 1, r, g =>
    if r < nA * nB then do
      let u ← rd H.points (sA + r % nA)
      let v ← rd H.points (sB + r / nA)
      let x := rng.uniformTo f.maxProb g
      let _ ← decideProb H f u v x.1
      let jump := rng.geo f.maxProb x.2
      let rest ← loopLook H rng f sA sB nA nB fuel ((r + 1 + jump.1) % 18446744073709551616) jump.2
      some ((u.id, v.id) :: rest.1, rest.2)
    else some ([], g)

/-- `sampleTypeII`, HyperbolicTree.inl:346-443 -/
def lookTypeII (H : HTree F) (rng : Rng F) (t : Task) (g : rng.G) : Option (List (Nat × Nat) × rng.G) := do
  let s ← H.sizesII t
  if H.tZero || s.1 == 0 || s.2 == 0 then some ([], g)
  else
    let f ← H.filterFor t
    if ofRat (1 / 5) <. f.maxProb then lookTypeI H rng t g
    else
      let numPairs := s.1 * s.2
      if ofNat numPairs *. f.maxProb <. ofRat (1 / 1000000) then some ([], g)
      else
        let p ← H.startsII t
        let r := rng.geo f.maxProb g
        loopLook H rng f p.1 p.2 s.1 s.2 (numPairs + 1) r.1 r.2

/-- one sampling call -/
def lookTask (H : HTree F) (rng : Rng F) (t : Task) (g : rng.G) : Option (List (Nat × Nat) × rng.G) :=
  if t.two then lookTypeII H rng t g else lookTypeI H rng t g

/-- a sequence of sampling calls with one generator -/
def lookTasks (H : HTree F) (rng : Rng F) : List Task → rng.G → Option (List (Nat × Nat) × rng.G)
  | [], g => some ([], g)
  | t :: L, g => do
    let x ← lookTask H rng t g
    let y ← lookTasks H rng L x.2
    some (x.1 ++ y.1, y.2)

/-- `visitCellPair`, HyperbolicTree.inl:148-183: the number of calls of the function and of iterations of its loops over levels and
layer pairs -/
def visitSteps (H : HTree F) : Nat → Nat → Nat → Nat → Option Nat
  | 0, _, _, _ => none
  | fuel + 1, cellA, cellB, level => do
    let t ← Angle.touching cellA cellB level
    if !t then
      if H.ndebug && H.tZero then some 1
      else do
        let k ← sumM (List.range' level (H.levels - level)) fun l => do
          let ps ← rd H.layerPairs l
          some (1 + ps.length)
        some (1 + k)
    else do
      let own ← rd H.layerPairs level
      if level = subU H.levels 1 then some (1 + own.length)
      else
        let rest ← sumM (childPairs cellA cellB) fun p => visitSteps H fuel p.1 p.2 (level + 1)
        some (1 + own.length + rest)

/-- one thread, HyperbolicTree.inl:62-67: all calls and iterations of the recursion, and all pairs looked at -/
def sequentialWork (H : HTree F) (rng : Rng F) (g : rng.G) : Option Nat := do
  let steps ← visitSteps H H.levels 0 0 0
  let ts ← visitCellPair H H.levels 0 0 0
  let r ← lookTasks H rng ts g
  some (steps + r.1.length)

end Girgs.HTree
