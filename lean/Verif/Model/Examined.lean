import Verif.Model.SpatialTree
/-
The node pairs a sampling call examines (observation functions on the model, used to state C15 and C16).
-/
namespace Girgs
variable {F : Type} [CFloat F] {D : Nat}

/-- decoding of the `r`-th pair of a type II call into node positions, SpatialTree.inl:272-273 -/
def decodeII (ra rb : Nat × Nat) (r : Nat) : Nat × Nat := (ra.1 + r % (ra.2 - ra.1), rb.1 + r / (ra.2 - ra.1))

/-- the pairs of node positions a type II call draws from: `r` in `[0, num_pairs)`, SpatialTree.inl:237, 270 -/
def pairListII (ra rb : Nat × Nat) : List (Nat × Nat) :=
  (List.range ((ra.2 - ra.1) * (rb.2 - rb.1))).map (decodeII ra rb)

/-- the pairs of node positions a sampling call examines: the iterations of the two loops of `sampleTypeI`
(SpatialTree.inl:186-189), the pairs `sampleTypeII` draws from -/
def Tree.candidates (T : Tree F D) (t : Task) : Option (List (Nat × Nat)) := do
  let (ra, rb) ← T.ranges t
  if t.two then some (pairListII ra rb) else Tree.pairsI t ra rb

/-- all pairs of node positions examined by a list of calls -/
def Tree.allCandidates (T : Tree F D) (ts : List Task) : Option (List (Nat × Nat)) := Tree.concatM ts T.candidates

/-- the input index of the node stored at a position -/
def Tree.idx (T : Tree F D) (p : Nat) : Nat := ((T.nodes[p]?).map Node.index).getD 0

/-- a pair of positions as a pair of input indices -/
def Tree.idxPair (T : Tree F D) (c : Nat × Nat) : Nat × Nat := (T.idx c.1, T.idx c.2)

end Girgs
