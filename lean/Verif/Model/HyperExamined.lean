import Verif.Model.HyperTree
import Verif.Model.Examined
/-
The point pairs a sampling call of the hyperbolic sampler examines (observation functions on the model, used to state C40 and
C41).
-/
namespace Girgs
variable {F : Type} [CFloat F]

/-- the pairs of point positions a sampling call examines: the iterations of the two loops of `sampleTypeI`
(HyperbolicTree.inl:296-298), the pairs `sampleTypeII` draws from (lines 400-403) -/
def HTree.candidates (H : HTree F) (t : Task) : Option (List (Nat × Nat)) := do
  let (ra, rb) ← H.ranges t
  if t.two then some (pairListII ra rb) else Tree.pairsI t ra rb

/-- all pairs of point positions examined by a list of calls -/
def HTree.allCandidates (H : HTree F) (ts : List Task) : Option (List (Nat × Nat)) := Tree.concatM ts H.candidates

/-- the input index of the point stored at a position -/
def HTree.idx (H : HTree F) (p : Nat) : Nat := ((H.points[p]?).map HPoint.id).getD 0

/-- a pair of positions as a pair of input indices -/
def HTree.idxPair (H : HTree F) (c : Nat × Nat) : Nat × Nat := (H.idx c.1, H.idx c.2)

end Girgs
