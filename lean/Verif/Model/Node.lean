import Verif.Base.CFloat
import Mathlib.Data.List.FinRange
/-
Model of source/girgs/include/girgs/Node.h and Helper.h.
-/
namespace Girgs
open CFloat
variable {F : Type} [CFloat F]

/-- `Node<D>`, Node.h:12-26 (`index` and `cell_id` are `int`s that are never negative in the library). -/
structure Node (F : Type) (D : Nat) where
  coord : Fin D → F
  weight : F
  index : Nat
  cellId : Nat

/-- `Node::distance`, Node.h:28-36, on coordinate arrays: a loop over the dimensions with `result` starting at 0.0. -/
def coordDistance {D : Nat} (a b : Fin D → F) : F :=
  (List.finRange D).foldl (fun result d =>
    let dist := CFloat.abs (a d -. b d)
    let dist := fmin dist (ofRat 1 -. dist)
    fmax result dist) (ofRat 0)

/-- `Node::distance` -/
def Node.distance {D : Nat} (a b : Node F D) : F := coordDistance a.coord b.coord

/-- `detail::pow_helper<D,T>::pow`, Helper.h:6-31: specialisations for 0, 1, 2; otherwise the product of the
`D/2`-th and the `(D+1)/2`-th power. -/
def powHelper (D : Nat) (x : F) : F :=
  if D = 0 then ofRat 1
  else if D = 1 then x
  else if h : D = 2 then x *. x
  else powHelper (D / 2) x *. powHelper ((D + 1) / 2) x
termination_by D
decreasing_by all_goals omega

/-- `pow_to_the<D>`, Helper.h:34-37 -/
def powToThe (D : Nat) (x : F) : F := powHelper D x

end Girgs
