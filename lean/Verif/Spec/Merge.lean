import Mathlib.Data.List.Perm.Basic
/-
Specification: what merging the outputs of several threads means.
-/
namespace Girgs.Spec

/-- `out` is a merge of the sequences `calls`: every element of `out` can be attributed to one of the sequences such that
the elements attributed to sequence `t` are exactly that sequence, in its order. -/
def IsMerge {E : Type} (calls : List (List E)) (out : List E) : Prop :=
  ∃ tagged : List (Nat × E), tagged.map Prod.snd = out ∧ (∀ p ∈ tagged, p.1 < calls.length) ∧
    ∀ t l, calls[t]? = some l → (tagged.filter fun p => p.1 = t).map Prod.snd = l

end Girgs.Spec
