/-
What "sorted stably by key" means.
-/
namespace Girgs

/-- `Y` is the result of stably sorting `X` by `key`: `Y` is ordered by `key`, and for every key value `k` the elements
with key `k` are the same in both lists, in the same order (in particular `Y` is a permutation of `X`). -/
structure StablySorted {T : Type} (key : T → Nat) (X Y : List T) : Prop where
  ordered : Y.Pairwise (fun a b => key a ≤ key b)
  stable : ∀ k, Y.filter (fun a => key a == k) = X.filter (fun a => key a == k)

end Girgs
