import Verif.Model.Work
import Mathlib.Data.List.Basic
/-
The functions of Verif/Model/Work.lean make the same random draws as the ones of Verif/Model/SpatialTree.lean, and look at every
emitted edge.
-/
namespace Girgs.Tree
open CFloat
variable {F : Type} [CFloat F] {D : Nat} {T : Tree F D} {rng : Rng F}

/-- the run `a` that records all pairs and the run `b` that records the edges: both are undefined, or they leave the same state and
the edges are among the pairs -/
def Agree {G : Type} (a b : Option (List (Nat × Nat) × G)) : Prop :=
  (a = none ∧ b = none) ∨ ∃ ls es g, a = some (ls, g) ∧ b = some (es, g) ∧ es.Sublist ls

theorem Agree.refl {G : Type} (a : Option (List (Nat × Nat) × G)) : Agree a a := by
  rcases a with _ | ⟨l, g⟩
  · exact Or.inl ⟨rfl, rfl⟩
  · exact Or.inr ⟨l, l, g, rfl, rfl, List.Sublist.refl _⟩

theorem lookPairsI_agree : ∀ (L : List (Nat × Nat)) (g : rng.G), Agree (lookPairsI T rng L g) (runPairsI T rng L g) := by
  intro L
  induction L with
  | nil => intro g; exact Agree.refl _
  | cons c L ih =>
    intro g
    obtain ⟨a, b⟩ := c
    unfold lookPairsI runPairsI
    rcases rd T.nodes a with _ | u
    · exact Or.inl ⟨rfl, rfl⟩
    rcases rd T.nodes b with _ | v
    · exact Or.inl ⟨rfl, rfl⟩
    simp only [Option.bind_eq_bind, Option.bind_some]
    rcases ih (decideI T rng u v g).2 with ⟨h1, h2⟩ | ⟨ls, es, g', h1, h2, h3⟩
    · rw [h1, h2]; exact Or.inl ⟨rfl, rfl⟩
    · rw [h1, h2]
      refine Or.inr ⟨_, _, _, rfl, rfl, ?_⟩
      simp only
      split
      · exact h3.cons_cons _
      · exact h3.cons _

theorem lookTypeI_agree (t : Task) (g : rng.G) : Agree (lookTypeI T rng t g) (sampleTypeI T rng t g) := by
  unfold lookTypeI sampleTypeI
  rcases T.ranges t with _ | ⟨ra, rb⟩
  · exact Or.inl ⟨rfl, rfl⟩
  simp only [Option.bind_eq_bind, Option.bind_some]
  split
  · exact Agree.refl _
  rcases pairsI t ra rb with _ | ps
  · exact Or.inl ⟨rfl, rfl⟩
  exact lookPairsI_agree ps g

theorem loopLook_agree {ra rb : Nat × Nat} {mp : F} : ∀ (fuel r : Nat) (g : rng.G),
    Agree (loopLook T rng ra rb mp fuel r g) (loopII T rng ra rb mp fuel r g) := by
  intro fuel
  induction fuel with
  | zero => intro r g; exact Agree.refl _
  | succ fuel ih =>
    intro r g
    unfold loopLook loopII
    simp only
    split
    swap
    · exact Agree.refl _
    rcases rd T.nodes (ra.1 + r % (ra.2 - ra.1)) with _ | u
    · exact Or.inl ⟨rfl, rfl⟩
    rcases rd T.nodes (rb.1 + r / (ra.2 - ra.1)) with _ | v
    · exact Or.inl ⟨rfl, rfl⟩
    simp only [Option.bind_eq_bind, Option.bind_some]
    rcases ih ((r + 1 + (rng.geo mp (rng.uniformTo mp g).2).1) % 18446744073709551616) (rng.geo mp (rng.uniformTo mp g).2).2 with
      ⟨h1, h2⟩ | ⟨ls, es, g', h1, h2, h3⟩
    · rw [h1, h2]; exact Or.inl ⟨rfl, rfl⟩
    · rw [h1, h2]
      refine Or.inr ⟨_, _, _, rfl, rfl, ?_⟩
      simp only
      split
      · exact h3.cons_cons _
      · exact h3.cons _

theorem lookTypeII_agree (t : Task) (g : rng.G) : Agree (lookTypeII T rng t g) (sampleTypeII T rng t g) := by
  unfold lookTypeII sampleTypeII
  rcases T.ranges t with _ | ⟨ra, rb⟩
  · exact Or.inl ⟨rfl, rfl⟩
  simp only [Option.bind_eq_bind, Option.bind_some]
  split
  · exact Agree.refl _
  rcases T.maxProb t with _ | mp
  · exact Or.inl ⟨rfl, rfl⟩
  simp only [Option.bind_some]
  split
  · exact lookTypeI_agree t g
  split
  · exact Agree.refl _
  exact loopLook_agree _ _ _

theorem lookTask_agree (t : Task) (g : rng.G) : Agree (lookTask T rng t g) (runTask T rng t g) := by
  unfold lookTask runTask
  split
  · exact lookTypeII_agree t g
  · exact lookTypeI_agree t g

theorem lookTasks_agree : ∀ (ts : List Task) (g : rng.G), Agree (lookTasks T rng ts g) (runTasks T rng ts g) := by
  intro ts
  induction ts with
  | nil => intro g; exact Agree.refl _
  | cons t ts ih =>
    intro g
    unfold lookTasks runTasks
    rcases lookTask_agree (T := T) t g with ⟨h1, h2⟩ | ⟨ls, es, g', h1, h2, h3⟩
    · rw [h1, h2]; exact Or.inl ⟨rfl, rfl⟩
    rw [h1, h2]
    simp only [Option.bind_eq_bind, Option.bind_some]
    rcases ih g' with ⟨h4, h5⟩ | ⟨ls', es', g'', h4, h5, h6⟩
    · rw [h4, h5]; exact Or.inl ⟨rfl, rfl⟩
    · rw [h4, h5]
      exact Or.inr ⟨_, _, _, rfl, rfl, h3.append h6⟩

end Girgs.Tree
