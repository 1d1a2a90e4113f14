import Verif.Model.HyperWork
import Verif.Proofs.WorkErase
/-
The functions of Verif/Model/HyperWork.lean make the same random draws as the ones of Verif/Model/HyperTree.lean, and look at every
emitted edge.
-/
namespace Girgs.HTree
open CFloat
open Tree (Rng Agree)
variable {F : Type} [CFloat F] {H : HTree F} {rng : Rng F}

theorem lookPairsI_agree : ∀ (L : List (Nat × Nat)) (g : rng.G), Agree (lookPairsI H rng L g) (runPairsI H rng L g) := by
  intro L
  induction L with
  | nil => intro g; exact Agree.refl _
  | cons c L ih =>
    intro g
    obtain ⟨a, b⟩ := c
    unfold lookPairsI runPairsI
    rcases rd H.points a with _ | u
    · exact Or.inl ⟨rfl, rfl⟩
    rcases rd H.points b with _ | v
    · exact Or.inl ⟨rfl, rfl⟩
    simp only [Option.bind_eq_bind, Option.bind_some]
    rcases decideI H rng u v g with _ | d
    · exact Or.inl ⟨rfl, rfl⟩
    simp only [Option.bind_some]
    rcases ih d.2 with ⟨h1, h2⟩ | ⟨ls, es, g', h1, h2, h3⟩
    · rw [h1, h2]; exact Or.inl ⟨rfl, rfl⟩
    · rw [h1, h2]
      refine Or.inr ⟨_, _, _, rfl, rfl, ?_⟩
      simp only
      split
      · exact h3.cons_cons _
      · exact h3.cons _

theorem lookTypeI_agree (t : Task) (g : rng.G) : Agree (lookTypeI H rng t g) (sampleTypeI H rng t g) := by
  unfold lookTypeI sampleTypeI
  rcases H.ranges t with _ | ⟨ra, rb⟩
  · exact Or.inl ⟨rfl, rfl⟩
  simp only [Option.bind_eq_bind, Option.bind_some]
  split
  · exact Agree.refl _
  rcases Tree.pairsI t ra rb with _ | ps
  · exact Or.inl ⟨rfl, rfl⟩
  exact lookPairsI_agree ps g

theorem loopLook_agree {f : DistFilter F} {sA sB nA nB : Nat} : ∀ (fuel r : Nat) (g : rng.G),
    Agree (loopLook H rng f sA sB nA nB fuel r g) (loopII H rng f sA sB nA nB fuel r g) := by
  intro fuel
  induction fuel with
  | zero => intro r g; exact Agree.refl _
  | succ fuel ih =>
    intro r g
    unfold loopLook loopII
    simp only
    split
    swap
    · exact Agree.refl _
    rcases rd H.points (sA + r % nA) with _ | u
    · exact Or.inl ⟨rfl, rfl⟩
    rcases rd H.points (sB + r / nA) with _ | v
    · exact Or.inl ⟨rfl, rfl⟩
    simp only [Option.bind_eq_bind, Option.bind_some]
    rcases decideProb H f u v (rng.uniformTo f.maxProb g).1 with _ | d
    · exact Or.inl ⟨rfl, rfl⟩
    simp only [Option.bind_some]
    rcases ih ((r + 1 + (rng.geo f.maxProb (rng.uniformTo f.maxProb g).2).1) % 18446744073709551616) (rng.geo f.maxProb (rng.uniformTo f.maxProb g).2).2 with
      ⟨h1, h2⟩ | ⟨ls, es, g', h1, h2, h3⟩
    · rw [h1, h2]; exact Or.inl ⟨rfl, rfl⟩
    · rw [h1, h2]
      refine Or.inr ⟨_, _, _, rfl, rfl, ?_⟩
      simp only
      split
      · exact h3.cons_cons _
      · exact h3.cons _

theorem lookTypeII_agree (t : Task) (g : rng.G) : Agree (lookTypeII H rng t g) (sampleTypeII H rng t g) := by
  unfold lookTypeII sampleTypeII
  rcases H.sizesII t with _ | s
  · exact Or.inl ⟨rfl, rfl⟩
  simp only [Option.bind_eq_bind, Option.bind_some]
  split
  · exact Agree.refl _
  rcases H.filterFor t with _ | f
  · exact Or.inl ⟨rfl, rfl⟩
  simp only [Option.bind_some]
  split
  · exact lookTypeI_agree t g
  split
  · exact Agree.refl _
  rcases H.startsII t with _ | p
  · exact Or.inl ⟨rfl, rfl⟩
  exact loopLook_agree _ _ _

theorem lookTask_agree (t : Task) (g : rng.G) : Agree (lookTask H rng t g) (runTask H rng t g) := by
  unfold lookTask runTask
  split
  · exact lookTypeII_agree t g
  · exact lookTypeI_agree t g

theorem lookTasks_agree : ∀ (ts : List Task) (g : rng.G), Agree (lookTasks H rng ts g) (runTasks H rng ts g) := by
  intro ts
  induction ts with
  | nil => intro g; exact Agree.refl _
  | cons t ts ih =>
    intro g
    unfold lookTasks runTasks
    rcases lookTask_agree (H := H) t g with ⟨h1, h2⟩ | ⟨ls, es, g', h1, h2, h3⟩
    · rw [h1, h2]; exact Or.inl ⟨rfl, rfl⟩
    rw [h1, h2]
    simp only [Option.bind_eq_bind, Option.bind_some]
    rcases ih g' with ⟨h4, h5⟩ | ⟨ls', es', g'', h4, h5, h6⟩
    · rw [h4, h5]; exact Or.inl ⟨rfl, rfl⟩
    · rw [h4, h5]
      exact Or.inr ⟨_, _, _, rfl, rfl, h3.append h6⟩

end Girgs.HTree
