import Verif.Props.NeighbourLaw
/-
The law of the graph spanned by some of the nodes, for independent equally distributed points.
-/
namespace Girgs.Props
open CFloat Spec MeasureTheory ProbabilityTheory Tree
open XR (fin)
open scoped ENNReal

variable {E Ω : Type} [MeasurableSpace E] [MeasurableSpace Ω] {κ : Measure E} [IsProbabilityMeasure κ] {P : Measure Ω} {n k : ℕ} {X : Ω → Fin n → E}

/-- some of independent equally distributed points -/
theorem pi_comp_law (a : Fin k ↪ Fin n) : (Measure.pi fun _ : Fin n => κ).map (fun x i => x (a i)) = Measure.pi fun _ : Fin k => κ := by
  have h1 : iIndepFun (fun (j : Fin n) (x : Fin n → E) => x j) (Measure.pi fun _ : Fin n => κ) :=
    iIndepFun_pi (X := fun _ : Fin n => fun e : E => e) fun _ => aemeasurable_id
  have h2 := (iIndepFun_iff_map_fun_eq_pi_map fun i => (measurable_pi_apply (a i)).aemeasurable).1 (h1.precomp a.injective)
  rw [h2]
  congr 1
  funext i
  exact (measurePreserving_eval (fun _ : Fin n => κ) (a i)).map_eq

/-- the law of a graph given by the points -/
theorem pattern_law (hX : Measurable X) (hlaw : P.map X = Measure.pi fun _ => κ) (a : Fin k ↪ Fin n) {K : Fin k → Fin k → Set (E × E)}
    (hK : ∀ i j, MeasurableSet (K i j)) {G : Ω → Fin k → Fin k → Prop} (hG : ∀ ω i j, G ω i j ↔ i ≠ j ∧ (X ω (a i), X ω (a j)) ∈ K i j)
    (A : Set (Fin k → Fin k → Prop)) :
    P {ω | G ω ∈ A} = (Measure.pi fun _ : Fin k => κ) {y | (fun i j => i ≠ j ∧ (y i, y j) ∈ K i j) ∈ A} := by
  have hm : Measurable fun y : Fin k → E => fun i j => i ≠ j ∧ (y i, y j) ∈ K i j := by
    refine measurable_pi_lambda _ fun i => measurable_pi_lambda _ fun j => measurableSet_setOf.1 ?_
    have h1 : MeasurableSet {y : Fin k → E | (y i, y j) ∈ K i j} := ((measurable_pi_apply i).prodMk (measurable_pi_apply j)) (hK i j)
    by_cases h : i = j
    · simp [h]
    · simpa [h] using h1
  have hA : MeasurableSet {y : Fin k → E | (fun i j => i ≠ j ∧ (y i, y j) ∈ K i j) ∈ A} := hm (Set.toFinite A).measurableSet
  have hmap : Measurable fun (x : Fin n → E) (i : Fin k) => x (a i) := measurable_pi_lambda _ fun i => measurable_pi_apply (a i)
  rw [← pi_comp_law a, ← hlaw, Measure.map_map hmap hX, Measure.map_apply (hmap.comp hX) hA]
  congr 1
  ext ω
  have h1 : G ω = fun i j => i ≠ j ∧ (X ω (a i), X ω (a j)) ∈ K i j := funext fun i => funext fun j => propext (hG ω i j)
  simp only [Set.mem_setOf_eq, Set.mem_preimage, Function.comp_apply, h1]

end Girgs.Props
