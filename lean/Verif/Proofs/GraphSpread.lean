import Mathlib.Combinatorics.SimpleGraph.DeleteEdges
import Mathlib.Combinatorics.SimpleGraph.Connectivity.Connected
import Verif.Proofs.DegreeSpread
/-
The variance of a function of the graph that changes by at most one more than the degree when a node is isolated.
-/
namespace Girgs.Props
open CFloat Spec MeasureTheory
open scoped ENNReal

/-- C114: the number of connected components is such a function: isolating a node creates at most one more component than its degree -/
theorem C114_components {n : ℕ} (G : SimpleGraph (Fin n)) (i : Fin n) :
    |(Nat.card G.ConnectedComponent : ℝ) - Nat.card (G.deleteEdges (G.incidenceSet i)).ConnectedComponent| ≤ 1 + ((G.neighborSet i).ncard : ℝ) := by
  classical
  obtain ⟨H, hH⟩ : ∃ H, H = G.deleteEdges (G.incidenceSet i) := ⟨_, rfl⟩
  have hadj : ∀ a b, H.Adj a b ↔ G.Adj a b ∧ a ≠ i ∧ b ≠ i := by
    intro a b
    rw [hH, SimpleGraph.deleteEdges_adj, SimpleGraph.mk'_mem_incidenceSet_iff]
    constructor
    · rintro ⟨h1, h2⟩
      exact ⟨h1, fun h => h2 ⟨h1, Or.inl h.symm⟩, fun h => h2 ⟨h1, Or.inr h.symm⟩⟩
    · rintro ⟨h1, h2, h3⟩
      exact ⟨h1, fun h => h.2.elim (fun e => h2 e.symm) fun e => h3 e.symm⟩
  have hle : H ≤ G := fun a b h => ((hadj a b).1 h).1
  rw [← hH]
  have h1 : Nat.card G.ConnectedComponent ≤ Nat.card H.ConnectedComponent :=
    Nat.card_le_card_of_surjective (fun c => c.map (SimpleGraph.Hom.ofLE hle)) fun c => by
      induction c using SimpleGraph.ConnectedComponent.ind with
      | h v => exact ⟨H.connectedComponentMk v, rfl⟩
  have key : ∀ a b : Fin n, (∀ s, (s = i ∨ G.Adj i s) → H.connectedComponentMk s ≠ H.connectedComponentMk a) → G.Reachable a b → H.Reachable a b := by
    intro a b hs hr
    rw [SimpleGraph.reachable_iff_reflTransGen] at hr
    induction hr with
    | refl => exact SimpleGraph.Reachable.refl a
    | @tail c d _ h2 ih =>
      have hc : c ≠ i := fun h => hs c (Or.inl h) (SimpleGraph.ConnectedComponent.eq.2 ih.symm)
      have hd : d ≠ i := fun h => hs c (Or.inr (h ▸ h2.symm)) (SimpleGraph.ConnectedComponent.eq.2 ih.symm)
      exact ih.trans ((hadj c d).2 ⟨h2, hc, hd⟩).reachable
  have h2 : Nat.card H.ConnectedComponent ≤ Nat.card ((insert i (G.neighborSet i) : Set (Fin n)) ⊕ G.ConnectedComponent) := by
    obtain ⟨Φ, hΦ⟩ : ∃ Φ : H.ConnectedComponent → (insert i (G.neighborSet i) : Set (Fin n)) ⊕ G.ConnectedComponent, ∀ c,
        Φ c = if h : ∃ s : (insert i (G.neighborSet i) : Set (Fin n)), H.connectedComponentMk s.1 = c then Sum.inl h.choose else
          Sum.inr (c.map (SimpleGraph.Hom.ofLE hle)) := ⟨_, fun _ => rfl⟩
    refine Nat.card_le_card_of_injective Φ fun c d hcd => ?_
    rw [hΦ, hΦ] at hcd
    by_cases hc : ∃ s : (insert i (G.neighborSet i) : Set (Fin n)), H.connectedComponentMk s.1 = c
    · by_cases hd : ∃ s : (insert i (G.neighborSet i) : Set (Fin n)), H.connectedComponentMk s.1 = d
      · rw [dif_pos hc, dif_pos hd] at hcd
        have := Sum.inl.inj hcd
        rw [← hc.choose_spec, ← hd.choose_spec, this]
      · rw [dif_pos hc, dif_neg hd] at hcd
        exact absurd hcd (by simp)
    · by_cases hd : ∃ s : (insert i (G.neighborSet i) : Set (Fin n)), H.connectedComponentMk s.1 = d
      · rw [dif_neg hc, dif_pos hd] at hcd
        exact absurd hcd (by simp)
      · rw [dif_neg hc, dif_neg hd] at hcd
        have := Sum.inr.inj hcd
        induction c using SimpleGraph.ConnectedComponent.ind with
        | h a =>
          induction d using SimpleGraph.ConnectedComponent.ind with
          | h b =>
            refine SimpleGraph.ConnectedComponent.eq.2 (key a b (fun s hs h => hc ⟨⟨s, ?_⟩, h⟩) (SimpleGraph.ConnectedComponent.eq.1 this))
            rcases hs with h | h
            · exact Or.inl h
            · exact Or.inr h
  have h3 : (insert i (G.neighborSet i) : Set (Fin n)).ncard ≤ (G.neighborSet i).ncard + 1 := Set.ncard_insert_le _ _
  rw [Nat.card_sum, Nat.card_coe_set_eq] at h2
  have h4 : (Nat.card G.ConnectedComponent : ℝ) ≤ Nat.card H.ConnectedComponent := by exact_mod_cast h1
  have h5 : (Nat.card H.ConnectedComponent : ℝ) ≤ (G.neighborSet i).ncard + 1 + Nat.card G.ConnectedComponent := by
    exact_mod_cast h2.trans (Nat.add_le_add_right h3 _)
  rw [abs_le]
  constructor
  · linarith
  · have : (0 : ℝ) ≤ (G.neighborSet i).ncard := Nat.cast_nonneg _
    linarith

section
variable {E : Type} [MeasurableSpace E] {n : ℕ} {K : Fin n → Fin n → Set (E × E)}

/-- the variance of a function of the graph -/
theorem graph_spread (κ : Measure E) [IsProbabilityMeasure κ] (hK : ∀ u v, MeasurableSet (K u v)) (hsym : ∀ u v p q, (p, q) ∈ K u v ↔ (q, p) ∈ K v u)
    {F : SimpleGraph (Fin n) → ℝ} (hF : ∀ G i, |F G - F (G.deleteEdges (G.incidenceSet i))| ≤ 1 + ((G.neighborSet i).ncard : ℝ)) {f : (Fin n → E) → ℝ}
    (hf : ∀ x, f x = F (SimpleGraph.fromRel fun u v => (x u, x v) ∈ K u v)) :
    BM f ∧ ∫ x, (f x - ∫ y, f y ∂Measure.pi fun _ : Fin n => κ) ^ 2 ∂(Measure.pi fun _ : Fin n => κ) ≤
      ∑ u, ∫ x, (1 + ∑ v ∈ Finset.univ.erase u, (link K x u v : ℝ)) ^ 2 ∂(Measure.pi fun _ : Fin n => κ) := by
  classical
  have hbm : ∀ H : (Fin n → Fin n → Prop) → ℝ, BM fun x : Fin n → E => H fun u v => (x u, x v) ∈ K u v := by
    intro H
    constructor
    · have h1 : Measurable fun (x : Fin n → E) (u v : Fin n) => (x u, x v) ∈ K u v :=
        measurable_pi_lambda _ fun u => measurable_pi_lambda _ fun v => by
          have h : Measurable fun x : Fin n → E => (x u, x v) := by fun_prop
          exact measurableSet_setOf.1 (h (hK u v))
      exact (measurable_of_countable H).comp h1
    · obtain ⟨M, hM⟩ := (Set.finite_range fun G => |H G|).bddAbove
      exact ⟨M, fun x => hM ⟨_, rfl⟩⟩
  have hfm : BM f := by
    rw [show f = _ from funext hf]
    exact hbm fun T => F (SimpleGraph.fromRel T)
  have hgm : ∀ i : Fin n, BM fun x : Fin n → E => F ((SimpleGraph.fromRel fun u v => (x u, x v) ∈ K u v).deleteEdges ((SimpleGraph.fromRel fun u v => (x u, x v) ∈ K u v).incidenceSet i)) :=
    fun i => hbm fun T => F ((SimpleGraph.fromRel T).deleteEdges ((SimpleGraph.fromRel T).incidenceSet i))
  refine ⟨hfm, (efron_stein κ n hfm hgm ?_).trans ?_⟩
  · intro i x y
    congr 1
    ext a b
    simp only [SimpleGraph.deleteEdges_adj, SimpleGraph.mk'_mem_incidenceSet_iff, SimpleGraph.fromRel_adj]
    by_cases ha : a = i
    · subst ha; tauto
    · by_cases hb : b = i
      · subst hb; tauto
      · simp only [Function.update_of_ne ha, Function.update_of_ne hb]
  · refine Finset.sum_le_sum fun i _ => ?_
    have hr : BM fun x : Fin n → E => 1 + ∑ v ∈ Finset.univ.erase i, (link K x i v : ℝ) := by
      have h := (BM.const (A := Fin n → E) 1).sub ((BM.const (A := Fin n → E) 0).sub (BM.sum (Finset.univ.erase i) fun v _ => link_bm hK i v))
      simpa only [zero_sub, sub_neg_eq_add] using h
    refine integral_mono ((hfm.sub (hgm i)).sq.int _) (hr.sq.int _) fun x => ?_
    have h1 := hF (SimpleGraph.fromRel fun u v => (x u, x v) ∈ K u v) i
    have h2 : ((SimpleGraph.fromRel fun u v => (x u, x v) ∈ K u v).neighborSet i).ncard = ∑ v ∈ Finset.univ.erase i, link K x i v := by
      unfold link
      rw [← Finset.card_filter, ← Set.ncard_coe_finset]
      congr 1
      ext v
      simp only [SimpleGraph.mem_neighborSet, SimpleGraph.fromRel_adj, Finset.coe_filter, Finset.mem_erase, Finset.mem_univ, and_true, Set.mem_setOf_eq,
        hsym v i, or_self, ne_comm]
    rw [h2, ← hf] at h1
    push_cast at h1
    exact sq_le_sq' (abs_le.1 h1).1 (abs_le.1 h1).2

end

end Girgs.Props
