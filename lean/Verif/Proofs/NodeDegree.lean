import Verif.Proofs.DegreeLaw
import Verif.Spec.NodeDegree
/-
The expected degree of a single node.
-/
namespace Girgs
open MeasureTheory Spec CFloat Tree
open scoped ENNReal

/-- the expected sum over the entries that are kept -/
theorem flips_sum {E : Type} (f : E → ℝ≥0∞) : ∀ (L : List (E × ℝ)),
    ∑' es, flips L es * (es.map f).sum = (L.map fun c => ENNReal.ofReal (unit c.2) * f c.1).sum := by
  intro L
  induction L with
  | nil => rw [flips, tsum_pure]; simp
  | cons c L ih =>
    obtain ⟨e, p⟩ := c
    rw [tsum_flips_cons, List.map_cons, List.sum_cons, ← ih]
    simp only [List.map_cons, List.sum_cons, mul_add, ENNReal.tsum_add, ENNReal.tsum_mul_right, PMF.tsum_coe, one_mul]
    rw [add_assoc, ← add_mul, ← ENNReal.ofReal_add (unit_nonneg _) (by have := unit_le_one p; linarith)]
    simp

/-- sums over the pairs with a given node -/
theorem sum_upairs_node {M : Type} [AddCommMonoid M] {n u : ℕ} (hu : u < n) {f : ℕ → ℕ → M} (hf : ∀ u v, f u v = f v u) :
    ∑ e ∈ upairs n, (if e.1 = u ∨ e.2 = u then f e.1 e.2 else 0) = ∑ v : Fin n, if u = v.1 then 0 else f u v := by
  have h1 : ∑ e ∈ upairs n, (if e.1 = u ∨ e.2 = u then f e.1 e.2 else 0) = ∑ e ∈ Finset.range n ×ˢ Finset.range n,
      ((if e.1 = u then (if u < e.2 then f u e.2 else 0) else 0) + (if e.2 = u then (if e.1 < u then f u e.1 else 0) else 0)) := by
    unfold upairs
    rw [Finset.sum_filter]
    refine Finset.sum_congr rfl fun e _ => ?_
    by_cases h2 : e.1 = u
    · by_cases h3 : e.2 = u
      · simp [h2, h3]
      · simp [h2, h3]
    · by_cases h3 : e.2 = u
      · simp only [h2, h3, or_true, if_true, if_false, zero_add]
        rw [hf]
      · simp [h2, h3]
  rw [h1, Finset.sum_add_distrib, Finset.sum_product, Finset.sum_product_right]
  have h4 : ∑ a ∈ Finset.range n, ∑ b ∈ Finset.range n, (if a = u then (if u < b then f u b else 0) else 0) = ∑ b ∈ Finset.range n, if u < b then f u b else 0 := by
    rw [Finset.sum_comm]
    refine Finset.sum_congr rfl fun b _ => ?_
    rw [Finset.sum_ite_eq' (Finset.range n) u fun _ => if u < b then f u b else 0, if_pos (Finset.mem_range.2 hu)]
  have h5 : ∑ b ∈ Finset.range n, ∑ a ∈ Finset.range n, (if b = u then (if a < u then f u a else 0) else 0) = ∑ a ∈ Finset.range n, if a < u then f u a else 0 := by
    rw [Finset.sum_comm]
    refine Finset.sum_congr rfl fun a _ => ?_
    rw [Finset.sum_ite_eq' (Finset.range n) u fun _ => if a < u then f u a else 0, if_pos (Finset.mem_range.2 hu)]
  simp only at h4 h5 ⊢
  rw [h4, h5, ← Finset.sum_add_distrib, ← Fin.sum_univ_eq_sum_range (fun v => (if u < v then f u v else 0) + if v < u then f u v else 0)]
  refine Finset.sum_congr rfl fun v _ => ?_
  rcases lt_trichotomy u v with h | h | h
  · simp [h, h.ne, h.not_gt]
  · simp [h]
  · simp [h, h.ne', h.not_gt]

theorem degreeOf_sum (u : ℕ) (es : List (ℕ × ℕ)) : (degreeOf u es : ℝ≥0∞) = (es.map fun e => if e.1 = u ∨ e.2 = u then (1 : ℝ≥0∞) else 0).sum := by
  unfold degreeOf
  induction es with
  | nil => simp
  | cons e es ih =>
    rw [List.map_cons, List.sum_cons, ← ih, List.countP_cons, Nat.cast_add, add_comm]
    congr 1
    split_ifs with h1 h2 h2 <;> simp_all

theorem degreeOf_perm {u : ℕ} {es fs : List (ℕ × ℕ)} (h : es.Perm fs) : degreeOf u es = degreeOf u fs := h.countP_eq _

/-- the expected degree from the distribution of the edges -/
theorem degree_coins {n u : ℕ} (hu : u < n) {L : List ((ℕ × ℕ) × ℝ)} (honce : EachPairOnce n (L.map Prod.fst)) {p : ℕ → ℕ → ℝ}
    (hp : ∀ a b, p a b = p b a) (hL : ∀ c ∈ L, unit c.2 = p c.1.1 c.1.2) :
    ∑' k : ℕ, (k : ℝ≥0∞) * ∑' es, flips L es * Set.indicator {es | degreeOf u es = k} 1 es = ∑ v : Fin n, if u = v.1 then 0 else ENNReal.ofReal (p u v) := by
  have e1 : ∀ k : ℕ, (k : ℝ≥0∞) * ∑' es, flips L es * Set.indicator {es | degreeOf u es = k} 1 es =
      ∑' es, flips L es * (if degreeOf u es = k then (k : ℝ≥0∞) else 0) := by
    intro k
    rw [← ENNReal.tsum_mul_left]
    refine tsum_congr fun es => ?_
    by_cases h : degreeOf u es = k
    · rw [Set.indicator_of_mem (by exact h), if_pos h, Pi.one_apply, mul_one, mul_comm]
    · rw [Set.indicator_of_notMem (by exact h), if_neg h, mul_zero, mul_zero]
  have e2 : ∀ es : List (ℕ × ℕ), ∑' k : ℕ, flips L es * (if degreeOf u es = k then (k : ℝ≥0∞) else 0) = flips L es * degreeOf u es := by
    intro es
    rw [tsum_eq_single (degreeOf u es)]
    · rw [if_pos rfl]
    · intro k hk
      rw [if_neg (Ne.symm hk), mul_zero]
  rw [tsum_congr e1, ENNReal.tsum_comm, tsum_congr e2]
  simp only [degreeOf_sum]
  have hsim := EachPairOnce.simple honce (List.Subperm.refl _)
  rw [flips_sum, ← sum_upairs_node hu (f := fun a b => ENNReal.ofReal (p a b)) (fun a b => by rw [hp]),
    ← sum_eachPair honce hsim (fun a b => if a = u ∨ b = u then ENNReal.ofReal (p a b) else 0) (fun a b => by rw [hp a b]; simp only [or_comm]), List.map_map]
  congr 1
  apply List.map_congr_left
  intro c hc
  simp only [Function.comp, hL c hc]
  split_ifs <;> simp

/-- the degree in terms of the occurrences of the pairs -/
theorem degreeOf_occurrences {n u : ℕ} (hu : u < n) : ∀ es : List (ℕ × ℕ), (∀ e ∈ es, e.1 < n ∧ e.2 < n ∧ e.1 ≠ e.2) →
    degreeOf u es = ∑ v : Fin n, if u = v.1 then 0 else occurrences es u v := by
  intro es
  induction es with
  | nil => intro _; simp [degreeOf, occurrences]
  | cons e es ih =>
    intro h
    obtain ⟨a, b⟩ := e
    have h1 := h (a, b) (by simp)
    simp only at h1
    have h2 := ih fun e he => h e (by simp [he])
    have e1 : ∀ v : Fin n, (if u = v.1 then 0 else occurrences ((a, b) :: es) u v) =
        (if u = v.1 then 0 else occurrences es u v) + if (a = u ∧ b = v.1) ∨ (a = v.1 ∧ b = u) then 1 else 0 := by
      intro v
      unfold occurrences
      simp only [List.count_cons, beq_iff_eq, Prod.mk.injEq]
      split_ifs <;> omega
    rw [Finset.sum_congr rfl fun v _ => e1 v, Finset.sum_add_distrib, ← h2]
    unfold degreeOf
    rw [List.countP_cons]
    congr 1
    by_cases ha : a = u
    · have hb : b ≠ u := fun h => h1.2.2 (ha.trans h.symm)
      have e2 : ∀ v : Fin n, (if (a = u ∧ b = v.1) ∨ (a = v.1 ∧ b = u) then 1 else 0) = if (⟨b, h1.2.1⟩ : Fin n) = v then 1 else 0 := by
        intro v
        simp [ha, hb, Fin.ext_iff]
      rw [Finset.sum_congr rfl fun v _ => e2 v, Finset.sum_ite_eq]
      simp [ha]
    · by_cases hb : b = u
      · have e2 : ∀ v : Fin n, (if (a = u ∧ b = v.1) ∨ (a = v.1 ∧ b = u) then 1 else 0) = if (⟨a, h1.1⟩ : Fin n) = v then 1 else 0 := by
          intro v
          simp [ha, hb, Fin.ext_iff]
        rw [Finset.sum_congr rfl fun v _ => e2 v, Finset.sum_ite_eq]
        simp [hb]
      · simp [ha, hb]

/-- the degree in the graph of a relation -/
theorem degreeOf_graph {n u : ℕ} (hu : u < n) {rel : ℕ → ℕ → Prop} [DecidableRel rel] {es : List (ℕ × ℕ)} (h : IsGraphOf n rel es) :
    degreeOf u es = ∑ v : Fin n, if u = v.1 then 0 else if rel u v then 1 else 0 := by
  rw [degreeOf_occurrences hu es h.1]
  refine Finset.sum_congr rfl fun v _ => ?_
  split_ifs with h1 h2
  · rfl
  · have hnd : es.Nodup := h.2.1.imp fun h => h.1
    have hor := (h.2.2 u v hu v.2 h1).2 h2
    unfold occurrences
    have c1 := List.nodup_iff_count_le_one.1 hnd (u, v.1)
    have c2 := List.nodup_iff_count_le_one.1 hnd (v.1, u)
    have hnot : ¬ ((u, v.1) ∈ es ∧ (v.1, u) ∈ es) := by
      rintro ⟨q1, q2⟩
      have hne : (u, v.1) ≠ (v.1, u) := by simp [h1]
      have sym : Std.Symm (fun e f : ℕ × ℕ => e ≠ f ∧ e ≠ f.swap) := ⟨fun a b hab => ⟨fun h => hab.1 h.symm, fun h => hab.2 (by rw [h]; simp)⟩⟩
      exact (List.Pairwise.forall h.2.1 q1 q2 hne).2 rfl
    rcases hor with q | q
    · have := List.count_pos_iff.2 q
      have : List.count (v.1, u) es = 0 := List.count_eq_zero.2 fun h => hnot ⟨q, h⟩
      omega
    · have := List.count_pos_iff.2 q
      have : List.count (u, v.1) es = 0 := List.count_eq_zero.2 fun h => hnot ⟨h, q⟩
      omega
  · have hor := mt (h.2.2 u v hu v.2 h1).1 h2
    push Not at hor
    unfold occurrences
    rw [List.count_eq_zero.2 hor.1, List.count_eq_zero.2 hor.2]

end Girgs
