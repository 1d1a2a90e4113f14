import Verif.Proofs.Coins
import Verif.Spec.Graph
import Mathlib.Data.List.Basic
import Mathlib.Algebra.BigOperators.Group.Finset.Basic
/-
Independent coin flips: probabilities of results.
-/
namespace Girgs
open Spec
open scoped ENNReal

theorem flips_sublist {E : Type} : ∀ (L : List (E × ℝ)) (es : List E), flips L es ≠ 0 → es.Sublist (L.map Prod.fst) := by
  intro L
  induction L with
  | nil =>
    intro es h
    rw [← PMF.mem_support_iff, flips, PMF.mem_support_pure_iff] at h
    subst h; simp
  | cons a L ih =>
    obtain ⟨e, p⟩ := a
    intro es h
    rw [← PMF.mem_support_iff, flips, PMF.mem_support_bind_iff] at h
    obtain ⟨c, _, h⟩ := h
    rw [PMF.mem_support_map_iff] at h
    obtain ⟨fs, h1, rfl⟩ := h
    have := ih fs ((PMF.mem_support_iff _ _).1 h1)
    rw [List.map_cons]
    cases c
    · simpa using this.cons e
    · simpa using this.cons₂ e

theorem tsum_bind {α β : Type} (P : PMF α) (Q : α → PMF β) (f : β → ℝ≥0∞) :
    ∑' b, (P.bind Q) b * f b = ∑' a, P a * ∑' b, Q a b * f b := by
  simp_rw [PMF.bind_apply, ← ENNReal.tsum_mul_left, ← ENNReal.tsum_mul_right]
  rw [ENNReal.tsum_comm]
  simp_rw [mul_assoc]

theorem tsum_pure {α : Type} (a : α) (f : α → ℝ≥0∞) : ∑' b, PMF.pure a b * f b = f a := by
  rw [tsum_eq_single a]
  · simp
  · intro b hb; simp [PMF.pure_apply, hb]

theorem tsum_map {α β : Type} (P : PMF α) (k : α → β) (f : β → ℝ≥0∞) : ∑' b, (P.map k) b * f b = ∑' a, P a * f (k a) := by
  rw [PMF.map, tsum_bind]
  simp_rw [Function.comp_def, tsum_pure]

theorem tsum_flips_cons {E : Type} (e : E) (p : ℝ) (L : List (E × ℝ)) (f : List E → ℝ≥0∞) :
    ∑' es, flips ((e, p) :: L) es * f es = ENNReal.ofReal (unit p) * ∑' es, flips L es * f (e :: es) +
      ENNReal.ofReal (1 - unit p) * ∑' es, flips L es * f es := by
  rw [flips, tsum_bind, tsum_bool, coin_true, coin_false, tsum_map, tsum_map, add_comm]
  simp

open Classical in
/-- the probability of a result -/
theorem flips_result {E : Type} (S : E → Prop) : ∀ (L : List (E × ℝ)), (L.map Prod.fst).Nodup →
    flips L ((L.map Prod.fst).filter fun e => decide (S e)) =
      (L.map fun c => if S c.1 then ENNReal.ofReal (unit c.2) else ENNReal.ofReal (1 - unit c.2)).prod := by
  intro L
  induction L with
  | nil => intro _; simp [flips]
  | cons a L ih =>
    obtain ⟨e, p⟩ := a
    intro hn
    rw [List.map_cons, List.nodup_cons] at hn
    have ih := ih hn.2
    set M := L.map Prod.fst with hM
    have hsing : ∀ (P : PMF (List E)) (l : List E), P l = ∑' es, P es * (if es = l then 1 else 0) := by
      intro P l
      rw [tsum_eq_single l]
      · simp
      · intro b hb; simp [hb]
    rw [hsing, tsum_flips_cons, List.map_cons, List.map_cons, List.prod_cons, ← ih]
    simp only [← hM]
    by_cases hS : S e
    · rw [List.filter_cons_of_pos (by simpa using hS), if_pos hS]
      have h1 : ∀ es, flips L es * (if es = e :: M.filter (fun e => decide (S e)) then 1 else 0) = 0 := by
        intro es
        by_cases h : flips L es = 0
        · rw [h, zero_mul]
        · rw [if_neg, mul_zero]
          rintro rfl
          exact hn.1 ((flips_sublist L _ h).subset (by simp))
      simp only [h1, tsum_zero, mul_zero, add_zero, List.cons.injEq, true_and]
      rw [← hsing]
    · rw [List.filter_cons_of_neg (by simpa using hS), if_neg hS]
      have h1 : ∀ es, (if e :: es = M.filter (fun e => decide (S e)) then (1 : ℝ≥0∞) else 0) = 0 := by
        intro es
        rw [if_neg]
        intro h
        have : e ∈ M.filter (fun e => decide (S e)) := by rw [← h]; simp
        exact hn.1 (List.mem_of_mem_filter this)
      simp only [h1, mul_zero, tsum_zero, zero_add]
      rw [← hsing]

open Classical in
/-- the probability that an entry is kept -/
theorem flips_mem {E : Type} (e : E) (p : ℝ) : ∀ (L : List (E × ℝ)), (L.map Prod.fst).Nodup → (e, p) ∈ L →
    ∑' es, flips L es * (if e ∈ es then 1 else 0) = ENNReal.ofReal (unit p) := by
  intro L
  induction L with
  | nil => intro _ h; simp at h
  | cons a L ih =>
    obtain ⟨e', p'⟩ := a
    intro hn hm
    rw [List.map_cons, List.nodup_cons] at hn
    rw [tsum_flips_cons]
    rcases List.mem_cons.1 hm with h | h
    · obtain ⟨rfl, rfl⟩ := Prod.mk.inj h
      have h1 : ∀ es, flips L es * (if e ∈ es then (1 : ℝ≥0∞) else 0) = 0 := by
        intro es
        by_cases h : flips L es = 0
        · rw [h, zero_mul]
        · rw [if_neg, mul_zero]
          intro h2
          exact hn.1 ((flips_sublist L _ h).subset h2)
      simp only [h1, tsum_zero, mul_zero, add_zero, List.mem_cons, true_or, if_true, mul_one, PMF.tsum_coe]
    · have hne : e ≠ e' := by
        rintro rfl
        exact hn.1 (List.mem_map.2 ⟨_, h, rfl⟩)
      simp only [List.mem_cons, hne, false_or]
      rw [ih hn.2 h, ← add_mul, ← ENNReal.ofReal_add (unit_nonneg _) (by have := unit_le_one p'; linarith)]
      simp

open Classical in
theorem sublist_eq_filter {E : Type} {es l : List E} (h : es.Sublist l) (hn : l.Nodup) : es = l.filter fun e => decide (e ∈ es) := by
  have h1 : es.Sublist (l.filter fun e => decide (e ∈ es)) := by
    have := h.filter fun e => decide (e ∈ es)
    rwa [List.filter_eq_self.2 (by intro a ha; simpa using ha)] at this
  refine h1.eq_of_length ?_
  apply List.Perm.length_eq
  rw [List.perm_ext_iff_of_nodup (hn.sublist h) (hn.filter _)]
  intro e
  simp only [List.mem_filter, decide_eq_true_eq]
  exact ⟨fun he => ⟨h.subset he, he⟩, fun he => he.2⟩

/-- products over a list of all unordered pairs -/
theorem prod_eachPair {n : Nat} {es : List (Nat × Nat)} (h : EachPairOnce n es) (hs : IsSimpleGraph n es) (f : Nat → Nat → ℝ≥0∞) (hf : ∀ u v, f u v = f v u) :
    (es.map fun e => f e.1 e.2).prod = ∏ e ∈ (Finset.range n ×ˢ Finset.range n) with e.1 < e.2, f e.1 e.2 := by
  set N : Nat × Nat → Nat × Nat := fun e => (min e.1 e.2, max e.1 e.2) with hN
  have e1 : (es.map fun e => f e.1 e.2) = (es.map N).map fun e => f e.1 e.2 := by
    rw [List.map_map]
    apply List.map_congr_left
    intro e _
    simp only [Function.comp, hN]
    rcases le_total e.1 e.2 with h | h
    · rw [min_eq_left h, max_eq_right h]
    · rw [min_eq_right h, max_eq_left h, hf]
  have hnd : (es.map N).Nodup := by
    refine List.Pairwise.map N (R := fun e f => e ≠ f ∧ e ≠ f.swap) ?_ hs.2
    rintro ⟨a, b⟩ ⟨c, d⟩ ⟨h1, h2⟩ h3
    simp only [hN, Prod.mk.injEq, Prod.swap_prod_mk, ne_eq] at h1 h2 h3
    omega
  rw [e1, ← List.prod_toFinset _ hnd]
  apply Finset.prod_congr _ (fun _ _ => rfl)
  ext ⟨u, v⟩
  simp only [List.mem_toFinset, List.mem_map, Finset.mem_filter, Finset.mem_product, Finset.mem_range]
  constructor
  · rintro ⟨e, he, h2⟩
    have := h.1 e he
    simp only [hN, Prod.mk.injEq] at h2
    omega
  · rintro ⟨⟨hu, hv⟩, huv⟩
    have h2 := h.2 u v hu hv (by omega)
    unfold occurrences at h2
    by_cases h3 : (u, v) ∈ es
    · exact ⟨_, h3, by simp only [hN, Prod.mk.injEq]; omega⟩
    · have h4 : (v, u) ∈ es := by
        rw [List.count_eq_zero_of_not_mem h3, Nat.zero_add] at h2
        exact List.count_pos_iff.1 (by omega)
      exact ⟨_, h4, by simp only [hN, Prod.mk.injEq]; omega⟩

end Girgs
