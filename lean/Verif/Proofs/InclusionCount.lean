import Verif.Proofs.Convert
import Verif.Props.Examples
/-
Counting the edges of graph differences.
-/
namespace Girgs
open Spec Examples Inclusion Tools

/-- counting a list that contains every pair once -/
theorem length_eq_pairCount {n : ℕ} {P : ℕ → ℕ → Prop} {L : List Edge} (hd : L.Nodup)
    (hm : ∀ e, e ∈ L ↔ ∃ u v : ℕ, e = ((u : ℤ), (v : ℤ)) ∧ u < v ∧ v < n ∧ P u v) : L.length = pairCount n P := by
  classical
  have hinj : Function.Injective fun p : ℕ × ℕ => ((p.1 : ℤ), (p.2 : ℤ)) := by
    rintro ⟨a, b⟩ ⟨c, d⟩ h
    simp only [Prod.mk.injEq, Nat.cast_inj] at h
    rw [h.1, h.2]
  unfold pairCount
  rw [← Set.ncard_image_of_injective _ hinj, ← List.toFinset_card_of_nodup hd, ← Set.ncard_coe_finset]
  congr 1
  ext e
  simp only [List.coe_toFinset, Set.mem_setOf_eq, Set.mem_image, hm, Prod.exists]
  constructor
  · rintro ⟨u, v, rfl, h⟩; exact ⟨u, v, h, rfl⟩
  · rintro ⟨u, v, h, rfl⟩; exact ⟨u, v, rfl, h⟩

/-- counting a list that contains every pair in both directions -/
theorem length_eq_two_pairCount {n : ℕ} {P : ℕ → ℕ → Prop} (hs : ∀ u v, P u v → P v u) {L : List Edge} (hd : L.Nodup)
    (hm : ∀ e, e ∈ L ↔ ∃ u v : ℕ, e = ((u : ℤ), (v : ℤ)) ∧ u < n ∧ v < n ∧ u ≠ v ∧ P u v) : L.length = 2 * pairCount n P := by
  have h1 : (L.filter fun e => decide (e.1 < e.2)).length = pairCount n P := by
    refine length_eq_pairCount (hd.filter _) fun e => ?_
    rw [List.mem_filter, hm]
    constructor
    · rintro ⟨⟨u, v, rfl, h1, h2, h3, h4⟩, h⟩
      simp only [decide_eq_true_eq, Nat.cast_lt] at h
      exact ⟨u, v, rfl, h, h2, h4⟩
    · rintro ⟨u, v, rfl, h1, h2, h4⟩
      exact ⟨⟨u, v, rfl, by omega, h2, by omega, h4⟩, by simpa using h1⟩
  have h2 : ((L.filter fun e => !decide (e.1 < e.2)).map Prod.swap).length = pairCount n P := by
    refine length_eq_pairCount ((List.nodup_map_iff Prod.swap_injective).2 (hd.filter _)) fun e => ?_
    rw [List.mem_map]
    constructor
    · rintro ⟨e, he, rfl⟩
      rw [List.mem_filter, hm] at he
      obtain ⟨⟨u, v, rfl, h1, h2, h3, h4⟩, h⟩ := he
      simp only [Bool.not_eq_true', decide_eq_false_iff_not, Nat.cast_lt] at h
      exact ⟨v, u, rfl, by omega, h1, hs _ _ h4⟩
    · rintro ⟨u, v, rfl, h1, h2, h4⟩
      refine ⟨((v : ℤ), (u : ℤ)), ?_, rfl⟩
      rw [List.mem_filter, hm]
      exact ⟨⟨v, u, rfl, h2, by omega, by omega, hs _ _ h4⟩, by simp; omega⟩
  rw [List.length_map] at h2
  have := List.length_eq_length_filter_add (l := L) fun e => decide (e.1 < e.2)
  omega

/-! ### the lists of the example programs -/

theorem mem_intEdges {es : List (ℕ × ℕ)} {e : Edge} : e ∈ intEdges es ↔ ∃ u v : ℕ, (u, v) ∈ es ∧ e = ((u : ℤ), (v : ℤ)) := by
  unfold intEdges
  rw [List.mem_map]
  constructor
  · rintro ⟨⟨u, v⟩, h, rfl⟩; exact ⟨u, v, h, rfl⟩
  · rintro ⟨u, v, h, rfl⟩; exact ⟨(u, v), h, rfl⟩

theorem intEdges_pairwise {es : List (ℕ × ℕ)} (h : es.Pairwise fun e f => e ≠ f ∧ e ≠ f.swap) :
    (intEdges es).Pairwise fun e f => e ≠ f ∧ e ≠ f.swap := by
  unfold intEdges
  rw [List.pairwise_map]
  refine h.imp fun {e f} hef => ⟨fun h => hef.1 ?_, fun h => hef.2 ?_⟩
  · simp only [Prod.mk.injEq, Nat.cast_inj] at h; exact Prod.ext h.1 h.2
  · simp only [Prod.swap_prod_mk, Prod.mk.injEq, Nat.cast_inj] at h; exact Prod.ext h.1 h.2

/-- the list with reversed edges -/
theorem reversed_spec {n : ℕ} {P : ℕ → ℕ → Prop} {es : List (ℕ × ℕ)} (h : IsGraphOf n P es) {g : List Edge}
    (hg : createReverseEdges (intEdges es) = some g) :
    g.Nodup ∧ ∀ e, e ∈ g ↔ ∃ u v : ℕ, e = ((u : ℤ), (v : ℤ)) ∧ u < n ∧ v < n ∧ u ≠ v ∧ P u v := by
  obtain ⟨h1, h2, h3⟩ := h
  have hlen : (intEdges es).length < 2 ^ 31 := by
    unfold createReverseEdges at hg
    split at hg
    · assumption
    · cases hg
  rw [Props.C56_reverse hlen, Option.some.injEq] at hg
  subst hg
  have hp := intEdges_pairwise h2
  constructor
  · refine List.Nodup.append (hp.imp fun h => h.1) ?_ ?_
    · have : ((intEdges es).map fun e => (e.2, e.1)) = (intEdges es).map Prod.swap := rfl
      rw [this]
      exact (List.nodup_map_iff Prod.swap_injective).2 (hp.imp fun h => h.1)
    · intro e he he'
      obtain ⟨f, hf, rfl⟩ := List.mem_map.1 he'
      by_cases hef : (f.2, f.1) = f
      · obtain ⟨u, v, huv, rfl⟩ := mem_intEdges.1 hf
        have := (h1 _ huv).2.2
        simp only [Prod.mk.injEq, Nat.cast_inj] at hef
        exact this hef.2
      · haveI : Std.Symm (fun e f : Edge => e ≠ f ∧ e ≠ f.swap) := ⟨fun a b hab => ⟨hab.1.symm, fun h => hab.2 (by rw [h]; simp)⟩⟩
        have := hp.forall he hf hef
        exact this.2 rfl
  · intro e
    rw [List.mem_append, List.mem_map]
    constructor
    · rintro (he | ⟨f, hf, rfl⟩)
      · obtain ⟨u, v, huv, rfl⟩ := mem_intEdges.1 he
        obtain ⟨a, b, c⟩ := h1 _ huv
        exact ⟨u, v, rfl, a, b, c, (h3 u v a b c).1 (Or.inl huv)⟩
      · obtain ⟨u, v, huv, rfl⟩ := mem_intEdges.1 hf
        obtain ⟨a, b, c⟩ := h1 _ huv
        exact ⟨v, u, rfl, b, a, Ne.symm c, (h3 v u b a (Ne.symm c)).1 (Or.inr huv)⟩
    · rintro ⟨u, v, rfl, a, b, c, hP⟩
      rcases (h3 u v a b c).2 hP with h | h
      · exact Or.inl (mem_intEdges.2 ⟨u, v, h, rfl⟩)
      · exact Or.inr ⟨_, mem_intEdges.2 ⟨v, u, h, rfl⟩, rfl⟩

/-- the list with ordered end points -/
theorem unified_spec {n : ℕ} {P : ℕ → ℕ → Prop} (hs : ∀ u v, P u v → P v u) {es : List (ℕ × ℕ)} (h : IsGraphOf n P es) :
    (unifyEdges (intEdges es)).Nodup ∧ ∀ e, e ∈ unifyEdges (intEdges es) ↔ ∃ u v : ℕ, e = ((u : ℤ), (v : ℤ)) ∧ u < v ∧ v < n ∧ P u v := by
  obtain ⟨h1, h2, h3⟩ := h
  have hp := intEdges_pairwise h2
  constructor
  · unfold unifyEdges List.Nodup
    rw [List.pairwise_map]
    refine hp.imp fun {e f} hef h => ?_
    obtain ⟨a, b⟩ := e
    obtain ⟨c, d⟩ := f
    simp only [ne_eq, Prod.mk.injEq, Prod.swap_prod_mk, not_and] at hef h
    split_ifs at h <;> simp only [Prod.mk.injEq] at h
    · exact hef.1 h.2 h.1
    · exact hef.2 h.2 h.1
    · exact hef.2 h.1 h.2
    · exact hef.1 h.1 h.2
  · intro e
    unfold unifyEdges
    rw [List.mem_map]
    constructor
    · rintro ⟨f, hf, rfl⟩
      obtain ⟨u, v, huv, rfl⟩ := mem_intEdges.1 hf
      obtain ⟨a, b, c⟩ := h1 _ huv
      simp only at a b c ⊢
      split_ifs with hlt
      · exact ⟨v, u, rfl, by simpa using hlt, a, (h3 v u b a (Ne.symm c)).1 (Or.inr huv)⟩
      · exact ⟨u, v, rfl, by simp at hlt; omega, b, (h3 u v a b c).1 (Or.inl huv)⟩
    · rintro ⟨u, v, rfl, a, b, hP⟩
      rcases (h3 u v (by omega) b (by omega)).2 hP with h | h
      · exact ⟨_, mem_intEdges.2 ⟨u, v, h, rfl⟩, by simp; omega⟩
      · exact ⟨_, mem_intEdges.2 ⟨v, u, h, rfl⟩, by simp; omega⟩

theorem Inclusion.Sorted.le {g out : List Edge} (h : Sorted g out) : out.Pairwise Props.EdgeLe := by
  refine h.2.imp fun {a b} hab => ?_
  by_contra hn
  have hle := Props.edgeLe_total hn
  have : edgeLt b a = true := Props.edgeLt_iff.2 ⟨hle, fun e => hn (e ▸ hle)⟩
  rw [hab] at this; cases this

/-- the two differences of graphs with reversed edges -/
theorem single_counts {n : ℕ} {P Q : ℕ → ℕ → Prop} (hP : ∀ u v, P u v → P v u) (hQ : ∀ u v, Q u v → Q v u) {es fs : List (ℕ × ℕ)}
    (h1 : IsGraphOf n P es) (h2 : IsGraphOf n Q fs) {g1 g2 s1 s2 : List Edge} (e1 : createReverseEdges (intEdges es) = some g1)
    (e2 : createReverseEdges (intEdges fs) = some g2) (o1 : Sorted g1 s1) (o2 : Sorted g2 s2) :
    (edgeDiff s1 s2).1.length = 2 * pairCount n (fun u v => P u v ∧ ¬ Q u v) ∧
    (edgeDiff s1 s2).2.length = 2 * pairCount n (fun u v => Q u v ∧ ¬ P u v) ∧ s2.length = 2 * pairCount n Q := by
  obtain ⟨d1, m1⟩ := reversed_spec h1 e1
  obtain ⟨d2, m2⟩ := reversed_spec h2 e2
  have d1' := o1.1.nodup_iff.2 d1
  have d2' := o2.1.nodup_iff.2 d2
  have m1' : ∀ e, e ∈ s1 ↔ _ := fun e => (o1.1.mem_iff).trans (m1 e)
  have m2' : ∀ e, e ∈ s2 ↔ _ := fun e => (o2.1.mem_iff).trans (m2 e)
  obtain ⟨_, _, u1, u2⟩ := Props.C56_multisets o1.le o2.le
  refine ⟨length_eq_two_pairCount (fun u v h => ⟨hP _ _ h.1, fun h' => h.2 (hQ _ _ h')⟩) (u1.nodup d1') fun e => ?_,
    length_eq_two_pairCount (fun u v h => ⟨hQ _ _ h.1, fun h' => h.2 (hP _ _ h')⟩) (u2.nodup d2') fun e => ?_,
    length_eq_two_pairCount hQ d2' m2'⟩
  · rw [(Props.C56_edges o1.le o2.le d1' d2' e).1, m1', m2']
    constructor
    · rintro ⟨⟨u, v, rfl, a, b, c, h⟩, h'⟩
      exact ⟨u, v, rfl, a, b, c, h, fun hq => h' ⟨u, v, rfl, a, b, c, hq⟩⟩
    · rintro ⟨u, v, rfl, a, b, c, h, h'⟩
      refine ⟨⟨u, v, rfl, a, b, c, h⟩, ?_⟩
      rintro ⟨u', v', he, _, _, _, hq⟩
      simp only [Prod.mk.injEq, Nat.cast_inj] at he
      rw [← he.1, ← he.2] at hq
      exact h' hq
  · rw [(Props.C56_edges o1.le o2.le d1' d2' e).2, m1', m2']
    constructor
    · rintro ⟨⟨u, v, rfl, a, b, c, h⟩, h'⟩
      exact ⟨u, v, rfl, a, b, c, h, fun hq => h' ⟨u, v, rfl, a, b, c, hq⟩⟩
    · rintro ⟨u, v, rfl, a, b, c, h, h'⟩
      refine ⟨⟨u, v, rfl, a, b, c, h⟩, ?_⟩
      rintro ⟨u', v', he, _, _, _, hq⟩
      simp only [Prod.mk.injEq, Nat.cast_inj] at he
      rw [← he.1, ← he.2] at hq
      exact h' hq

/-- the sizes of the two differences of graphs with ordered end points -/
theorem range_counts {n : ℕ} {P Q : ℕ → ℕ → Prop} (hP : ∀ u v, P u v → P v u) (hQ : ∀ u v, Q u v → Q v u) {es fs : List (ℕ × ℕ)}
    (h1 : IsGraphOf n P es) (h2 : IsGraphOf n Q fs) {s1 s2 : List Edge} (o1 : Sorted (unifyEdges (intEdges es)) s1)
    (o2 : Sorted (unifyEdges (intEdges fs)) s2) :
    edgeDiffCount s1 s2 = (pairCount n (fun u v => P u v ∧ ¬ Q u v), pairCount n (fun u v => Q u v ∧ ¬ P u v)) := by
  obtain ⟨d1, m1⟩ := unified_spec hP h1
  obtain ⟨d2, m2⟩ := unified_spec hQ h2
  have d1' := o1.1.nodup_iff.2 d1
  have d2' := o2.1.nodup_iff.2 d2
  have m1' : ∀ e, e ∈ s1 ↔ _ := fun e => (o1.1.mem_iff).trans (m1 e)
  have m2' : ∀ e, e ∈ s2 ↔ _ := fun e => (o2.1.mem_iff).trans (m2 e)
  obtain ⟨_, _, u1, u2⟩ := Props.C56_multisets o1.le o2.le
  rw [Props.C56_counts]
  rw [Prod.mk.injEq]
  refine ⟨length_eq_pairCount (u1.nodup d1') fun e => ?_, length_eq_pairCount (u2.nodup d2') fun e => ?_⟩
  · rw [(Props.C56_edges o1.le o2.le d1' d2' e).1, m1', m2']
    constructor
    · rintro ⟨⟨u, v, rfl, a, b, h⟩, h'⟩
      exact ⟨u, v, rfl, a, b, h, fun hq => h' ⟨u, v, rfl, a, b, hq⟩⟩
    · rintro ⟨u, v, rfl, a, b, h, h'⟩
      refine ⟨⟨u, v, rfl, a, b, h⟩, ?_⟩
      rintro ⟨u', v', he, _, _, hq⟩
      simp only [Prod.mk.injEq, Nat.cast_inj] at he
      rw [← he.1, ← he.2] at hq
      exact h' hq
  · rw [(Props.C56_edges o1.le o2.le d1' d2' e).2, m1', m2']
    constructor
    · rintro ⟨⟨u, v, rfl, a, b, h⟩, h'⟩
      exact ⟨u, v, rfl, a, b, h, fun hq => h' ⟨u, v, rfl, a, b, hq⟩⟩
    · rintro ⟨u, v, rfl, a, b, h, h'⟩
      refine ⟨⟨u, v, rfl, a, b, h⟩, ?_⟩
      rintro ⟨u', v', he, _, _, hq⟩
      simp only [Prod.mk.injEq, Nat.cast_inj] at he
      rw [← he.1, ← he.2] at hq
      exact h' hq

/-- no pair is counted iff there is none -/
theorem pairCount_eq_zero {n : ℕ} {P : ℕ → ℕ → Prop} : pairCount n P = 0 ↔ ∀ u v, u < v → v < n → ¬ P u v := by
  unfold pairCount
  have hfin : {p : ℕ × ℕ | p.1 < p.2 ∧ p.2 < n ∧ P p.1 p.2}.Finite := by
    refine Set.Finite.subset (Set.Finite.prod (Set.finite_lt_nat n) (Set.finite_lt_nat n)) ?_
    rintro ⟨u, v⟩ ⟨a, b, _⟩
    exact ⟨by simp at *; omega, b⟩
  rw [Set.ncard_eq_zero hfin, Set.eq_empty_iff_forall_notMem]
  constructor
  · intro h u v a b hP; exact h (u, v) ⟨a, b, hP⟩
  · rintro h ⟨u, v⟩ ⟨a, b, hP⟩; exact h u v a b hP

theorem pairCount_le {n : ℕ} {P Q : ℕ → ℕ → Prop} (h : ∀ u v, P u v → Q u v) : pairCount n P ≤ pairCount n Q := by
  unfold pairCount
  refine Set.ncard_le_ncard ?_ ?_
  · rintro ⟨u, v⟩ ⟨a, b, hP⟩; exact ⟨a, b, h _ _ hP⟩
  · refine Set.Finite.subset (Set.Finite.prod (Set.finite_lt_nat n) (Set.finite_lt_nat n)) ?_
    rintro ⟨u, v⟩ ⟨a, b, _⟩
    exact ⟨by simp at *; omega, b⟩

end Girgs
