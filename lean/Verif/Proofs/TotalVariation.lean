import Verif.Spec.TotalVariation
import Verif.Props.HyperNeighbourLaw
/-
The distance of the laws of two random graphs with independent edges.
-/
namespace Girgs.Props
open CFloat Spec MeasureTheory ProbabilityTheory Tree
open XR (fin)
open scoped ENNReal

section
variable {ι : Type} [DecidableEq ι]

/-- the mean of `h` of a random subset -/
theorem subsets_insert {I : Finset ι} {e : ι} (he : e ∉ I) (p : ι → ℝ) (h : Finset ι → ℝ) :
    ∑ s ∈ (insert e I).powerset, h s * ∏ i ∈ insert e I, (if i ∈ s then p i else 1 - p i) =
      p e * ∑ s ∈ I.powerset, h (insert e s) * ∏ i ∈ I, (if i ∈ s then p i else 1 - p i) +
      (1 - p e) * ∑ s ∈ I.powerset, h s * ∏ i ∈ I, (if i ∈ s then p i else 1 - p i) := by
  rw [Finset.sum_powerset_insert he, add_comm, Finset.mul_sum, Finset.mul_sum]
  congr 1
  · refine Finset.sum_congr rfl fun s hs => ?_
    rw [Finset.prod_insert he, if_pos (Finset.mem_insert_self _ _)]
    have : ∏ i ∈ I, (if i ∈ insert e s then p i else 1 - p i) = ∏ i ∈ I, (if i ∈ s then p i else 1 - p i) := by
      refine Finset.prod_congr rfl fun i hi => ?_
      have : i ≠ e := fun h => he (h ▸ hi)
      simp only [Finset.mem_insert, this, false_or]
    rw [this]; ring
  · refine Finset.sum_congr rfl fun s hs => ?_
    have : e ∉ s := fun h => he (Finset.mem_powerset.1 hs h)
    rw [Finset.prod_insert he, if_neg this]; ring

theorem subsets_mean_mem (I : Finset ι) {p : ι → ℝ} (hp : ∀ i ∈ I, 0 ≤ p i ∧ p i ≤ 1) :
    ∀ h : Finset ι → ℝ, (∀ s, 0 ≤ h s ∧ h s ≤ 1) → 0 ≤ ∑ s ∈ I.powerset, h s * ∏ i ∈ I, (if i ∈ s then p i else 1 - p i) ∧
      ∑ s ∈ I.powerset, h s * ∏ i ∈ I, (if i ∈ s then p i else 1 - p i) ≤ 1 := by
  induction I using Finset.induction_on with
  | empty => intro h hh; simpa using hh ∅
  | insert e I he ih =>
    intro h hh
    rw [subsets_insert he]
    have h0 := hp e (Finset.mem_insert_self _ _)
    have h1 := ih (fun i hi => hp i (Finset.mem_insert_of_mem hi)) (fun s => h (insert e s)) fun s => hh _
    have h2 := ih (fun i hi => hp i (Finset.mem_insert_of_mem hi)) h hh
    constructor
    · exact add_nonneg (mul_nonneg h0.1 h1.1) (mul_nonneg (by linarith) h2.1)
    · have := mul_le_mul_of_nonneg_left h1.2 h0.1
      have := mul_le_mul_of_nonneg_left h2.2 (show 0 ≤ 1 - p e by linarith)
      linarith

/-- the distance of the laws of two random subsets -/
theorem subsets_distance (I : Finset ι) {p q : ι → ℝ} (hp : ∀ i ∈ I, 0 ≤ p i ∧ p i ≤ 1) (hq : ∀ i ∈ I, 0 ≤ q i ∧ q i ≤ 1) :
    ∀ h : Finset ι → ℝ, (∀ s, 0 ≤ h s ∧ h s ≤ 1) →
      |∑ s ∈ I.powerset, h s * ∏ i ∈ I, (if i ∈ s then p i else 1 - p i) - ∑ s ∈ I.powerset, h s * ∏ i ∈ I, (if i ∈ s then q i else 1 - q i)| ≤ ∑ i ∈ I, |p i - q i| := by
  induction I using Finset.induction_on with
  | empty => intro h hh; simp
  | insert e I he ih =>
    intro h hh
    rw [subsets_insert he, subsets_insert he, Finset.sum_insert he]
    have h0 := hq e (Finset.mem_insert_self _ _)
    have hp' := fun i hi => hp i (Finset.mem_insert_of_mem (a := i) (s := I) (b := e) hi)
    have hq' := fun i hi => hq i (Finset.mem_insert_of_mem (a := i) (s := I) (b := e) hi)
    have i1 := ih hp' hq' (fun s => h (insert e s)) fun s => hh _
    have i0 := ih hp' hq' h hh
    have m1 := subsets_mean_mem I hp' (fun s => h (insert e s)) fun s => hh _
    have m0 := subsets_mean_mem I hp' h hh
    generalize ∑ s ∈ I.powerset, h (insert e s) * ∏ i ∈ I, (if i ∈ s then p i else 1 - p i) = a1 at *
    generalize ∑ s ∈ I.powerset, h s * ∏ i ∈ I, (if i ∈ s then p i else 1 - p i) = a0 at *
    generalize ∑ s ∈ I.powerset, h (insert e s) * ∏ i ∈ I, (if i ∈ s then q i else 1 - q i) = b1 at *
    generalize ∑ s ∈ I.powerset, h s * ∏ i ∈ I, (if i ∈ s then q i else 1 - q i) = b0 at *
    have e1 : p e * a1 + (1 - p e) * a0 - (q e * b1 + (1 - q e) * b0) = q e * (a1 - b1) + (1 - q e) * (a0 - b0) + (p e - q e) * (a1 - a0) := by ring
    rw [e1]
    have k1 : |q e * (a1 - b1)| ≤ q e * ∑ i ∈ I, |p i - q i| := by rw [abs_mul, abs_of_nonneg h0.1]; exact mul_le_mul_of_nonneg_left i1 h0.1
    have k2 : |(1 - q e) * (a0 - b0)| ≤ (1 - q e) * ∑ i ∈ I, |p i - q i| := by
      have : 0 ≤ 1 - q e := by linarith
      rw [abs_mul, abs_of_nonneg this]; exact mul_le_mul_of_nonneg_left i0 this
    have k3 : |(p e - q e) * (a1 - a0)| ≤ |p e - q e| := by
      rw [abs_mul]
      exact mul_le_of_le_one_right (abs_nonneg _) (abs_le.2 ⟨by linarith, by linarith⟩)
    have := abs_add_le (q e * (a1 - b1) + (1 - q e) * (a0 - b0)) ((p e - q e) * (a1 - a0))
    have := abs_add_le (q e * (a1 - b1)) ((1 - q e) * (a0 - b0))
    linarith

end

variable {k : ℕ}

theorem independentProb_eq (p : Fin k × Fin k → ℝ) (A : Set (Finset (Fin k × Fin k))) :
    independentProb p A = ∑ s ∈ (pairsOf k).powerset, A.indicator 1 s * ∏ i ∈ pairsOf k, (if i ∈ s then p i else 1 - p i) := by
  classical
  unfold independentProb independentLaw
  rw [Finset.sum_filter]
  refine Finset.sum_congr rfl fun s _ => ?_
  by_cases h : s ∈ A
  · rw [if_pos h, Set.indicator_of_mem h, Pi.one_apply, one_mul]
  · rw [if_neg h, Set.indicator_of_notMem h, zero_mul]

theorem independentProb_distance {p q : Fin k × Fin k → ℝ} (hp : ∀ i ∈ pairsOf k, 0 ≤ p i ∧ p i ≤ 1) (hq : ∀ i ∈ pairsOf k, 0 ≤ q i ∧ q i ≤ 1)
    (A : Set (Finset (Fin k × Fin k))) : |independentProb p A - independentProb q A| ≤ ∑ e ∈ pairsOf k, |p e - q e| := by
  classical
  rw [independentProb_eq, independentProb_eq]
  refine subsets_distance _ hp hq _ fun s => ?_
  by_cases h : s ∈ A <;> simp [h]

/-- products over the pairs of some nodes -/
theorem prod_upairs_embed {M : Type} [CommMonoid M] {n : ℕ} (a : Fin k ↪ Fin n) (F : ℕ → ℕ → M) (hF : ∀ u v, F u v = F v u)
    (h1 : ∀ u v, (∀ i j, (a i).1 = u → (a j).1 = v → False) → F u v = 1) :
    ∏ e ∈ upairs n, F e.1 e.2 = ∏ e ∈ pairsOf k, F (a e.1) (a e.2) := by
  classical
  refine (Finset.prod_of_injOn (fun e => if (a e.1).1 < (a e.2).1 then ((a e.1).1, (a e.2).1) else ((a e.2).1, (a e.1).1)) ?_ ?_ ?_ ?_).symm
  · rintro ⟨i, j⟩ he ⟨i', j'⟩ he' h
    have he : i < j := by simpa [pairsOf] using he
    have he' : i' < j' := by simpa [pairsOf] using he'
    have inj : ∀ {x y : Fin k}, (a x).1 = (a y).1 → x = y := fun h => a.injective (Fin.ext h)
    simp only at h
    split_ifs at h with h2 h3 h3 <;> rw [Prod.mk.injEq] at h <;> have k1 := inj h.1 <;> have k2 := inj h.2
    · rw [k1, k2]
    · subst k1 k2; exact absurd he (lt_asymm he')
    · subst k1 k2; exact absurd he (lt_asymm he')
    · rw [k1, k2]
  · rintro ⟨i, j⟩ he
    have he : i < j := by simpa [pairsOf] using he
    have hne : (a i).1 ≠ (a j).1 := fun h => he.ne (a.injective (Fin.ext h))
    unfold upairs
    have := (a i).2
    have := (a j).2
    simp only [Finset.coe_filter, Finset.mem_product, Finset.mem_range, Set.mem_setOf_eq]
    split_ifs with h2
    · exact ⟨⟨(a i).2, (a j).2⟩, h2⟩
    · exact ⟨⟨(a j).2, (a i).2⟩, by simp only; omega⟩
  · rintro ⟨u, v⟩ he hi
    refine h1 u v fun i j hiu hjv => hi ?_
    have huv : u < v := by
      unfold upairs at he
      exact (Finset.mem_filter.1 he).2
    have hij : i ≠ j := by rintro rfl; omega
    rcases lt_or_gt_of_ne hij with h | h
    · refine ⟨(i, j), by simpa [pairsOf] using h, ?_⟩
      simp only [hiu, hjv, if_pos huv]
    · refine ⟨(j, i), by simpa [pairsOf] using h, ?_⟩
      simp only [hiu, hjv, if_neg (lt_asymm huv)]
  · rintro ⟨i, j⟩ _
    simp only
    split_ifs with h2
    · rfl
    · exact hF _ _

section
variable {n : ℕ} {L : List ((ℕ × ℕ) × ℝ)} {p : ℕ → ℕ → ℝ}

theorem spanned_subset (a : Fin k → ℕ) (es : List (ℕ × ℕ)) : spanned a es ⊆ pairsOf k := by
  classical
  unfold spanned
  exact Finset.filter_subset _ _

theorem coins_spanned_eq (honce : EachPairOnce n (L.map Prod.fst)) (hp : ∀ a b, p a b = p b a) (hL : ∀ c ∈ L, unit c.2 = p c.1.1 c.1.2)
    (a : Fin k ↪ Fin n) {g : Finset (Fin k × Fin k)} (hg : g ⊆ pairsOf k) :
    ∑' es, flips L es * Set.indicator {es | spanned (fun i => (a i).1) es = g} 1 es =
      ∏ e ∈ pairsOf k, if e ∈ g then ENNReal.ofReal (p (a e.1) (a e.2)) else ENNReal.ofReal (1 - p (a e.1) (a e.2)) := by
  classical
  have inj : ∀ {x y : Fin k}, (a x).1 = (a y).1 → x = y := fun h => a.injective (Fin.ext h)
  have hlt : ∀ {i j}, (i, j) ∈ g → i < j := fun h => by simpa [pairsOf] using hg h
  obtain ⟨A, hA⟩ : ∃ A : ℕ → ℕ → Prop, A = fun u v => ∃ i j, (a i).1 = u ∧ (a j).1 = v ∧ ((i, j) ∈ g ∨ (j, i) ∈ g) := ⟨_, rfl⟩
  obtain ⟨B, hB⟩ : ∃ B : ℕ → ℕ → Prop, B = fun u v => ∃ i j, (a i).1 = u ∧ (a j).1 = v ∧ i ≠ j ∧ (i, j) ∉ g ∧ (j, i) ∉ g := ⟨_, rfl⟩
  have sA : ∀ u v, A u v → A v u := by rw [hA]; rintro u v ⟨i, j, h1, h2, h3⟩; exact ⟨j, i, h2, h1, h3.symm⟩
  have sB : ∀ u v, B u v → B v u := by rw [hB]; rintro u v ⟨i, j, h1, h2, h3, h4, h5⟩; exact ⟨j, i, h2, h1, h3.symm, h5, h4⟩
  have dAB : ∀ u v, A u v → ¬ B u v := by
    rw [hA, hB]
    rintro u v ⟨i, j, rfl, rfl, h3⟩ ⟨i', j', h4, h5, _, h6, h7⟩
    obtain rfl := inj h4
    obtain rfl := inj h5
    exact h3.elim h6 h7
  have hset : {es : List (ℕ × ℕ) | spanned (fun i => (a i).1) es = g} =
      {es | ∀ u v, u < n → v < n → u ≠ v → (A u v → (u, v) ∈ es ∨ (v, u) ∈ es) ∧ (B u v → ¬ ((u, v) ∈ es ∨ (v, u) ∈ es))} := by
    ext es
    simp only [Set.mem_setOf_eq]
    have hmem : ∀ i j, (i, j) ∈ spanned (fun i => (a i).1) es ↔ i < j ∧ adjacent es (a i) (a j) := by
      intro i j
      unfold spanned pairsOf
      simp
    constructor
    · intro h u v _ _ _
      rw [hA, hB]
      subst h
      constructor
      · rintro ⟨i, j, rfl, rfl, h3⟩
        rcases h3 with h3 | h3
        · exact ((hmem _ _).1 h3).2
        · exact ((hmem _ _).1 h3).2.symm
      · rintro ⟨i, j, rfl, rfl, h3, h4, h5⟩ h6
        rcases lt_or_gt_of_ne h3 with h7 | h7
        · exact h4 ((hmem _ _).2 ⟨h7, h6⟩)
        · exact h5 ((hmem _ _).2 ⟨h7, h6.symm⟩)
    · intro h
      ext ⟨i, j⟩
      rw [hmem]
      constructor
      · rintro ⟨h1, h2⟩
        by_contra h3
        refine (h (a i) (a j) (a i).2 (a j).2 fun h4 => h1.ne (inj h4)).2 ?_ h2
        rw [hB]
        exact ⟨i, j, rfl, rfl, h1.ne, h3, fun h4 => lt_asymm h1 (hlt h4)⟩
      · intro h1
        refine ⟨hlt h1, (h (a i) (a j) (a i).2 (a j).2 fun h4 => (hlt h1).ne (inj h4)).1 ?_⟩
        rw [hA]
        exact ⟨i, j, rfl, rfl, Or.inl h1⟩
  rw [hset, coins_joint honce hp hL sA sB dAB]
  refine (prod_upairs_embed a (fun u v => if A u v then ENNReal.ofReal (p u v) else if B u v then ENNReal.ofReal (1 - p u v) else 1) (fun u v => ?_)
    (fun u v h => ?_)).trans (Finset.prod_congr rfl ?_)
  · simp only [hp u v, show A u v ↔ A v u from ⟨sA _ _, sA _ _⟩, show B u v ↔ B v u from ⟨sB _ _, sB _ _⟩]
  · rw [if_neg, if_neg]
    · rw [hB]; rintro ⟨i, j, h1, h2, _⟩; exact h i j h1 h2
    · rw [hA]; rintro ⟨i, j, h1, h2, _⟩; exact h i j h1 h2
  · rintro ⟨i, j⟩ he
    have hij : i < j := by simpa [pairsOf] using he
    have e1 : A (a i) (a j) ↔ (i, j) ∈ g := by
      rw [hA]
      constructor
      · rintro ⟨i', j', h1, h2, h3⟩
        obtain rfl := inj h1
        obtain rfl := inj h2
        exact h3.elim id fun h => absurd hij (lt_asymm (hlt h))
      · exact fun h => ⟨i, j, rfl, rfl, Or.inl h⟩
    simp only [e1]
    by_cases h : (i, j) ∈ g
    · simp [h]
    · have e2 : B (a i) (a j) := by
        rw [hB]; exact ⟨i, j, rfl, rfl, hij.ne, h, fun h => lt_asymm hij (hlt h)⟩
      simp [h, e2]

theorem coins_spanned (honce : EachPairOnce n (L.map Prod.fst)) (hp : ∀ a b, p a b = p b a) (hL : ∀ c ∈ L, unit c.2 = p c.1.1 c.1.2)
    (h01 : ∀ u v, u < n → v < n → u ≠ v → 0 ≤ p u v ∧ p u v ≤ 1) (a : Fin k ↪ Fin n) (A : Set (Finset (Fin k × Fin k))) :
    ∑' es, flips L es * Set.indicator {es | spanned (fun i => (a i).1) es ∈ A} 1 es = ENNReal.ofReal (independentProb (fun e => p (a e.1) (a e.2)) A) := by
  classical
  have hb : ∀ e ∈ pairsOf k, 0 ≤ p (a e.1) (a e.2) ∧ p (a e.1) (a e.2) ≤ 1 := by
    rintro ⟨i, j⟩ he
    have hij : i < j := by simpa [pairsOf] using he
    exact h01 _ _ (a i).2 (a j).2 fun h => hij.ne (a.injective (Fin.ext h))
  have hnn : ∀ g : Finset (Fin k × Fin k), ∀ e ∈ pairsOf k, 0 ≤ if e ∈ g then p (a e.1) (a e.2) else 1 - p (a e.1) (a e.2) := by
    intro g e he
    have := hb e he
    split_ifs <;> linarith
  unfold independentProb independentLaw
  rw [ENNReal.ofReal_sum_of_nonneg fun g _ => Finset.prod_nonneg (hnn g)]
  have h1 : ∀ g ∈ (pairsOf k).powerset.filter (· ∈ A), ENNReal.ofReal (∏ e ∈ pairsOf k, if e ∈ g then p (a e.1) (a e.2) else 1 - p (a e.1) (a e.2)) =
      ∑' es, flips L es * Set.indicator {es | spanned (fun i => (a i).1) es = g} 1 es := by
    intro g hg
    rw [coins_spanned_eq honce hp hL a (Finset.mem_powerset.1 (Finset.mem_filter.1 hg).1), ENNReal.ofReal_prod_of_nonneg (hnn g)]
    refine Finset.prod_congr rfl fun e _ => ?_
    split_ifs <;> rfl
  rw [Finset.sum_congr rfl h1, ← Summable.tsum_finsetSum fun S _ => ENNReal.summable]
  refine tsum_congr fun es => ?_
  rw [← Finset.mul_sum]
  congr 1
  by_cases h : spanned (fun i => (a i).1) es ∈ A
  · rw [Set.indicator_of_mem (by exact h), Finset.sum_eq_single_of_mem (spanned (fun i => (a i).1) es)
      (Finset.mem_filter.2 ⟨Finset.mem_powerset.2 (spanned_subset _ _), h⟩) fun g _ hne => Set.indicator_of_notMem (by exact fun h2 => hne h2.symm) _]
    rw [Set.indicator_of_mem (by exact rfl)]
  · rw [Set.indicator_of_notMem (by exact h)]
    refine (Finset.sum_eq_zero fun g hg => Set.indicator_of_notMem ?_ _).symm
    rintro rfl
    exact h (Finset.mem_filter.1 hg).2

theorem spanned_perm {a : Fin k → ℕ} {es fs : List (ℕ × ℕ)} (h : es.Perm fs) : spanned a es = spanned a fs := by
  classical
  unfold spanned
  refine Finset.filter_congr fun e _ => ?_
  unfold adjacent
  rw [h.mem_iff, h.mem_iff]

end

end Girgs.Props
