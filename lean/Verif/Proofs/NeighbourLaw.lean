import Verif.Spec.Clustering
import Verif.Props.AllDegrees
import Verif.Props.JointLaw
/-
Probabilities that a node has given neighbours, from the independence of the other nodes.
-/
namespace Girgs.Props
open CFloat Spec MeasureTheory ProbabilityTheory Tree
open XR (fin)
open scoped ENNReal

/-- products over some nodes as products over the other nodes -/
theorem prod_row {M : Type} [CommMonoid M] {n : ℕ} {u : Fin n} {S B : Finset (Fin n)} (hS : u ∉ S) (hB : u ∉ B) (a b : Fin n → M) :
    (∏ v ∈ S, a v) * ∏ v ∈ B, b v = ∏ v, if u = v then 1 else (if v ∈ S then a v else 1) * if v ∈ B then b v else 1 := by
  classical
  have e : ∀ v : Fin n, (if u = v then 1 else (if v ∈ S then a v else 1) * if v ∈ B then b v else 1) = (if v ∈ S then a v else 1) * if v ∈ B then b v else 1 := by
    intro v
    split_ifs with h h1 h2 h3 <;> first | rfl | (subst h; exact absurd ‹_› ‹_›) | (subst h; simp_all)
  rw [Finset.prod_congr rfl fun v _ => e v, Finset.prod_mul_distrib, Finset.prod_ite_mem, Finset.prod_ite_mem, Finset.univ_inter, Finset.univ_inter]

section
variable {Ω : Type} [MeasurableSpace Ω] {P : Measure Ω} {E : Type} [MeasurableSpace E] {κ : Measure E} [IsProbabilityMeasure κ] {n : ℕ} {X : Ω → Fin n → E} {u : Fin n}
  {S B : Finset (Fin n)}

/-- the mean of a product over other nodes; the own point is in `C` -/
theorem mean_row (hX : Measurable X) (hlaw : P.map X = Measure.pi fun _ => κ) (hS : u ∉ S) (hB : u ∉ B) (hd : Disjoint S B) {C : Set E} (hC : MeasurableSet C)
    {f g : Fin n → E → E → ℝ≥0∞} (hf : ∀ v, Measurable fun z : E × E => f v z.1 z.2) (hg : ∀ v, Measurable fun z : E × E => g v z.1 z.2) :
    ∫⁻ ω in {ω | X ω u ∈ C}, (∏ v ∈ S, f v (X ω u) (X ω v)) * ∏ v ∈ B, g v (X ω u) (X ω v) ∂P =
      ∫⁻ q in C, (∏ v ∈ S, ∫⁻ p, f v q p ∂κ) * ∏ v ∈ B, ∫⁻ p, g v q p ∂κ ∂κ := by
  classical
  have hm : ∀ v, Measurable fun z : E × E => (if v ∈ S then f v z.1 z.2 else 1) * if v ∈ B then g v z.1 z.2 else 1 := fun v =>
    Measurable.mul (by split_ifs; exacts [hf v, measurable_const]) (by split_ifs; exacts [hg v, measurable_const])
  have hsl : ∀ (h : Fin n → E → E → ℝ≥0∞), (∀ v, Measurable fun z : E × E => h v z.1 z.2) → ∀ v q, Measurable fun p => h v q p := fun h hh v q => by
    have h1 : Measurable fun p : E => (q, p) := by fun_prop
    exact (hh v).comp h1
  have hF : Measurable fun x : Fin n → E => ∏ v, if u = v then 1 else (if v ∈ S then f v (x u) (x v) else 1) * if v ∈ B then g v (x u) (x v) else 1 := by
    refine Finset.measurable_prod _ fun v _ => ?_
    split_ifs
    all_goals first | exact measurable_const | skip
    all_goals
      have h1 : Measurable fun x : Fin n → E => (x u, x v) := by fun_prop
      first
      | exact ((hf v).comp h1).mul ((hg v).comp h1)
      | exact ((hf v).comp h1).mul measurable_const
      | exact measurable_const.mul ((hg v).comp h1)
  have hCx : MeasurableSet {x : Fin n → E | x u ∈ C} := measurable_pi_apply u hC
  have e1 : ∫⁻ ω in {ω | X ω u ∈ C}, (∏ v ∈ S, f v (X ω u) (X ω v)) * ∏ v ∈ B, g v (X ω u) (X ω v) ∂P =
      ∫⁻ x in {x : Fin n → E | x u ∈ C}, ∏ v, (if u = v then 1 else (if v ∈ S then f v (x u) (x v) else 1) * if v ∈ B then g v (x u) (x v) else 1)
        ∂Measure.pi fun _ => κ := by
    rw [← hlaw, setLIntegral_map hCx hF hX]
    refine lintegral_congr fun ω => ?_
    rw [prod_row hS hB]
  rw [e1, row_prod_set κ u (g := fun v q p => (if v ∈ S then f v q p else 1) * if v ∈ B then g v q p else 1) hm hC]
  refine lintegral_congr fun q => ?_
  rw [prod_row hS hB]
  refine Finset.prod_congr rfl fun v _ => ?_
  by_cases huv : u = v
  · simp [huv]
  rw [if_neg huv, if_neg huv]
  by_cases h1 : v ∈ S
  · have h2 : v ∉ B := Finset.disjoint_left.1 hd h1
    simp [h1, h2]
  · by_cases h2 : v ∈ B <;> simp [h1, h2]

/-- the probability of a set of neighbours and a set of non-neighbours, if these are decided by the two points -/
theorem neighbours_prob (hX : Measurable X) (hlaw : P.map X = Measure.pi fun _ => κ) (hS : u ∉ S) (hB : u ∉ B) (hd : Disjoint S B) {C : Set E} (hC : MeasurableSet C)
    {K : Fin n → Set (E × E)} (hK : ∀ v, MeasurableSet (K v)) :
    P {ω | X ω u ∈ C ∧ (∀ v ∈ S, (X ω u, X ω v) ∈ K v) ∧ ∀ v ∈ B, (X ω u, X ω v) ∉ K v} =
      ∫⁻ q in C, (∏ v ∈ S, κ {p | (q, p) ∈ K v}) * ∏ v ∈ B, (1 - κ {p | (q, p) ∈ K v}) ∂κ := by
  classical
  have hp : ∀ v, Measurable fun ω => (X ω u, X ω v) := fun v => ((measurable_pi_apply u).comp hX).prodMk ((measurable_pi_apply v).comp hX)
  have hm : MeasurableSet {ω | X ω u ∈ C ∧ (∀ v ∈ S, (X ω u, X ω v) ∈ K v) ∧ ∀ v ∈ B, (X ω u, X ω v) ∉ K v} := by
    have h1 : MeasurableSet {ω | X ω u ∈ C} := ((measurable_pi_apply u).comp hX) hC
    have h2 : MeasurableSet {ω | ∀ v ∈ S, (X ω u, X ω v) ∈ K v} := by
      have : {ω | ∀ v ∈ S, (X ω u, X ω v) ∈ K v} = ⋂ v ∈ S, {ω | (X ω u, X ω v) ∈ K v} := by ext; simp
      rw [this]
      exact Finset.measurableSet_biInter S fun v _ => hp v (hK v)
    have h3 : MeasurableSet {ω | ∀ v ∈ B, (X ω u, X ω v) ∉ K v} := by
      have : {ω | ∀ v ∈ B, (X ω u, X ω v) ∉ K v} = ⋂ v ∈ B, {ω | (X ω u, X ω v) ∈ K v}ᶜ := by ext; simp
      rw [this]
      exact Finset.measurableSet_biInter B fun v _ => (hp v (hK v)).compl
    exact h1.inter (h2.inter h3)
  have h := mean_row (f := fun v q p => (K v).indicator 1 (q, p)) (g := fun v q p => (K v)ᶜ.indicator 1 (q, p)) hX hlaw hS hB hd hC
    (fun v => measurable_one.indicator (hK v)) (fun v => measurable_one.indicator (hK v).compl)
  have hq : ∀ v (q : E), MeasurableSet {p | (q, p) ∈ K v} := fun v q => by
    have h1 : Measurable fun p : E => (q, p) := by fun_prop
    exact h1 (hK v)
  have hCm : MeasurableSet {ω | X ω u ∈ C} := ((measurable_pi_apply u).comp hX) hC
  refine Eq.trans ?_ (h.trans ?_)
  · rw [← lintegral_indicator_one hm, ← lintegral_indicator hCm]
    refine lintegral_congr fun ω => ?_
    simp only [Set.indicator_apply, Set.mem_setOf_eq, Pi.one_apply, Set.mem_compl_iff]
    by_cases h1 : X ω u ∈ C
    · simp only [h1, true_and, if_true]
      by_cases h2 : ∀ v ∈ S, (X ω u, X ω v) ∈ K v
      · rw [Finset.prod_congr rfl fun v hv => if_pos (h2 v hv), Finset.prod_const_one, one_mul]
        by_cases h3 : ∀ v ∈ B, (X ω u, X ω v) ∉ K v
        · rw [Finset.prod_congr rfl fun v hv => if_pos (h3 v hv), Finset.prod_const_one, if_pos ⟨h2, h3⟩]
        · rw [if_neg fun h => h3 h.2]
          push Not at h3
          obtain ⟨v, hv, hv2⟩ := h3
          exact (Finset.prod_eq_zero hv (if_neg (not_not.2 hv2))).symm
      · rw [if_neg fun h => h2 h.1]
        push Not at h2
        obtain ⟨v, hv, hv2⟩ := h2
        rw [Finset.prod_eq_zero hv (if_neg hv2), zero_mul]
    · simp [h1]
  · refine lintegral_congr fun q => ?_
    congr 1
    · refine Finset.prod_congr rfl fun v _ => ?_
      rw [← lintegral_indicator_one (hq v q)]
      rfl
    · refine Finset.prod_congr rfl fun v _ => ?_
      rw [← prob_compl_eq_one_sub (hq v q), ← lintegral_indicator_one (hq v q).compl]
      rfl

/-- the probability of a number of neighbours -/
theorem degree_prob (hX : Measurable X) (hlaw : P.map X = Measure.pi fun _ => κ) (u : Fin n) {C : Set E} (hC : MeasurableSet C)
    {K : Fin n → Set (E × E)} (hK : ∀ v, MeasurableSet (K v)) (d : ℕ) :
    P {ω | X ω u ∈ C ∧ ∃ S ∈ (Finset.univ.erase u).powersetCard d, (∀ v ∈ S, (X ω u, X ω v) ∈ K v) ∧ ∀ v ∈ (Finset.univ.erase u) \ S, (X ω u, X ω v) ∉ K v} =
      ∑ S ∈ (Finset.univ.erase u).powersetCard d,
        ∫⁻ q in C, (∏ v ∈ S, κ {p | (q, p) ∈ K v}) * ∏ v ∈ (Finset.univ.erase u) \ S, (1 - κ {p | (q, p) ∈ K v}) ∂κ := by
  classical
  have hp : ∀ v, Measurable fun ω => (X ω u, X ω v) := fun v => ((measurable_pi_apply u).comp hX).prodMk ((measurable_pi_apply v).comp hX)
  have hset : {ω | X ω u ∈ C ∧ ∃ S ∈ (Finset.univ.erase u).powersetCard d, (∀ v ∈ S, (X ω u, X ω v) ∈ K v) ∧
        ∀ v ∈ (Finset.univ.erase u) \ S, (X ω u, X ω v) ∉ K v} =
      ⋃ S ∈ (Finset.univ.erase u).powersetCard d, {ω | X ω u ∈ C ∧ (∀ v ∈ S, (X ω u, X ω v) ∈ K v) ∧ ∀ v ∈ (Finset.univ.erase u) \ S, (X ω u, X ω v) ∉ K v} := by
    ext ω
    simp only [Set.mem_setOf_eq, Set.mem_iUnion, exists_prop]
    constructor
    · rintro ⟨h1, S, h2, h3⟩
      exact ⟨S, h2, h1, h3⟩
    · rintro ⟨S, h2, h1, h3⟩
      exact ⟨h1, S, h2, h3⟩
  rw [hset, measure_biUnion_finset]
  · refine Finset.sum_congr rfl fun S hS => ?_
    have hS' := (Finset.mem_powersetCard.1 hS).1
    exact neighbours_prob hX hlaw (fun h => Finset.notMem_erase u _ (hS' h)) (fun h => Finset.notMem_erase u _ (Finset.mem_sdiff.1 h).1) Finset.disjoint_sdiff hC hK
  · intro S hS S' hS' hne
    rw [Function.onFun, Set.disjoint_left]
    rintro ω ⟨_, h1, h2⟩ ⟨_, h3, h4⟩
    have hs := (Finset.mem_powersetCard.1 hS).1
    have hs' := (Finset.mem_powersetCard.1 hS').1
    refine hne (Finset.Subset.antisymm (fun v hv => ?_) fun v hv => ?_)
    · by_contra hc
      exact h4 v (Finset.mem_sdiff.2 ⟨hs hv, hc⟩) (h1 v hv)
    · by_contra hc
      exact h2 v (Finset.mem_sdiff.2 ⟨hs' hv, hc⟩) (h3 v hv)
  · intro S hS
    have h1 : MeasurableSet {ω | X ω u ∈ C} := ((measurable_pi_apply u).comp hX) hC
    have h2 : MeasurableSet {ω | ∀ v ∈ S, (X ω u, X ω v) ∈ K v} := by
      have : {ω | ∀ v ∈ S, (X ω u, X ω v) ∈ K v} = ⋂ v ∈ S, {ω | (X ω u, X ω v) ∈ K v} := by ext; simp
      rw [this]
      exact Finset.measurableSet_biInter S fun v _ => hp v (hK v)
    have h3 : MeasurableSet {ω | ∀ v ∈ (Finset.univ.erase u) \ S, (X ω u, X ω v) ∉ K v} := by
      have : {ω | ∀ v ∈ (Finset.univ.erase u) \ S, (X ω u, X ω v) ∉ K v} = ⋂ v ∈ (Finset.univ.erase u) \ S, {ω | (X ω u, X ω v) ∈ K v}ᶜ := by ext; simp
      rw [this]
      exact Finset.measurableSet_biInter _ fun v _ => (hp v (hK v)).compl
    exact h1.inter (h2.inter h3)

end

/-- the neighbours in a graph of a relation -/
theorem neighbours_rel {n : ℕ} {rel : ℕ → ℕ → Prop} {es : List (ℕ × ℕ)} (h : IsGraphOf n rel es) {u : Fin n} {S B : Finset (Fin n)} (hS : u ∉ S) (hB : u ∉ B) :
    ((∀ v ∈ S, adjacent es u v) ∧ ∀ v ∈ B, ¬ adjacent es u v) ↔ (∀ v ∈ S, rel u v) ∧ ∀ v ∈ B, ¬ rel u v := by
  have e : ∀ v : Fin n, v ≠ u → (adjacent es u v ↔ rel u v) := fun v hv => h.2.2 u v u.2 v.2 fun h => hv (Fin.ext h).symm
  constructor
  · rintro ⟨h1, h2⟩
    exact ⟨fun v hv => (e v fun h => hS (h ▸ hv)).1 (h1 v hv), fun v hv => mt (e v fun h => hB (h ▸ hv)).2 (h2 v hv)⟩
  · rintro ⟨h1, h2⟩
    exact ⟨fun v hv => (e v fun h => hS (h ▸ hv)).2 (h1 v hv), fun v hv => mt (e v fun h => hB (h ▸ hv)).1 (h2 v hv)⟩

/-- the degree by the set of neighbours -/
theorem degree_iff {n : ℕ} {rel : ℕ → ℕ → Prop} {es : List (ℕ × ℕ)} (h : IsGraphOf n rel es) (u : Fin n) (d : ℕ) :
    degreeOf u es = d ↔ ∃ S ∈ (Finset.univ.erase u).powersetCard d, (∀ v ∈ S, adjacent es u v) ∧ ∀ v ∈ (Finset.univ.erase u) \ S, ¬ adjacent es u v := by
  classical
  have hdeg := degreeOf_graph u.2 h
  have e : degreeOf u es = ((Finset.univ.erase u).filter fun v : Fin n => rel u v).card := by
    rw [hdeg, Finset.card_filter, ← Finset.sum_erase_add _ _ (Finset.mem_univ u)]
    simp only [if_true, add_zero]
    refine Finset.sum_congr rfl fun v hv => ?_
    have hne : u.1 ≠ v.1 := fun h => (Finset.mem_erase.1 hv).1 (Fin.ext h).symm
    rw [if_neg hne]
  have hadj : ∀ v : Fin n, v ≠ u → (adjacent es u v ↔ rel u v) := fun v hv => h.2.2 u v u.2 v.2 fun h => hv (Fin.ext h).symm
  rw [e]
  constructor
  · rintro rfl
    refine ⟨_, Finset.mem_powersetCard.2 ⟨Finset.filter_subset _ _, rfl⟩, fun v hv => ?_, fun v hv => ?_⟩
    · obtain ⟨h1, h2⟩ := Finset.mem_filter.1 hv
      exact (hadj v (Finset.mem_erase.1 h1).1).2 h2
    · obtain ⟨h1, h2⟩ := Finset.mem_sdiff.1 hv
      exact fun h3 => h2 (Finset.mem_filter.2 ⟨h1, (hadj v (Finset.mem_erase.1 h1).1).1 h3⟩)
  · rintro ⟨S, hS, h1, h2⟩
    obtain ⟨h3, rfl⟩ := Finset.mem_powersetCard.1 hS
    congr 1
    ext v
    rw [Finset.mem_filter]
    constructor
    · rintro ⟨h4, h5⟩
      by_contra h6
      exact h2 v (Finset.mem_sdiff.2 ⟨h4, h6⟩) ((hadj v (Finset.mem_erase.1 h4).1).2 h5)
    · intro h4
      exact ⟨h3 h4, (hadj v (Finset.mem_erase.1 (h3 h4)).1).1 (h1 v h4)⟩

end Girgs.Props
