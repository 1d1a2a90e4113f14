import Verif.Props.PowerLaw
import Verif.Spec.Clustering
/-
Stars and triangles, for fixed weights and positions.
-/
namespace Girgs.Clustering
open CFloat Spec MeasureTheory Tree Scaling Props
open XR (fin)
open scoped ENNReal

/-- the pairs of `u` with the elements of `S` -/
def star (u : ℕ) (S : Finset ℕ) (a b : ℕ) : Prop := (a = u ∧ b ∈ S) ∨ (b = u ∧ a ∈ S)

theorem star_symm {u : ℕ} {S : Finset ℕ} (a b : ℕ) (h : star u S a b) : star u S b a := h.symm

theorem adjacent_symm {es : List (ℕ × ℕ)} {u v : ℕ} (h : adjacent es u v) : adjacent es v u := h.symm

/-- as many edges as neighbours -/
theorem card_le_edgesIn {u : ℕ} {S : Finset ℕ} (hu : u ∉ S) {es : List (ℕ × ℕ)} (h : ∀ v ∈ S, adjacent es u v) : S.card ≤ edgesIn (star u S) es := by
  classical
  unfold edgesIn
  rw [List.countP_eq_length_filter]
  refine le_trans ?_ (List.toFinset_card_le _)
  refine Finset.card_le_card_of_injOn (fun v => if (u, v) ∈ es then (u, v) else (v, u)) ?_ ?_
  · intro v hv
    have hv' : v ∈ S := hv
    simp only [Finset.mem_coe, List.mem_toFinset, List.mem_filter, decide_eq_true_eq]
    split_ifs with h1
    · exact ⟨h1, Or.inl ⟨rfl, hv'⟩⟩
    · exact ⟨(h v hv').resolve_left h1, Or.inr ⟨rfl, hv'⟩⟩
  · intro v hv v' hv' e
    have hv1 : v ∈ S := hv
    have hv2 : v' ∈ S := hv'
    have n1 : u ≠ v := fun h => hu (h ▸ hv1)
    have n2 : u ≠ v' := fun h => hu (h ▸ hv2)
    simp only at e
    split_ifs at e <;> simp only [Prod.mk.injEq] at e
    · exact e.2
    · exact absurd e.1 n2
    · exact absurd e.1.symm n1
    · exact e.1

theorem edgesIn_eq_zero {u v : ℕ} {es : List (ℕ × ℕ)} (h : ¬ adjacent es u v) : edgesIn (star u {v}) es = 0 := by
  classical
  unfold edgesIn
  rw [List.countP_eq_zero]
  rintro ⟨a, b⟩ he hs
  simp only [decide_eq_true_eq, star, Finset.mem_singleton] at hs
  rcases hs with ⟨rfl, rfl⟩ | ⟨rfl, rfl⟩
  · exact h (Or.inl he)
  · exact h (Or.inr he)

open Classical in
theorem prod_star {n u : ℕ} (hu : u < n) {S : Finset ℕ} (huS : u ∉ S) (hS : ∀ v ∈ S, v < n) {M : Type} [CommMonoid M] {f : ℕ → ℕ → M} (hf : ∀ u v, f u v = f v u) :
    ∏ e ∈ upairs n, (if star u S e.1 e.2 then f e.1 e.2 else 1) = ∏ v ∈ S, f u v := by
  have h := prod_upairs_node hu (f := fun a b => if star u S a b then f a b else 1) (fun a b => by
    have : star u S a b ↔ star u S b a := ⟨star_symm _ _, star_symm _ _⟩
    simp only [this, hf a b])
  have e1 : ∀ e ∈ upairs n, (if star u S e.1 e.2 then f e.1 e.2 else 1) = if e.1 = u ∨ e.2 = u then (if star u S e.1 e.2 then f e.1 e.2 else 1) else 1 := by
    intro e _
    by_cases h1 : star u S e.1 e.2
    · rw [if_pos h1, if_pos (h1.imp (fun h => h.1) fun h => h.1)]
    · rw [if_neg h1]; split_ifs <;> rfl
  rw [Finset.prod_congr rfl e1, h, Fin.prod_univ_eq_prod_range (fun v => if u = v then 1 else if star u S u v then f u v else 1) n]
  have hsub : S ⊆ Finset.range n := fun v hv => Finset.mem_range.2 (hS v hv)
  rw [← Finset.prod_subset hsub]
  · refine Finset.prod_congr rfl fun v hv => ?_
    rw [if_neg (fun h : u = v => huS (h ▸ hv)), if_pos (show star u S u v from Or.inl ⟨rfl, hv⟩)]
  · intro v _ hv
    split_ifs with h1 h2
    · rfl
    · rcases h2 with h2 | h2
      · exact absurd h2.2 hv
      · exact absurd h2.2 huS
    · rfl

/-- `exp(-l|S|) * ∏ (1 + p (e^l - 1))` tends to `∏ p` -/
theorem star_limit {S : Finset ℕ} {p : ℕ → ℝ} (hp : ∀ v ∈ S, 0 ≤ p v ∧ p v ≤ 1) {x : ℝ≥0∞}
    (h : ∀ l : ℝ, 0 < l → x ≤ ENNReal.ofReal (Real.exp (-(l * S.card))) * ∏ v ∈ S, ENNReal.ofReal (1 + p v * (Real.exp l - 1))) :
    x ≤ ENNReal.ofReal (∏ v ∈ S, p v) := by
  have e : ∀ l : ℝ, 0 < l → ENNReal.ofReal (Real.exp (-(l * S.card))) * ∏ v ∈ S, ENNReal.ofReal (1 + p v * (Real.exp l - 1)) =
      ENNReal.ofReal (∏ v ∈ S, (p v + (1 - p v) * Real.exp (-l))) := by
    intro l hl
    have h1 : Real.exp (-(l * S.card)) = ∏ _v ∈ S, Real.exp (-l) := by
      rw [Finset.prod_const, ← Real.exp_nat_mul]; congr 1; ring
    have hl1 : 1 ≤ Real.exp l := Real.one_le_exp hl.le
    rw [← ENNReal.ofReal_prod_of_nonneg fun v hv => by have := hp v hv; nlinarith, ← ENNReal.ofReal_mul (Real.exp_pos _).le, h1, ← Finset.prod_mul_distrib]
    congr 1
    refine Finset.prod_congr rfl fun v _ => ?_
    have : Real.exp (-l) * Real.exp l = 1 := by rw [← Real.exp_add]; simp
    linear_combination p v * this
  have ht : Filter.Tendsto (fun l : ℝ => ENNReal.ofReal (∏ v ∈ S, (p v + (1 - p v) * Real.exp (-l)))) Filter.atTop (nhds (ENNReal.ofReal (∏ v ∈ S, p v))) := by
    refine ENNReal.tendsto_ofReal (tendsto_finsetProd S fun v _ => ?_)
    have h0 : Filter.Tendsto (fun l : ℝ => Real.exp (-l)) Filter.atTop (nhds 0) := Real.tendsto_exp_neg_atTop_nhds_zero
    have := (tendsto_const_nhds (x := p v)).add (h0.const_mul (1 - p v))
    simpa using this
  refine ge_of_tendsto ht ?_
  filter_upwards [Filter.eventually_gt_atTop 0] with l hl
  rw [← e l hl]
  exact h l hl

section Fixed
variable {D : ℕ} {w : List ℝ} {xf : Fin w.length → Fin D → ℝ}

theorem rule_iff (u v : Fin w.length) : ThresholdRule w (List.ofFn xf) u v ↔ torusDist (xf u) (xf v) ^ D < w[u.1] * w[v.1] / w.sum := by
  unfold ThresholdRule
  constructor
  · rintro ⟨a, b, p, q, h1, h2, h3, h4, h5⟩
    rw [List.getElem?_eq_getElem u.2] at h1
    rw [List.getElem?_eq_getElem v.2] at h2
    rw [List.getElem?_eq_getElem (by simp)] at h3 h4
    simp only [List.getElem_ofFn, Option.some.injEq] at h1 h2 h3 h4
    subst h1 h2 h3 h4
    exact h5
  · intro h
    refine ⟨w[u.1], w[v.1], xf u, xf v, List.getElem?_eq_getElem u.2, List.getElem?_eq_getElem v.2, ?_, ?_, h⟩ <;>
      (rw [List.getElem?_eq_getElem (by simp)]; simp)

theorem graphProb_mono {env : Env} {rng : Rng XR} [MeasurableSpace rng.G] {ν : Measure rng.G} {weights : List XR} {positions : List (List XR)} {alpha : XR}
    {S S' : List (ℕ × ℕ) → Prop} (h : ∀ es, S es → S' es) : graphProb env rng ν weights positions alpha S ≤ graphProb env rng ν weights positions alpha S' := by
  unfold graphProb
  refine measure_mono ?_
  rintro g ⟨out, notice, h1, h2⟩
  exact ⟨out, notice, h1, h _ h2⟩

/-- the probability that `u` has the two neighbours `v` and `z` -/
theorem wedge_le (s : SupportedInput D w (List.ofFn xf)) {alpha : XR} (ha : alpha = .pinf ∨ ∃ a : ℝ, alpha = fin a ∧ 1 < a) (env : Env) {rng : Rng XR}
    [MeasurableSpace rng.G] {ν : Measure rng.G} (hr : IdealRng rng ν) {u v z : Fin w.length} (huv : u ≠ v) (huz : u ≠ z) (hvz : v ≠ z) :
    graphProb env rng ν (xw w) (xl (List.ofFn xf)) alpha (fun es => wedge es u v z) ≤
      ENNReal.ofReal (linkProb alpha D (w[u.1] * w[v.1] / w.sum) (torusDist (xf u) (xf v)) * linkProb alpha D (w[u.1] * w[z.1] / w.sum) (torusDist (xf u) (xf z))) := by
  classical
  have hprob := hr.prob
  have hpos' : ∀ a b : Fin w.length, 0 < w[a.1] * w[b.1] / w.sum := fun a b =>
    div_pos (mul_pos (s.wpos _ (List.getElem_mem _)) (s.wpos _ (List.getElem_mem _)))
      (List.sum_pos w s.wpos (by rintro rfl; exact absurd u.2 (by simp)))
  have n1 : u.1 ≠ v.1 := fun h => huv (Fin.ext h)
  have n2 : u.1 ≠ z.1 := fun h => huz (Fin.ext h)
  have n3 : v.1 ≠ z.1 := fun h => hvz (Fin.ext h)
  rcases ha with rfl | ⟨a, rfl, ha⟩
  · show _ ≤ ENNReal.ofReal ((if torusDist (xf u) (xf v) ^ D < w[u.1] * w[v.1] / w.sum then 1 else 0) *
      (if torusDist (xf u) (xf z) ^ D < w[u.1] * w[z.1] / w.sum then 1 else 0))
    by_cases h : torusDist (xf u) (xf v) ^ D < w[u.1] * w[v.1] / w.sum ∧ torusDist (xf u) (xf z) ^ D < w[u.1] * w[z.1] / w.sum
    · rw [if_pos h.1, if_pos h.2]
      refine (prob_le_one (μ := Measure.pi fun _ : Fin env.threads => ν)).trans ?_
      simp
    · have : {g | ∃ out notice, GenerateEdges env rng (gensOf env.threads_pos g) (xw w) (xl (List.ofFn xf)) .pinf out notice ∧ wedge out u v z} = ∅ := by
        ext g
        simp only [Set.mem_setOf_eq, Set.mem_empty_iff_false, iff_false]
        rintro ⟨out, notice, hg, h1, h2⟩
        obtain ⟨⟨_, _, k⟩, _⟩ := C18_threshold_exact s env rng hr.bounded _ out notice hg
        exact h ⟨(rule_iff u v).1 ((k u v u.2 v.2 n1).1 h1), (rule_iff u z).1 ((k u z u.2 z.2 n2).1 h2)⟩
      unfold graphProb
      rw [this, measure_empty]
      exact bot_le
  · obtain ⟨pr, p1, p2, p3⟩ := girg_tail s (show 0 < a by linarith)
    have hle : ∀ b : Fin w.length, u ≠ b → 0 ≤ pr u b ∧ pr u b ≤ connProb D a (w[u.1] * w[b.1] / w.sum) (torusDist (xf u) (xf b)) := by
      intro b hb
      have hg : girgProb w (List.ofFn xf) a u b = connProb D a (w[u.1] * w[b.1] / w.sum) (torusDist (xf u) (xf b)) := girgProb_ofFn rfl _ _ _ _
      obtain ⟨m1, m2⟩ := connProb_mem (D := D) a _ _ (hpos' u b) (torusDist_nonneg (xf u) (xf b))
      rcases p2 u b u.2 b.2 (fun h => hb (Fin.ext h)) with h | h
      · rw [h, hg]; exact ⟨m1, le_rfl⟩
      · rw [h.1]; exact ⟨le_rfl, m1⟩
    have hle1 : ∀ b : Fin w.length, u ≠ b → pr u b ≤ 1 := fun b hb =>
      (hle b hb).2.trans (connProb_mem (D := D) a _ _ (hpos' u b) (torusDist_nonneg (xf u) (xf b))).2
    have huS : u.1 ∉ ({v.1, z.1} : Finset ℕ) := by simp [n1, n2]
    have hS : ∀ b ∈ ({v.1, z.1} : Finset ℕ), b < w.length := by
      intro b hb
      simp only [Finset.mem_insert, Finset.mem_singleton] at hb
      rcases hb with rfl | rfl
      · exact v.2
      · exact z.2
    have h1 : graphProb env rng ν (xw w) (xl (List.ofFn xf)) (fin a) (fun es => wedge es u v z) ≤
        edgesProb env rng ν (xw w) (xl (List.ofFn xf)) (fin a) (star u {v.1, z.1}) (fun k => ({v.1, z.1} : Finset ℕ).card ≤ k) := by
      unfold graphProb edgesProb
      refine measure_mono ?_
      rintro g ⟨out, notice, hg, h1, h2⟩
      refine ⟨out, notice, hg, card_le_edgesIn huS ?_⟩
      intro b hb
      simp only [Finset.mem_insert, Finset.mem_singleton] at hb
      rcases hb with rfl | rfl
      · exact h1
      · exact h2
    have h2 := star_limit (S := {v.1, z.1}) (p := fun b => pr u b) (x := graphProb env rng ν (xw w) (xl (List.ofFn xf)) (fin a) (fun es => wedge es u v z)) (by
      intro b hb
      simp only [Finset.mem_insert, Finset.mem_singleton] at hb
      rcases hb with rfl | rfl
      · exact ⟨(hle v huv).1, hle1 v huv⟩
      · exact ⟨(hle z huz).1, hle1 z huz⟩) (by
      intro l hl
      refine h1.trans ((p3 env rng ν hr (star u {v.1, z.1}) star_symm l ({v.1, z.1} : Finset ℕ).card _ (fun N hN => ?_)).trans (le_of_eq ?_))
      · have : ((({v.1, z.1} : Finset ℕ).card : ℕ) : ℝ) ≤ N := by exact_mod_cast hN
        exact mul_le_mul_of_nonneg_left this hl.le
      · congr 1
        exact prod_star u.2 huS hS (f := fun c d => ENNReal.ofReal (1 + pr c d * (Real.exp l - 1))) (fun c d => by rw [p1]))
    refine h2.trans (ENNReal.ofReal_le_ofReal ?_)
    rw [Finset.prod_pair n3]
    exact mul_le_mul (hle v huv).2 (hle z huz).2 (hle z huz).1 ((hle v huv).1.trans (hle v huv).2)

/-- pairs within the threshold distance are connected -/
theorem near_adjacent (s : SupportedInput D w (List.ofFn xf)) {alpha : XR} (ha : alpha = .pinf ∨ ∃ a : ℝ, alpha = fin a ∧ 1 < a) (env : Env) {rng : Rng XR}
    [MeasurableSpace rng.G] {ν : Measure rng.G} (hr : IdealRng rng ν) {u v : Fin w.length} (huv : u ≠ v)
    (h : torusDist (xf u) (xf v) ^ D < w[u.1] * w[v.1] / w.sum) :
    graphProb env rng ν (xw w) (xl (List.ofFn xf)) alpha (fun es => ¬ adjacent es u v) = 0 := by
  classical
  have n1 : u.1 ≠ v.1 := fun h => huv (Fin.ext h)
  rcases ha with rfl | ⟨a, rfl, ha⟩
  · have : {g | ∃ out notice, GenerateEdges env rng (gensOf env.threads_pos g) (xw w) (xl (List.ofFn xf)) .pinf out notice ∧ ¬ adjacent out u v} = ∅ := by
      ext g
      simp only [Set.mem_setOf_eq, Set.mem_empty_iff_false, iff_false]
      rintro ⟨out, notice, hg, h1⟩
      obtain ⟨⟨_, _, k⟩, _⟩ := C18_threshold_exact s env rng hr.bounded _ out notice hg
      exact h1 ((k u v u.2 v.2 n1).2 ((rule_iff u v).2 h))
    unfold graphProb
    rw [this, measure_empty]
  · obtain ⟨pr, p1, p2, p3⟩ := girg_tail s (show 0 < a by linarith)
    have hpr : pr u v = 1 := by
      have hone : connProb D a (w[u.1] * w[v.1] / w.sum) (torusDist (xf u) (xf v)) = 1 := by
        unfold connProb
        split_ifs with h0
        · rfl
        · refine min_eq_left (Real.one_le_rpow ?_ (by linarith))
          have hp : 0 < torusDist (xf u) (xf v) ^ D := pow_pos (lt_of_le_of_ne (torusDist_nonneg _ _) (Ne.symm h0)) D
          rw [le_div_iff₀ hp]; linarith
      have hg : girgProb w (List.ofFn xf) a u v = connProb D a (w[u.1] * w[v.1] / w.sum) (torusDist (xf u) (xf v)) := girgProb_ofFn rfl _ _ _ _
      rcases p2 u v u.2 v.2 n1 with k | k
      · rw [k, hg, hone]
      · rw [hg, hone] at k; norm_num at k
    have h1 : graphProb env rng ν (xw w) (xl (List.ofFn xf)) (fin a) (fun es => ¬ adjacent es u v) ≤
        edgesProb env rng ν (xw w) (xl (List.ofFn xf)) (fin a) (star u {v.1}) (fun k => k = 0) := by
      unfold graphProb edgesProb
      refine measure_mono ?_
      rintro g ⟨out, notice, hg, h1⟩
      exact ⟨out, notice, hg, edgesIn_eq_zero h1⟩
    have h2 : ∀ l : ℝ, graphProb env rng ν (xw w) (xl (List.ofFn xf)) (fin a) (fun es => ¬ adjacent es u v) ≤ ENNReal.ofReal (Real.exp l) := by
      intro l
      refine h1.trans ((p3 env rng ν hr (star u {v.1}) star_symm l 0 _ (fun N hN => by rw [hN]; simp)).trans (le_of_eq ?_))
      have := prod_star u.2 (S := {v.1}) (by simp [n1]) (by simp) (f := fun c d => ENNReal.ofReal (1 + pr c d * (Real.exp l - 1))) (fun c d => by rw [p1])
      rw [this, Finset.prod_singleton, hpr]
      simp
    have ht : Filter.Tendsto (fun l : ℝ => ENNReal.ofReal (Real.exp l)) Filter.atBot (nhds (ENNReal.ofReal 0)) := ENNReal.tendsto_ofReal Real.tendsto_exp_atBot
    have h3 := ge_of_tendsto' ht h2
    simpa using h3

/-- three nodes pairwise within the threshold distance form a triangle -/
theorem triangle_ge (s : SupportedInput D w (List.ofFn xf)) {alpha : XR} (ha : alpha = .pinf ∨ ∃ a : ℝ, alpha = fin a ∧ 1 < a) (env : Env) {rng : Rng XR}
    [MeasurableSpace rng.G] {ν : Measure rng.G} (hr : IdealRng rng ν) {u v z : Fin w.length} (huv : u ≠ v) (huz : u ≠ z) (hvz : v ≠ z)
    (h1 : torusDist (xf u) (xf v) ^ D < w[u.1] * w[v.1] / w.sum) (h2 : torusDist (xf u) (xf z) ^ D < w[u.1] * w[z.1] / w.sum)
    (h3 : torusDist (xf v) (xf z) ^ D < w[v.1] * w[z.1] / w.sum) :
    1 ≤ graphProb env rng ν (xw w) (xl (List.ofFn xf)) alpha (fun es => triangle es u v z) := by
  have hprob := hr.prob
  have k1 := near_adjacent s ha env hr huv h1
  have k2 := near_adjacent s ha env hr huz h2
  have k3 := near_adjacent s ha env hr hvz h3
  have h : (Measure.pi fun _ : Fin env.threads => ν) Set.univ ≤
      ((graphProb env rng ν (xw w) (xl (List.ofFn xf)) alpha (fun es => triangle es u v z) +
      graphProb env rng ν (xw w) (xl (List.ofFn xf)) alpha (fun es => ¬ adjacent es u v)) +
      graphProb env rng ν (xw w) (xl (List.ofFn xf)) alpha (fun es => ¬ adjacent es u z)) +
      graphProb env rng ν (xw w) (xl (List.ofFn xf)) alpha (fun es => ¬ adjacent es v z) := by
    unfold graphProb
    refine le_trans ?_ ((measure_union_le _ _).trans (add_le_add ((measure_union_le _ _).trans (add_le_add (measure_union_le _ _) le_rfl)) le_rfl))
    refine measure_mono ?_
    intro g _
    simp only [Set.mem_union, Set.mem_setOf_eq]
    obtain ⟨⟨out, notice, hg⟩, _⟩ := C17_simple_graph s alpha env rng hr.bounded (gensOf env.threads_pos g)
    by_cases a1 : adjacent out u v
    · by_cases a2 : adjacent out u z
      · by_cases a3 : adjacent out v z
        · exact Or.inl (Or.inl (Or.inl ⟨out, notice, hg, a1, a2, a3⟩))
        · exact Or.inr ⟨out, notice, hg, a3⟩
      · exact Or.inl (Or.inr ⟨out, notice, hg, a2⟩)
    · exact Or.inl (Or.inl (Or.inr ⟨out, notice, hg, a1⟩))
  rw [k1, k2, k3, measure_univ] at h
  simpa using h

end Fixed

/-- the triangle inequality on the torus -/
theorem torusDist_triangle {D : ℕ} {x y z : Fin D → ℝ} (hx : ∀ d, 0 ≤ x d ∧ x d < 1) (hy : ∀ d, 0 ≤ y d ∧ y d < 1) (hz : ∀ d, 0 ≤ z d ∧ z d < 1) :
    torusDist x z ≤ torusDist x y + torusDist y z := by
  have hxy : ∀ d, |x d - y d| ≤ 1 := fun d => (abs_sub_lt_one (hx d) (hy d)).le
  have hyz : ∀ d, |y d - z d| ≤ 1 := fun d => (abs_sub_lt_one (hy d) (hz d)).le
  have hxz : ∀ d, |x d - z d| ≤ 1 := fun d => (abs_sub_lt_one (hx d) (hz d)).le
  rw [torusDist_le_iff]
  refine ⟨add_nonneg (torusDist_nonneg _ _) (torusDist_nonneg _ _), fun d => ?_⟩
  exact le_trans (circleDist_triangle (hxy d) (hyz d) (hxz d))
    (add_le_add (circleDist_le_torusDist _ _ d) (circleDist_le_torusDist _ _ d))

/-- two points within half the threshold distance of a third one of smallest weight -/
theorem half_close {D : ℕ} {p q r : Fin D → ℝ} (hp : ∀ d, 0 ≤ p d ∧ p d < 1) (hq : ∀ d, 0 ≤ q d ∧ q d < 1) (hr : ∀ d, 0 ≤ r d ∧ r d < 1)
    {a b c W : ℝ} (ha : 0 < a) (hb : a ≤ b) (hc : a ≤ c) (hW : 0 < W)
    (h1 : torusDist p q ^ D < a * b / W / 2 ^ D) (h2 : torusDist p r ^ D < a * c / W / 2 ^ D) : torusDist q r ^ D < b * c / W := by
  have hm : torusDist q r ≤ 2 * max (torusDist p q) (torusDist p r) := by
    have := torusDist_triangle hq hp hr
    rw [torusDist_comm q p] at this
    have := le_max_left (torusDist p q) (torusDist p r)
    have := le_max_right (torusDist p q) (torusDist p r)
    linarith
  have h3 : max (torusDist p q) (torusDist p r) ^ D < b * c / W / 2 ^ D := by
    have h2D : (0 : ℝ) < 2 ^ D := by positivity
    rcases max_choice (torusDist p q) (torusDist p r) with h | h <;> rw [h]
    · refine h1.trans_le ?_
      refine div_le_div_of_nonneg_right (div_le_div_of_nonneg_right ?_ hW.le) h2D.le
      nlinarith
    · refine h2.trans_le ?_
      refine div_le_div_of_nonneg_right (div_le_div_of_nonneg_right ?_ hW.le) h2D.le
      nlinarith
  calc torusDist q r ^ D ≤ (2 * max (torusDist p q) (torusDist p r)) ^ D := pow_le_pow_left₀ (torusDist_nonneg _ _) hm D
    _ = 2 ^ D * max (torusDist p q) (torusDist p r) ^ D := mul_pow _ _ _
    _ < 2 ^ D * (b * c / W / 2 ^ D) := mul_lt_mul_of_pos_left h3 (by positivity)
    _ = b * c / W := by field_simp

end Girgs.Clustering
