import Verif.Proofs.PairwiseIndep
/-
Sums over all pairs of a function of two of `n` independent points: a bound for the variance.
-/
namespace Girgs.PairIndep
open MeasureTheory ProbabilityTheory
open scoped ENNReal

section
variable {α : Type} [MeasurableSpace α] (lam : Measure α) [IsProbabilityMeasure lam] {n : ℕ}

/-- the mean over point `v` -/
theorem factor' {u v : Fin n} (huv : u ≠ v) {f : α → α → ℝ≥0∞} (hf : Measurable fun z : α × α => f z.1 z.2)
    {G : (Fin n → α) → ℝ≥0∞} (hG : Measurable G) (hGv : ∀ x q, G (Function.update x v q) = G x) :
    ∫⁻ x, f (x u) (x v) * G x ∂(Measure.pi fun _ : Fin n => lam) = ∫⁻ x, (∫⁻ p, f (x u) p ∂lam) * G x ∂(Measure.pi fun _ : Fin n => lam) := by
  have h1 : Measurable fun x : Fin n → α => (x u, x v) := by fun_prop
  have hm : Measurable fun x : Fin n → α => f (x u) (x v) := hf.comp h1
  have hFG : Measurable fun x : Fin n → α => f (x u) (x v) * G x := hm.mul hG
  rw [update_lintegral lam v hFG]
  refine lintegral_congr fun x => ?_
  simp only [hGv, Function.update_self, Function.update_of_ne huv]
  have h2 : Measurable fun q : α => (x u, q) := by fun_prop
  have h3 : Measurable fun q : α => f (x u) q := hf.comp h2
  rw [lintegral_mul_const _ h3]

theorem one_point (u : Fin n) {g : α → ℝ≥0∞} (hg : Measurable g) : ∫⁻ x, g (x u) ∂(Measure.pi fun _ : Fin n => lam) = ∫⁻ q, g q ∂lam :=
  (measurePreserving_eval (fun _ : Fin n => lam) u).lintegral_comp hg

theorem two_points' {u v : Fin n} (huv : u ≠ v) {g h : α → ℝ≥0∞} (hg : Measurable g) (hh : Measurable h) :
    ∫⁻ x, g (x u) * h (x v) ∂(Measure.pi fun _ : Fin n => lam) = (∫⁻ q, g q ∂lam) * ∫⁻ q, h q ∂lam := by
  have := factor' lam huv (f := fun _ p => h p) (hh.comp measurable_snd) (G := fun x => g (x u)) (hg.comp (measurable_pi_apply u)) (fun x q => by
    simp only [Function.update_of_ne huv])
  have h1 : Measurable fun x : Fin n → α => g (x u) := hg.comp (measurable_pi_apply u)
  rw [lintegral_const_mul _ h1, one_point lam u hg] at this
  rw [mul_comm (∫⁻ q, g q ∂lam), ← this]
  exact lintegral_congr fun x => mul_comm _ _

variable {f : α → α → ℝ≥0∞}

/-- two pairs with a common point -/
theorem shared (hf : Measurable fun z : α × α => f z.1 z.2) {s a b : Fin n} (hsa : s ≠ a) (hsb : s ≠ b) (hab : a ≠ b) :
    ∫⁻ x, f (x s) (x a) * f (x s) (x b) ∂(Measure.pi fun _ : Fin n => lam) = ∫⁻ q, (∫⁻ p, f q p ∂lam) ^ 2 ∂lam := by
  have hx : ∀ a b : Fin n, Measurable fun x : Fin n → α => (x a, x b) := fun a b => by fun_prop
  have hd : Measurable fun q => ∫⁻ p, f q p ∂lam := Measurable.lintegral_prod_right' hf
  have h1 : Measurable fun x : Fin n → α => f (x s) (x b) := hf.comp (hx s b)
  have h2 : Measurable fun x : Fin n → α => ∫⁻ p, f (x s) p ∂lam := hd.comp (measurable_pi_apply s)
  rw [factor' lam hsa hf h1 (fun x q => by simp only [Function.update_of_ne hsa, Function.update_of_ne hab.symm])]
  rw [lintegral_congr fun x => mul_comm _ _, factor' lam hsb hf h2 (fun x q => by simp only [Function.update_of_ne hsb])]
  rw [← one_point lam s (hd.pow_const 2)]
  exact lintegral_congr fun x => (sq _).symm

/-- two pairs without a common point -/
theorem disjoint_pairs (hf : Measurable fun z : α × α => f z.1 z.2) {a b c d : Fin n} (hab : a ≠ b) (hcd : c ≠ d) (hac : a ≠ c) (had : a ≠ d) (hbc : b ≠ c) (hbd : b ≠ d) :
    ∫⁻ x, f (x a) (x b) * f (x c) (x d) ∂(Measure.pi fun _ : Fin n => lam) = (∫⁻ q, ∫⁻ p, f q p ∂lam ∂lam) * ∫⁻ q, ∫⁻ p, f q p ∂lam ∂lam := by
  have hx : ∀ a b : Fin n, Measurable fun x : Fin n → α => (x a, x b) := fun a b => by fun_prop
  have hd : Measurable fun q => ∫⁻ p, f q p ∂lam := Measurable.lintegral_prod_right' hf
  have h1 : Measurable fun x : Fin n → α => f (x c) (x d) := hf.comp (hx c d)
  have h2 : Measurable fun x : Fin n → α => ∫⁻ p, f (x a) p ∂lam := hd.comp (measurable_pi_apply a)
  rw [factor' lam hab hf h1 (fun x q => by simp only [Function.update_of_ne hbc.symm, Function.update_of_ne hbd.symm])]
  rw [lintegral_congr fun x => mul_comm _ _, factor' lam hcd hf h2 (fun x q => by simp only [Function.update_of_ne had])]
  exact two_points' lam hac.symm hd hd

theorem single_pair (hf : Measurable fun z : α × α => f z.1 z.2) {a b : Fin n} (hab : a ≠ b) :
    ∫⁻ x, f (x a) (x b) ∂(Measure.pi fun _ : Fin n => lam) = ∫⁻ q, ∫⁻ p, f q p ∂lam ∂lam := by
  have hd : Measurable fun q => ∫⁻ p, f q p ∂lam := Measurable.lintegral_prod_right' hf
  have := factor' lam hab hf (G := fun _ => 1) measurable_const (fun _ _ => rfl)
  simp only [mul_one] at this
  rw [this, one_point lam a hd]

/-- two different pairs of nodes with a common node -/
def Meet (e e' : Fin n × Fin n) : Prop := e.1 = e'.1 ∨ e.1 = e'.2 ∨ e.2 = e'.1 ∨ e.2 = e'.2

theorem node_card (x : Fin n) : ((pairs n).filter fun e => e.1 = x ∨ e.2 = x).card ≤ n := by
  have : ((pairs n).filter fun e => e.1 = x ∨ e.2 = x).card ≤ (Finset.univ : Finset (Fin n)).card := by
    refine Finset.card_le_card_of_injOn (fun e => if e.1 = x then e.2 else e.1) (fun e _ => Finset.mem_coe.2 (Finset.mem_univ _)) ?_
    intro e he e' he' h
    simp only [Finset.coe_filter, Set.mem_setOf_eq, mem_pairs] at he he'
    obtain ⟨h1, h2⟩ := he
    obtain ⟨h3, h4⟩ := he'
    beta_reduce at h
    split_ifs at h with q1 q2 q2
    · exact Prod.ext (q1.trans q2.symm) h
    · have q3 := h4.resolve_left q2
      rw [q1, h] at h1
      rw [q3] at h3
      exact absurd (h1.trans h3) (lt_irrefl _)
    · have q3 := h2.resolve_left q1
      rw [q2, ← h] at h3
      rw [q3] at h1
      exact absurd (h1.trans h3) (lt_irrefl _)
    · exact Prod.ext h ((h2.resolve_left q1).trans (h4.resolve_left q2).symm)
  simpa using this

open Classical in
theorem meet_card (e : Fin n × Fin n) : ((pairs n).filter fun e' => Meet e e').card ≤ 2 * n := by
  have : ((pairs n).filter fun e' => Meet e e') ⊆ ((pairs n).filter fun e' => e'.1 = e.1 ∨ e'.2 = e.1) ∪ ((pairs n).filter fun e' => e'.1 = e.2 ∨ e'.2 = e.2) := by
    intro e' he'
    simp only [Finset.mem_filter, Finset.mem_union] at he' ⊢
    obtain ⟨h1, h2⟩ := he'
    rcases h2 with h | h | h | h
    · exact Or.inl ⟨h1, Or.inl h.symm⟩
    · exact Or.inl ⟨h1, Or.inr h.symm⟩
    · exact Or.inr ⟨h1, Or.inl h.symm⟩
    · exact Or.inr ⟨h1, Or.inr h.symm⟩
  refine (Finset.card_le_card this).trans ((Finset.card_union_le _ _).trans ?_)
  have := node_card e.1
  have := node_card e.2
  omega

theorem pairs_card : 2 * (pairs n).card ≤ n * n := by
  classical
  have h1 : (pairs n).card + ((pairs n).image Prod.swap).card ≤ (Finset.univ : Finset (Fin n × Fin n)).card := by
    rw [← Finset.card_union_of_disjoint]
    · exact Finset.card_le_univ _
    · rw [Finset.disjoint_left]
      rintro e he he'
      obtain ⟨e', h1, rfl⟩ := Finset.mem_image.1 he'
      exact absurd ((mem_pairs.1 he).trans (mem_pairs.1 h1)) (lt_irrefl _)
  rw [Finset.card_image_of_injective _ Prod.swap_injective] at h1
  simp at h1
  omega

end

section
variable {α : Type} [MeasurableSpace α] (lam : Measure α) [IsProbabilityMeasure lam] {n : ℕ} {f : α → α → ℝ} {m κ : ℝ}

open Classical in
/-- the sum over all pairs is close to its mean -/
theorem deviation' (hm : Measurable fun z : α × α => f z.1 z.2) (hsym : ∀ p q, f p q = f q p) (hb : ∀ p q, 0 ≤ f p q ∧ f p q ≤ 1)
    (hm0 : 0 ≤ m) (hk : ∫⁻ q, ∫⁻ p, ENNReal.ofReal (f q p) ∂lam ∂lam = ENNReal.ofReal m) (hκ0 : 0 ≤ κ)
    (hκ : ∫⁻ q, (∫⁻ p, ENNReal.ofReal (f q p) ∂lam) ^ 2 ∂lam ≤ ENNReal.ofReal κ) {M : ℝ} (hM : M = ∑ _e ∈ pairs n, m) {t : ℝ} (ht : 0 < t) :
    (Measure.pi fun _ : Fin n => lam) {x | t ≤ |(∑ e ∈ pairs n, f (x e.1) (x e.2)) - M|} ≤ ENNReal.ofReal ((M + n ^ 3 * κ) / t ^ 2) := by
  set π := Measure.pi fun _ : Fin n => lam with hπ
  set Y : Fin n × Fin n → (Fin n → α) → ℝ := fun e x => f (x e.1) (x e.2) with hY
  have hx : ∀ a b : Fin n, Measurable fun x : Fin n → α => (x a, x b) := fun a b => by fun_prop
  have hf : Measurable fun z : α × α => ENNReal.ofReal (f z.1 z.2) := hm.ennreal_ofReal
  have mY : ∀ e, Measurable (Y e) := fun e => hm.comp (hx _ _)
  have bY : ∀ e x, 0 ≤ Y e x ∧ Y e x ≤ 1 := fun e x => hb _ _
  have lY : ∀ e, MemLp (Y e) 2 π := fun e => MemLp.of_bound (mY e).aestronglyMeasurable 1 (Filter.Eventually.of_forall fun x => by
    rw [Real.norm_eq_abs, abs_of_nonneg (bY e x).1]; exact (bY e x).2)
  have iY : ∀ e ∈ pairs n, ∫ x, Y e x ∂π = m := by
    intro e he
    rw [integral_eq_lintegral_of_nonneg_ae (Filter.Eventually.of_forall fun x => (bY e x).1) (mY e).aestronglyMeasurable,
      single_pair lam (f := fun q p => ENNReal.ofReal (f q p)) hf (mem_pairs.1 he).ne, hk, ENNReal.toReal_ofReal hm0]
  have prod : ∀ e e', ∫ x, (Y e * Y e') x ∂π = (∫⁻ x, ENNReal.ofReal (f (x e.1) (x e.2)) * ENNReal.ofReal (f (x e'.1) (x e'.2)) ∂π).toReal := by
    intro e e'
    have hm2 : Measurable (Y e * Y e') := (mY e).mul (mY e')
    have h0 : 0 ≤ᵐ[π] (Y e * Y e') := Filter.Eventually.of_forall fun x => mul_nonneg (bY e x).1 (bY e' x).1
    rw [integral_eq_lintegral_of_nonneg_ae h0 hm2.aestronglyMeasurable]
    congr 1
    refine lintegral_congr fun x => ?_
    rw [Pi.mul_apply, ENNReal.ofReal_mul (bY e x).1]
  have sh : ∀ s a b : Fin n, s ≠ a → s ≠ b → a ≠ b → (∫⁻ x, ENNReal.ofReal (f (x s) (x a)) * ENNReal.ofReal (f (x s) (x b)) ∂π).toReal ≤ κ := by
    intro s a b h1 h2 h3
    rw [shared lam (f := fun q p => ENNReal.ofReal (f q p)) hf h1 h2 h3]
    exact ENNReal.toReal_le_of_le_ofReal hκ0 hκ
  have cov : ∀ e ∈ pairs n, ∀ e' ∈ pairs n, cov[Y e, Y e'; π] ≤ (if e = e' then m else 0) + if Meet e e' then κ else 0 := by
    intro e he e' he'
    have l1 := mem_pairs.1 he
    have l2 := mem_pairs.1 he'
    have hmm : 0 ≤ m * m := mul_nonneg hm0 hm0
    rw [covariance_eq_sub (lY e) (lY e'), iY e he, iY e' he']
    by_cases h : e = e'
    · subst h
      have h3 : ∫ x, (Y e * Y e) x ∂π ≤ ∫ x, Y e x ∂π := by
        refine integral_mono_of_nonneg (Filter.Eventually.of_forall fun x => mul_nonneg (bY e x).1 (bY e x).1) ((lY e).integrable (by norm_num))
          (Filter.Eventually.of_forall fun x => ?_)
        exact mul_le_of_le_one_left (bY e x).1 (bY e x).2
      rw [iY e he] at h3
      rw [if_pos rfl]
      have : 0 ≤ if Meet e e then κ else 0 := by split_ifs <;> simp [hκ0]
      linarith
    · rw [if_neg h, zero_add, prod]
      by_cases hM : Meet e e'
      · rw [if_pos hM]
        have key : (∫⁻ x, ENNReal.ofReal (f (x e.1) (x e.2)) * ENNReal.ofReal (f (x e'.1) (x e'.2)) ∂π).toReal ≤ κ := by
          by_cases h11 : e.1 = e'.1
          · have hne : e.2 ≠ e'.2 := fun h2 => h (Prod.ext h11 h2)
            have := sh e.1 e.2 e'.2 l1.ne (by rw [h11]; exact l2.ne) hne
            rwa [h11] at this ⊢
          by_cases h22 : e.2 = e'.2
          · have := sh e.2 e.1 e'.1 l1.ne' (by rw [h22]; exact l2.ne') h11
            rw [h22] at this ⊢
            refine le_trans (le_of_eq ?_) this
            congr 1
            refine lintegral_congr fun x => ?_
            rw [hsym (x e.1), hsym (x e'.1)]
          by_cases h12 : e.1 = e'.2
          · have hne : e.2 ≠ e'.1 := fun h2 => by
              rw [h12, h2] at l1; exact absurd (l1.trans l2) (lt_irrefl _)
            have := sh e.1 e.2 e'.1 l1.ne (by rw [h12]; exact l2.ne') hne
            rw [h12] at this ⊢
            refine le_trans (le_of_eq ?_) this
            congr 1
            refine lintegral_congr fun x => ?_
            rw [hsym (x e'.1)]
          · have h21 : e.2 = e'.1 := by
              rcases hM with q | q | q | q
              · exact absurd q h11
              · exact absurd q h12
              · exact q
              · exact absurd q h22
            have := sh e.2 e.1 e'.2 l1.ne' h22 h12
            rw [h21] at this ⊢
            refine le_trans (le_of_eq ?_) this
            congr 1
            refine lintegral_congr fun x => ?_
            rw [hsym (x e.1)]
        linarith
      · rw [if_neg hM]
        have hM' := hM
        unfold Meet at hM'
        push Not at hM'
        rw [disjoint_pairs lam (f := fun q p => ENNReal.ofReal (f q p)) hf l1.ne l2.ne hM'.1 hM'.2.1 hM'.2.2.1 hM'.2.2.2, hk, ENNReal.toReal_mul,
          ENNReal.toReal_ofReal hm0]
        linarith
  have lS : MemLp (∑ e ∈ pairs n, Y e) 2 π := memLp_finsetSum' _ fun e _ => lY e
  have hS : ∀ x, (∑ e ∈ pairs n, Y e) x = ∑ e ∈ pairs n, f (x e.1) (x e.2) := fun x => by rw [Finset.sum_apply]
  have hmean : ∫ x, (∑ e ∈ pairs n, Y e) x ∂π = M := by
    simp only [Finset.sum_apply]
    rw [integral_finset_sum _ fun e _ => (lY e).integrable (by norm_num), hM]
    exact Finset.sum_congr rfl iY
  have hvar : Var[∑ e ∈ pairs n, Y e; π] ≤ M + n ^ 3 * κ := by
    rw [variance_sum' fun e _ => lY e]
    refine (Finset.sum_le_sum fun e he => (Finset.sum_le_sum fun e' he' => cov e he e' he').trans (?_ : _ ≤ m + 2 * n * κ)).trans ?_
    · rw [Finset.sum_add_distrib, Finset.sum_ite_eq, if_pos he, ← Finset.sum_filter, Finset.sum_const, nsmul_eq_mul]
      have h1 := meet_card e
      have h2 : (((pairs n).filter fun e' => Meet e e').card : ℝ) ≤ 2 * n := by exact_mod_cast h1
      have := mul_le_mul_of_nonneg_right h2 hκ0
      linarith
    · rw [Finset.sum_add_distrib, ← hM, Finset.sum_const, nsmul_eq_mul]
      have h1 := pairs_card (n := n)
      have h2 : 2 * ((pairs n).card : ℝ) ≤ n * n := by exact_mod_cast h1
      have h3 : 0 ≤ (n : ℝ) * κ := mul_nonneg (Nat.cast_nonneg _) hκ0
      have := mul_le_mul_of_nonneg_right h2 h3
      have e : (n : ℝ) ^ 3 * κ = n * n * (n * κ) := by ring
      linarith
  have key := meas_ge_le_variance_div_sq lS ht
  rw [hmean] at key
  simp only [hS] at key
  exact key.trans (ENNReal.ofReal_le_ofReal (div_le_div_of_nonneg_right hvar (by positivity)))

end

end Girgs.PairIndep
