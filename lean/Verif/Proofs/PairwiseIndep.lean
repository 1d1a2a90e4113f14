import Verif.Proofs.Law
import Mathlib.Probability.Moments.Variance
/-
Sums over all pairs of a homogeneous function of two of `n` independent points: the terms are uncorrelated.
-/
namespace Girgs.PairIndep
open MeasureTheory ProbabilityTheory
open scoped ENNReal

section
variable {α : Type} [MeasurableSpace α] (lam : Measure α) [IsProbabilityMeasure lam] {n : ℕ}

theorem update_lintegral (v : Fin n) {F : (Fin n → α) → ℝ≥0∞} (hF : Measurable F) :
    ∫⁻ x, F x ∂(Measure.pi fun _ : Fin n => lam) = ∫⁻ x, ∫⁻ q, F (Function.update x v q) ∂lam ∂(Measure.pi fun _ : Fin n => lam) := by
  rcases isEmpty_or_nonempty (Fin n → α) with he | ⟨⟨s0⟩⟩
  · have : (Measure.pi fun _ : Fin n => lam) = 0 := Measure.eq_zero_of_isEmpty _
    simp [this]
  have hG : Measurable fun x : Fin n → α => ∫⁻ q, F (Function.update x v q) ∂lam :=
    Measurable.lintegral_prod_right' (f := fun p : (Fin n → α) × α => F (Function.update p.1 v p.2)) (hF.comp measurable_update')
  rw [lintegral_eq_lmarginal_univ s0, lintegral_eq_lmarginal_univ s0, lmarginal_erase' F hF (Finset.mem_univ v), lmarginal_erase' _ hG (Finset.mem_univ v)]
  congr 1
  funext x
  simp only [Function.update_idem, lintegral_const, measure_univ, mul_one]

theorem ae_eval (v : Fin n) {p : α → Prop} (h : ∀ᵐ q ∂lam, p q) : ∀ᵐ x ∂(Measure.pi fun _ : Fin n => lam), p (x v) :=
  (measurePreserving_eval (fun _ : Fin n => lam) v).quasiMeasurePreserving.ae h

/-- a function of the points `u`, `v`, multiplied by one that does not depend on `v` -/
theorem factor {u v : Fin n} (huv : u ≠ v) {f : α → α → ℝ≥0∞} (hf : Measurable fun z : α × α => f z.1 z.2) {k : ℝ≥0∞} (hk : ∀ᵐ q ∂lam, ∫⁻ p, f q p ∂lam = k)
    {G : (Fin n → α) → ℝ≥0∞} (hG : Measurable G) (hGv : ∀ x q, G (Function.update x v q) = G x) :
    ∫⁻ x, f (x u) (x v) * G x ∂(Measure.pi fun _ : Fin n => lam) = k * ∫⁻ x, G x ∂(Measure.pi fun _ : Fin n => lam) := by
  have h1 : Measurable fun x : Fin n → α => (x u, x v) := by fun_prop
  have hm : Measurable fun x : Fin n → α => f (x u) (x v) := hf.comp h1
  have hFG : Measurable fun x : Fin n → α => f (x u) (x v) * G x := hm.mul hG
  rw [update_lintegral lam v hFG, ← lintegral_const_mul _ hG]
  refine lintegral_congr_ae ?_
  filter_upwards [ae_eval lam u hk] with x hx
  simp only [hGv, Function.update_self, Function.update_of_ne huv]
  have h2 : Measurable fun q : α => (x u, q) := by fun_prop
  have h3 : Measurable fun q : α => f (x u) q := hf.comp h2
  rw [lintegral_mul_const _ h3, hx]

/-- the pairs of `n` nodes -/
def pairs (n : ℕ) : Finset (Fin n × Fin n) := {e | e.1 < e.2}

theorem mem_pairs {e : Fin n × Fin n} : e ∈ pairs n ↔ e.1 < e.2 := by simp [pairs]

variable {f : Fin n × Fin n → α → α → ℝ} {k : Fin n × Fin n → ℝ}

theorem uncorrelated (hm : ∀ e, Measurable fun z : α × α => f e z.1 z.2) (hsym : ∀ e p q, f e p q = f e q p)
    (hk : ∀ e, ∀ᵐ q ∂lam, ∫⁻ p, ENNReal.ofReal (f e q p) ∂lam = ENNReal.ofReal (k e)) :
    (∀ e ∈ pairs n, ∫⁻ x, ENNReal.ofReal (f e (x e.1) (x e.2)) ∂(Measure.pi fun _ : Fin n => lam) = ENNReal.ofReal (k e)) ∧
    ∀ e ∈ pairs n, ∀ e' ∈ pairs n, e ≠ e' → ∫⁻ x, ENNReal.ofReal (f e (x e.1) (x e.2)) * ENNReal.ofReal (f e' (x e'.1) (x e'.2)) ∂(Measure.pi fun _ : Fin n => lam) =
      ENNReal.ofReal (k e) * ENNReal.ofReal (k e') := by
  have hf : ∀ e, Measurable fun z : α × α => ENNReal.ofReal (f e z.1 z.2) := fun e => (hm e).ennreal_ofReal
  have hx : ∀ a b : Fin n, Measurable fun x : Fin n → α => (x a, x b) := fun a b => by fun_prop
  have one : ∀ e ∈ pairs n, ∫⁻ x, ENNReal.ofReal (f e (x e.1) (x e.2)) ∂(Measure.pi fun _ : Fin n => lam) = ENNReal.ofReal (k e) := by
    intro e he
    have := factor lam (mem_pairs.1 he).ne (hf e) (hk e) (G := fun _ => 1) measurable_const (fun _ _ => rfl)
    simpa using this
  refine ⟨one, fun e he e' he' hne => ?_⟩
  have l1 := mem_pairs.1 he
  have l2 := mem_pairs.1 he'
  have hG : Measurable fun x : Fin n → α => ENNReal.ofReal (f e' (x e'.1) (x e'.2)) := (hf e').comp (hx _ _)
  by_cases h : e.2 = e'.1 ∨ e.2 = e'.2
  · have h1 : e'.1 ≠ e.1 ∧ e'.2 ≠ e.1 := by
      constructor
      · intro h1
        rcases h with h2 | h2
        · rw [h2, h1] at l1; exact absurd l1 (lt_irrefl _)
        · exact hne (Prod.ext h1.symm h2)
      · intro h1
        rcases h with h2 | h2
        · rw [h1, ← h2] at l2; exact absurd (l1.trans l2) (lt_irrefl _)
        · rw [h2, h1] at l1; exact absurd l1 (lt_irrefl _)
    have := factor lam l1.ne' (hf e) (hk e) hG (fun x q => by
      simp only [Function.update_of_ne h1.1, Function.update_of_ne h1.2])
    rw [one e' he'] at this
    rw [← this]
    refine lintegral_congr fun x => ?_
    rw [hsym e]
  · push Not at h
    have := factor lam l1.ne (hf e) (hk e) hG (fun x q => by
      simp only [Function.update_of_ne h.1.symm, Function.update_of_ne h.2.symm])
    rwa [one e' he'] at this


/-- the sum over all pairs is close to its mean -/
theorem deviation (hm : ∀ e, Measurable fun z : α × α => f e z.1 z.2) (hsym : ∀ e p q, f e p q = f e q p) (hb : ∀ e p q, 0 ≤ f e p q ∧ f e p q ≤ 1)
    (hk0 : ∀ e, 0 ≤ k e) (hk : ∀ e, ∀ᵐ q ∂lam, ∫⁻ p, ENNReal.ofReal (f e q p) ∂lam = ENNReal.ofReal (k e)) {t : ℝ} (ht : 0 < t) :
    (Measure.pi fun _ : Fin n => lam) {x | t ≤ |(∑ e ∈ pairs n, f e (x e.1) (x e.2)) - ∑ e ∈ pairs n, k e|} ≤ ENNReal.ofReal ((∑ e ∈ pairs n, k e) / t ^ 2) := by
  obtain ⟨h1, h2⟩ := uncorrelated lam hm hsym hk
  set π := Measure.pi fun _ : Fin n => lam with hπ
  set Y : Fin n × Fin n → (Fin n → α) → ℝ := fun e x => f e (x e.1) (x e.2) with hY
  have hx : ∀ a b : Fin n, Measurable fun x : Fin n → α => (x a, x b) := fun a b => by fun_prop
  have mY : ∀ e, Measurable (Y e) := fun e => (hm e).comp (hx _ _)
  have bY : ∀ e x, 0 ≤ Y e x ∧ Y e x ≤ 1 := fun e x => hb e _ _
  have lY : ∀ e, MemLp (Y e) 2 π := fun e => MemLp.of_bound (mY e).aestronglyMeasurable 1 (Filter.Eventually.of_forall fun x => by
    rw [Real.norm_eq_abs, abs_of_nonneg (bY e x).1]; exact (bY e x).2)
  have iY : ∀ e ∈ pairs n, ∫ x, Y e x ∂π = k e := by
    intro e he
    rw [integral_eq_lintegral_of_nonneg_ae (Filter.Eventually.of_forall fun x => (bY e x).1) (mY e).aestronglyMeasurable, h1 e he, ENNReal.toReal_ofReal (hk0 e)]
  have cov : ∀ e ∈ pairs n, ∀ e' ∈ pairs n, cov[Y e, Y e'; π] ≤ if e = e' then k e else 0 := by
    intro e he e' he'
    rw [covariance_eq_sub (lY e) (lY e'), iY e he, iY e' he']
    split_ifs with h
    · subst h
      have h3 : ∫ x, (Y e * Y e) x ∂π ≤ ∫ x, Y e x ∂π := by
        refine integral_mono_of_nonneg (Filter.Eventually.of_forall fun x => mul_nonneg (bY e x).1 (bY e x).1) ((lY e).integrable (by norm_num))
          (Filter.Eventually.of_forall fun x => ?_)
        exact mul_le_of_le_one_left (bY e x).1 (bY e x).2
      rw [iY e he] at h3
      nlinarith [mul_nonneg (hk0 e) (hk0 e)]
    · have h3 : ∫ x, (Y e * Y e') x ∂π = k e * k e' := by
        have hm2 : Measurable (Y e * Y e') := (mY e).mul (mY e')
        have h0 : 0 ≤ᵐ[π] (Y e * Y e') := Filter.Eventually.of_forall fun x => mul_nonneg (bY e x).1 (bY e' x).1
        rw [integral_eq_lintegral_of_nonneg_ae h0 hm2.aestronglyMeasurable]
        have e1 : ∀ x, ENNReal.ofReal ((Y e * Y e') x) = ENNReal.ofReal (f e (x e.1) (x e.2)) * ENNReal.ofReal (f e' (x e'.1) (x e'.2)) := fun x => by
          rw [Pi.mul_apply, ENNReal.ofReal_mul (bY e x).1]
        simp only [e1]
        rw [h2 e he e' he' h, ← ENNReal.ofReal_mul (hk0 e), ENNReal.toReal_ofReal (mul_nonneg (hk0 e) (hk0 e'))]
      linarith [h3]
  have lS : MemLp (∑ e ∈ pairs n, Y e) 2 π := memLp_finsetSum' _ fun e _ => lY e
  have hS : ∀ x, (∑ e ∈ pairs n, Y e) x = ∑ e ∈ pairs n, f e (x e.1) (x e.2) := fun x => by rw [Finset.sum_apply]
  have hmean : ∫ x, (∑ e ∈ pairs n, Y e) x ∂π = ∑ e ∈ pairs n, k e := by
    simp only [Finset.sum_apply]
    rw [integral_finset_sum _ fun e _ => (lY e).integrable (by norm_num)]
    exact Finset.sum_congr rfl iY
  have hvar : Var[∑ e ∈ pairs n, Y e; π] ≤ ∑ e ∈ pairs n, k e := by
    rw [variance_sum' fun e _ => lY e]
    refine Finset.sum_le_sum fun e he => (Finset.sum_le_sum fun e' he' => cov e he e' he').trans (le_of_eq ?_)
    rw [Finset.sum_ite_eq, if_pos he]
  have key := meas_ge_le_variance_div_sq lS ht
  rw [hmean] at key
  simp only [hS] at key
  refine key.trans (ENNReal.ofReal_le_ofReal ?_)
  exact div_le_div_of_nonneg_right hvar (by positivity)

end

end Girgs.PairIndep
