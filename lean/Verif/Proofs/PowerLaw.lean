import Mathlib.Probability.Independence.Integration
import Mathlib.Probability.Independence.Basic
import Mathlib.MeasureTheory.Integral.Layercake
import Mathlib.Analysis.SpecialFunctions.ImproperIntegrals
import Mathlib.Analysis.SpecialFunctions.Pow.Integral
import Mathlib.Analysis.Complex.ExponentialBounds
import Mathlib.MeasureTheory.Integral.Lebesgue.Markov
/-
Independent random variables with power law tails.
-/
namespace Girgs.PowerLaw
open MeasureTheory ProbabilityTheory
open scoped ENNReal

theorem exp_le_affine {x : ℝ} (h0 : 0 ≤ x) (h1 : x ≤ 3 / 4) : Real.exp x ≤ 1 + 3 / 2 * x := by
  have he : Real.exp (3 / 4) ≤ 17 / 8 := by
    have h := Real.exp_one_lt_d9
    have h2 : Real.exp (3 / 4) ^ 4 ≤ (17 / 8) ^ 4 := by
      rw [← Real.exp_nat_mul, show ((4 : ℕ) : ℝ) * (3 / 4) = (3 : ℕ) * 1 by norm_num, Real.exp_nat_mul]
      have : Real.exp 1 ^ 3 ≤ (2.7182818286 : ℝ) ^ 3 := pow_le_pow_left₀ (Real.exp_pos _).le h.le 3
      refine this.trans ?_
      norm_num
    exact le_of_pow_le_pow_left₀ (by norm_num) (by norm_num) h2
  have hc := convexOn_exp.2 (Set.mem_univ (0 : ℝ)) (Set.mem_univ (3 / 4 : ℝ))
    (show (0 : ℝ) ≤ 1 - 4 / 3 * x by linarith) (show (0 : ℝ) ≤ 4 / 3 * x by linarith) (by ring)
  simp only [smul_eq_mul, mul_zero, zero_add, Real.exp_zero, mul_one] at hc
  rw [show 4 / 3 * x * (3 / 4) = x by ring] at hc
  nlinarith

theorem rpow_le_exp {p x : ℝ} (hp : 0 < p) (hx : 0 ≤ x) : x ^ p ≤ (p / Real.exp 1) ^ p * Real.exp x := by
  rcases hx.eq_or_lt with rfl | hx
  · rw [Real.zero_rpow hp.ne']
    positivity
  have h := Real.log_le_sub_one_of_pos (div_pos hx hp)
  rw [Real.log_div hx.ne' hp.ne'] at h
  have e : (p / Real.exp 1) ^ p * Real.exp x = Real.exp (p * (Real.log p - 1) + x) := by
    rw [Real.rpow_def_of_pos (by positivity), Real.log_div hp.ne' (Real.exp_pos _).ne', Real.log_exp, ← Real.exp_add]
    ring_nf
  rw [e, Real.rpow_def_of_pos hx]
  refine Real.exp_le_exp.2 ?_
  have h2 := mul_le_mul_of_nonneg_left h hp.le
  have h3 : p * (x / p - 1) = x - p := by field_simp
  rw [h3] at h2
  linarith

variable {Ω : Type} [MeasurableSpace Ω] {P : Measure Ω} {n : ℕ} {W : Fin n → Ω → ℝ} {p : ℝ}

theorem mean_le [IsProbabilityMeasure P] {w : Ω → ℝ} (hm : Measurable w) (h0 : ∀ ω, 0 ≤ w ω) (hp : 1 < p)
    (ht : ∀ y : ℝ, 1 ≤ y → P {ω | y < w ω} ≤ ENNReal.ofReal (y ^ (-p))) : ∫⁻ ω, ENNReal.ofReal (w ω) ∂P ≤ ENNReal.ofReal (p / (p - 1)) := by
  rw [lintegral_eq_lintegral_meas_lt P (Filter.Eventually.of_forall h0) hm.aemeasurable]
  have hs : Set.Ioi (0 : ℝ) = Set.Ioc 0 1 ∪ Set.Ioi 1 := (Set.Ioc_union_Ioi_eq_Ioi zero_le_one).symm
  rw [hs]
  refine (lintegral_union_le _ _ _).trans ?_
  have h1 : ∫⁻ t in Set.Ioc (0 : ℝ) 1, P {ω | t < w ω} ≤ 1 := by
    refine (lintegral_mono (g := fun _ => 1) fun t => prob_le_one).trans ?_
    simp
  have h2 : ∫⁻ t in Set.Ioi (1 : ℝ), P {ω | t < w ω} ≤ ENNReal.ofReal (1 / (p - 1)) := by
    refine (setLIntegral_mono' measurableSet_Ioi fun t h => ht t (le_of_lt h)).trans ?_
    rw [← ofReal_integral_eq_lintegral_ofReal]
    · rw [integral_Ioi_rpow_of_lt (by linarith) one_pos, Real.one_rpow]
      refine ENNReal.ofReal_le_ofReal (le_of_eq ?_)
      rw [show -p + 1 = -(p - 1) by ring, neg_div_neg_eq]
    · exact integrableOn_Ioi_rpow_of_lt (by linarith) one_pos
    · refine (ae_restrict_mem measurableSet_Ioi).mono fun t h => ?_
      exact Real.rpow_nonneg (zero_le_one.trans (le_of_lt h)) _
  refine (add_le_add h1 h2).trans ?_
  rw [← ENNReal.ofReal_one, ← ENNReal.ofReal_add zero_le_one (div_nonneg zero_le_one (by linarith))]
  refine ENNReal.ofReal_le_ofReal (le_of_eq ?_)
  have : p - 1 ≠ 0 := by linarith
  field_simp
  ring

/-- independent weights with a power law tail, as `generateWeights` returns them -/
structure Tails (P : Measure Ω) (W : Fin n → Ω → ℝ) (p : ℝ) : Prop where
  n3 : 3 ≤ n
  p1 : 1 < p
  ind : iIndepFun W P
  meas : ∀ i, Measurable (W i)
  range : ∀ i ω, 1 ≤ W i ω ∧ W i ω ≤ n / 2
  upper : ∀ i (y : ℝ), 0 < y → P {ω | y < W i ω} ≤ ENNReal.ofReal (y ^ (-p))
  lower : ∀ i (y : ℝ), 1 ≤ y → ENNReal.ofReal (y ^ (-p) - ((n : ℝ) / 2) ^ (-p)) ≤ P {ω | y < W i ω}

/-- the sum of the other weights -/
noncomputable def rest (W : Fin n → Ω → ℝ) (u : Fin n) (ω : Ω) : ℝ := ∑ v ∈ Finset.univ.erase u, W v ω

variable [IsProbabilityMeasure P]

theorem rest_meas (h : Tails P W p) (u : Fin n) : Measurable (rest W u) := by
  unfold rest
  exact Finset.measurable_sum _ fun v _ => h.meas v

theorem Tails.n3R (h : Tails P W p) : (3 : ℝ) ≤ n := by exact_mod_cast h.n3

theorem rest_exp (h : Tails P W p) (u : Fin n) : ∫⁻ ω, ENNReal.ofReal (Real.exp (rest W u ω / (n - 1))) ∂P ≤ ENNReal.ofReal (Real.exp (3 / 2 * (p / (p - 1)))) := by
  have hn := h.n3R
  have hn1 : (0 : ℝ) < n - 1 := by linarith
  have hmm : Measurable fun x : ℝ => ENNReal.ofReal (Real.exp (x / (n - 1))) := (Real.measurable_exp.comp (measurable_id.div_const _)).ennreal_ofReal
  have e : ∀ ω, ENNReal.ofReal (Real.exp (rest W u ω / (n - 1))) = ∏ v ∈ Finset.univ.erase u, ENNReal.ofReal (Real.exp (W v ω / (n - 1))) := by
    intro ω
    rw [← ENNReal.ofReal_prod_of_nonneg fun v _ => (Real.exp_pos _).le, ← Real.exp_sum, rest, Finset.sum_div]
  have hi := h.ind.comp (fun _ x => ENNReal.ofReal (Real.exp (x / (n - 1)))) fun _ => hmm
  rw [lintegral_congr e, lintegral_prod_eq_prod_lintegral_of_indepFun _ (fun v ω => ENNReal.ofReal (Real.exp (W v ω / (n - 1)))) hi
    fun v => hmm.comp (h.meas v)]
  have h1 : ∀ v ∈ Finset.univ.erase u, ∫⁻ ω, ENNReal.ofReal (Real.exp (W v ω / (n - 1))) ∂P ≤ ENNReal.ofReal (Real.exp (3 / 2 * (p / (p - 1)) / (n - 1))) := by
    intro v _
    have hw : ∀ ω, ENNReal.ofReal (Real.exp (W v ω / (n - 1))) ≤ 1 + ENNReal.ofReal (3 / 2 / (n - 1)) * ENNReal.ofReal (W v ω) := by
      intro ω
      obtain ⟨r1, r2⟩ := h.range v ω
      rw [← ENNReal.ofReal_mul (by positivity), ← ENNReal.ofReal_one, ← ENNReal.ofReal_add zero_le_one (by positivity)]
      refine ENNReal.ofReal_le_ofReal ((exp_le_affine (by positivity) ?_).trans (le_of_eq (by ring)))
      rw [div_le_iff₀ hn1]
      linarith
    refine (lintegral_mono hw).trans ?_
    rw [lintegral_add_left measurable_const, lintegral_const_mul _ (h.meas v).ennreal_ofReal]
    have hE := mean_le (h.meas v) (fun ω => zero_le_one.trans (h.range v ω).1) h.p1 fun y hy => h.upper v y (by linarith)
    have hp1 := h.p1
    have hpp : 0 < p / (p - 1) := div_pos (by linarith) (by linarith)
    refine (add_le_add le_rfl (mul_le_mul le_rfl hE bot_le bot_le)).trans ?_
    simp only [lintegral_const, measure_univ, mul_one]
    rw [← ENNReal.ofReal_mul (by positivity), ← ENNReal.ofReal_one, ← ENNReal.ofReal_add zero_le_one (by positivity)]
    refine ENNReal.ofReal_le_ofReal ?_
    have := Real.add_one_le_exp (3 / 2 * (p / (p - 1)) / (n - 1))
    refine le_trans (le_of_eq ?_) this
    ring
  refine (Finset.prod_le_prod' h1).trans ?_
  rw [Finset.prod_const, Finset.card_erase_of_mem (Finset.mem_univ _), Finset.card_univ, Fintype.card_fin, ← ENNReal.ofReal_pow (Real.exp_pos _).le,
    ← Real.exp_nat_mul, Nat.cast_sub (by have := h.n3; omega), Nat.cast_one]
  refine ENNReal.ofReal_le_ofReal (Real.exp_le_exp.2 (le_of_eq ?_))
  field_simp

theorem rest_nonneg (h : Tails P W p) (u : Fin n) (ω : Ω) : 0 ≤ rest W u ω :=
  Finset.sum_nonneg fun v _ => zero_le_one.trans (h.range v ω).1

theorem rest_pos (h : Tails P W p) (u : Fin n) (ω : Ω) : 0 < rest W u ω := by
  unfold rest
  refine Finset.sum_pos (fun v _ => zero_lt_one.trans_le (h.range v ω).1) ?_
  rw [← Finset.card_pos, Finset.card_erase_of_mem (Finset.mem_univ _), Finset.card_univ, Fintype.card_fin]
  have := h.n3
  omega

theorem rest_indep (h : Tails P W p) (u : Fin n) : IndepFun (W u) (rest W u) P := by
  have := h.ind.indepFun_finset_sum_of_notMem h.meas (s := Finset.univ.erase u) (i := u) (Finset.notMem_erase u _)
  have e : rest W u = ∑ v ∈ Finset.univ.erase u, W v := by
    funext ω
    simp [rest]
  rw [e]
  exact this.symm

/-- the tail of the product of a weight and the sum of the other weights -/
theorem product_tail (h : Tails P W p) (u : Fin n) {c : ℝ} (hc : 0 < c) :
    P {ω | c < W u ω * rest W u ω} ≤ ENNReal.ofReal (Real.exp (3 / 2 * (p / (p - 1))) * ((n - 1) * p / (Real.exp 1 * c)) ^ p) := by
  have hn := h.n3R
  have hn1 : (0 : ℝ) < n - 1 := by linarith
  have hp0 : 0 < p := by linarith [h.p1]
  have hr := rest_meas h u
  have hmap := (indepFun_iff_map_prod_eq_prod_map_map (h.meas u).aemeasurable hr.aemeasurable).1 (rest_indep h u)
  have hset : MeasurableSet {z : ℝ × ℝ | c < z.1 * z.2} := measurableSet_lt measurable_const (measurable_fst.mul measurable_snd)
  have e1 : P {ω | c < W u ω * rest W u ω} = P.map (fun ω => (W u ω, rest W u ω)) {z : ℝ × ℝ | c < z.1 * z.2} := by
    rw [Measure.map_apply ((h.meas u).prodMk hr) hset]
    rfl
  have : IsProbabilityMeasure (P.map (W u)) := Measure.isProbabilityMeasure_map (h.meas u).aemeasurable
  have : IsProbabilityMeasure (P.map (rest W u)) := Measure.isProbabilityMeasure_map hr.aemeasurable
  rw [e1, hmap, Measure.prod_apply_symm hset]
  have hslice : Measurable fun y => P.map (W u) ((fun x => (x, y)) ⁻¹' {z : ℝ × ℝ | c < z.1 * z.2}) := measurable_measure_prodMk_right hset
  rw [lintegral_map hslice hr]
  have h1 : ∀ ω, P.map (W u) ((fun x => (x, rest W u ω)) ⁻¹' {z : ℝ × ℝ | c < z.1 * z.2}) ≤
      ENNReal.ofReal (((n - 1) * p / (Real.exp 1 * c)) ^ p) * ENNReal.ofReal (Real.exp (rest W u ω / (n - 1))) := by
    intro ω
    have hs := rest_pos h u ω
    have e2 : (fun x => (x, rest W u ω)) ⁻¹' {z : ℝ × ℝ | c < z.1 * z.2} = Set.Ioi (c / rest W u ω) := by
      ext x
      simp only [Set.mem_preimage, Set.mem_setOf_eq, Set.mem_Ioi]
      rw [div_lt_iff₀ hs]
    rw [e2, Measure.map_apply (h.meas u) measurableSet_Ioi]
    refine (h.upper u _ (div_pos hc hs)).trans ?_
    rw [← ENNReal.ofReal_mul (by positivity)]
    refine ENNReal.ofReal_le_ofReal ?_
    have e3 : (c / rest W u ω) ^ (-p) = (rest W u ω / (n - 1)) ^ p * ((n - 1) / c) ^ p := by
      rw [Real.rpow_neg (by positivity), ← Real.inv_rpow (by positivity), ← Real.mul_rpow (by positivity) (by positivity)]
      congr 1
      field_simp
    have e4 : ((n - 1) * p / (Real.exp 1 * c)) ^ p = (p / Real.exp 1) ^ p * ((n - 1) / c) ^ p := by
      rw [← Real.mul_rpow (by positivity) (by positivity)]
      congr 1
      field_simp
    rw [e3, e4]
    have h5 := rpow_le_exp hp0 (x := rest W u ω / (n - 1)) (by positivity)
    have h6 : 0 ≤ ((n - 1 : ℝ) / c) ^ p := by positivity
    calc _ ≤ (p / Real.exp 1) ^ p * Real.exp (rest W u ω / (n - 1)) * ((n - 1) / c) ^ p := mul_le_mul_of_nonneg_right h5 h6
      _ = _ := by ring
  refine (lintegral_mono h1).trans ?_
  have hm2 : Measurable fun ω => ENNReal.ofReal (Real.exp (rest W u ω / (n - 1))) := (Real.measurable_exp.comp (hr.div_const _)).ennreal_ofReal
  rw [lintegral_const_mul _ hm2]
  refine (mul_le_mul le_rfl (rest_exp h u) bot_le bot_le).trans ?_
  rw [← ENNReal.ofReal_mul (by positivity)]
  exact ENNReal.ofReal_le_ofReal (le_of_eq (by ring))

/-- a weight is large and the sum of the others is not -/
theorem product_lower (h : Tails P W p) (u : Fin n) {y : ℝ} (hy : 1 ≤ y) :
    ENNReal.ofReal ((y ^ (-p) - ((n : ℝ) / 2) ^ (-p)) / 2) ≤ P {ω | y < W u ω ∧ rest W u ω ≤ 2 * (p / (p - 1)) * n} := by
  have hn := h.n3R
  have hp1 := h.p1
  have hpp : 0 < p / (p - 1) := div_pos (by linarith) (by linarith)
  have hr := rest_meas h u
  have hi := (rest_indep h u).measure_inter_preimage_eq_mul (Set.Ioi y) (Set.Iic (2 * (p / (p - 1)) * n)) measurableSet_Ioi measurableSet_Iic
  have e : {ω | y < W u ω ∧ rest W u ω ≤ 2 * (p / (p - 1)) * n} = W u ⁻¹' Set.Ioi y ∩ rest W u ⁻¹' Set.Iic (2 * (p / (p - 1)) * n) := by
    ext ω; simp
  rw [e, hi]
  have hE : ∫⁻ ω, ENNReal.ofReal (rest W u ω) ∂P ≤ ENNReal.ofReal ((n - 1) * (p / (p - 1))) := by
    have e2 : ∀ ω, ENNReal.ofReal (rest W u ω) = ∑ v ∈ Finset.univ.erase u, ENNReal.ofReal (W v ω) := fun ω =>
      ENNReal.ofReal_sum_of_nonneg fun v _ => zero_le_one.trans (h.range v ω).1
    rw [lintegral_congr e2, lintegral_finsetSum _ fun v _ => (h.meas v).ennreal_ofReal]
    refine (Finset.sum_le_sum fun v _ => mean_le (h.meas v) (fun ω => zero_le_one.trans (h.range v ω).1) h.p1 fun y hy => h.upper v y (by linarith)).trans ?_
    rw [Finset.sum_const, Finset.card_erase_of_mem (Finset.mem_univ _), Finset.card_univ, Fintype.card_fin, nsmul_eq_mul, ENNReal.ofReal_mul (by linarith)]
    refine mul_le_mul (le_of_eq ?_) le_rfl bot_le bot_le
    rw [show (n : ℝ) - 1 = ((n - 1 : ℕ) : ℝ) by rw [Nat.cast_sub (by have := h.n3; omega)]; simp, ENNReal.ofReal_natCast]
  have hbad : P {ω | 2 * (p / (p - 1)) * n < rest W u ω} ≤ ENNReal.ofReal (1 / 2) := by
    have hc : 0 < 2 * (p / (p - 1)) * n := by positivity
    have hsub : {ω | 2 * (p / (p - 1)) * n < rest W u ω} ⊆ {ω | ENNReal.ofReal (2 * (p / (p - 1)) * n) ≤ ENNReal.ofReal (rest W u ω)} := fun ω hω =>
      ENNReal.ofReal_le_ofReal (le_of_lt hω)
    refine (measure_mono hsub).trans ((meas_ge_le_lintegral_div hr.ennreal_ofReal.aemeasurable (by simpa using hc) ENNReal.ofReal_ne_top).trans ?_)
    refine (ENNReal.div_le_div_right hE _).trans ?_
    rw [← ENNReal.ofReal_div_of_pos hc]
    refine ENNReal.ofReal_le_ofReal ?_
    rw [div_le_div_iff₀ hc two_pos]
    nlinarith
  have hgood : ENNReal.ofReal (1 / 2) ≤ P (rest W u ⁻¹' Set.Iic (2 * (p / (p - 1)) * n)) := by
    have h1 := prob_add_prob_compl (μ := P) (hr measurableSet_Iic : MeasurableSet (rest W u ⁻¹' Set.Iic (2 * (p / (p - 1)) * n)))
    have e3 : (rest W u ⁻¹' Set.Iic (2 * (p / (p - 1)) * n))ᶜ = {ω | 2 * (p / (p - 1)) * n < rest W u ω} := by
      ext ω; simp
    rw [e3] at h1
    have h2 : (1 : ℝ≥0∞) = ENNReal.ofReal (1 / 2) + ENNReal.ofReal (1 / 2) := by
      rw [← ENNReal.ofReal_add (by norm_num) (by norm_num)]; norm_num
    by_contra hlt
    push Not at hlt
    have := ENNReal.add_lt_add_of_lt_of_le (ne_top_of_le_ne_top ENNReal.ofReal_ne_top hbad) hlt hbad
    rw [h1, ← h2] at this
    exact lt_irrefl _ this
  refine le_trans ?_ (mul_le_mul (h.lower u y hy) hgood bot_le bot_le)
  rw [← ENNReal.ofReal_mul' (by norm_num)]
  exact ENNReal.ofReal_le_ofReal (le_of_eq (by ring))

end Girgs.PowerLaw
