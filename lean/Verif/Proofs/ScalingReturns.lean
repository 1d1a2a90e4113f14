import Verif.Proofs.ScaledDegree
/-
When `scaleWeights` returns, and what it has achieved then.
-/
namespace Girgs.Scaling
open Spec Filter Topology
open XR (fin)

variable {S : Type}

/-- the search over an estimator of the expected degree -/
theorem est_returns_iff {n : ℕ} {b : ℕ → ℝ} {P X : ℝ → ℝ} (hb : Weights n b) (hP : ConnFn P) (hn : 2 ≤ n)
    (hX0 : ∀ c, 0 < c → 0 < X c) (hXm : ∀ c c', 0 < c → c < c' → X c < X c') (hXc : ∀ c, 0 < c → ContinuousAt X c)
    (hsmall : ∀ δ, 0 < δ → ∃ c, 0 < c ∧ X c < δ) (hlarge : ∀ M, ∃ c, 0 < c ∧ M ≤ X c)
    {f : XR → S → Option (XR × S)} {Inv : S → Prop} (hf : Evaluates f Inv fun c v => EstVal n b P (X c) v) {st : S} (hst : Inv st) (des : ℝ) :
    ((∃ c, Returns f (fin des) st c) ↔ 0 < des ∧ des ≤ n - 1) ∧ (¬ (0 < des ∧ des ≤ n - 1) → Diverges f (fin des) st) := by
  have hdiv : ¬ (0 < des ∧ des ≤ n - 1) → Diverges f (fin des) st := by
    intro h
    rcases le_or_gt des 0 with h0 | h0
    · exact search_diverges_low hf hst fun x hx v hv => h0.trans_lt (EstVal.positive hb hP (hX0 x hx) hn hv)
    · have h1 : (n : ℝ) - 1 < des := by by_contra hc; exact h ⟨h0, not_lt.1 hc⟩
      exact search_diverges_high hf hst fun x hx v hv => (EstVal.le hb hP (hX0 x hx) (by omega) hv).trans_lt h1
  refine ⟨⟨?_, ?_⟩, hdiv⟩
  · rintro ⟨c, k, st', hk⟩
    by_contra h
    obtain ⟨s, hs⟩ := hdiv h k
    rw [hs] at hk
    cases hk
  · rintro ⟨h0, h1⟩
    refine search_returns hf (estVal_downJumps hb hP (by omega) hX0 hXm hXc) hst ?_ ?_
    · have hmin : 0 < b (n - 1) := hb.pos _ (by omega)
      obtain ⟨c, hc, hcX⟩ := hlarge (1 / (b (n - 1) * b (n - 1)))
      refine ⟨c, fun x hx v hv => ?_⟩
      have hXx : 1 / (b (n - 1) * b (n - 1)) ≤ X x := by
        rcases hx.lt_or_eq with h | h
        · exact hcX.trans (hXm _ _ hc h).le
        · rw [← h]; exact hcX
      rw [EstVal.saturated hP (by omega) ?_ hv]
      · exact h1
      · intro i hi j hj
        have hbi : b (n - 1) ≤ b i := hb.anti _ _ (by omega) (by omega)
        have hbj : b (n - 1) ≤ b j := hb.anti _ _ (by omega) (by omega)
        have hx0 := hX0 x (hc.trans_le hx)
        have hbi0 := hmin.le.trans hbi
        calc (1 : ℝ) = 1 / (b (n - 1) * b (n - 1)) * (b (n - 1) * b (n - 1)) := by field_simp
          _ ≤ X x * (b i * b j) := by gcongr
          _ = X x * b i * b j := by ring
    · obtain ⟨δ, hδ, h⟩ := EstVal.small hb hP (by omega) h0
      obtain ⟨c, hc, hcX⟩ := hsmall δ hδ
      refine ⟨c, hc, fun x hx hxc v hv => h _ (hX0 x hx) ?_ v hv⟩
      rcases hxc.lt_or_eq with h | h
      · exact (hXm _ _ hx h).trans hcX
      · rw [h]; exact hcX

/-- the argument of the threshold estimator -/
theorem thresholdX_props {W : ℝ} (hW : 0 < W) {d : ℕ} (hd : 1 ≤ d) :
    (∀ c, 0 < c → 0 < (2 * c) ^ (d : ℝ) / W) ∧
    (∀ c c', 0 < c → c < c' → (2 * c) ^ (d : ℝ) / W < (2 * c') ^ (d : ℝ) / W) ∧
    (∀ c, 0 < c → ContinuousAt (fun c : ℝ => (2 * c) ^ (d : ℝ) / W) c) ∧
    (∀ δ, 0 < δ → ∃ c, 0 < c ∧ (2 * c) ^ (d : ℝ) / W < δ) ∧ (∀ M, ∃ c, 0 < c ∧ M ≤ (2 * c) ^ (d : ℝ) / W) := by
  have hd0 : (d : ℝ) ≠ 0 := by exact_mod_cast (by omega : d ≠ 0)
  have hdp : (0 : ℝ) < d := by exact_mod_cast hd
  refine ⟨fun c hc => by positivity, fun c c' hc h => ?_, fun c hc => ?_, fun δ hδ => ?_, fun M => ?_⟩
  · have : (2 * c) ^ (d : ℝ) < (2 * c') ^ (d : ℝ) := Real.rpow_lt_rpow (by linarith) (by linarith) hdp
    gcongr
  · exact ((continuousAt_const.mul continuousAt_id).rpow_const (Or.inr hdp.le)).div_const _
  · refine ⟨(δ * W / 2) ^ (1 / d : ℝ) / 2, by positivity, ?_⟩
    rw [mul_div_cancel₀ _ (two_ne_zero), ← Real.rpow_mul (by positivity), one_div_mul_cancel hd0, Real.rpow_one]
    rw [div_lt_iff₀ hW]
    nlinarith [mul_pos hδ hW]
  · refine ⟨((|M| + 1) * W) ^ (1 / d : ℝ) / 2, by positivity, ?_⟩
    rw [mul_div_cancel₀ _ (two_ne_zero), ← Real.rpow_mul (by positivity), one_div_mul_cancel hd0, Real.rpow_one,
      mul_div_cancel_right₀ _ hW.ne']
    linarith [le_abs_self M]

/-- the argument of the general estimator -/
theorem alphaX_props {W : ℝ} (hW : 0 < W) (d : ℕ) {α : ℝ} (hα : 0 < α) :
    (∀ c, 0 < c → 0 < alphaX d α W c) ∧
    (∀ c c', 0 < c → c < c' → alphaX d α W c < alphaX d α W c') ∧
    (∀ c, 0 < c → ContinuousAt (fun c : ℝ => alphaX d α W c) c) ∧
    (∀ δ, 0 < δ → ∃ c, 0 < c ∧ alphaX d α W c < δ) ∧ (∀ M, ∃ c, 0 < c ∧ M ≤ alphaX d α W c) := by
  have hi : 0 < 1 / α := by positivity
  have h2 : (0 : ℝ) < 2 ^ d := by positivity
  have key : ∀ y, 0 < y → alphaX d α W (y ^ α) = 2 ^ d * y / W := by
    intro y hy
    unfold alphaX
    rw [← Real.rpow_mul hy.le, mul_one_div_cancel hα.ne', Real.rpow_one]
  refine ⟨fun c hc => alphaX_pos hW hc, fun c c' hc h => ?_, fun c hc => ?_, fun δ hδ => ?_, fun M => ?_⟩
  · have : c ^ (1 / α) < c' ^ (1 / α) := Real.rpow_lt_rpow hc.le h hi
    unfold alphaX
    gcongr
  · unfold alphaX
    exact (continuousAt_const.mul (continuousAt_id.rpow_const (Or.inr hi.le))).div_const _
  · refine ⟨(δ * W / 2 / 2 ^ d) ^ α, by positivity, ?_⟩
    rw [key _ (by positivity), mul_div_cancel₀ _ h2.ne', div_lt_iff₀ hW]
    nlinarith [mul_pos hδ hW]
  · refine ⟨((|M| + 1) * W / 2 ^ d) ^ α, by positivity, ?_⟩
    rw [key _ (by positivity), mul_div_cancel₀ _ h2.ne', mul_div_cancel_right₀ _ hW.ne']
    linarith [le_abs_self M]

/-- comparison of the two closed forms for `α > 1` -/
theorem probAlpha_bounds {α t : ℝ} (hα : 1 < α) (ht : 0 < t) :
    probThreshold t ≤ probAlpha α t ∧ probAlpha α t ≤ α / (α - 1) * probThreshold t := by
  have h1 : 0 < α - 1 := by linarith
  unfold probThreshold probAlpha
  split_ifs with h
  · rw [min_eq_left h]
    refine ⟨le_rfl, ?_⟩
    rw [mul_one, le_div_iff₀ h1]; linarith
  · push Not at h
    rw [min_eq_right h.le]
    unfold rawAlpha
    have h2 : t ^ α ≤ t := by
      conv_rhs => rw [← Real.rpow_one t]
      exact Real.rpow_le_rpow_of_exponent_ge ht h.le hα.le
    have h3 : 0 ≤ t ^ α := Real.rpow_nonneg ht.le _
    constructor
    · have : 0 ≤ (t - t ^ α) / (α - 1) := div_nonneg (by linarith) h1.le
      linarith
    · have : (t - t ^ α) / (α - 1) ≤ t / (α - 1) := by gcongr; linarith
      have e : α / (α - 1) * t = t + t / (α - 1) := by field_simp; ring
      linarith

theorem pairSum_mono {n : ℕ} {f g : ℕ → ℕ → ℝ} (h : ∀ i < n, ∀ j < n, f i j ≤ g i j) : pairSum n f ≤ pairSum n g := by
  rw [pairSum_eq, pairSum_eq]
  refine Finset.sum_le_sum fun i hi => Finset.sum_le_sum fun j hj => ?_
  exact h i (Finset.mem_range.1 hi) j (Finset.mem_range.1 (Finset.mem_erase.1 hj).2)

theorem pairSum_mul_left {n : ℕ} (k : ℝ) (f : ℕ → ℕ → ℝ) : pairSum n (fun i j => k * f i j) = k * pairSum n f := by
  rw [pairSum_eq, pairSum_eq, Finset.mul_sum]
  exact Finset.sum_congr rfl fun i _ => (Finset.mul_sum _ _ _).symm

/-- for `α > 1` the expected average degree lies between that of the threshold model and `α/(α-1)` times that -/
theorem girgDegree_threshold {D : ℕ} (hD : 1 ≤ D) {w : List ℝ} (hw : ∀ y ∈ w, 0 < y) (hne : w ≠ []) {s : ℝ} (hs : 0 < s)
    {α : ℝ} (hα : 1 < α) :
    thresholdGirgDegree D (w.map (· * s)) ≤ girgDegree D α (w.map (· * s)) ∧
      girgDegree D α (w.map (· * s)) ≤ α / (α - 1) * thresholdGirgDegree D (w.map (· * s)) := by
  rw [thresholdDegree_scaled hD hw hne hs, girgDegree_scaled hD hw hne hs (by linarith) hα.ne']
  have hW := List.sum_pos w hw hne
  have harg : ∀ i < w.length, ∀ j < w.length, 0 < 2 ^ D * s / w.sum * bw w i * bw w j := fun i hi j hj =>
    (bw_weights hw).arg_pos (by positivity) hi hj
  constructor
  · have := pairSum_mono fun i hi j hj => (probAlpha_bounds hα (harg i hi j hj)).1
    gcongr
  · rw [← mul_div_assoc, ← pairSum_mul_left]
    have := pairSum_mono fun i hi j hj => (probAlpha_bounds hα (harg i hi j hj)).2
    gcongr

theorem thresholdX_eq (d : ℕ) {c : ℝ} (hc : 0 < c) (W : ℝ) : (2 * c) ^ (d : ℝ) / W = 2 ^ d * c ^ d / W := by
  rw [Real.rpow_natCast, mul_pow]

end Girgs.Scaling
