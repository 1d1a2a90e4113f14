import Verif.Proofs.ScalingDebug
import Verif.Model.ScalingAborts
import Verif.Props.ScalingDegree
/-
C91: debug assertions of `scaleWeights`.
-/
namespace Girgs.Props
open Spec Scaling CFloat
open XR (fin)

section C91
variable {w : List ℝ} {part : List (List ℕ)} {d : ℕ}

theorem minR_eq : minR = 1 / 2 ^ 1022 := by
  unfold minR
  generalize 1022 = k
  push_cast
  rfl

/-- the outcomes of the two builds agree if the runs agree -/
theorem same_runs {S : Type} {f g : XR → S → Option (XR × S)} {des : XR} {st : S}
    (h : ∀ k, run f des accuracy k (start st) = run g des accuracy k (start st)) :
    (∀ c, Returns f des st c ↔ Returns g des st c) ∧ (Diverges f des st ↔ Diverges g des st) ∧ (Aborts f des st ↔ Aborts g des st) := by
  refine ⟨fun c => ?_, ?_, ?_⟩
  · unfold Returns; simp only [h]
  · unfold Diverges; simp only [h]
  · unfold Aborts; simp only [h]

theorem not_aborts {S : Type} {f : XR → S → Option (XR × S)} {Inv : S → Prop} {Val : ℝ → ℝ → Prop} (hf : Evaluates f Inv Val) {des : ℝ}
    {st : S} (h : Inv st) : ¬ Aborts f (fin des) st := by
  rintro ⟨k, hk⟩
  have := run_sinv (des := des) hf h k
  rw [hk] at this
  exact this

theorem aborts_not_returns {S : Type} {f : XR → S → Option (XR × S)} {des : XR} {st : S} (h : Aborts f des st) : ∀ c, ¬ Returns f des st c := by
  rintro c ⟨k, st', hk⟩
  obtain ⟨j, hj⟩ := h
  have h1 := run_add (f := f) (des := des) (acc := accuracy) j k (start st)
  have h2 := run_add (f := f) (des := des) (acc := accuracy) k j (start st)
  rw [hj] at h1
  rw [hk, Nat.add_comm, h1] at h2
  cases j <;> cases k <;> cases h2

/-- `alpha` is infinity or a number from 1/64 on other than 1 -/
def AlphaModerate (alpha : XR) : Prop := alpha = .pinf ∨ ∃ a : ℝ, alpha = fin a ∧ 1 / 64 ≤ a ∧ a ≠ 1

theorem AlphaModerate.accepted {alpha : XR} (h : AlphaModerate alpha) : AlphaAccepted alpha := by
  rcases h with h | ⟨a, h, h1, h2⟩
  · exact Or.inl h
  · exact Or.inr ⟨a, h, by linarith, h2⟩

theorem moderate_normal (hw : ∀ y ∈ w, 1 / 2 ^ 300 ≤ y ∧ y ≤ 2 ^ 300) : NormalWeights w := by
  intro y hy
  obtain ⟨h1, h2⟩ := hw y hy
  constructor
  · refine le_trans ?_ h1
    exact one_div_le_one_div_of_le (by positivity) (pow_le_pow_right₀ (by norm_num) (by norm_num))
  · refine h2.trans ?_
    have : (2 : ℝ) ^ 300 ≤ 2 ^ 971 := pow_le_pow_right₀ (by norm_num) (by norm_num)
    have h0 : (0 : ℝ) < 2 ^ 971 := by positivity
    have h53 : (1 : ℝ) ≤ 2 ^ 53 - 1 := by norm_num
    generalize (2 : ℝ) ^ 971 = z at *
    generalize (2 : ℝ) ^ 53 - 1 = q at *
    generalize (2 : ℝ) ^ 300 = r at *
    nlinarith

/-- the largest factor between consecutive points keeps the thresholds normal -/
theorem moderate_bounds (hw : ∀ y ∈ w, 1 / 2 ^ 300 ≤ y ∧ y ≤ 2 ^ 300) (hne : w ≠ []) {ρ : ℝ} (hρ0 : 0 ≤ ρ) (hρ : ρ ≤ 2 ^ 94) :
    ρ * (minR * bw w 0) ≤ bw w (w.length - 1) * bw w (w.length - 1) := by
  have hl := List.length_pos_iff.2 hne
  obtain ⟨-, h2⟩ := hw _ (bw_mem w hl)
  obtain ⟨h1, -⟩ := hw _ (bw_mem w (i := w.length - 1) (by omega))
  have hb0 : 0 ≤ bw w 0 := by
    have := (hw _ (bw_mem w hl)).1
    exact le_trans (by positivity) this
  calc ρ * (minR * bw w 0) ≤ 2 ^ 94 * (minR * 2 ^ 300) := by
        have := minR_pos
        gcongr
    _ ≤ 1 / 2 ^ 300 * (1 / 2 ^ 300) := by
        rw [minR_eq, show (1022 : ℕ) = 94 + 300 + 300 + 300 + 28 from rfl]
        rw [pow_add, pow_add, pow_add, pow_add]
        have h1 : (0 : ℝ) < 2 ^ 94 := by positivity
        have h2 : (0 : ℝ) < 2 ^ 300 := by positivity
        have h3 : (1 : ℝ) ≤ 2 ^ 28 := by norm_num
        generalize (2 : ℝ) ^ 94 = x at *
        generalize (2 : ℝ) ^ 300 = y at *
        generalize (2 : ℝ) ^ 28 = z at *
        have h0 : (0 : ℝ) < z := by linarith
        rw [show x * (1 / (x * y * y * y * z) * y) = 1 / (y * y) * (1 / z) by field_simp, show 1 / y * (1 / y) = 1 / (y * y) by field_simp]
        have : 1 / z ≤ 1 := (div_le_one h0).2 h3
        calc 1 / (y * y) * (1 / z) ≤ 1 / (y * y) * 1 := by gcongr
          _ = _ := by rw [mul_one]
    _ ≤ _ := by
        have : (0 : ℝ) ≤ 1 / 2 ^ 300 := by positivity
        exact mul_le_mul h1 h1 this (this.trans h1)

theorem thresholdT_eq (hw : ∀ y ∈ w, 0 < y) (hne : w ≠ []) {c : ℝ} (hc : 0 < c) :
    w.sum / (2 * c) ^ (d : ℝ) / bw w 0 = 1 / ((2 * c) ^ (d : ℝ) / w.sum * bw w 0) := by
  have hW := List.sum_pos w hw hne
  have hb0 := (bw_weights hw).pos 0 (List.length_pos_iff.2 hne)
  have : 0 < (2 * c) ^ (d : ℝ) := by positivity
  field_simp

theorem bw_le_sum (hw : ∀ y ∈ w, 0 < y) (hne : w ≠ []) : bw w 0 ≤ w.sum := by
  have hm := bw_mem w (List.length_pos_iff.2 hne)
  exact List.single_le_sum (fun y hy => (hw y hy).le) _ hm

/-- the runs of the two builds agree, threshold estimator -/
theorem threshold_runs (hN : Normal w) (hn2 : 2 ≤ w.length) (hp : part.flatten.Perm (List.range w.length)) (alg : StdAlg XR) (hd30 : d ≤ 30)
    (hd : 1 ≤ d) {des : ℝ} (hdes : des ≤ w.length - 1) (hr : 0 < des → 2 ^ d * (minR * bw w 0) ≤ bw w (w.length - 1) * bw w (w.length - 1)) (k : ℕ) :
    run (thresholdFn alg false part (w.map fin) d) (fin des) accuracy k (start (LazySorter.new (w.map fin))) =
      run (thresholdFn alg true part (w.map fin) d) (fin des) accuracy k (start (LazySorter.new (w.map fin))) := by
  have hne : w ≠ [] := by rintro rfl; simp at hn2
  have hW := List.sum_pos w hN.pos hne
  have hb0 := (bw_weights hN.pos).pos 0 (List.length_pos_iff.2 hne)
  obtain ⟨p1, p2, -, -, -⟩ := thresholdX_props hW hd
  refine est_debug (bw_weights hN.pos) probThreshold_conn hn2 p1 p2 (ρ := 2 ^ d) ?_ (threshold_evaluates_low hN hne hp alg d) ?_ ?_ hdes hr
    (SorterLow.new hN hne) k
  · intro c hc
    rw [Real.rpow_natCast, Real.rpow_natCast, show 2 * (c * 2) = 2 * (2 * c) by ring, mul_pow 2 (2 * c)]
    ring
  · intro st hst x hx ht
    exact thresholdFn_agree hN hne hp alg d hst hx (by rwa [thresholdT_eq hN.pos hne hx])
  · rw [Real.rpow_natCast]
    have hle := bw_le_sum hN.pos hne
    calc minR * ((2 * 2) ^ d / w.sum * bw w 0) = minR * (2 * 2) ^ d * (bw w 0 / w.sum) := by ring
      _ ≤ minR * (2 * 2) ^ d * 1 := by
        have := minR_pos
        gcongr
        exact (div_le_one hW).2 hle
      _ ≤ minR * (2 * 2) ^ 30 * 1 := by
        have := minR_pos
        gcongr
        norm_num
      _ ≤ 1 := by
        rw [minR_eq, mul_one, div_mul_eq_mul_div, one_mul, div_le_one (by positivity), ← sq, ← pow_mul]
        exact pow_le_pow_right₀ (by norm_num) (by norm_num)

/-- the runs of the two builds agree, general estimator -/
theorem alpha_runs (hN : Normal w) (hn2 : 2 ≤ w.length) (hn : w.length < 2 ^ 31) (hp : part.flatten.Perm (List.range w.length)) (alg : StdAlg XR)
    (hd30 : d ≤ 30) (hd : 1 ≤ d) {α : ℝ} (hα : 1 / 64 ≤ α) (hα1 : α ≠ 1) {des : ℝ} (hdes : des ≤ w.length - 1)
    (hr : 0 < des → (2 : ℝ) ^ (1 / α) * (minR * bw w 0) ≤ bw w (w.length - 1) * bw w (w.length - 1)) (k : ℕ) :
    run (alphaFn alg false part (w.map fin) d (fin α)) (fin des) accuracy k (start ⟨LazySorter.new (w.map fin), []⟩) =
      run (alphaFn alg true part (w.map fin) d (fin α)) (fin des) accuracy k (start ⟨LazySorter.new (w.map fin), []⟩) := by
  have hα0 : 0 < α := by linarith
  have hne : w ≠ [] := by rintro rfl; simp at hn2
  have hW := List.sum_pos w hN.pos hne
  have hb0 := (bw_weights hN.pos).pos 0 (List.length_pos_iff.2 hne)
  obtain ⟨p1, p2, -, -, -⟩ := alphaX_props hW d hα0
  have h64 : (2 : ℝ) ^ (1 / α) ≤ 2 ^ 64 := by
    rw [← Real.rpow_natCast]
    refine Real.rpow_le_rpow_of_exponent_le (by norm_num) ?_
    rw [div_le_iff₀ hα0]
    push_cast
    linarith
  refine est_debug (bw_weights hN.pos) (probAlpha_conn hα0 hα1) hn2 p1 p2 (ρ := (2 : ℝ) ^ (1 / α)) ?_
    (alpha_evaluates_low hN hne hn hp alg hd hd30 hα0 hα1) ?_ ?_ hdes hr ⟨AlphaOk.new hN α, SorterLow.new hN hne⟩ k
  · intro c hc
    unfold alphaX
    rw [Real.mul_rpow hc.le (by norm_num)]
    ring
  · intro st hst x hx ht
    exact alphaFn_agree hN hne hn hp alg hd hd30 hα0 hα1 hst hx ht
  · unfold alphaX
    have hle := bw_le_sum hN.pos hne
    calc minR * (2 ^ d * (2 : ℝ) ^ (1 / α) / w.sum * bw w 0) = minR * (2 ^ d * (2 : ℝ) ^ (1 / α)) * (bw w 0 / w.sum) := by ring
      _ ≤ minR * (2 ^ d * (2 : ℝ) ^ (1 / α)) * 1 := by
        have := minR_pos
        gcongr
        exact (div_le_one hW).2 hle
      _ ≤ minR * (2 ^ 30 * 2 ^ 64) * 1 := by
        have := minR_pos
        gcongr
        norm_num
      _ ≤ 1 := by
        rw [minR_eq, mul_one, div_mul_eq_mul_div, one_mul, div_le_one (by positivity), ← pow_add]
        exact pow_le_pow_right₀ (by norm_num) (by norm_num)

/-- C91.  For weights between `2^-300` and `2^300`, `alpha = infinity` or `alpha ≥ 1/64`, and desired degrees up to `n - 1`, no assertion of `scaleWeights` fails, and
the debug build ends exactly like the release build: it returns the same value and the same weights, or runs forever too (`desired ≤ 0`). -/
theorem C91_feasible (hw : ∀ y ∈ w, 1 / 2 ^ 300 ≤ y ∧ y ≤ 2 ^ 300) (hn2 : 2 ≤ w.length) (hn : w.length < 2 ^ 31)
    (hp : part.flatten.Perm (List.range w.length)) (alg : StdAlg XR) (hd : 1 ≤ d) (hd30 : d ≤ 30) {alpha : XR} (hα : AlphaModerate alpha)
    {desired : ℝ} (hdes : desired ≤ w.length - 1) :
    ¬ ScaleWeightsAborts alg false part (w.map fin) (fin desired) d alpha ∧
    (∀ r, ScaleWeights alg false part (w.map fin) (fin desired) d alpha r ↔ ScaleWeights alg true part (w.map fin) (fin desired) d alpha r) ∧
    (ScaleWeightsDiverges alg false part (w.map fin) (fin desired) d alpha ↔ desired ≤ 0) := by
  have hnw := moderate_normal hw
  have hN := normal_of hnw
  have hne : w ≠ [] := by rintro rfl; simp at hn2
  have hiff := C59_returns_iff hnw hn2 hn hp alg hd hd30 hα.accepted desired
  have hdiv : ScaleWeightsDiverges alg true part (w.map fin) (fin desired) d alpha ↔ desired ≤ 0 := by
    constructor
    · intro h
      by_contra hc
      obtain ⟨s, ws, hs⟩ := hiff.1.2 ⟨not_le.1 hc, hdes⟩
      unfold ScaleWeightsDiverges at h
      unfold ScaleWeights at hs
      split at h
      · rename_i he
        rw [he] at hs
        obtain ⟨_, ⟨c, ⟨k, st, hk⟩, _⟩, _⟩ := hs
        obtain ⟨s', hs'⟩ := h k
        rw [hk] at hs'; cases hs'
      · rename_i he
        rw [he] at hs
        obtain ⟨_, ⟨c, ⟨k, st, hk⟩, _⟩, _⟩ := hs
        obtain ⟨s', hs'⟩ := h k
        rw [hk] at hs'; cases hs'
      · exact h
    · intro h
      exact hiff.2 fun h' => absurd h'.1 (not_lt.2 h)
  rw [← hdiv]
  have hα' : estimatorFor alpha = .threshold ∨ ∃ a : ℝ, alpha = fin a ∧ 1 / 64 ≤ a ∧ a ≠ 1 ∧ estimatorFor alpha = .general := by
    rcases hα with rfl | ⟨a, rfl, h0, h1⟩
    · exact Or.inl estimatorFor_pinf
    · rcases le_or_gt a 8 with h8 | h8
      · exact Or.inr ⟨a, rfl, h0, h1, estimatorFor_small h8 (by linarith) h1⟩
      · exact Or.inl (estimatorFor_big h8)
  unfold ScaleWeightsAborts ScaleWeights ScaleWeightsDiverges EstimateThreshold EstimateAlpha
  rcases hα' with he | ⟨a, rfl, h0, h1, he⟩
  · have hρ : (2 : ℝ) ^ d ≤ 2 ^ 94 := pow_le_pow_right₀ (by norm_num) (by omega)
    obtain ⟨r1, r2, r3⟩ := same_runs (threshold_runs hN hn2 hp alg hd30 hd hdes fun _ => moderate_bounds hw hne (by positivity) hρ)
    rw [he]
    refine ⟨?_, ?_, r2⟩
    · show ¬ Aborts _ _ _
      rw [r3]
      exact not_aborts (threshold_evaluates hN hne hp alg d) (SorterOk.new hN)
    · intro r
      simp only [r1]
  · have h64 : (2 : ℝ) ^ (1 / a) ≤ 2 ^ 94 := by
      have ha : 0 < a := by linarith
      rw [← Real.rpow_natCast]
      refine Real.rpow_le_rpow_of_exponent_le (by norm_num) ?_
      rw [div_le_iff₀ ha]
      push_cast
      linarith
    obtain ⟨r1, r2, r3⟩ := same_runs (alpha_runs hN hn2 hn hp alg hd30 hd h0 h1 hdes fun _ => moderate_bounds hw hne (by positivity) h64)
    rw [he]
    refine ⟨?_, ?_, r2⟩
    · show ¬ Aborts _ _ _
      rw [r3]
      exact not_aborts (alpha_evaluates hN hne hn hp alg hd hd30 (by linarith) h1) (AlphaOk.new hN a)
    · intro r
      simp only [r1]

/-- the debug build aborts if the values stay below the target, threshold estimator -/
theorem threshold_abort (hN : Normal w) (hne : w ≠ []) (hp : part.flatten.Perm (List.range w.length)) (alg : StdAlg XR)
    (hd : 1 ≤ d) {des : ℝ} {K : ℕ} (hK : 1 / ((2 * 2 ^ (K + 1)) ^ (d : ℝ) / w.sum * bw w 0) < minR)
    (hlow : ∀ k ≤ K, ∀ v, EstVal w.length (bw w) probThreshold ((2 * 2 ^ (k + 1)) ^ (d : ℝ) / w.sum) v → v < des) :
    Aborts (thresholdFn alg false part (w.map fin) d) (fin des) (LazySorter.new (w.map fin)) := by
  have hW := List.sum_pos w hN.pos hne
  have hb0 := (bw_weights hN.pos).pos 0 (List.length_pos_iff.2 hne)
  obtain ⟨p1, p2, -, -, -⟩ := thresholdX_props hW hd
  refine ⟨K + 2, est_aborts (fr := thresholdFn alg true part (w.map fin) d) (full := fun s => s.sortedEnd = s.vec.length)
    (X := fun c => (2 * c) ^ (d : ℝ) / w.sum) (fun _ _ _ => thresholdFn_release) (threshold_evaluates_low hN hne hp alg d) ?_ ?_ hK ?_ hlow
    (SorterLow.new hN hne)⟩
  · intro st hst x hx ht v st' e
    exact (threshold_full hN hne hp alg d hst hx (by rwa [thresholdT_eq hN.pos hne hx])).1 v st' e
  · intro st hst hf x hx ht
    exact (threshold_full hN hne hp alg d hst hx (by rwa [thresholdT_eq hN.pos hne hx])).2 hf
  · refine lt_trans ?_ hK
    have h1 := p1 (2 ^ (K + 1)) (by positivity)
    have h2 := p2 (2 ^ (K + 1)) (2 ^ (K + 2)) (by positivity) (pow_lt_pow_right₀ (by norm_num) (by omega))
    exact one_div_lt_one_div_of_lt (by positivity) (by gcongr)

/-- C91.  For a desired degree above `n - 1` a debug build does not run forever, as the release build does: an assertion fails. -/
theorem C91_infeasible (hw : NormalWeights w) (hne : w ≠ []) (hn : w.length < 2 ^ 31) (hp : part.flatten.Perm (List.range w.length))
    (alg : StdAlg XR) (hd : 1 ≤ d) (hd30 : d ≤ 30) {alpha : XR} (hα : AlphaAccepted alpha) {desired : ℝ} (hdes : (w.length : ℝ) - 1 < desired) :
    ScaleWeightsAborts alg false part (w.map fin) (fin desired) d alpha ∧
    (∀ r, ¬ ScaleWeights alg false part (w.map fin) (fin desired) d alpha r) := by
  have hN := normal_of hw
  have hW := List.sum_pos w hN.pos hne
  have hl := List.length_pos_iff.2 hne
  have hb0 := (bw_weights hN.pos).pos 0 hl
  have hlarge : ∀ X : ℝ → ℝ, (∀ c, 0 < c → 0 < X c) → (∀ c c', 0 < c → c < c' → X c < X c') → (∀ M, ∃ c, 0 < c ∧ M ≤ X c) →
      ∃ K : ℕ, 1 / (X (2 ^ (K + 1)) * bw w 0) < minR := by
    intro X h0 hm hM
    obtain ⟨c, hc, hcM⟩ := hM (1 / (minR * bw w 0))
    obtain ⟨K, hK⟩ := pow_unbounded_of_one_lt c (one_lt_two : (1 : ℝ) < 2)
    refine ⟨K, ?_⟩
    have h1 : c < 2 ^ (K + 1) := hK.trans (pow_lt_pow_right₀ (by norm_num) (by omega))
    have h2 := hcM.trans_lt (hm c _ hc h1)
    have h3 := h0 (2 ^ (K + 1)) (by positivity)
    have := minR_pos
    rw [div_lt_iff₀ (by positivity)] at h2 ⊢
    linarith
  rcases accepted_cases hα with he | ⟨a, rfl, h0, h1, he⟩
  · obtain ⟨p1, p2, -, -, p5⟩ := thresholdX_props hW hd
    obtain ⟨K, hK⟩ := hlarge _ p1 p2 p5
    have hab := threshold_abort hN hne hp alg hd (des := desired) hK fun k _ v hv =>
      (EstVal.le (bw_weights hN.pos) probThreshold_conn (p1 _ (by positivity)) hl hv).trans_lt hdes
    unfold ScaleWeightsAborts ScaleWeights EstimateThreshold
    rw [he]
    refine ⟨hab, ?_⟩
    rintro r ⟨s, ⟨c, hc, _⟩, _⟩
    exact aborts_not_returns hab c hc
  · obtain ⟨p1, p2, -, -, p5⟩ := alphaX_props hW d h0
    obtain ⟨K, hK⟩ := hlarge _ p1 p2 p5
    have hab : Aborts (alphaFn alg false part (w.map fin) d (fin a)) (fin desired) ⟨LazySorter.new (w.map fin), []⟩ := by
      refine ⟨K + 2, est_aborts (fr := alphaFn alg true part (w.map fin) d (fin a)) (full := fun s => s.sorter.sortedEnd = s.sorter.vec.length)
        (X := fun c => alphaX d a w.sum c) (fun _ _ _ => alphaFn_release) (alpha_evaluates_low hN hne hn hp alg hd hd30 h0 h1) ?_ ?_ hK ?_ ?_
        ⟨AlphaOk.new hN a, SorterLow.new hN hne⟩⟩
      · intro st hst x hx ht v st' e
        exact (alpha_full hN hne hp alg hd hd30 h0 h1 hst.2 hx ht).1 v st' e
      · intro st hst hf x hx ht
        exact (alpha_full hN hne hp alg hd hd30 h0 h1 hst.2 hx ht).2 hf
      · refine lt_trans ?_ hK
        have h1 := p1 (2 ^ (K + 1)) (by positivity)
        have h2 := p2 (2 ^ (K + 1)) (2 ^ (K + 2)) (by positivity) (pow_lt_pow_right₀ (by norm_num) (by omega))
        exact one_div_lt_one_div_of_lt (by positivity) (by gcongr)
      · intro k _ v hv
        exact (EstVal.le (bw_weights hN.pos) (probAlpha_conn h0 h1) (p1 _ (by positivity)) hl hv).trans_lt hdes
    unfold ScaleWeightsAborts ScaleWeights EstimateAlpha
    rw [he]
    refine ⟨hab, ?_⟩
    rintro r ⟨s, ⟨c, hc, _⟩, _⟩
    exact aborts_not_returns hab c hc

/-- C91.  The release build never ends in undefined behaviour. -/
theorem C91_release (hw : NormalWeights w) (hne : w ≠ []) (hn : w.length < 2 ^ 31) (hp : part.flatten.Perm (List.range w.length))
    (alg : StdAlg XR) (hd : 1 ≤ d) (hd30 : d ≤ 30) (alpha : XR) (desired : ℝ) :
    ¬ ScaleWeightsAborts alg true part (w.map fin) (fin desired) d alpha := by
  have hN := normal_of hw
  unfold ScaleWeightsAborts
  split
  · exact not_aborts (threshold_evaluates hN hne hp alg d) (SorterOk.new hN)
  · rename_i he
    have hα : ∃ a : ℝ, alpha = fin a ∧ 0 < a ∧ a ≠ 1 := by
      unfold estimatorFor at he
      rw [XR.ofRat_eq, XR.ofRat_eq, XR.ofRat_eq] at he
      cases alpha with
      | fin a =>
        refine ⟨a, rfl, ?_⟩
        split at he
        · cases he
        · split at he
          · rename_i h
            simp only [CFloat.lt, XR.lt, CFloat.eq, XR.eq, Bool.and_eq_true, decide_eq_true_eq, Bool.not_eq_true', decide_eq_false_iff_not] at h
            exact ⟨by exact_mod_cast h.1, by exact_mod_cast h.2⟩
          · cases he
      | pinf => simp [CFloat.lt, XR.lt] at he
      | ninf => simp [CFloat.lt, XR.lt] at he
      | nan => simp [CFloat.lt, XR.lt] at he
    obtain ⟨a, rfl, h0, h1⟩ := hα
    exact not_aborts (alpha_evaluates hN hne hn hp alg hd hd30 h0 h1) (AlphaOk.new hN a)
  · exact id

/-- the weights `1, 2^-600, 2^-600` are sorted -/
theorem extreme_bw (m : ℝ) (hm : m ≤ 1) : sortDesc [1, m, m] = [1, m, m] := by
  unfold sortDesc
  refine List.mergeSort_of_pairwise ?_
  simp [hm]

/-- C91.  Outside of that range a debug build can abort although the desired degree is feasible: with the weights `1, 2^-600, 2^-600` in dimension 1 and the desired
degree 2 the release build (in exact arithmetic) returns, but the debug build aborts. -/
theorem C91_extreme (alg : StdAlg XR) :
    NormalWeights [1, 1 / 2 ^ 600, 1 / 2 ^ 600] ∧
    (∃ s ws, ScaleWeights alg true [[0, 1, 2]] ([1, 1 / 2 ^ 600, 1 / 2 ^ 600].map fin) (fin 2) 1 .pinf (.returned s ws)) ∧
    ScaleWeightsAborts alg false [[0, 1, 2]] ([1, 1 / 2 ^ 600, 1 / 2 ^ 600].map fin) (fin 2) 1 .pinf := by
  obtain ⟨m, hm⟩ : ∃ m : ℝ, m = 1 / 2 ^ 600 := ⟨_, rfl⟩
  have hm0 : 0 < m := by rw [hm]; positivity
  have hm1 : m ≤ 1 := by rw [hm, div_le_one (by positivity)]; exact one_le_pow₀ (by norm_num)
  have hmm : 2 ^ 1024 * (m * m) ≤ 1 / 2 := by
    rw [hm, show (1024 : ℕ) = 600 + 424 from rfl, pow_add]
    have e : (2 : ℝ) ^ 600 = 2 ^ 424 * 2 ^ 176 := by rw [← pow_add]
    have h1 : (2 : ℝ) ≤ 2 ^ 176 := by norm_num
    rw [e]
    have h2 : (0 : ℝ) < 2 ^ 424 := by positivity
    generalize (2 : ℝ) ^ 424 = x at *
    generalize (2 : ℝ) ^ 176 = y at *
    have h3 : 0 < y := by linarith
    rw [show x * y * x * (1 / (x * y) * (1 / (x * y))) = 1 / y by field_simp]
    exact one_div_le_one_div_of_le (by norm_num) h1
  rw [← hm]
  have hn : NormalWeights [1, m, m] := by
    have h1 : (1 : ℝ) ≤ (2 ^ 53 - 1) * 2 ^ 971 := by
      have h53 : (1 : ℝ) ≤ 2 ^ 53 - 1 := by norm_num
      exact one_le_mul_of_one_le_of_one_le h53 (one_le_pow₀ (by norm_num))
    have h2 : (1 : ℝ) / 2 ^ 1022 ≤ m := by
      rw [hm]
      exact one_div_le_one_div_of_le (by positivity) (pow_le_pow_right₀ (by norm_num) (by norm_num))
    intro y hy
    simp only [List.mem_cons, List.not_mem_nil, or_false, or_self] at hy
    rcases hy with rfl | rfl
    · exact ⟨h2.trans hm1, h1⟩
    · exact ⟨h2, hm1.trans h1⟩
  have hp : ([[0, 1, 2]] : List (List ℕ)).flatten.Perm (List.range [1, m, m].length) := by
    rw [show [1, m, m].length = 3 from rfl]; decide
  refine ⟨hn, ?_, ?_⟩
  · refine (C59_returns_iff hn (by simp) (by simp) hp alg le_rfl (by norm_num) (Or.inl rfl) 2).1.2 ⟨by norm_num, ?_⟩
    norm_num
  · have hN := normal_of hn
    have hne : [1, m, m] ≠ [] := by simp
    have hW : [1, m, m].sum = 1 + (m + m) := by simp
    have hm4 : m ≤ 1 / 2 := by
      rw [hm]
      exact one_div_le_one_div_of_le (by norm_num) (by
        calc (2 : ℝ) = 2 ^ 1 := (pow_one _).symm
          _ ≤ 2 ^ 600 := pow_le_pow_right₀ (by norm_num) (by norm_num))
    have b0 : bw [1, m, m] 0 = 1 := by unfold bw; rw [extreme_bw m hm1]; rfl
    have b1 : bw [1, m, m] 1 = m := by unfold bw; rw [extreme_bw m hm1]; rfl
    have b2 : bw [1, m, m] 2 = m := by unfold bw; rw [extreme_bw m hm1]; rfl
    unfold ScaleWeightsAborts
    rw [estimatorFor_pinf]
    refine threshold_abort hN hne hp alg le_rfl (K := 1022) ?_ ?_
    · rw [b0, hW, minR_eq, Nat.cast_one, Real.rpow_one, mul_one, one_div_div]
      rw [show (2 : ℝ) * 2 ^ (1022 + 1) = 4 * 2 ^ 1022 by rw [pow_succ]; ring, div_mul_eq_div_div]
      have h0 : (0 : ℝ) < 2 ^ 1022 := by positivity
      generalize (2 : ℝ) ^ 1022 = z at *
      gcongr
      linarith
    · intro k hk v hv
      rw [hW, Nat.cast_one, Real.rpow_one] at hv
      have hX : (2 : ℝ) * 2 ^ (k + 1) ≤ 2 ^ 1024 := by
        rw [← pow_succ']
        exact pow_le_pow_right₀ (by norm_num) (by omega)
      have hX0 : (0 : ℝ) < 2 * 2 ^ (k + 1) := by positivity
      have hb := (hv.bounds (bw_weights hN.pos) probThreshold_conn (by positivity) (by simp)).2
      unfold pairSum at hb
      simp only [show [1, m, m].length = 3 from rfl, Finset.sum_range_succ, Finset.sum_range_zero, b0, b1, b2] at hb
      have hXm : 2 * 2 ^ (k + 1) / (1 + (m + m)) * m * m ≤ 1 / 2 := by
        have h1 : 2 * 2 ^ (k + 1) / (1 + (m + m)) ≤ 2 * 2 ^ (k + 1) := div_le_self hX0.le (by linarith)
        calc 2 * 2 ^ (k + 1) / (1 + (m + m)) * m * m ≤ 2 * 2 ^ (k + 1) * m * m := by gcongr
          _ ≤ 2 ^ 1024 * m * m := by gcongr
          _ = 2 ^ 1024 * (m * m) := by ring
          _ ≤ _ := hmm
      have hle : ∀ t, probThreshold t ≤ 1 := fun t => min_le_left _ _
      have hle' : probThreshold (2 * 2 ^ (k + 1) / (1 + (m + m)) * m * m) ≤ 1 / 2 := (min_le_right _ _).trans hXm
      have h01 := hle (2 * 2 ^ (k + 1) / (1 + (m + m)) * 1 * m)
      have h10 := hle (2 * 2 ^ (k + 1) / (1 + (m + m)) * m * 1)
      push_cast at hb
      rw [le_div_iff₀ (by norm_num)] at hb
      linarith

/-- the hypotheses of C91 are met by the weights 1, 5, 2, two threads and `alpha = 1/2`: every degree up to 2 is feasible -/
example : (∀ y ∈ ([1, 5, 2] : List ℝ), 1 / 2 ^ 300 ≤ y ∧ y ≤ 2 ^ 300) ∧ [[0, 2], [1]].flatten.Perm (List.range 3) ∧ AlphaModerate (fin (1 / 2)) :=
  ⟨by
    have h1 : (1 : ℝ) / 2 ^ 300 ≤ 1 := by rw [div_le_one (by positivity)]; exact one_le_pow₀ (by norm_num)
    have h2 : (8 : ℝ) ≤ 2 ^ 300 := by
      calc (8 : ℝ) = 2 ^ 3 := by norm_num
        _ ≤ 2 ^ 300 := pow_le_pow_right₀ (by norm_num) (by norm_num)
    generalize (2 : ℝ) ^ 300 = z at *
    intro y hy
    simp only [List.mem_cons, List.not_mem_nil, or_false] at hy
    rcases hy with rfl | rfl | rfl <;> exact ⟨by linarith, by linarith⟩, by decide, Or.inr ⟨_, rfl, by norm_num, by norm_num⟩⟩

end C91

end Girgs.Props
