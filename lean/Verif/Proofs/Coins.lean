import Verif.Proofs.Law
import Verif.Spec.Random
/-
Coin flips from uniform numbers, and geometric skipping.
-/
namespace Girgs
open MeasureTheory Spec
open scoped ENNReal

/-- a number forced into the unit interval -/
noncomputable def unit (p : ℝ) : ℝ := max 0 (min p 1)

theorem unit_eq {p : ℝ} (h0 : 0 ≤ p) (h1 : p ≤ 1) : unit p = p := by
  unfold unit; rw [min_eq_left h1, max_eq_right h0]

theorem unit_nonneg (p : ℝ) : 0 ≤ unit p := le_max_left _ _
theorem unit_le_one (p : ℝ) : unit p ≤ 1 := max_le (by norm_num) (min_le_right _ _)

theorem coin_true (p : ℝ) : coin p true = ENNReal.ofReal (unit p) := rfl
theorem coin_false (p : ℝ) : coin p false = ENNReal.ofReal (1 - unit p) := rfl

theorem coin_eq_pure {p : ℝ} {b : Bool} (h : unit p = cond b 1 0) : coin p = PMF.pure b := by
  ext c
  cases b <;> cases c <;> simp [coin_true, coin_false, h, PMF.pure_apply]

/-- integrals of functions of a comparison -/
theorem lintegral_lt (ν : Measure ℝ) (e : ℝ) (H : Bool → ℝ≥0∞) :
    ∫⁻ x, H (decide (x < e)) ∂ν = ν (Set.Iio e) * H true + ν (Set.Ici e) * H false := by
  rw [← lintegral_add_compl _ (measurableSet_Iio (a := e)), Set.compl_Iio]
  congr 1
  · rw [setLIntegral_congr_fun (g := fun _ => H true) measurableSet_Iio (by intro x hx; simp [Set.mem_Iio.1 hx])]
    simp [mul_comm]
  · rw [setLIntegral_congr_fun (g := fun _ => H false) measurableSet_Ici (by
      intro x hx; simp [not_lt.2 (Set.mem_Ici.1 hx)])]
    simp [mul_comm]

variable {G : Type} [MeasurableSpace G] {μ : Measure G}

theorem Law.ofUniform [SFinite μ] {u : G → ℝ × G} {ν : Measure ℝ} (hu : Measurable u) (hmap : μ.map u = ν.prod μ) [SFinite ν] (e : ℝ) {p : ℝ}
    (h1 : ν (Set.Iio e) = coin p true) (h2 : ν (Set.Ici e) = coin p false) :
    Law μ (fun g => (decide ((u g).1 < e), (u g).2)) (coin p) := by
  have hd : Measurable fun x : ℝ => decide (x < e) := by
    apply measurable_to_bool
    have : (fun x : ℝ => decide (x < e)) ⁻¹' {true} = Set.Iio e := by ext x; simp
    rw [this]; exact measurableSet_Iio
  refine ⟨(hd.comp (measurable_fst.comp hu)).prodMk (measurable_snd.comp hu), ?_⟩
  intro f hf
  have hF : Measurable fun x : ℝ × G => f (decide (x.1 < e)) x.2 :=
    (measurable_curried' hf).comp ((hd.comp measurable_fst).prodMk measurable_snd)
  have : ∫⁻ g, f (decide ((u g).1 < e)) (u g).2 ∂μ = ∫⁻ x, f (decide (x.1 < e)) x.2 ∂(μ.map u) := (lintegral_map hF hu).symm
  rw [this, hmap, lintegral_prod _ hF.aemeasurable, lintegral_lt ν e (fun b => ∫⁻ g, f b g ∂μ), tsum_bool, h1, h2, add_comm]

theorem vol_Iio {b e : ℝ} (hb : 0 ≤ b) : (volume.restrict (Set.Ico 0 b)) (Set.Iio e) = ENNReal.ofReal (min e b) := by
  rw [Measure.restrict_apply measurableSet_Iio]
  have : Set.Iio e ∩ Set.Ico 0 b = Set.Ico 0 (min e b) := by ext x; simp; tauto
  rw [this, Real.volume_Ico, sub_zero]

theorem vol_Ici {b e : ℝ} (hb : 0 ≤ b) : (volume.restrict (Set.Ico 0 b)) (Set.Ici e) = ENNReal.ofReal (b - max 0 e) := by
  rw [Measure.restrict_apply measurableSet_Ici]
  have : Set.Ici e ∩ Set.Ico 0 b = Set.Ico (max 0 e) b := by ext x; simp; tauto
  rw [this, Real.volume_Ico]

theorem ofReal_unit (e : ℝ) : ENNReal.ofReal (min e 1) = ENNReal.ofReal (unit e) := by
  unfold unit
  rcases le_total 0 (min e 1) with h | h
  · rw [max_eq_right h]
  · rw [max_eq_left h, ENNReal.ofReal_of_nonpos h, ENNReal.ofReal_zero]

theorem ofReal_one_sub_unit (e : ℝ) : ENNReal.ofReal (1 - max 0 e) = ENNReal.ofReal (1 - unit e) := by
  unfold unit
  rcases le_total e 1 with h | h
  · rw [min_eq_left h]
  · rw [min_eq_right h, max_eq_right (by linarith : (0:ℝ) ≤ 1), max_eq_right (by linarith), ENNReal.ofReal_of_nonpos (by linarith)]
    simp

theorem Law.uniform01 [SFinite μ] {u : G → ℝ × G} (hu : Measurable u) (hmap : μ.map u = (volume.restrict (Set.Ico 0 1)).prod μ) (e : ℝ) :
    Law μ (fun g => (decide ((u g).1 < e), (u g).2)) (coin e) :=
  Law.ofUniform hu hmap e (by rw [vol_Iio zero_le_one, coin_true, ofReal_unit])
    (by rw [vol_Ici zero_le_one, coin_false, ofReal_one_sub_unit])

theorem Law.uniform0b [SFinite μ] {b : ℝ} (hb : 0 < b) {u : G → ℝ × G} (hu : Measurable u)
    (hmap : μ.map u = ((ENNReal.ofReal b)⁻¹ • volume.restrict (Set.Ico 0 b)).prod μ) (e : ℝ) :
    Law μ (fun g => (decide ((u g).1 < e), (u g).2)) (coin (e / b)) := by
  have hinv : (ENNReal.ofReal b)⁻¹ = ENNReal.ofReal b⁻¹ := (ENNReal.ofReal_inv_of_pos hb).symm
  have : SFinite ((ENNReal.ofReal b)⁻¹ • volume.restrict (Set.Ico 0 b)) := by infer_instance
  refine Law.ofUniform hu hmap e ?_ ?_
  · rw [Measure.smul_apply, vol_Iio hb.le, smul_eq_mul, hinv, coin_true, ← ofReal_unit, ← ENNReal.ofReal_mul (by positivity)]
    congr 1
    rw [mul_min_of_nonneg _ _ (by positivity), inv_mul_cancel₀ hb.ne', inv_mul_eq_div]
  · rw [Measure.smul_apply, vol_Ici hb.le, smul_eq_mul, hinv, coin_false, ← ofReal_one_sub_unit, ← ENNReal.ofReal_mul (by positivity)]
    congr 1
    rw [mul_sub, inv_mul_cancel₀ hb.ne', mul_max_of_nonneg _ _ (by positivity), mul_zero, inv_mul_eq_div]

theorem Law.ofDiscrete [SFinite μ] {k : G → ℕ × G} {P : PMF ℕ} (hk : Measurable k) (hmap : μ.map k = P.toMeasure.prod μ) : Law μ k P := by
  refine ⟨hk, ?_⟩
  intro f hf
  have hF : Measurable fun x : ℕ × G => f x.1 x.2 := measurable_curried' hf
  have : ∫⁻ g, f (k g).1 (k g).2 ∂μ = ∫⁻ x, f x.1 x.2 ∂(μ.map k) := (lintegral_map hF hk).symm
  rw [this, hmap, lintegral_prod _ hF.aemeasurable, lintegral_countable']
  congr 1
  funext b
  rw [PMF.toMeasure_apply_singleton _ _ (measurableSet_singleton b), mul_comm]

/-! ### independent coin flips, and skipping -/

theorem flips_append {E : Type} (L M : List (E × ℝ)) : flips (L ++ M) = (flips L).bind fun es => (flips M).map fun fs => es ++ fs := by
  induction L with
  | nil =>
    rw [List.nil_append, flips, PMF.pure_bind]
    exact (PMF.map_id _).symm
  | cons a L ih =>
    obtain ⟨e, p⟩ := a
    rw [List.cons_append, flips, flips, ih]
    simp only [PMF.map, PMF.bind_bind, PMF.pure_bind, Function.comp_def]
    congr 1
    funext c
    congr 1
    funext es
    congr 1
    funext fs
    cases c <;> rfl

theorem geo_split {E : Type} {b : ℝ} (h0 : 0 < b) (h1 : b ≤ 1) (F : ℕ → PMF E) :
    (geoPMF b h0 h1).bind F = (coin b).bind fun c => if c then F 0 else (geoPMF b h0 h1).bind fun k => F (k + 1) := by
  ext e
  rw [PMF.bind_apply, PMF.bind_apply, tsum_bool, tsum_eq_zero_add' ENNReal.summable, coin_true, coin_false, unit_eq h0.le h1]
  simp only [Bool.false_eq_true, if_false, if_true, PMF.bind_apply]
  rw [add_comm]
  congr 1
  · rw [← ENNReal.tsum_mul_left]
    congr 1
    funext k
    show ENNReal.ofReal ((1 - b) ^ (k + 1) * b) * _ = _ * (ENNReal.ofReal ((1 - b) ^ k * b) * _)
    rw [← mul_assoc, ← ENNReal.ofReal_mul (sub_nonneg.2 h1)]
    congr 2
    ring
  · show ENNReal.ofReal ((1 - b) ^ 0 * b) * _ = _
    simp

/-- the distribution of what skipping produces from entry `k` of the list on: accept the current entry with probability
`p / b`, jump ahead by a geometric number -/
noncomputable def skipFrom {E : Type} (b : ℝ) (h0 : 0 < b) (h1 : b ≤ 1) : ℕ → List (E × ℝ) → PMF (List E)
  | _, [] => PMF.pure []
  | 0, (e, p) :: L => (coin (p / b)).bind fun c =>
      ((geoPMF b h0 h1).bind fun k => skipFrom b h0 h1 k L).map fun es => if c then e :: es else es
  | k + 1, _ :: L => skipFrom b h0 h1 k L

theorem coin_mul {E : Type} {b p : ℝ} (h0 : 0 < b) (h1 : b ≤ 1) (hp0 : 0 ≤ p) (hp : p ≤ b) (X Y : PMF E) :
    ((coin b).bind fun c => if c then (coin (p / b)).bind (fun d => if d then X else Y) else Y) =
      (coin p).bind fun d => if d then X else Y := by
  have hq0 : 0 ≤ p / b := by positivity
  have hq1 : p / b ≤ 1 := (div_le_one h0).2 hp
  ext e
  simp only [PMF.bind_apply, tsum_bool, Bool.false_eq_true, if_false, if_true, coin_true, coin_false,
    unit_eq h0.le h1, unit_eq hq0 hq1, unit_eq hp0 (hp.trans h1)]
  rw [mul_add, ← mul_assoc, ← mul_assoc, ← add_assoc, ← add_mul, ← ENNReal.ofReal_mul h0.le, ← ENNReal.ofReal_mul h0.le,
    ← ENNReal.ofReal_add (by linarith) (mul_nonneg h0.le (by linarith))]
  congr 3
  · field_simp; ring
  · field_simp

theorem skip_eq_flips {E : Type} {b : ℝ} (h0 : 0 < b) (h1 : b ≤ 1) (L : List (E × ℝ)) (hL : ∀ e ∈ L, 0 ≤ e.2 ∧ e.2 ≤ b) :
    ((geoPMF b h0 h1).bind fun k => skipFrom b h0 h1 k L) = flips L := by
  induction L with
  | nil => simp [skipFrom, flips]
  | cons a L ih =>
    obtain ⟨e, p⟩ := a
    have ih := ih (fun x hx => hL x (by simp [hx]))
    obtain ⟨hp0, hp⟩ := hL (e, p) (by simp)
    rw [geo_split h0 h1]
    simp only [skipFrom, ih, flips]
    have := coin_mul h0 h1 hp0 hp ((flips L).map fun es => e :: es) (flips L)
    convert this using 2
    · funext c
      cases c
      · simp
      · simp only [if_true]
        congr 1
        funext d
        cases d
        · simp only [Bool.false_eq_true, if_false]; exact PMF.map_id _
        · simp
    · funext d
      cases d
      · simp only [Bool.false_eq_true, if_false]; exact PMF.map_id _
      · simp

end Girgs
