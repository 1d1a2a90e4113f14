import Verif.Proofs.Sandwich
import Verif.Spec.Inclusion
import Verif.Model.Inclusion
import Verif.Props.Radius
import Verif.Props.Exact
/-
The converted points of a hyperbolic random graph.
-/
namespace Girgs
open Real Spec

theorem convWeights_pos {radii : List ℝ} {R : ℝ} : ∀ y ∈ convWeights radii R, 0 < y := by
  intro y hy
  obtain ⟨r, _, rfl⟩ := List.mem_map.1 hy
  exact exp_pos _

theorem convWeights_sum_pos {radii : List ℝ} {R : ℝ} (h : radii ≠ []) : 0 < (convWeights radii R).sum :=
  List.sum_pos _ convWeights_pos (by unfold convWeights; simpa using h)

theorem sum_map_mul (w : List ℝ) (k : ℝ) : (w.map (· * k)).sum = w.sum * k := by
  induction w with
  | nil => simp
  | cons x w ih => simp [ih, add_mul]

theorem conv_angle_abs {a b : ℝ} (ha : 0 ≤ a ∧ a < 2 * π) (hb : 0 ≤ b ∧ b < 2 * π) : |a / (2 * π) - b / (2 * π)| ≤ 1 := by
  have hpi := pi_pos
  rw [← sub_div, abs_div, abs_of_pos (by positivity : 0 < 2 * π), div_le_one (by positivity), abs_le]
  constructor <;> linarith [ha.1, ha.2, hb.1, hb.2]

/-- the rule of the converted GIRG, spelled out -/
theorem convRule_iff {radii angles : List ℝ} {R k : ℝ} (hang : ∀ a ∈ angles, 0 ≤ a ∧ a < 2 * π) (hk : 0 < k) (u v : ℕ) :
    ConvRule radii angles R k u v ↔ ∃ r s a b, radii[u]? = some r ∧ radii[v]? = some s ∧ angles[u]? = some a ∧ angles[v]? = some b ∧
      circleDist (a / (2 * π)) (b / (2 * π)) < k * exp (R / 2) / (convWeights radii R).sum * exp ((R - (r + s)) / 2) := by
  have e : ∀ r s : ℝ, (convWeights radii R).sum ≠ 0 → exp ((R - r) / 2) * k * (exp ((R - s) / 2) * k) / ((convWeights radii R).sum * k) =
      k * exp (R / 2) / (convWeights radii R).sum * exp ((R - (r + s)) / 2) := by
    intro r s h
    have : exp ((R - r) / 2) * exp ((R - s) / 2) = exp (R / 2) * exp ((R - (r + s)) / 2) := by
      rw [← exp_add, ← exp_add]; ring_nf
    generalize (convWeights radii R).sum = W at *
    field_simp
    linarith
  have hW : ∀ r, radii[u]? = some r → (convWeights radii R).sum ≠ 0 := fun r h =>
    (convWeights_sum_pos (by rintro rfl; simp at h)).ne'
  unfold ConvRule ThresholdRule
  rw [sum_map_mul]
  constructor
  · rintro ⟨x, y, p, q, hx, hy, hp, hq, h⟩
    unfold convWeights at hx hy
    unfold convPositions at hp hq
    simp only [List.getElem?_map, Option.map_eq_some_iff] at hx hy hp hq
    obtain ⟨_, ⟨r, hr, rfl⟩, rfl⟩ := hx
    obtain ⟨_, ⟨s, hs, rfl⟩, rfl⟩ := hy
    obtain ⟨a, ha, rfl⟩ := hp
    obtain ⟨b, hb, rfl⟩ := hq
    refine ⟨r, s, a, b, hr, hs, ha, hb, ?_⟩
    rw [← e r s (hW r hr)]
    rw [torusDist_one _ _ (conv_angle_abs (hang a (List.mem_of_getElem? ha)) (hang b (List.mem_of_getElem? hb))), pow_one] at h
    exact h
  · rintro ⟨r, s, a, b, hr, hs, ha, hb, h⟩
    refine ⟨exp ((R - r) / 2) * k, exp ((R - s) / 2) * k, fun _ => a / (2 * π), fun _ => b / (2 * π), ?_, ?_, ?_, ?_, ?_⟩
    · simp [convWeights, hr]
    · simp [convWeights, hs]
    · simp [convPositions, ha]
    · simp [convPositions, hb]
    · rw [torusDist_one _ _ (conv_angle_abs (hang a (List.mem_of_getElem? ha)) (hang b (List.mem_of_getElem? hb))), pow_one, e r s (hW r hr)]
      exact h

theorem circleDist_half_nonneg {x y : ℝ} (h : |x - y| ≤ 1) : 0 ≤ circleDist x y ∧ circleDist x y ≤ 1 / 2 := ⟨circleDist_nonneg h, circleDist_le_half _ _⟩

theorem hyp_super {radii angles : List ℝ} {R k : ℝ} (hrad : ∀ r ∈ radii, 0 < r ∧ r ≤ R) (hang : ∀ a ∈ angles, 0 ≤ a ∧ a < 2 * π)
    (hk : (convWeights radii R).sum ≤ √2 * (k * exp (R / 2))) {u v : ℕ} (h : HypRule radii angles R u v) : ConvRule radii angles R k u v := by
  obtain ⟨r, s, a, b, hr, hs, ha, hb, h⟩ := h
  have hne : radii ≠ [] := by rintro rfl; simp at hr
  have hW := convWeights_sum_pos (R := R) hne
  have hr0 := hrad r (List.mem_of_getElem? hr)
  have hs0 := hrad s (List.mem_of_getElem? hs)
  have hR : 0 < R := hr0.1.trans_le hr0.2
  have hpi := pi_pos
  have h2 : (0 : ℝ) < √2 := by positivity
  have hk0 : 0 < k := by
    have := exp_pos (R / 2)
    by_contra hneg
    have h1 : k * exp (R / 2) ≤ 0 := mul_nonpos_of_nonpos_of_nonneg (not_lt.1 hneg) this.le
    have : √2 * (k * exp (R / 2)) ≤ 0 := mul_nonpos_of_nonneg_of_nonpos h2.le h1
    linarith
  rw [convRule_iff hang hk0]
  refine ⟨r, s, a, b, hr, hs, ha, hb, ?_⟩
  obtain ⟨c0, c1⟩ := circleDist_half_nonneg (conv_angle_abs (hang a (List.mem_of_getElem? ha)) (hang b (List.mem_of_getElem? hb)))
  have hlt : hypCosh r a s b < cosh R := by
    rw [← cosh_hypDist hr0.1 hs0.1, cosh_lt_cosh, abs_of_nonneg (hypDist_nonneg _ _ _ _ hr0.1 hs0.1), abs_of_pos hR]; exact h
  unfold hypCosh at hlt
  rw [← cos_circleDist] at hlt
  have key := angle_lt_of_close hR (by positivity) (by nlinarith) hlt
  rw [mul_comm (2 * π), mul_div_assoc, div_self (by positivity), mul_one] at key
  refine key.trans_le ?_
  rw [div_eq_mul_inv, mul_comm]
  refine mul_le_mul_of_nonneg_right ?_ (exp_pos _).le
  rw [inv_eq_one_div, div_le_div_iff₀ h2 hW]
  linarith

theorem hyp_sub {radii angles : List ℝ} {R k : ℝ} (hrad : ∀ r ∈ radii, 0 < r ∧ r ≤ R) (hang : ∀ a ∈ angles, 0 ≤ a ∧ a < 2 * π) (hk0 : 0 < k)
    (hk : 2 * π * (k * exp (R / 2)) ≤ (convWeights radii R).sum) {u v : ℕ} (h : ConvRule radii angles R k u v) : HypRule radii angles R u v := by
  rw [convRule_iff hang hk0] at h
  obtain ⟨r, s, a, b, hr, hs, ha, hb, h⟩ := h
  have hne : radii ≠ [] := by rintro rfl; simp at hr
  have hW := convWeights_sum_pos (R := R) hne
  have hr0 := hrad r (List.mem_of_getElem? hr)
  have hs0 := hrad s (List.mem_of_getElem? hs)
  have hR : 0 < R := hr0.1.trans_le hr0.2
  have hpi := pi_pos
  refine ⟨r, s, a, b, hr, hs, ha, hb, ?_⟩
  obtain ⟨c0, c1⟩ := circleDist_half_nonneg (conv_angle_abs (hang a (List.mem_of_getElem? ha)) (hang b (List.mem_of_getElem? hb)))
  have hlt : hypCosh r a s b < cosh R := by
    unfold hypCosh
    rw [← cos_circleDist]
    refine close_of_angle_lt hr0.1 hs0.1 hr0.2 hs0.2 (by positivity) ?_
    have h1 := mul_lt_mul_of_pos_left h (show 0 < 2 * π by positivity)
    refine h1.trans_le ?_
    rw [← mul_assoc]
    have h3 : 2 * π * (k * exp (R / 2) / (convWeights radii R).sum) ≤ 1 := by
      rw [← mul_div_assoc, div_le_one hW]; exact hk
    nlinarith [exp_pos ((R - (r + s)) / 2)]
  rw [← cosh_hypDist hr0.1 hs0.1, cosh_lt_cosh, abs_of_nonneg (hypDist_nonneg _ _ _ _ hr0.1 hs0.1), abs_of_pos hR] at hlt
  exact hlt

theorem conv_mono {radii angles : List ℝ} {R k k' : ℝ} (hang : ∀ a ∈ angles, 0 ≤ a ∧ a < 2 * π) (hk0 : 0 < k) (hkk : k ≤ k') {u v : ℕ}
    (h : ConvRule radii angles R k u v) : ConvRule radii angles R k' u v := by
  rw [convRule_iff hang hk0] at h
  rw [convRule_iff hang (hk0.trans_le hkk)]
  obtain ⟨r, s, a, b, hr, hs, ha, hb, h⟩ := h
  have hne : radii ≠ [] := by rintro rfl; simp at hr
  have hW := convWeights_sum_pos (R := R) hne
  exact ⟨r, s, a, b, hr, hs, ha, hb, h.trans_le (by gcongr)⟩

/-! ### the model -/

theorem girgWeights_eq (radii : List ℝ) (R : ℝ) : Inclusion.girgWeights (xw radii) (XR.fin R) = xw (convWeights radii R) := by
  unfold Inclusion.girgWeights xw convWeights Radius.radiusToGirgWeight
  rw [List.map_map, List.map_map]
  refine List.map_congr_left fun r _ => ?_
  show XR.exp ((XR.fin R -. XR.fin r) /. (CFloat.ofRat 2 : XR)) = XR.fin (exp ((R - r) / 2))
  rw [show (CFloat.ofRat 2 : XR) = XR.fin 2 by rw [XR.ofRat_eq]; norm_num, XR.sub_fin, XR.div_fin _ _ (by norm_num)]
  rfl

theorem girgPositions_eq (angles : List ℝ) : Inclusion.girgPositions (xw angles) = xl (convPositions angles) := by
  unfold Inclusion.girgPositions xw xl convPositions Radius.angleToGirgPosition
  rw [List.map_map, List.map_map]
  refine List.map_congr_left fun a _ => ?_
  have hpi := pi_pos
  show [(XR.fin a /. (CFloat.ofRat 2 : XR)) /. (CFloat.pi : XR)] = List.ofFn fun d : Fin 1 => XR.fin (a / (2 * π))
  rw [show (CFloat.ofRat 2 : XR) = XR.fin 2 by rw [XR.ofRat_eq]; norm_num, XR.div_fin _ _ (by norm_num),
    show (CFloat.pi : XR) = XR.fin π from rfl, XR.div_fin _ _ pi_ne_zero, div_div]
  simp

end Girgs
