import Verif.Model.Radius
import Verif.Base.XR
import Verif.Spec.HrgDegree
import Mathlib.Analysis.SpecialFunctions.Trigonometric.Bounds
import Mathlib.Analysis.Complex.ExponentialBounds
import Mathlib.Topology.UniformSpace.HeineCantor
import Mathlib.Analysis.Real.Pi.Bounds
/-
Exact values of the radius formulas.
-/
namespace Girgs.Radius
open Girgs.Spec
open XR (fin)

/-- the argument of the logarithm of `calculateRadius` -/
noncomputable def ratio (n α T deg : ℝ) : ℝ :=
  n * 2 * α * α * (if T = 0 then 1 / Real.pi else T / Real.sin (Real.pi * T)) / (deg * (α - 1 / 2) * (α - 1 / 2))

theorem sin_pi_mul_pos {T : ℝ} (h0 : 0 < T) (h1 : T < 1) : 0 < Real.sin (Real.pi * T) :=
  Real.sin_pos_of_pos_of_lt_pi (by positivity) (by nlinarith [Real.pi_pos])

theorem tempFactor_eq {T : ℝ} (h0 : 0 ≤ T) (h1 : T < 1) :
    tempFactor (fin T) = fin (if T = 0 then 1 / Real.pi else T / Real.sin (Real.pi * T)) := by
  unfold tempFactor
  simp only [XR.ofRat_eq, XR.pi_eq, XR.mul_fin, XR.sin_fin]
  by_cases h : T = 0
  · rw [if_pos (by simpa [CFloat.eq, XR.eq] using h), if_pos h, XR.div_fin _ _ Real.pi_ne_zero]
    norm_num
  · rw [if_neg (by simpa [CFloat.eq, XR.eq] using h), if_neg h, XR.div_fin _ _ (sin_pi_mul_pos (lt_of_le_of_ne h0 (Ne.symm h)) h1).ne']

theorem factor_pos {T : ℝ} (h0 : 0 ≤ T) (h1 : T < 1) : 0 < (if T = 0 then 1 / Real.pi else T / Real.sin (Real.pi * T)) := by
  by_cases h : T = 0
  · rw [if_pos h]; have := Real.pi_pos; positivity
  · rw [if_neg h]; exact div_pos (lt_of_le_of_ne h0 (Ne.symm h)) (sin_pi_mul_pos (lt_of_le_of_ne h0 (Ne.symm h)) h1)

theorem ratio_pos {n α T deg : ℝ} (hn : 0 < n) (hα : 1 / 2 < α) (h0 : 0 ≤ T) (h1 : T < 1) (hd : 0 < deg) : 0 < ratio n α T deg := by
  unfold ratio
  have := factor_pos h0 h1
  have h2 : 0 < α - 1 / 2 := by linarith
  have h3 : 0 < α := by linarith
  positivity

theorem calculateRadius_eq {n : ℤ} {α T deg : ℝ} (hn : 1 ≤ n) (hn' : n < 1073741824) (hα : 1 / 2 < α) (h0 : 0 ≤ T) (h1 : T < 1) (hd : 0 < deg) :
    calculateRadius n (fin α) (fin T) (fin deg) = some (fin (2 * Real.log (ratio n α T deg))) := by
  have hi : int32 (n * 2) = some (n * 2) := by unfold int32; rw [if_pos (by omega)]
  unfold calculateRadius
  refine (obind hi _).trans ?_
  have hn0 : (0 : ℝ) < n := by exact_mod_cast (by omega : 0 < n)
  have h2 : 0 < α - 1 / 2 := by linarith
  have hne : deg * (α - ((1 / 2 : ℚ) : ℝ)) * (α - ((1 / 2 : ℚ) : ℝ)) ≠ 0 := by
    push_cast; positivity
  simp only [XR.ofInt_eq, XR.ofRat_eq, tempFactor_eq h0 h1, XR.mul_fin, XR.sub_fin]
  rw [XR.div_fin _ _ hne]
  have e : ((n * 2 : ℤ) : ℝ) * α * α * (if T = 0 then 1 / Real.pi else T / Real.sin (Real.pi * T)) /
      (deg * (α - ((1 / 2 : ℚ) : ℝ)) * (α - ((1 / 2 : ℚ) : ℝ))) = ratio n α T deg := by unfold ratio; push_cast; rfl
  rw [e, XR.log_fin _ (ratio_pos hn0 hα h0 h1 hd), XR.mul_fin]
  norm_num

/-- the model's formula in terms of the leading order degree -/
theorem hrgDegree_radius {n α T deg : ℝ} (hn : 0 < n) (hα : 1 / 2 < α) (h0 : 0 ≤ T) (h1 : T < 1) (hd : 0 < deg) (R : ℝ) :
    hrgDegree n α T R = deg ↔ R = 2 * Real.log (ratio n α T deg) := by
  have hr := ratio_pos hn hα h0 h1 hd
  have h2 : α - 1 / 2 ≠ 0 := by linarith
  have hpi := Real.pi_ne_zero
  have key : hrgDegree n α T R = ratio n α T deg * Real.exp (-R / 2) * deg := by
    unfold hrgDegree ratio xi
    by_cases hT : T = 0
    · rw [if_pos hT, if_pos hT]
      field_simp
    · rw [if_neg hT, if_neg hT]
      have := (sin_pi_mul_pos (lt_of_le_of_ne h0 (Ne.symm hT)) h1).ne'
      field_simp
  rw [key]
  constructor
  · intro h
    have h3 : ratio n α T deg * Real.exp (-R / 2) = 1 := by
      have : (ratio n α T deg * Real.exp (-R / 2) - 1) * deg = 0 := by linarith
      rcases mul_eq_zero.1 this with h | h
      · linarith
      · exact absurd h hd.ne'
    have h4 : Real.exp (-R / 2) = (ratio n α T deg)⁻¹ := eq_inv_of_mul_eq_one_right h3
    have h5 := congrArg Real.log h4
    rw [Real.log_exp, Real.log_inv] at h5
    linarith
  · rintro rfl
    have : -(2 * Real.log (ratio n α T deg)) / 2 = - Real.log (ratio n α T deg) := by ring
    rw [this, Real.exp_neg, Real.exp_log hr]
    field_simp

theorem getExpectedDegree_eq {n α R : ℝ} (hα : 1 / 2 < α) : getExpectedDegree (fin n) (fin α) (fin R) = fin (coldDegree n α R) := by
  have h2 : (2 : ℝ) * α + 1 - 2 ≠ 0 := by linarith
  have h3 : α ≠ 0 := by linarith
  have h4 : (0 : ℝ) < 1 / α := by have : 0 < α := by linarith
                                  positivity
  have h5 : α - 1 / 2 ≠ 0 := by linarith
  unfold getExpectedDegree coldDegree xi
  simp only [XR.ofRat_eq, XR.pi_eq, XR.mul_fin, XR.add_fin, XR.sub_fin, XR.neg_fin]
  push_cast
  rw [XR.div_fin _ _ h2, XR.div_fin _ _ (by norm_num), XR.div_fin _ _ (by norm_num), XR.div_fin _ _ h3, XR.div_fin _ _ (by norm_num),
    XR.div_fin _ _ (show (4 : ℝ) ≠ 0 by norm_num), XR.pow_fin _ _ h4]
  simp only [XR.mul_fin, XR.add_fin, XR.sub_fin, XR.exp_fin]
  refine congrArg fin ?_
  have e1 : (2 * α + 1 - 1) / (2 * α + 1 - 2) = α / (α - 1 / 2) := by
    rw [div_eq_div_iff h2 h5]; ring
  rw [e1, Real.rpow_two]
  ring

/-- first guess of the search: the radius of the leading order formula -/
theorem firstGuess_eq {n k α : ℝ} (hn : 0 < n) (hα : 1 / 2 < α) (hk : 0 < k) :
    firstGuess (fin n) (fin k) (fin α) = fin (2 * Real.log (ratio n α 0 k)) := by
  have h2 : (2 : ℝ) * α + 1 - 1 ≠ 0 := by linarith
  have h3 : α ≠ 0 := by linarith
  have h5 : α - 1 / 2 ≠ 0 := by linarith
  have hpi := Real.pi_pos
  have hr : 0 < ratio n α 0 k := ratio_pos hn hα le_rfl (by norm_num) hk
  unfold firstGuess
  simp only [XR.ofRat_eq, XR.pi_eq, XR.mul_fin, XR.add_fin, XR.sub_fin]
  push_cast
  rw [XR.div_fin _ _ h2, XR.div_fin _ _ (by norm_num)]
  simp only [XR.mul_fin]
  have h6 : (2 * α + 1 - 2) / (2 * α + 1 - 1) = (α - 1 / 2) / α := by
    rw [div_eq_div_iff h2 h3]; ring
  rw [h6]
  have h7 : k * (Real.pi / 2) * ((α - 1 / 2) / α) * ((α - 1 / 2) / α) ≠ 0 := by positivity
  rw [XR.div_fin _ _ h7]
  have h8 : n / (k * (Real.pi / 2) * ((α - 1 / 2) / α) * ((α - 1 / 2) / α)) = ratio n α 0 k := by
    unfold ratio
    rw [if_pos rfl]
    field_simp
  rw [h8, XR.log_fin _ hr, XR.mul_fin]

/-! ### the bisection -/

/-- one iteration on real values -/
theorem step_running {n k α ε l u : ℝ} {c : XR} (hα : 1 / 2 < α) :
    step (fin n) (fin k) (fin α) (fin ε) (.running ⟨fin l, fin u, c⟩) =
      if ε < |coldDegree n α ((l + u) / 2) - k| then
        .running (if coldDegree n α ((l + u) / 2) < k then ⟨fin l, fin ((l + u) / 2), fin ((l + u) / 2)⟩
          else ⟨fin ((l + u) / 2), fin u, fin ((l + u) / 2)⟩)
      else .returned (fin ((l + u) / 2)) := by
  unfold step
  have e2 : (CFloat.ofRat 2 : XR) = fin 2 := by rw [XR.ofRat_eq]; norm_num
  simp only [e2, XR.add_fin]
  rw [XR.div_fin _ _ (by norm_num : (2 : ℝ) ≠ 0), getExpectedDegree_eq hα, XR.sub_fin, XR.abs_fin]
  by_cases h : ε < |coldDegree n α ((l + u) / 2) - k|
  · rw [if_pos (by simpa [CFloat.lt, XR.lt] using h), if_pos h]
    by_cases h' : coldDegree n α ((l + u) / 2) < k
    · rw [if_pos (by simpa [CFloat.lt, XR.lt] using h'), if_pos h']
    · rw [if_neg (by simpa [CFloat.lt, XR.lt] using h'), if_neg h']
  · rw [if_neg (by simpa [CFloat.lt, XR.lt] using h), if_neg h]

theorem step_returned {n k α ε : XR} {R : XR} : step n k α ε (.returned R) = .returned R := rfl
theorem step_aborted {n k α ε : XR} : step n k α ε .aborted = .aborted := rfl

theorem searchState_succ {ndebug : Bool} {n k α ε : XR} (i : ℕ) :
    searchState ndebug n k α ε (i + 1) = step n k α ε (searchState ndebug n k α ε i) := by
  unfold searchState
  rw [Function.iterate_succ_apply']

/-- the initial state -/
theorem start_eq {ndebug : Bool} {n k α : ℝ} (hn : 0 < n) (hα : 1 / 2 < α) (hk : 0 < k) :
    let r := 2 * Real.log (ratio n α 0 k)
    start ndebug (fin n) (fin k) (fin α) =
      if ndebug = true ∨ (k < coldDegree n α (r / 2) ∧ coldDegree n α (r * 2) < k) then .running ⟨fin (r / 2), fin (r * 2), fin r⟩ else .aborted := by
  intro r
  unfold start
  have e2 : (CFloat.ofRat 2 : XR) = fin 2 := by rw [XR.ofRat_eq]; norm_num
  simp only [firstGuess_eq hn hα hk, e2, XR.mul_fin]
  rw [XR.div_fin _ _ (by norm_num : (2 : ℝ) ≠ 0), getExpectedDegree_eq hα, getExpectedDegree_eq hα]
  by_cases h : ndebug = true ∨ (k < coldDegree n α (r / 2) ∧ coldDegree n α (r * 2) < k)
  · rw [if_pos h, if_pos]
    rcases h with h | h
    · rw [h]; rfl
    · simp only [CFloat.lt, XR.lt, Bool.or_eq_true, Bool.and_eq_true, decide_eq_true_eq]
      exact Or.inr h
  · rw [if_neg h, if_neg]
    simp only [CFloat.lt, XR.lt, Bool.or_eq_true, Bool.and_eq_true, decide_eq_true_eq]
    exact h

/-- what holds after `i` iterations if the two asserted inequalities hold at the start -/
def BInv (n k α ε l₀ u₀ : ℝ) (i : ℕ) : Outcome XR → Prop
  | .running b => ∃ l u : ℝ, b.lower = fin l ∧ b.upper = fin u ∧ l ∈ Set.uIcc l₀ u₀ ∧ u ∈ Set.uIcc l₀ u₀ ∧ u - l = (u₀ - l₀) / 2 ^ i ∧
      k ≤ coldDegree n α l ∧ coldDegree n α u ≤ k
  | .returned R => ∃ r : ℝ, R = fin r ∧ r ∈ Set.uIcc l₀ u₀ ∧ |coldDegree n α r - k| ≤ ε
  | .aborted => False

theorem mid_mem {l₀ u₀ l u : ℝ} (hl : l ∈ Set.uIcc l₀ u₀) (hu : u ∈ Set.uIcc l₀ u₀) : (l + u) / 2 ∈ Set.uIcc l₀ u₀ := by
  rw [Set.uIcc, Set.mem_Icc] at *
  constructor <;> linarith [hl.1, hl.2, hu.1, hu.2]

theorem bInv_step {n k α ε l₀ u₀ : ℝ} (hα : 1 / 2 < α) {i : ℕ} {o : Outcome XR} (h : BInv n k α ε l₀ u₀ i o) :
    BInv n k α ε l₀ u₀ (i + 1) (step (fin n) (fin k) (fin α) (fin ε) o) := by
  cases o with
  | aborted => exact h
  | returned R => exact h
  | running b =>
    obtain ⟨l, u, e1, e2, hl, hu, hw, h1, h2⟩ := h
    obtain ⟨bl, bu, bc⟩ := b
    simp only at e1 e2
    subst e1 e2
    rw [step_running hα]
    have hm := mid_mem hl hu
    split
    · rename_i hε
      by_cases hc : coldDegree n α ((l + u) / 2) < k
      · rw [if_pos hc]
        refine ⟨l, _, rfl, rfl, hl, hm, ?_, h1, hc.le⟩
        rw [pow_succ, ← div_div, ← hw]; ring
      · rw [if_neg hc]
        refine ⟨_, u, rfl, rfl, hm, hu, ?_, not_lt.1 hc, h2⟩
        rw [pow_succ, ← div_div, ← hw]; ring
    · rename_i hε
      exact ⟨_, rfl, hm, not_lt.1 hε⟩

theorem continuous_coldDegree (n α : ℝ) : Continuous (coldDegree n α) := by
  unfold coldDegree
  fun_prop

/-- with the invariant, the search returns -/
theorem bInv_returns {n k α ε l₀ u₀ : ℝ} (hα : 1 / 2 < α) (hε : 0 < ε) {o : Outcome XR} (h : BInv n k α ε l₀ u₀ 0 o) :
    ∃ i r, (step (fin n) (fin k) (fin α) (fin ε))^[i] o = .returned (fin r) ∧ r ∈ Set.uIcc l₀ u₀ ∧ |coldDegree n α r - k| ≤ ε := by
  have hinv : ∀ i, BInv n k α ε l₀ u₀ i ((step (fin n) (fin k) (fin α) (fin ε))^[i] o) := by
    intro i
    induction i with
    | zero => exact h
    | succ i ih => rw [Function.iterate_succ_apply']; exact bInv_step hα ih
  have huc := (isCompact_uIcc (a := l₀) (b := u₀)).uniformContinuousOn_of_continuous (continuous_coldDegree n α).continuousOn
  rw [Metric.uniformContinuousOn_iff] at huc
  obtain ⟨δ, hδ, huc⟩ := huc ε hε
  obtain ⟨i, hi⟩ : ∃ i : ℕ, |u₀ - l₀| / 2 ^ i < δ := by
    obtain ⟨i, hi⟩ := pow_unbounded_of_one_lt (|u₀ - l₀| / δ) (by norm_num : (1 : ℝ) < 2)
    exact ⟨i, by rw [div_lt_iff₀ (by positivity)]; rw [div_lt_iff₀ hδ] at hi; linarith⟩
  have h1 := hinv i
  have h2 := hinv (i + 1)
  cases ho : (step (fin n) (fin k) (fin α) (fin ε))^[i] o with
  | aborted => rw [ho] at h1; exact h1.elim
  | returned R =>
    rw [ho] at h1
    obtain ⟨r, rfl, h1⟩ := h1
    exact ⟨i, r, ho, h1⟩
  | running b =>
    rw [ho] at h1
    rw [Function.iterate_succ_apply', ho] at h2
    obtain ⟨l, u, e1, e2, hl, hu, hw, hk1, hk2⟩ := h1
    obtain ⟨bl, bu, bc⟩ := b
    simp only at e1 e2
    subst e1 e2
    have hm := mid_mem hl hu
    refine ⟨i + 1, (l + u) / 2, ?_, hm, ?_⟩ <;> have hwid : |u - l| < δ := by rw [hw, abs_div, abs_of_pos (by positivity : (0 : ℝ) < 2 ^ i)]; exact hi
    all_goals
      have hclose : |coldDegree n α ((l + u) / 2) - k| < ε := by
        have d1 : dist ((l + u) / 2) l < δ := by
          rw [Real.dist_eq, show (l + u) / 2 - l = (u - l) / 2 by ring, abs_div, abs_two]
          linarith [abs_nonneg (u - l)]
        have d2 : dist ((l + u) / 2) u < δ := by
          rw [Real.dist_eq, show (l + u) / 2 - u = -((u - l) / 2) by ring, abs_neg, abs_div, abs_two]
          linarith [abs_nonneg (u - l)]
        have a1 := huc _ hm _ hl d1
        have a2 := huc _ hm _ hu d2
        rw [Real.dist_eq, abs_lt] at a1 a2
        rw [abs_lt]
        constructor <;> linarith [a1.1, a1.2, a2.1, a2.2]
    · rw [Function.iterate_succ_apply', ho, step_running hα, if_neg (not_lt.2 hclose.le)]
    · exact hclose.le

/-! ### dense targets -/

/-- the estimate never exceeds `ξ² n / (2π)` for `1/2 < α ≤ 1` -/
theorem coldDegree_le {n α R : ℝ} (hn : 0 ≤ n) (hα : 1 / 2 < α) (hα' : α ≤ 1) (hR : 0 ≤ R) : coldDegree n α R ≤ xi α ^ 2 * n / (2 * Real.pi) := by
  have hpi := Real.pi_pos
  have hα0 : 0 < α := by linarith
  have hq : α * (Real.pi / 4 * (1 / α) ^ 2 - (Real.pi - 1) * (1 / α) + (Real.pi - 2)) ≤ 0 := by
    have e : α * (Real.pi / 4 * (1 / α) ^ 2 - (Real.pi - 1) * (1 / α) + (Real.pi - 2)) =
        (α - 1 / 2) * ((Real.pi - 2) * α - Real.pi / 2) / α := by
      field_simp; ring
    rw [e]
    apply div_nonpos_of_nonpos_of_nonneg _ hα0.le
    apply mul_nonpos_of_nonneg_of_nonpos (by linarith)
    nlinarith [Real.pi_le_four, Real.pi_gt_three]
  have h1 : α * (R / 2) * (Real.pi / 4 * (1 / α) ^ 2 - (Real.pi - 1) * (1 / α) + (Real.pi - 2)) - 1 ≤ -1 := by
    have : α * (R / 2) * (Real.pi / 4 * (1 / α) ^ 2 - (Real.pi - 1) * (1 / α) + (Real.pi - 2)) =
        R / 2 * (α * (Real.pi / 4 * (1 / α) ^ 2 - (Real.pi - 1) * (1 / α) + (Real.pi - 2))) := by ring
    rw [this]
    have := mul_nonpos_of_nonneg_of_nonpos (by linarith : 0 ≤ R / 2) hq
    linarith
  have h2 : Real.exp (-α * R) * (α * (R / 2) * (Real.pi / 4 * (1 / α) ^ 2 - (Real.pi - 1) * (1 / α) + (Real.pi - 2)) - 1) ≤ - Real.exp (-R) := by
    have h3 : Real.exp (-R) ≤ Real.exp (-α * R) := Real.exp_le_exp.2 (by nlinarith)
    have h4 := Real.exp_pos (-α * R)
    nlinarith
  have h5 : Real.exp (-R / 2) - Real.exp (-R) ≤ 1 / 4 := by
    have : Real.exp (-R) = Real.exp (-R / 2) ^ 2 := by rw [← Real.exp_nat_mul]; congr 1; push_cast; ring
    rw [this]
    nlinarith [sq_nonneg (Real.exp (-R / 2) - 1 / 2)]
  unfold coldDegree
  have h6 : 0 ≤ 2 / Real.pi * xi α ^ 2 * n := by positivity
  calc _ ≤ 2 / Real.pi * xi α ^ 2 * n * (1 / 4) := mul_le_mul_of_nonneg_left (by linarith) h6
    _ = _ := by field_simp; ring

/-- if the target is out of reach everywhere in the bracket, the upper bound moves down forever -/
theorem never_returns {n k α ε : ℝ} (hα : 1 / 2 < α) {l₀ u₀ : ℝ} (h0 : 0 ≤ l₀) (h1 : l₀ ≤ u₀) (hε : 0 ≤ ε)
    (hf : ∀ R, 0 ≤ R → coldDegree n α R < k - ε) (c : XR) (i : ℕ) :
    ∃ u c', (step (fin n) (fin k) (fin α) (fin ε))^[i] (.running ⟨fin l₀, fin u₀, c⟩) = .running ⟨fin l₀, fin u, c'⟩ ∧ l₀ ≤ u := by
  induction i with
  | zero => exact ⟨u₀, c, rfl, h1⟩
  | succ i ih =>
    obtain ⟨u, c', e, hu⟩ := ih
    have hm := hf ((l₀ + u) / 2) (by linarith)
    refine ⟨(l₀ + u) / 2, fin ((l₀ + u) / 2), ?_, by linarith⟩
    rw [Function.iterate_succ_apply', e, step_running hα, if_pos, if_pos (by linarith)]
    rw [abs_sub_comm, abs_of_nonneg (by linarith)]
    linarith

end Girgs.Radius
