import Verif.Proofs.Radius
/-
C51 - C53: choice of the disk radius and conversion of parameters.
-/
namespace Girgs.Props
open Radius Spec
open XR (fin)

/-! ### C51 -/

/-- C51.  `calculateRadius` returns the unique radius at which the leading order of the expected average degree is `deg`. -/
theorem C51_inverts {n : ℤ} {α T deg : ℝ} (hn : 1 ≤ n) (hn' : n < 2 ^ 30) (hα : 1 / 2 < α) (h0 : 0 ≤ T) (h1 : T < 1) (hd : 0 < deg) :
    ∃ R : ℝ, calculateRadius n (fin α) (fin T) (fin deg) = some (fin R) ∧ ∀ r, hrgDegree n α T r = deg ↔ r = R := by
  have hn0 : (0 : ℝ) < n := by exact_mod_cast (by omega : 0 < n)
  exact ⟨_, calculateRadius_eq hn (by omega) hα h0 h1 hd, fun r => hrgDegree_radius hn0 hα h0 h1 hd r⟩

theorem ratio_lt_of_n {n n' α T deg : ℝ} (hn : 0 < n) (h : n < n') (hα : 1 / 2 < α) (h0 : 0 ≤ T) (h1 : T < 1) (hd : 0 < deg) :
    ratio n α T deg < ratio n' α T deg := by
  have h3 := ratio_pos zero_lt_one hα h0 h1 hd
  have e : ∀ m : ℝ, ratio m α T deg = m * ratio 1 α T deg := fun m => by unfold ratio; ring
  rw [e n, e n']
  exact mul_lt_mul_of_pos_right h h3

theorem ratio_lt_of_deg {n α T deg deg' : ℝ} (hn : 0 < n) (hα : 1 / 2 < α) (h0 : 0 ≤ T) (h1 : T < 1) (hd : 0 < deg) (h : deg < deg') :
    ratio n α T deg' < ratio n α T deg := by
  have h3 := ratio_pos hn hα h0 h1 zero_lt_one
  have e : ∀ m : ℝ, 0 < m → ratio n α T m = ratio n α T 1 / m := fun m hm => by
    unfold ratio
    have : α - 1 / 2 ≠ 0 := by linarith
    field_simp
  rw [e _ hd, e _ (hd.trans h)]
  exact div_lt_div_of_pos_left h3 hd h

/-- C51.  The radius grows with the number of nodes and shrinks with the degree. -/
theorem C51_monotone {n n' : ℤ} {α T deg deg' R R' : ℝ} (hn : 1 ≤ n) (hn' : n' < 2 ^ 30) (hα : 1 / 2 < α) (h0 : 0 ≤ T) (h1 : T < 1) (hd : 0 < deg')
    (hnn : n ≤ n') (hdd : deg' ≤ deg) (hne : n < n' ∨ deg' < deg)
    (hR : calculateRadius n (fin α) (fin T) (fin deg) = some (fin R)) (hR' : calculateRadius n' (fin α) (fin T) (fin deg') = some (fin R')) : R < R' := by
  rw [calculateRadius_eq hn (by omega) hα h0 h1 (by linarith)] at hR
  rw [calculateRadius_eq (by omega) (by omega) hα h0 h1 hd] at hR'
  cases hR
  cases hR'
  have hn0 : (0 : ℝ) < n := by exact_mod_cast (by omega : 0 < n)
  have hn0' : (0 : ℝ) < n' := by exact_mod_cast (by omega : 0 < n')
  have hd' : 0 < deg := by linarith
  have a1 : ratio n α T deg ≤ ratio n' α T deg := by
    rcases hnn.lt_or_eq with h | h
    · exact (ratio_lt_of_n hn0 (by exact_mod_cast h) hα h0 h1 hd').le
    · rw [h]
  have a2 : ratio n' α T deg ≤ ratio n' α T deg' := by
    rcases hdd.lt_or_eq with h | h
    · exact (ratio_lt_of_deg hn0' hα h0 h1 hd h).le
    · rw [h]
  have a3 : ratio n α T deg < ratio n' α T deg' := by
    rcases hne with h | h
    · exact (ratio_lt_of_n hn0 (by exact_mod_cast h) hα h0 h1 hd').trans_le a2
    · exact a1.trans_lt (ratio_lt_of_deg hn0' hα h0 h1 hd h)
  have := Real.log_lt_log (ratio_pos hn0 hα h0 h1 hd') a3
  linarith

/-- C51.  For the parameters `1/2 < alpha <= 1`, `0 <= T < 1`, `0 < deg <= n` the radius is at least `2 ln(8/π) = 1.86...`, in particular positive. -/
theorem C51_positive {n : ℤ} {α T deg R : ℝ} (hn : 1 ≤ n) (hn' : n < 2 ^ 30) (hα : 1 / 2 < α) (hα' : α ≤ 1) (h0 : 0 ≤ T) (h1 : T < 1) (hd : 0 < deg)
    (hdn : deg ≤ n) (hR : calculateRadius n (fin α) (fin T) (fin deg) = some (fin R)) : 2 * Real.log (8 / Real.pi) ≤ R ∧ 4 / 3 < R := by
  rw [calculateRadius_eq hn (by omega) hα h0 h1 (by linarith)] at hR
  cases hR
  have hpi := Real.pi_pos
  have hn0 : (0 : ℝ) < n := by exact_mod_cast (by omega : 0 < n)
  have hfac : 1 / Real.pi ≤ (if T = 0 then 1 / Real.pi else T / Real.sin (Real.pi * T)) := by
    by_cases hT : T = 0
    · rw [if_pos hT]
    · rw [if_neg hT]
      have hT0 := lt_of_le_of_ne h0 (Ne.symm hT)
      have hs := sin_pi_mul_pos hT0 h1
      rw [div_le_div_iff₀ hpi hs]
      have := (Real.sin_lt (by positivity : 0 < Real.pi * T)).le
      linarith
  have hr : 8 / Real.pi ≤ ratio n α T deg := by
    have h2 : 0 < α - 1 / 2 := by linarith
    unfold ratio
    calc 8 / Real.pi ≤ n * 2 * α * α * (1 / Real.pi) / (deg * (α - 1 / 2) * (α - 1 / 2)) := by
          rw [div_le_div_iff₀ hpi (by positivity)]
          have e : ↑n * 2 * α * α * (1 / Real.pi) * Real.pi = n * (2 * α ^ 2) := by field_simp
          rw [e]
          have h3 : 8 * ((α - 1 / 2) * (α - 1 / 2)) ≤ 2 * α ^ 2 := by nlinarith
          have h4 : 0 ≤ (α - 1 / 2) * (α - 1 / 2) := by positivity
          nlinarith
      _ ≤ _ := by
          have h5 : 0 ≤ (n : ℝ) * 2 * α * α := by have : 0 < α := by linarith
                                                  positivity
          exact div_le_div_of_nonneg_right (mul_le_mul_of_nonneg_left hfac h5) (by positivity)
  have h8 : 0 < 8 / Real.pi := by positivity
  have hl := Real.log_le_log h8 hr
  refine ⟨by linarith, ?_⟩
  have h9 : (2 / 3 : ℝ) < Real.log (8 / Real.pi) := by
    rw [Real.lt_log_iff_exp_lt h8]
    have h10 : Real.exp (2 / 3) ^ 3 < 2 ^ 3 := by
      rw [← Real.exp_nat_mul]
      have : Real.exp ((3 : ℕ) * (2 / 3)) = Real.exp 1 ^ 2 := by rw [← Real.exp_nat_mul]; norm_num
      rw [this]
      have := Real.exp_one_lt_d9
      nlinarith [Real.exp_pos 1]
    have h11 := lt_of_pow_lt_pow_left₀ 3 (by norm_num) h10
    have h12 : 2 < 8 / Real.pi := by rw [lt_div_iff₀ hpi]; linarith [Real.pi_lt_d2]
    linarith
  linarith

/-- C51, boundary.  For `alpha = 1/2`, which the command line tool accepts, the denominator is 0 and the radius is infinite. -/
theorem C51_half {n : ℤ} {T deg : ℝ} (hn : 1 ≤ n) (hn' : n < 2 ^ 30) (h0 : 0 ≤ T) (h1 : T < 1) :
    calculateRadius n (fin (1 / 2)) (fin T) (fin deg) = some .pinf := by
  have hi : int32 (n * 2) = some (n * 2) := by unfold int32; rw [if_pos (by omega)]
  have hn0 : (0 : ℝ) < n := by exact_mod_cast (by omega : 0 < n)
  have hf := factor_pos h0 h1
  unfold calculateRadius
  refine (obind hi _).trans ?_
  simp only [XR.ofInt_eq, XR.ofRat_eq, tempFactor_eq h0 h1, XR.mul_fin, XR.sub_fin]
  have e : deg * (1 / 2 - ((1 / 2 : ℚ) : ℝ)) * (1 / 2 - ((1 / 2 : ℚ) : ℝ)) = 0 := by norm_num
  rw [e, XR.div_zero_pos _ (by push_cast; positivity)]
  simp [CFloat.log, XR.logWith, CFloat.mul, XR.mul, XR.infOf]

/-- C51, boundary.  From `2^30` nodes on the `int` product `n * 2` overflows and the behaviour is undefined. -/
theorem C51_overflow {F : Type} [CFloat F] {n : ℤ} (hn : 2 ^ 30 ≤ n) (alpha T deg : F) : calculateRadius n alpha T deg = none := by
  unfold calculateRadius int32
  rw [if_neg (by omega)]
  rfl

/-- the hypotheses are met, e.g. by 1000 nodes, `alpha = 0.75`, temperature 0, degree 10: `R = 2 ln(1800/π) = 12.7...` -/
example : calculateRadius 1000 (fin (3 / 4)) (fin 0) (fin 10) = some (fin (2 * Real.log (1800 / Real.pi))) := by
  rw [calculateRadius_eq (by norm_num) (by norm_num) (by norm_num) le_rfl (by norm_num) (by norm_num)]
  have : ratio ((1000 : ℤ) : ℝ) (3 / 4) 0 10 = 1800 / Real.pi := by
    unfold ratio
    rw [if_pos rfl]
    have := Real.pi_ne_zero
    push_cast
    field_simp
    norm_num
  rw [this]

/-! ### C52 -/

/-- C52, for every floating point type.  If the search returns `R`, then the expected degree at `R` is not further than `epsilon` from the target. -/
theorem C52_accuracy {F : Type} [CFloat F] {ndebug : Bool} {n k alpha epsilon R : F} (h : SearchReturns ndebug n k alpha epsilon R) :
    (epsilon <. CFloat.abs (getExpectedDegree n alpha R -. k)) = false := by
  obtain ⟨i, h⟩ := h
  have : ∀ i R, searchState ndebug n k alpha epsilon i = .returned R → (epsilon <. CFloat.abs (getExpectedDegree n alpha R -. k)) = false := by
    intro i
    induction i with
    | zero =>
      intro R h
      unfold searchState start at h
      simp only [Function.iterate_zero, id] at h
      split at h <;> cases h
    | succ i ih =>
      intro R h
      unfold searchState at h ih
      rw [Function.iterate_succ_apply'] at h
      cases ho : (step n k alpha epsilon)^[i] (start ndebug n k alpha) with
      | aborted => rw [ho] at h; cases h
      | returned R' => rw [ho] at h; cases h; exact ih _ ho
      | running b =>
        rw [ho] at h
        unfold step at h
        simp only at h
        split at h
        · cases h
        · rename_i hc
          cases h
          simpa using hc
  exact this i R h

/-- C52.  The bisection when the two asserted inequalities hold at the ends `r/2` and `2r` of the initial bracket, where `r` is the radius given by
the leading order formula: after every number `i` of iterations the search is still running, the bracket has width `(3/2) r / 2^i`, lies in the initial
one and has the target between the values at its ends, or it has returned a radius from the initial bracket whose degree is at most `epsilon` off. -/
theorem C52_bracket {ndebug : Bool} {n k α ε r : ℝ} (hn : 0 < n) (hα : 1 / 2 < α) (hk : 0 < k) (hr : hrgDegree n α 0 r = k)
    (hlow : k < coldDegree n α (r / 2)) (hupp : coldDegree n α (2 * r) < k) (i : ℕ) :
    match searchState ndebug (fin n) (fin k) (fin α) (fin ε) i with
    | .running b => ∃ l u : ℝ, b.lower = fin l ∧ b.upper = fin u ∧ l ∈ Set.uIcc (r / 2) (2 * r) ∧ u ∈ Set.uIcc (r / 2) (2 * r) ∧
        u - l = 3 / 2 * r / 2 ^ i ∧ k ≤ coldDegree n α l ∧ coldDegree n α u ≤ k
    | .returned R => ∃ x : ℝ, R = fin x ∧ x ∈ Set.uIcc (r / 2) (2 * r) ∧ |coldDegree n α x - k| ≤ ε
    | .aborted => False := by
  have hr' := (hrgDegree_radius hn hα le_rfl (by norm_num) hk r).1 hr
  have h0 : BInv n k α ε (r / 2) (r * 2) 0 (start ndebug (fin n) (fin k) (fin α)) := by
    rw [start_eq hn hα hk, ← hr', if_pos (Or.inr ⟨hlow, by rw [mul_comm]; exact hupp⟩)]
    exact ⟨_, _, rfl, rfl, Set.left_mem_uIcc, Set.right_mem_uIcc, by simp, hlow.le, by rw [mul_comm]; exact hupp.le⟩
  have hinv : ∀ i, BInv n k α ε (r / 2) (r * 2) i (searchState ndebug (fin n) (fin k) (fin α) (fin ε) i) := by
    intro i
    induction i with
    | zero => exact h0
    | succ i ih => rw [searchState_succ]; exact bInv_step hα ih
  have h1 := hinv i
  rw [mul_comm 2 r]
  cases ho : searchState ndebug (fin n) (fin k) (fin α) (fin ε) i with
  | aborted => rw [ho] at h1; exact h1.elim
  | returned R => rw [ho] at h1; exact h1
  | running b =>
    rw [ho] at h1
    obtain ⟨l, u, e1, e2, hl, hu, hw, h2⟩ := h1
    exact ⟨l, u, e1, e2, hl, hu, by rw [hw]; ring, h2⟩

/-- C52.  If the asserted inequalities hold, the search returns; so a debug build either reports a failed assertion or returns. -/
theorem C52_returns {ndebug : Bool} {n k α ε r : ℝ} (hn : 0 < n) (hα : 1 / 2 < α) (hk : 0 < k) (hε : 0 < ε) (hr : hrgDegree n α 0 r = k)
    (hlow : k < coldDegree n α (r / 2)) (hupp : coldDegree n α (2 * r) < k) :
    ∃ x : ℝ, SearchReturns ndebug (fin n) (fin k) (fin α) (fin ε) (fin x) ∧ x ∈ Set.uIcc (r / 2) (2 * r) ∧ |coldDegree n α x - k| ≤ ε := by
  have hr' := (hrgDegree_radius hn hα le_rfl (by norm_num) hk r).1 hr
  have h0 : BInv n k α ε (r / 2) (r * 2) 0 (start ndebug (fin n) (fin k) (fin α)) := by
    rw [start_eq hn hα hk, ← hr', if_pos (Or.inr ⟨hlow, by rw [mul_comm]; exact hupp⟩)]
    exact ⟨_, _, rfl, rfl, Set.left_mem_uIcc, Set.right_mem_uIcc, by simp, hlow.le, by rw [mul_comm]; exact hupp.le⟩
  obtain ⟨i, x, h1, h2, h3⟩ := bInv_returns hα hε h0
  exact ⟨x, ⟨i, h1⟩, by rw [mul_comm 2 r]; exact h2, h3⟩

/-- C52.  A debug build: the search aborts immediately iff one of the inequalities fails, and returns otherwise. -/
theorem C52_debug {n k α ε r : ℝ} (hn : 0 < n) (hα : 1 / 2 < α) (hk : 0 < k) (hε : 0 < ε) (hr : hrgDegree n α 0 r = k) :
    ((∀ i, searchState false (fin n) (fin k) (fin α) (fin ε) i = .aborted) ∧ ¬ (k < coldDegree n α (r / 2) ∧ coldDegree n α (2 * r) < k)) ∨
    ∃ x : ℝ, SearchReturns false (fin n) (fin k) (fin α) (fin ε) (fin x) ∧ |coldDegree n α x - k| ≤ ε := by
  by_cases h : k < coldDegree n α (r / 2) ∧ coldDegree n α (2 * r) < k
  · obtain ⟨x, h1, _, h2⟩ := C52_returns (ndebug := false) hn hα hk hε hr h.1 h.2
    exact Or.inr ⟨x, h1, h2⟩
  · refine Or.inl ⟨fun i => ?_, h⟩
    have hr' := (hrgDegree_radius hn hα le_rfl (by norm_num) hk r).1 hr
    induction i with
    | zero =>
      show start false (fin n) (fin k) (fin α) = .aborted
      rw [start_eq hn hα hk, ← hr', if_neg]
      rw [mul_comm r 2]
      simpa using h
    | succ i ih => rw [searchState_succ, ih, step_aborted]

/-- C52, unreachable targets.  For `1/2 < alpha <= 1` and a degree with `ξ² n / (2π) + epsilon < k <= n` (for instance every degree above `0.64 n` with
`alpha = 1`) a release build never leaves the loop. -/
theorem C52_hang {n k α ε : ℝ} (hn : 0 < n) (hα : 1 / 2 < α) (hα' : α ≤ 1) (hε : 0 ≤ ε) (hk : xi α ^ 2 * n / (2 * Real.pi) + ε < k) (hkn : k ≤ n) (i : ℕ) :
    ∃ b, searchState true (fin n) (fin k) (fin α) (fin ε) i = .running b := by
  have hpi := Real.pi_pos
  have hk0 : 0 < k := by
    have : 0 ≤ xi α ^ 2 * n / (2 * Real.pi) := by positivity
    linarith
  have hr : 0 ≤ 2 * Real.log (ratio n α 0 k) := by
    have : 1 ≤ ratio n α 0 k := by
      unfold ratio
      rw [if_pos rfl]
      have h2 : 0 < α - 1 / 2 := by linarith
      rw [le_div_iff₀ (by positivity), one_mul]
      have e : n * 2 * α * α * (1 / Real.pi) = n * (2 * α ^ 2) / Real.pi := by field_simp
      rw [e, le_div_iff₀ hpi]
      have h3 : 8 * ((α - 1 / 2) * (α - 1 / 2)) ≤ 2 * α ^ 2 := by nlinarith
      have h4 : 0 ≤ (α - 1 / 2) * (α - 1 / 2) := by positivity
      have h5 : k * (α - 1 / 2) * (α - 1 / 2) * Real.pi ≤ n * ((α - 1 / 2) * (α - 1 / 2)) * 4 := by
        have a : k * ((α - 1 / 2) * (α - 1 / 2)) ≤ n * ((α - 1 / 2) * (α - 1 / 2)) := mul_le_mul_of_nonneg_right hkn h4
        have b : 0 ≤ n * ((α - 1 / 2) * (α - 1 / 2)) := by positivity
        nlinarith [Real.pi_le_four]
      nlinarith
    have := Real.log_nonneg this
    linarith
  have hs : start true (fin n) (fin k) (fin α) = _ := (start_eq hn hα hk0).trans (if_pos (Or.inl rfl))
  unfold searchState
  rw [hs]
  obtain ⟨u, c', h, _⟩ := never_returns (n := n) (k := k) (α := α) (ε := ε) hα (l₀ := 2 * Real.log (ratio n α 0 k) / 2)
    (u₀ := 2 * Real.log (ratio n α 0 k) * 2) (by linarith) (by linarith) hε
    (fun R hR => by have := coldDegree_le hn.le hα hα' hR; linarith) _ i
  exact ⟨_, h⟩

/-- C52.  For temperatures strictly between 0 and 1 `calculateRadiusLikeNetworKit` returns exactly the value of `calculateRadius`. -/
theorem C52_cold {ndebug : Bool} {n : ℤ} {α T deg : ℝ} (hn : 1 ≤ n) (hn' : n < 2 ^ 30) (hα : 1 / 2 < α) (h0 : 0 < T) (h1 : T < 1) (hd : 0 < deg) (R : XR) :
    LikeNetworKit ndebug n (fin α) (fin T) (fin deg) R ↔ calculateRadius n (fin α) (fin T) (fin deg) = some R := by
  have hn0 : (0 : ℝ) < n := by exact_mod_cast (by omega : 0 < n)
  rw [calculateRadius_eq hn (by omega) hα h0.le h1 hd]
  unfold LikeNetworKit TargetRadius
  simp only [XR.ofInt_eq, XR.ofRat_eq, XR.mul_fin, XR.pi_eq, XR.add_fin, XR.sub_fin]
  rw [if_neg (by simpa [CFloat.eq, XR.eq] using h0.ne'), if_pos (by simpa [CFloat.lt, XR.lt] using h1)]
  push_cast
  have h2 : (2 : ℝ) * α + 1 - 1 ≠ 0 := by linarith
  have h3 : α ≠ 0 := by linarith
  have h5 : α - 1 / 2 ≠ 0 := by linarith
  have hpi := Real.pi_pos
  have hs := sin_pi_mul_pos h0 h1
  rw [XR.div_fin _ _ h2, XR.div_fin _ _ hn0.ne', XR.div_fin _ _ (show (2 : ℝ) ≠ 0 by norm_num), XR.div_fin _ _ h0.ne', XR.div_fin _ _ hpi.ne']
  simp only [XR.mul_fin]
  have e1 : (2 * α + 1 - 2) / (2 * α + 1 - 1) = (α - 1 / 2) / α := by rw [div_eq_div_iff h2 h3]; ring
  have hT1 : (1 / T : ℝ) ≠ 0 := by positivity
  rw [XR.div_fin _ _ hT1]
  have e2 : Real.pi / (1 / T) = Real.pi * T := by field_simp
  rw [XR.sin_fin, e1, e2]
  simp only [XR.mul_fin]
  have h7 : 1 / 2 * deg * ↑n / ↑n * 2 * (1 / T / Real.pi * Real.sin (Real.pi * T)) * (Real.pi / 2) * ((α - 1 / 2) / α) * ((α - 1 / 2) / α) ≠ 0 := by
    have : α - 1 / 2 ≠ 0 := h5
    positivity
  rw [XR.div_fin _ _ h7]
  have h8 : (n : ℝ) / (1 / 2 * deg * ↑n / ↑n * 2 * (1 / T / Real.pi * Real.sin (Real.pi * T)) * (Real.pi / 2) * ((α - 1 / 2) / α) * ((α - 1 / 2) / α)) =
      ratio n α T deg := by
    unfold ratio
    rw [if_neg h0.ne']
    field_simp
  rw [h8, XR.log_fin _ (ratio_pos hn0 hα h0.le h1 hd), XR.mul_fin]
  exact ⟨fun h => by rw [h], fun h => (Option.some.inj h).symm⟩

/-- C52.  For temperature 0 `calculateRadiusLikeNetworKit` runs the search with target `deg` and tolerance 0.01. -/
theorem C52_zero {ndebug : Bool} {n : ℤ} {α deg : ℝ} (hn : 1 ≤ n) (R : XR) :
    LikeNetworKit ndebug n (fin α) (fin 0) (fin deg) R ↔ SearchReturns ndebug (fin n) (fin deg) (fin α) (fin (1 / 100)) R := by
  have hn0 : (0 : ℝ) < n := by exact_mod_cast (by omega : 0 < n)
  unfold LikeNetworKit TargetRadius
  simp only [XR.ofInt_eq, XR.ofRat_eq, XR.mul_fin]
  rw [if_pos (by simp [CFloat.eq, XR.eq])]
  rw [XR.div_fin _ _ hn0.ne', XR.mul_fin]
  have e : ((1 / 2 : ℚ) : ℝ) * deg * n / n * ((2 : ℚ) : ℝ) = deg := by push_cast; field_simp
  have e' : (((1 / 100 : ℚ)) : ℝ) = 1 / 100 := by norm_num
  rw [e, e']

/-- C52, finding.  `calculateRadiusLikeNetworKit(n, 1, 0, n-1)` never returns in a release build (`n >= 3`). -/
theorem C52_dense_hangs {n : ℤ} (hn : 3 ≤ n) (R : XR) : ¬ LikeNetworKit true n (fin 1) (fin 0) (fin ((n : ℝ) - 1)) R := by
  rw [C52_zero (by omega)]
  rintro ⟨i, hi⟩
  have hn0 : (3 : ℝ) ≤ n := by exact_mod_cast hn
  have hpi := Real.pi_pos
  obtain ⟨b, hb⟩ := C52_hang (n := n) (k := (n : ℝ) - 1) (α := 1) (ε := 1 / 100) (by linarith) (by norm_num) le_rfl (by norm_num)
    (by
      unfold xi
      have : (1 / (1 - 1 / 2) : ℝ) ^ 2 * n / (2 * Real.pi) = 2 * n / Real.pi := by field_simp; ring
      rw [this, ← lt_sub_iff_add_lt, div_lt_iff₀ hpi]
      nlinarith [Real.pi_gt_d2])
    (by linarith) i
  rw [hb] at hi
  cases hi

/-- the hypotheses of `C52_returns` are met, e.g. by `alpha = 1`, `r = 8`, any `n` (degree `(8/π) n e^{-4}`, about `n/21`) -/
example {n : ℝ} (hn : 0 < n) : hrgDegree n 1 0 8 = 8 / Real.pi * n * Real.exp (-4) ∧
    8 / Real.pi * n * Real.exp (-4) < coldDegree n 1 (8 / 2) ∧ coldDegree n 1 (2 * 8) < 8 / Real.pi * n * Real.exp (-4) := by
  have hpi := Real.pi_pos
  have hpi3 := Real.pi_gt_three
  have hpi4 := Real.pi_lt_d2
  have hE : ∀ m : ℕ, Real.exp (-(m : ℝ)) = Real.exp (-1) ^ m := fun m => by rw [← Real.exp_nat_mul]; congr 1; ring
  have e2 : Real.exp (-2) = Real.exp (-1) ^ 2 := by have := hE 2; push_cast at this; exact this
  have e4 : Real.exp (-4) = Real.exp (-1) ^ 4 := by have := hE 4; push_cast at this; exact this
  have e8 : Real.exp (-8) = Real.exp (-1) ^ 8 := by have := hE 8; push_cast at this; exact this
  have e16 : Real.exp (-16) = Real.exp (-1) ^ 16 := by have := hE 16; push_cast at this; exact this
  have hx0 : 0 < Real.exp (-1) := Real.exp_pos _
  have hx1 : Real.exp (-1) < 1 / 2 := by linarith [Real.exp_neg_one_lt_d9]
  have hx2 : Real.exp (-1) ^ 2 < 1 / 4 := by nlinarith
  refine ⟨?_, ?_, ?_⟩
  · unfold hrgDegree xi
    rw [if_pos rfl]
    norm_num
    left
    ring
  · unfold coldDegree xi
    norm_num
    rw [e2, e4]
    have hc : 0 < 2 / Real.pi * 4 * n := by positivity
    have e : 8 / Real.pi * n * Real.exp (-1) ^ 4 = 2 / Real.pi * 4 * n * Real.exp (-1) ^ 4 := by ring
    rw [e]
    refine mul_lt_mul_of_pos_left ?_ hc
    have e4' : Real.exp (-1) ^ 4 = (Real.exp (-1) ^ 2) ^ 2 := by ring
    rw [e4']
    have hy := pow_pos hx0 2
    generalize Real.exp (-1) ^ 2 = y at hy hx2
    have h : y * (4 - Real.pi / 2) < 1 := by nlinarith
    nlinarith [mul_pos hy (sub_pos.2 h)]
  · unfold coldDegree xi
    norm_num
    rw [e4, e8, e16]
    have hc : 0 < 2 / Real.pi * 4 * n := by positivity
    have e : 8 / Real.pi * n * Real.exp (-1) ^ 4 = 2 / Real.pi * 4 * n * Real.exp (-1) ^ 4 := by ring
    rw [e]
    refine mul_lt_mul_of_pos_left ?_ hc
    have h8 : Real.exp (-1) ^ 8 < Real.exp (-1) ^ 4 := pow_lt_pow_right_of_lt_one₀ hx0 (by linarith) (by norm_num)
    have h16 : 0 < Real.exp (-1) ^ 16 := pow_pos hx0 16
    nlinarith

/-! ### C53 -/

/-- C53.  Converting a radius to a weight and back is the identity, for every disk radius `R`. -/
theorem C53_radius (r R : ℝ) : girgWeightToRadius (radiusToGirgWeight (fin r) (fin R)) (fin R) (fin 1) = fin r := by
  unfold girgWeightToRadius radiusToGirgWeight
  simp only [XR.ofRat_eq, XR.sub_fin]
  rw [XR.div_fin _ _ (by norm_num), XR.exp_fin, XR.div_fin _ _ one_ne_zero, div_one, XR.log_fin _ (Real.exp_pos _), Real.log_exp, XR.mul_fin, XR.sub_fin]
  refine congrArg fin ?_
  push_cast
  ring

/-- C53.  Converting a positive weight, scaled by a positive factor, to a radius and back divides it by the factor. -/
theorem C53_weight {w R s : ℝ} (hw : 0 < w) (hs : 0 < s) :
    radiusToGirgWeight (girgWeightToRadius (fin w) (fin R) (fin s)) (fin R) = fin (w / s) := by
  unfold girgWeightToRadius radiusToGirgWeight
  simp only [XR.ofRat_eq]
  rw [XR.div_fin _ _ hs.ne', XR.log_fin _ (by positivity), XR.mul_fin, XR.sub_fin, XR.sub_fin, XR.div_fin _ _ (by norm_num), XR.exp_fin]
  refine congrArg fin ?_
  have : (R - (R - ((2 : ℚ) : ℝ) * Real.log (w / s))) / ((2 : ℚ) : ℝ) = Real.log (w / s) := by push_cast; ring
  rw [this, Real.exp_log (by positivity)]

/-- C53.  Radii in `[0, R]` correspond to weights in `[1, exp(R/2)]`, and a larger radius gives a smaller weight. -/
theorem C53_weight_range {r R : ℝ} (h0 : 0 ≤ r) (h1 : r ≤ R) :
    ∃ w : ℝ, radiusToGirgWeight (fin r) (fin R) = fin w ∧ 1 ≤ w ∧ w ≤ Real.exp (R / 2) ∧
      ∀ r', r < r' → ∃ w' : ℝ, radiusToGirgWeight (fin r') (fin R) = fin w' ∧ w' < w := by
  have e : ∀ x : ℝ, radiusToGirgWeight (fin x) (fin R) = fin (Real.exp ((R - x) / 2)) := by
    intro x
    unfold radiusToGirgWeight
    rw [XR.ofRat_eq, XR.sub_fin, XR.div_fin _ _ (by norm_num), XR.exp_fin]
    norm_num
  refine ⟨_, e r, Real.one_le_exp (by linarith), Real.exp_le_exp.2 (by linarith), fun r' h => ⟨_, e r', Real.exp_lt_exp.2 (by linarith)⟩⟩

/-- C53.  Angles and positions: the two conversions are inverse to each other and exchange `[0, 2π)` and `[0, 1)`. -/
theorem C53_angle (x : ℝ) :
    girgPositionToAngle (angleToGirgPosition (fin x)) = fin x ∧ angleToGirgPosition (girgPositionToAngle (fin x)) = fin x ∧
    (∃ p : ℝ, angleToGirgPosition (fin x) = fin p ∧ ((0 ≤ x ∧ x < 2 * Real.pi) ↔ (0 ≤ p ∧ p < 1))) ∧
    (∃ a : ℝ, girgPositionToAngle (fin x) = fin a ∧ ((0 ≤ x ∧ x < 1) ↔ (0 ≤ a ∧ a < 2 * Real.pi))) := by
  have hpi := Real.pi_pos
  have e1 : ∀ x : ℝ, angleToGirgPosition (fin x) = fin (x / 2 / Real.pi) := by
    intro x
    unfold angleToGirgPosition
    rw [XR.ofRat_eq, XR.div_fin _ _ (by norm_num), XR.pi_eq, XR.div_fin _ _ hpi.ne']
    norm_num
  have e2 : ∀ x : ℝ, girgPositionToAngle (fin x) = fin (x * 2 * Real.pi) := by
    intro x
    unfold girgPositionToAngle
    rw [XR.ofRat_eq, XR.pi_eq, XR.mul_fin, XR.mul_fin]
    norm_num
  refine ⟨?_, ?_, ⟨_, e1 x, ?_⟩, ⟨_, e2 x, ?_⟩⟩
  · rw [e1, e2]; refine congrArg fin ?_; field_simp
  · rw [e2, e1]; refine congrArg fin ?_; field_simp
  · rw [div_div, div_lt_one (by positivity), le_div_iff₀ (by positivity), zero_mul]
  · constructor
    · rintro ⟨a, b⟩; exact ⟨by positivity, by nlinarith⟩
    · rintro ⟨a, b⟩
      constructor
      · by_contra h; nlinarith
      · by_contra h; nlinarith

/-- a concrete pair of values -/
example : angleToGirgPosition (fin Real.pi) = fin (1 / 2) := by
  unfold angleToGirgPosition
  rw [XR.ofRat_eq, XR.div_fin _ _ (by norm_num), XR.pi_eq, XR.div_fin _ _ Real.pi_ne_zero]
  refine congrArg fin ?_
  have := Real.pi_ne_zero
  push_cast
  field_simp

end Girgs.Props
