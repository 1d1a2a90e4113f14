import Verif.Proofs.ScalingThreshold
import Mathlib.Analysis.Convex.SpecificFunctions.Basic
/-
The estimator for finite alpha in exact arithmetic.
-/
namespace Girgs.Scaling
open CFloat Finset
open XR (fin)

/-! ### connection probability -/

/-- closed form for unsaturated pairs -/
noncomputable def rawAlpha (α t : ℝ) : ℝ := t + (t - t ^ α) / (α - 1)

/-- probability that a pair whose weights give the ball volume `t` is connected -/
noncomputable def probAlpha (α t : ℝ) : ℝ := if 1 ≤ t then 1 else rawAlpha α t

theorem rawAlpha_one (α : ℝ) : rawAlpha α 1 = 1 := by simp [rawAlpha]

theorem probAlpha_eq_min (α : ℝ) (t : ℝ) : probAlpha α t = rawAlpha α (min 1 t) := by
  unfold probAlpha
  split
  · rename_i h; rw [min_eq_left h, rawAlpha_one]
  · rename_i h; rw [min_eq_right (not_le.1 h).le]

theorem rawAlpha_pos {α t : ℝ} (hα : 0 < α) (h1 : α ≠ 1) (ht : 0 < t) (ht1 : t < 1) : 0 < rawAlpha α t := by
  unfold rawAlpha
  have : 0 ≤ (t - t ^ α) / (α - 1) := by
    rcases lt_or_gt_of_ne h1 with h | h
    · refine div_nonneg_of_nonpos ?_ (by linarith)
      have := Real.rpow_le_rpow_of_exponent_ge ht ht1.le h.le
      rw [Real.rpow_one] at this; linarith
    · refine div_nonneg ?_ (by linarith)
      have := Real.rpow_le_rpow_of_exponent_ge ht ht1.le h.le
      rw [Real.rpow_one] at this; linarith
  linarith

theorem rawAlpha_le_one {α t : ℝ} (hα : 0 < α) (h1 : α ≠ 1) (ht : 0 < t) : rawAlpha α t ≤ 1 := by
  unfold rawAlpha
  have e : (t + (t - t ^ α) / (α - 1)) - 1 = (1 + α * (t - 1) - t ^ α) / (α - 1) := by
    have : α - 1 ≠ 0 := sub_ne_zero.2 h1
    field_simp; ring
  have : (1 + α * (t - 1) - t ^ α) / (α - 1) ≤ 0 := by
    rcases lt_or_gt_of_ne h1 with h | h
    · have hb := rpow_one_add_le_one_add_mul_self (s := t - 1) (by linarith) hα.le h.le
      rw [add_sub_cancel] at hb
      exact div_nonpos_of_nonneg_of_nonpos (by linarith) (by linarith)
    · have hb := one_add_mul_self_le_rpow_one_add (s := t - 1) (by linarith) h.le
      rw [add_sub_cancel] at hb
      exact div_nonpos_of_nonpos_of_nonneg (by linarith) (by linarith)
  linarith

theorem rawAlpha_continuous {α : ℝ} (hα : 0 < α) : Continuous (rawAlpha α) := by
  unfold rawAlpha
  have : Continuous fun t : ℝ => t ^ α := Real.continuous_rpow_const hα.le
  exact continuous_id.add ((continuous_id.sub this).div_const _)

theorem probAlpha_conn {α : ℝ} (hα : 0 < α) (h1 : α ≠ 1) : ConnFn (probAlpha α) where
  pos t ht := by
    unfold probAlpha
    split
    · exact one_pos
    · rename_i h; exact rawAlpha_pos hα h1 ht (not_le.1 h)
  le_one t ht := by
    unfold probAlpha
    split
    · exact le_rfl
    · exact rawAlpha_le_one hα h1 ht
  eq_one t ht := by unfold probAlpha; rw [if_pos ht]
  cont t _ := by
    have : probAlpha α = fun t => rawAlpha α (min 1 t) := funext (probAlpha_eq_min α)
    rw [this]
    exact ((rawAlpha_continuous hα).comp (continuous_const.min continuous_id)).continuousAt
  small ε hε := by
    have h0 : rawAlpha α 0 = 0 := by simp [rawAlpha, Real.zero_rpow hα.ne']
    have hc := (rawAlpha_continuous hα).continuousAt (x := 0)
    obtain ⟨δ, hδ, h⟩ := Metric.continuousAt_iff.1 hc ε hε
    refine ⟨min δ 1, lt_min hδ one_pos, fun t ht hlt => ?_⟩
    have h2 := h (x := t) (by rw [Real.dist_eq, sub_zero, abs_of_pos ht]; exact hlt.trans_le (min_le_left _ _))
    rw [Real.dist_eq, h0, sub_zero] at h2
    unfold probAlpha
    rw [if_neg (not_le.2 (hlt.trans_le (min_le_right _ _)))]
    exact (abs_lt.1 h2).2

/-! ### loops -/

/-- the cached powers belong to the vector -/
def PowOk (α : ℝ) (vec pw : List XR) : Prop :=
  ∀ i < pw.length, ∃ y : ℝ, vec[i]? = some (fin y) ∧ pw[i]? = some (fin (y ^ α))

theorem growPows_eq {α : ℝ} {vec : List XR} {b : ℕ → ℝ} {re : ℕ} (hv : ∀ i < re, vec[i]? = some (fin (b i))) (hb : ∀ i < re, 0 < b i) :
    ∀ (k : ℕ) (pw : List XR), PowOk α vec pw → (k = 0 ∨ pw.length + k = re) →
      ∃ pw', growPows vec (fin α) k pw = some pw' ∧ PowOk α vec pw' ∧ pw'.length = pw.length + k := by
  intro k
  induction k with
  | zero => intro pw h _; exact ⟨pw, rfl, h, rfl⟩
  | succ k ih =>
    intro pw h hk
    have hk : pw.length + (k + 1) = re := by omega
    obtain ⟨pw', h1, h2, h3⟩ := ih (pw ++ [fin (b pw.length ^ α)]) (by
      intro i hi
      rw [List.length_append, List.length_singleton] at hi
      rcases Nat.lt_or_eq_of_le (Nat.le_of_lt_succ hi) with hi | rfl
      · obtain ⟨y, hy1, hy2⟩ := h i hi
        exact ⟨y, hy1, by rw [List.getElem?_append_left hi]; exact hy2⟩
      · exact ⟨b pw.length, hv _ (by omega), by rw [List.getElem?_append_right le_rfl]; simp⟩)
      (by rw [List.length_append, List.length_singleton]; omega)
    refine ⟨pw', ?_, h2, by rw [h3, List.length_append, List.length_singleton]; omega⟩
    rw [growPows]
    refine (obind (hv pw.length (by omega)) _).trans ?_
    rw [XR.pow_fin _ _ (hb _ (by omega))]
    exact h1

theorem advanceA_eq {α : ℝ} {vec pw : List XR} {b : ℕ → ℝ} {re G : ℕ} {thr : ℝ} (hv : ∀ i < re, vec[i]? = some (fin (b i)))
    (hpw : ∀ i < re, pw[i]? = some (fin (b i ^ α))) (hG : G ≤ re) (hiff : ∀ j < re, (j < G ↔ thr ≤ b j)) :
    ∀ (fuel i2 : ℕ) (S T : ℝ), i2 + fuel = re → i2 ≤ G →
      advanceA vec pw (fin thr) fuel (fin S) (fin T) i2 =
        some (fin (S + ∑ j ∈ Ico i2 G, b j), fin (T + ∑ j ∈ Ico i2 G, b j ^ α), G) := by
  intro fuel
  induction fuel with
  | zero =>
    intro i2 S T h1 h2
    have : i2 = G := by omega
    subst this
    simp [advanceA]
  | succ fuel ih =>
    intro i2 S T h1 h2
    rw [advanceA]
    refine (obind (hv i2 (by omega)) _).trans ?_
    by_cases hlt : i2 < G
    · rw [if_pos ((ge_fin _ _).2 ((hiff i2 (by omega)).1 hlt))]
      refine (obind (hpw i2 (by omega)) _).trans ?_
      rw [XR.add_fin, XR.add_fin, ih (i2 + 1) _ _ (by omega) (by omega),
        sum_eq_sum_Ico_succ_bot hlt, sum_eq_sum_Ico_succ_bot hlt, add_assoc, add_assoc]
    · rw [if_neg fun hh => hlt ((hiff i2 (by omega)).2 ((ge_fin _ _).1 hh))]
      have : i2 = G := by omega
      subst this
      simp

/-- number of terms counted by the loop -/
def numSum (k : ℕ) (g : ℕ → ℕ) : ℕ := ∑ i ∈ range k, (g i - if i ≤ g i then 1 else 0)

theorem termLoop_eq {α : ℝ} {vec pw : List XR} {n re : ℕ} {b : ℕ → ℝ} {W Wa x thresh : ℝ} {g : ℕ → ℕ} (hW : 0 < W) (hWa : 0 < Wa)
    (hv : ∀ i < re, vec[i]? = some (fin (b i))) (hpw : ∀ i < re, pw[i]? = some (fin (b i ^ α)))
    (hc : Club n re b x g) (hth : x * (thresh * W) = 1) (hn : n < 2 ^ 31) :
    ∀ (k i2 num : ℕ) (wt wa : ℝ), k ≤ re → (∀ i < k, i2 ≤ g i) → num ≤ (re - k) * re →
      ∃ i2' S T, termLoop vec pw (fin W) (fin Wa) (fin thresh) re k
          ⟨i2, fin (∑ j ∈ range i2, b j), fin (∑ j ∈ range i2, b j ^ α), fin wt, fin wa, num⟩ =
        some ⟨i2', S, T, fin (wt + loopSum k b (1 / W) g id), fin (wa + loopSum k (fun i => b i ^ α) (1 / Wa) g id),
          num + numSum k g⟩ := by
  intro k
  induction k with
  | zero => intro i2 num wt wa _ _ _; exact ⟨i2, fin (∑ j ∈ range i2, b j), fin (∑ j ∈ range i2, b j ^ α), by simp [termLoop, loopSum, numSum]⟩
  | succ k ih =>
    intro i2 num wt wa hk hi2 hnum
    have hkr : k < re := by omega
    have hren := hc.re_le
    have hbk : 0 < b k := hc.pos k (by omega)
    have hgk := hc.g_le k hkr
    have hthp : 0 < thresh * W := by
      have := hc.x_pos
      by_contra hcon
      push Not at hcon
      have := mul_nonpos_of_nonneg_of_nonpos this.le hcon
      linarith
    have e1 : (fin thresh *. fin W /. fin (b k) : XR) = fin (thresh * W / b k) := by
      rw [XR.mul_fin, XR.div_fin _ _ hbk.ne']
    have ha := advanceA_eq (α := α) hv hpw hgk (thr := thresh * W / b k) (fun j hj => by
      rw [hc.g_iff k hkr j hj, ← hth, div_le_iff₀ hbk]
      have := hc.x_pos
      constructor
      · intro h
        have h2 : x * (thresh * W) ≤ x * (b j * b k) := by rw [show x * (b j * b k) = x * b k * b j by ring]; exact h
        exact le_of_mul_le_mul_left h2 this
      · intro h
        rw [show x * b k * b j = x * (b j * b k) by ring]
        gcongr) (re - i2) i2 (∑ j ∈ range i2, b j) (∑ j ∈ range i2, b j ^ α)
      (by have := hi2 k (by omega); omega) (hi2 k (by omega))
    rw [sum_range_add_sum_Ico _ (hi2 k (by omega)), sum_range_add_sum_Ico _ (hi2 k (by omega))] at ha
    have hnext : ∀ i < k, g k ≤ g i := fun i hi => hc.g_anti (by omega) hkr
    have e2 : (fin wt +. fin (b k) *. fin (∑ j ∈ range (g k), b j) /. fin W : XR) =
        fin (wt + ∑ j ∈ range (g k), 1 / W * b k * b j) := by
      rw [XR.mul_fin, XR.div_fin _ _ hW.ne', XR.add_fin, ← mul_sum]
      congr 2; field_simp
    have e3 : (fin wa +. fin (b k ^ α) *. fin (∑ j ∈ range (g k), b j ^ α) /. fin Wa : XR) =
        fin (wa + ∑ j ∈ range (g k), 1 / Wa * b k ^ α * b j ^ α) := by
      rw [XR.mul_fin, XR.div_fin _ _ hWa.ne', XR.add_fin, ← mul_sum]
      congr 2; field_simp
    have hs1 : loopSum (k + 1) b (1 / W) g id = loopSum k b (1 / W) g id +
        ((∑ j ∈ range (g k), 1 / W * b k * b j) - if k ≤ g k then 1 / W * b k * b k else 0) := by
      unfold loopSum; rw [sum_range_succ]; rfl
    have hs2 : loopSum (k + 1) (fun i => b i ^ α) (1 / Wa) g id = loopSum k (fun i => b i ^ α) (1 / Wa) g id +
        ((∑ j ∈ range (g k), 1 / Wa * b k ^ α * b j ^ α) - if k ≤ g k then 1 / Wa * b k ^ α * b k ^ α else 0) := by
      unfold loopSum; rw [sum_range_succ]; rfl
    have hs3 : numSum (k + 1) g = numSum k g + (g k - if k ≤ g k then 1 else 0) := by
      unfold numSum; rw [sum_range_succ]
    have hnum' : num + g k ≤ (re - k) * re := by
      have : (re - k) * re = (re - (k + 1)) * re + re := by
        rw [show re - k = (re - (k + 1)) + 1 by omega, Nat.add_mul, one_mul]
      omega
    have hsmall : (re - k) * re < 2 ^ 62 := by
      calc (re - k) * re ≤ re * re := Nat.mul_le_mul_right _ (by omega)
        _ ≤ n * n := Nat.mul_le_mul hren hren
        _ < 2 ^ 31 * 2 ^ 31 := Nat.mul_lt_mul'' hn hn
        _ = 2 ^ 62 := by norm_num
    have hmod : sizeT (num + g k) = num + g k := Nat.mod_eq_of_lt (by omega)
    by_cases hkg : k ≤ g k
    · have hg1 : 1 ≤ g k := by
        rcases Nat.eq_zero_or_pos k with rfl | h0
        · exact (hc.g_iff 0 hkr 0 hkr).2 (hc.inside 0 hkr)
        · omega
      have hmod2 : sizeT (num + g k + 18446744073709551615) = num + (g k - 1) := by
        unfold sizeT
        rw [show num + g k + 18446744073709551615 = (num + (g k - 1)) + 18446744073709551616 by omega, Nat.add_mod_right]
        exact Nat.mod_eq_of_lt (by omega)
      have e4 : (fin (wt + ∑ j ∈ range (g k), 1 / W * b k * b j) -. fin (b k) *. fin (b k) /. fin W : XR) =
          fin (wt + ((∑ j ∈ range (g k), 1 / W * b k * b j) - 1 / W * b k * b k)) := by
        rw [XR.mul_fin, XR.div_fin _ _ hW.ne', XR.sub_fin]
        refine congrArg fin ?_
        field_simp; ring
      have e5 : (fin (wa + ∑ j ∈ range (g k), 1 / Wa * b k ^ α * b j ^ α) -. fin (b k ^ α) *. fin (b k ^ α) /. fin Wa : XR) =
          fin (wa + ((∑ j ∈ range (g k), 1 / Wa * b k ^ α * b j ^ α) - 1 / Wa * b k ^ α * b k ^ α)) := by
        rw [XR.mul_fin, XR.div_fin _ _ hWa.ne', XR.sub_fin]
        refine congrArg fin ?_
        field_simp; ring
      obtain ⟨i2', S, T, h⟩ := ih (g k) (num + (g k - 1)) (wt + ((∑ j ∈ range (g k), 1 / W * b k * b j) - 1 / W * b k * b k))
        (wa + ((∑ j ∈ range (g k), 1 / Wa * b k ^ α * b j ^ α) - 1 / Wa * b k ^ α * b k ^ α)) (by omega) hnext (by omega)
      refine ⟨i2', S, T, ?_⟩
      rw [termLoop]
      refine (obind (hv k hkr) _).trans ?_
      simp only
      rw [e1]
      refine (obind ha _).trans ?_
      refine (obind (hpw k hkr) _).trans ?_
      simp only
      rw [if_pos hkg, hmod, hmod2, e2, e3, e4, e5, h, hs1, hs2, hs3, if_pos hkg, if_pos hkg, if_pos hkg]
      clear hn hsmall hmod hmod2 hnum hnum' ih h hs1 hs2 hs3
      congr 2
      · congr 1; ring
      · congr 1; ring
      · ring
    · obtain ⟨i2', S, T, h⟩ := ih (g k) (num + g k) (wt + ∑ j ∈ range (g k), 1 / W * b k * b j)
        (wa + ∑ j ∈ range (g k), 1 / Wa * b k ^ α * b j ^ α) (by omega) hnext (by omega)
      refine ⟨i2', S, T, ?_⟩
      rw [termLoop]
      refine (obind (hv k hkr) _).trans ?_
      simp only
      rw [e1]
      refine (obind ha _).trans ?_
      refine (obind (hpw k hkr) _).trans ?_
      simp only
      rw [if_neg hkg, hmod, e2, e3, h, hs1, hs2, hs3, if_neg hkg, if_neg hkg, if_neg hkg]
      congr 2
      · congr 1; ring
      · congr 1; ring
      · rw [Nat.sub_zero]; ring

/-- the sums of the loop combine to the error of the raw terms -/
theorem loopSum_alpha {n re : ℕ} {b : ℕ → ℝ} {x W Wa α A C : ℝ} {g : ℕ → ℕ} (hc : Club n re b x g)
    (hA : ∀ i < re, ∀ j < re, A * (1 / W * b i * b j) = x * b i * b j)
    (hC : ∀ i < re, ∀ j < re, C * (1 / Wa * b i ^ α * b j ^ α) = (x * b i * b j) ^ α) :
    loopSum re b x g (fun t => rawAlpha α t - 1) =
      (A * loopSum re b (1 / W) g id - numSum re g) +
        (1 / (α - 1)) * (A * loopSum re b (1 / W) g id - C * loopSum re (fun i => b i ^ α) (1 / Wa) g id) := by
  unfold loopSum numSum
  rw [Nat.cast_sum, mul_sum, mul_sum, ← sum_sub_distrib, ← sum_sub_distrib, mul_sum, ← sum_add_distrib]
  refine sum_congr rfl fun i hi => ?_
  rw [mem_range] at hi
  have hg := hc.g_le i hi
  simp only [id]
  rw [mul_sub A, mul_sub C, mul_sum, mul_sum]
  rw [sum_congr rfl fun j hj => hA i hi j (by rw [mem_range] at hj; omega),
    sum_congr rfl fun j hj => hC i hi j (by rw [mem_range] at hj; omega)]
  have e1 : ∑ j ∈ range (g i), (rawAlpha α (x * b i * b j) - 1) =
      (∑ j ∈ range (g i), x * b i * b j) - g i +
        (1 / (α - 1)) * ((∑ j ∈ range (g i), x * b i * b j) - ∑ j ∈ range (g i), (x * b i * b j) ^ α) := by
    unfold rawAlpha
    rw [← sum_sub_distrib, mul_sum]
    rw [show (g i : ℝ) = ∑ j ∈ range (g i), (1 : ℝ) by simp]
    rw [← sum_sub_distrib, ← sum_add_distrib]
    refine sum_congr rfl fun j _ => ?_
    ring
  rw [e1]
  by_cases hig : i ≤ g i
  · have hg1 : 1 ≤ g i := by
      rcases Nat.eq_zero_or_pos i with rfl | h0
      · exact (hc.g_iff 0 hi 0 hi).2 (hc.inside 0 hi)
      · omega
    simp only [if_pos hig]
    rw [hA i hi i hi, hC i hi i hi, Nat.cast_sub hg1]
    unfold rawAlpha
    push_cast; ring
  · simp only [if_neg hig]
    push_cast
    rw [Nat.sub_zero]; ring

end Girgs.Scaling
