import Verif.Proofs.ScalingSums
import Verif.Proofs.Search
/-
The values an estimator may return, and why the search terminates on them.
-/
namespace Girgs.Scaling
open Finset Filter Topology

/-- properties of the connection probability as a function of `t`, the volume of the ball of the weights -/
structure ConnFn (P : ℝ → ℝ) : Prop where
  pos : ∀ t, 0 < t → 0 < P t
  le_one : ∀ t, 0 < t → P t ≤ 1
  eq_one : ∀ t, 1 ≤ t → P t = 1
  cont : ∀ t, 0 < t → ContinuousAt P t
  small : ∀ ε, 0 < ε → ∃ δ, 0 < δ ∧ ∀ t, 0 < t → t < δ → P t < ε

/-- `n · v` is the sum over all pairs minus the erroneous self contributions; `χ i` tells whether the `i`-th largest
weight contributes (line 139 resp. 254 of WeightScaling.cpp with `w2 == w1`). -/
def EstVal (n : ℕ) (b : ℕ → ℝ) (P : ℝ → ℝ) (x v : ℝ) : Prop :=
  ∃ χ : ℕ → ℝ, (∀ i, χ i = 0 ∨ χ i = 1) ∧ χ 0 = 0 ∧
    (∀ i, i + 1 < n → (1 < x * b (i + 1) * b i → χ (i + 1) = 1) ∧ (x * b (i + 1) * b i < 1 → χ (i + 1) = 0)) ∧
    n * v = pairSum n (fun i j => P (x * b i * b j)) - ∑ i ∈ range n, χ i * (1 - P (x * b i * b i))

variable {n re : ℕ} {b : ℕ → ℝ} {x : ℝ} {g : ℕ → ℕ} {P raw : ℝ → ℝ}

theorem Club.estVal (h : Club n re b x g) (hn : 0 < n) (hraw : raw 1 = 1)
    (hP : ∀ t, 0 < t → P t = if 1 ≤ t then 1 else raw t) :
    EstVal n b P x ((pairSum n (fun i j => raw (x * b i * b j)) - loopSum re b x g (fun t => raw t - 1)) / n) := by
  classical
  refine ⟨fun i => if i < re ∧ 0 < i ∧ 1 ≤ x * b i * b (i - 1) then 1 else 0, fun i => ?_, by simp, fun i hi => ⟨fun h1 => ?_, fun h1 => ?_⟩, ?_⟩
  · simp only; split
    · exact Or.inr rfl
    · exact Or.inl rfl
  · beta_reduce
    rw [if_pos]
    refine ⟨?_, by omega, by simpa using h1.le⟩
    by_contra hc
    push Not at hc
    have h2 := h.outside (i + 1) hc hi
    have h3 : x * b (i + 1) * b i ≤ x * b 0 * b (i + 1) := by
      have := h.anti 0 i (Nat.zero_le _) (by omega)
      have := h.pos (i + 1) hi
      have := h.x_pos
      calc x * b (i + 1) * b i = x * b i * b (i + 1) := by ring
        _ ≤ _ := by gcongr
    linarith
  · beta_reduce
    rw [if_neg]
    rintro ⟨-, -, h2⟩
    rw [Nat.add_sub_cancel] at h2; linarith
  · rw [mul_div_cancel₀ _ (by positivity), h.value_eq hraw hP]
    congr 1
    refine sum_congr rfl fun i hi => ?_
    rw [mem_range] at hi
    beta_reduce
    have hpos : 0 < x * b i * b i := mul_pos (mul_pos h.x_pos (h.pos i hi)) (h.pos i hi)
    by_cases hir : i < re
    · by_cases h1 : 1 ≤ x * b i * b i
      · rw [hP _ hpos, if_pos h1]; simp
      · have hc := h.cross_iff hir
        by_cases h2 : g i = i
        · rw [if_pos ⟨hir, h2⟩, if_pos ⟨hir, (hc.1 h2).2⟩, one_mul]
        · rw [if_neg (fun hh => h2 hh.2), if_neg, zero_mul]
          rintro ⟨-, h3, h4⟩
          exact h2 (hc.2 ⟨not_le.1 h1, h3, h4⟩)
    · rw [if_neg (fun hh => hir hh.1), if_neg (fun hh => hir hh.1), zero_mul]

/-- the weights -/
structure Weights (n : ℕ) (b : ℕ → ℝ) : Prop where
  pos : ∀ i < n, 0 < b i
  anti : ∀ i j, i ≤ j → j < n → b j ≤ b i

theorem Weights.arg_pos (h : Weights n b) (hx : 0 < x) {i j : ℕ} (hi : i < n) (hj : j < n) : 0 < x * b i * b j :=
  mul_pos (mul_pos hx (h.pos i hi)) (h.pos j hj)

/-- the correction is at least 0 and less than 1 -/
theorem EstVal.correction (hb : Weights n b) (hP : ConnFn P) (hx : 0 < x) {χ : ℕ → ℝ} (h01 : ∀ i, χ i = 0 ∨ χ i = 1)
    (h0 : χ 0 = 0) (hχ : ∀ i, i + 1 < n → (x * b (i + 1) * b i < 1 → χ (i + 1) = 0)) :
    0 ≤ ∑ i ∈ range n, χ i * (1 - P (x * b i * b i)) ∧ ∑ i ∈ range n, χ i * (1 - P (x * b i * b i)) < 1 := by
  have hnn : ∀ i ∈ range n, 0 ≤ χ i * (1 - P (x * b i * b i)) := by
    intro i hi
    have := hP.le_one _ (hb.arg_pos hx (mem_range.1 hi) (mem_range.1 hi))
    rcases h01 i with h | h <;> rw [h] <;> linarith
  refine ⟨sum_nonneg hnn, ?_⟩
  by_cases hall : ∀ i ∈ range n, χ i * (1 - P (x * b i * b i)) = 0
  · rw [sum_eq_zero hall]; norm_num
  · push Not at hall
    obtain ⟨k, hk, hne⟩ := hall
    have hkn := mem_range.1 hk
    have key : ∀ k k', k < n → k' < n → χ k * (1 - P (x * b k * b k)) ≠ 0 → χ k' * (1 - P (x * b k' * b k')) ≠ 0 → k < k' → False := by
      intro k k' hk hk' h1 h2 hlt
      have hlt1 : x * b k * b k < 1 := by
        by_contra hc
        rw [hP.eq_one _ (not_lt.1 hc)] at h1; simp at h1
      obtain ⟨m, rfl⟩ : ∃ m, k' = m + 1 := ⟨k' - 1, by omega⟩
      have h3 : ¬ (x * b (m + 1) * b m < 1) := fun hh => h2 (by rw [hχ m hk' hh, zero_mul])
      apply h3
      have a1 := hb.anti k (m + 1) (by omega) hk'
      have a2 := hb.anti k m (by omega) (by omega)
      have a3 := hb.pos m (by omega)
      have a4 := hb.pos k hk
      calc x * b (m + 1) * b m ≤ x * b k * b k := by gcongr
        _ < 1 := hlt1
    rw [sum_eq_single_of_mem k hk]
    · have := hP.pos _ (hb.arg_pos hx hkn hkn)
      rcases h01 k with h | h <;> rw [h] <;> linarith
    · intro j hj hjk
      by_contra hjne
      rcases lt_or_gt_of_ne hjk with h | h
      · exact key j k (mem_range.1 hj) hkn hjne hne h
      · exact key k j hkn (mem_range.1 hj) hne hjne h

/-- the estimate is at most the expected degree and at most `1/n` below it -/
theorem EstVal.bounds (hb : Weights n b) (hP : ConnFn P) (hx : 0 < x) (hn : 0 < n) {v : ℝ} (h : EstVal n b P x v) :
    pairSum n (fun i j => P (x * b i * b j)) / n - 1 / n < v ∧ v ≤ pairSum n (fun i j => P (x * b i * b j)) / n := by
  obtain ⟨χ, h01, h0, hχ, hv⟩ := h
  obtain ⟨c0, c1⟩ := EstVal.correction hb hP hx h01 h0 (fun i hi => (hχ i hi).2)
  have hn' : (0 : ℝ) < n := by exact_mod_cast hn
  constructor
  · rw [← sub_div, div_lt_iff₀ hn']; linarith
  · rw [le_div_iff₀ hn']; linarith

theorem pairSum_eq (n : ℕ) (f : ℕ → ℕ → ℝ) : pairSum n f = ∑ i ∈ range n, ∑ j ∈ (range n).erase i, f i j := by
  unfold pairSum
  rw [← sum_sub_distrib]
  refine sum_congr rfl fun i hi => ?_
  rw [← add_sum_erase _ _ hi]; ring

theorem pairSum_le (hb : Weights n b) (hP : ConnFn P) (hx : 0 < x) :
    pairSum n (fun i j => P (x * b i * b j)) ≤ n * (n - 1) := by
  rw [pairSum_eq]
  calc ∑ i ∈ range n, ∑ j ∈ (range n).erase i, P (x * b i * b j) ≤ ∑ i ∈ range n, ∑ j ∈ (range n).erase i, (1 : ℝ) := by
        refine sum_le_sum fun i hi => sum_le_sum fun j hj => ?_
        exact hP.le_one _ (hb.arg_pos hx (mem_range.1 hi) (mem_range.1 (mem_of_mem_erase hj)))
    _ = n * (n - 1) := by
        rw [sum_congr rfl fun i hi => by rw [sum_const, card_erase_of_mem hi, card_range, nsmul_one]]
        rw [sum_const, card_range, nsmul_eq_mul]
        rcases Nat.eq_zero_or_pos n with rfl | hn
        · simp
        · rw [Nat.cast_sub hn]; simp

theorem EstVal.le (hb : Weights n b) (hP : ConnFn P) (hx : 0 < x) (hn : 0 < n) {v : ℝ} (h : EstVal n b P x v) :
    v ≤ n - 1 := by
  have h1 := (EstVal.bounds hb hP hx hn h).2
  have h2 := pairSum_le hb hP hx
  have hn' : (0 : ℝ) < n := by exact_mod_cast hn
  refine h1.trans ?_
  rw [div_le_iff₀ hn']; linarith

/-- with at least two nodes the estimate is positive -/
theorem EstVal.positive (hb : Weights n b) (hP : ConnFn P) (hx : 0 < x) (hn : 2 ≤ n) {v : ℝ} (h : EstVal n b P x v) :
    0 < v := by
  obtain ⟨χ, h01, h0, hχ, hv⟩ := h
  obtain ⟨c0, c1⟩ := EstVal.correction hb hP hx h01 h0 (fun i hi => (hχ i hi).2)
  have hn' : (0 : ℝ) < n := by exact_mod_cast (by omega : 0 < n)
  have hterm : ∀ i ∈ range n, ∀ j ∈ (range n).erase i, 0 ≤ P (x * b i * b j) := fun i hi j hj =>
    (hP.pos _ (hb.arg_pos hx (mem_range.1 hi) (mem_range.1 (mem_of_mem_erase hj)))).le
  suffices 0 < (n : ℝ) * v from pos_of_mul_pos_right this hn'.le
  rw [hv]
  by_cases hall : ∀ i ∈ range n, χ i * (1 - P (x * b i * b i)) = 0
  · rw [sum_eq_zero hall, sub_zero, pairSum_eq]
    refine sum_pos' (fun i hi => sum_nonneg (hterm i hi)) ⟨0, mem_range.2 (by omega), ?_⟩
    refine sum_pos' (hterm 0 (mem_range.2 (by omega))) ⟨1, mem_erase.2 ⟨by omega, mem_range.2 (by omega)⟩, ?_⟩
    exact hP.pos _ (hb.arg_pos hx (by omega) (by omega))
  · push Not at hall
    obtain ⟨k, hk, hne⟩ := hall
    have hkn := mem_range.1 hk
    have hk0 : k ≠ 0 := by rintro rfl; rw [h0] at hne; simp at hne
    obtain ⟨m, rfl⟩ : ∃ m, k = m + 1 := ⟨k - 1, by omega⟩
    have h3 : 1 ≤ x * b (m + 1) * b m := by
      by_contra hc
      rw [(hχ m hkn).2 (not_le.1 hc)] at hne; simp at hne
    have hge : (1 : ℝ) ≤ pairSum n (fun i j => P (x * b i * b j)) := by
      rw [pairSum_eq]
      have e1 : (1 : ℝ) ≤ ∑ j ∈ (range n).erase (m + 1), P (x * b (m + 1) * b j) := by
        rw [← hP.eq_one _ h3]
        exact single_le_sum (f := fun j => P (x * b (m + 1) * b j)) (hterm (m + 1) hk)
          (mem_erase.2 ⟨by omega, mem_range.2 (by omega)⟩)
      exact e1.trans (single_le_sum (f := fun i => ∑ j ∈ (range n).erase i, P (x * b i * b j))
        (fun i hi => sum_nonneg (hterm i hi)) hk)
    linarith

/-- once every pair is saturated the estimate is `n - 1` -/
theorem EstVal.saturated (hP : ConnFn P) (hn : 0 < n) (hsat : ∀ i < n, ∀ j < n, 1 ≤ x * b i * b j)
    {v : ℝ} (h : EstVal n b P x v) : v = n - 1 := by
  obtain ⟨χ, h01, h0, hχ, hv⟩ := h
  have hn' : (0 : ℝ) < n := by exact_mod_cast hn
  have e1 : ∑ i ∈ range n, χ i * (1 - P (x * b i * b i)) = 0 := by
    refine sum_eq_zero fun i hi => ?_
    rw [hP.eq_one _ (hsat i (mem_range.1 hi) i (mem_range.1 hi))]; ring
  have e2 : pairSum n (fun i j => P (x * b i * b j)) = n * (n - 1) := by
    rw [pairSum_eq]
    rw [sum_congr rfl fun i hi => sum_congr rfl fun j hj =>
      hP.eq_one _ (hsat i (mem_range.1 hi) j (mem_range.1 (mem_of_mem_erase hj)))]
    rw [sum_congr rfl fun i hi => by rw [sum_const, card_erase_of_mem hi, card_range, nsmul_one]]
    rw [sum_const, card_range, nsmul_eq_mul, Nat.cast_sub (by omega)]
    simp
  rw [e1, e2, sub_zero] at hv
  exact mul_left_cancel₀ hn'.ne' hv

/-! ### jumps -/

theorem pairSum_continuous (hb : Weights n b) (hP : ConnFn P) {X : ℝ → ℝ} {c : ℝ} (hX : ContinuousAt X c) (h0 : 0 < X c) :
    ContinuousAt (fun c => pairSum n (fun i j => P (X c * b i * b j))) c := by
  have h1 : ∀ i ∈ range n, ∀ j ∈ range n, ContinuousAt (fun c => P (X c * b i * b j)) c := by
    intro i hi j hj
    have ha : 0 < X c * b i * b j := hb.arg_pos h0 (mem_range.1 hi) (mem_range.1 hj)
    exact ContinuousAt.comp (f := fun c => X c * b i * b j) (hP.cont _ ha) ((hX.mul continuousAt_const).mul continuousAt_const)
  unfold pairSum
  refine ContinuousAt.sub ?_ ?_
  · exact tendsto_finsetSum _ fun i hi => tendsto_finsetSum _ fun j hj => h1 i hi j hj
  · exact tendsto_finsetSum _ fun i hi => h1 i hi i hi

/-- The set of possible values of the correction. -/
theorem estVal_downJumps (hb : Weights n b) (hP : ConnFn P) (hn : 0 < n) {X : ℝ → ℝ} (hX0 : ∀ c, 0 < c → 0 < X c)
    (hXm : ∀ c c', 0 < c → c < c' → X c < X c') (hXc : ∀ c, 0 < c → ContinuousAt X c) :
    DownJumps (fun c v => EstVal n b P (X c) v) := by
  intro c hc v hv ε hε
  obtain ⟨χ, h01, h0, hχ, hval⟩ := hv
  have hn' : (0 : ℝ) < n := by exact_mod_cast hn
  -- continuity of the pair sum and of the self terms
  have hpc := pairSum_continuous hb hP (hXc c hc) (hX0 c hc)
  have hself : ∀ i ∈ range n, ContinuousAt (fun c => P (X c * b i * b i)) c := by
    intro i hi
    have ha : 0 < X c * b i * b i := hb.arg_pos (hX0 c hc) (mem_range.1 hi) (mem_range.1 hi)
    exact ContinuousAt.comp (f := fun c => X c * b i * b i) (hP.cont _ ha) (((hXc c hc).mul continuousAt_const).mul continuousAt_const)
  have ev1 : ∀ᶠ z in 𝓝 c, |pairSum n (fun i j => P (X z * b i * b j)) - pairSum n (fun i j => P (X c * b i * b j))| < n * ε / 2 := by
    have := hpc.eventually (Metric.ball_mem_nhds _ (show (0 : ℝ) < n * ε / 2 by positivity))
    filter_upwards [this] with z hz
    rwa [Real.dist_eq] at hz
  have ev2 : ∀ᶠ z in 𝓝 c, ∀ i ∈ range n, |P (X z * b i * b i) - P (X c * b i * b i)| < ε / 2 := by
    rw [eventually_all_finset]
    intro i hi
    have := (hself i hi).eventually (Metric.ball_mem_nhds _ (show (0 : ℝ) < ε / 2 by positivity))
    filter_upwards [this] with z hz
    rwa [Real.dist_eq] at hz
  have ev0 : ∀ᶠ z in 𝓝 c, 0 < z := lt_mem_nhds hc
  constructor
  · -- from the left
    filter_upwards [nhdsWithin_le_nhds ev0, nhdsWithin_le_nhds ev1, nhdsWithin_le_nhds ev2, self_mem_nhdsWithin] with z hz0 hz1 hz2 hzc u hu
    obtain ⟨χ', h01', h0', hχ', hval'⟩ := hu
    have hXz := hXm z c hz0 hzc
    have hcmp : ∑ i ∈ range n, χ' i * (1 - P (X z * b i * b i)) ≤ ∑ i ∈ range n, χ i * (1 - P (X c * b i * b i)) + n * (ε / 2) := by
      have : ∑ i ∈ range n, χ' i * (1 - P (X z * b i * b i)) ≤ ∑ i ∈ range n, (χ i * (1 - P (X c * b i * b i)) + ε / 2) := by
        refine sum_le_sum fun i hi => ?_
        have hin := mem_range.1 hi
        have p1 := abs_lt.1 (hz2 i hi)
        have p2 := hP.le_one _ (hb.arg_pos (hX0 c hc) hin hin)
        have p3 := hP.le_one _ (hb.arg_pos (hX0 z hz0) hin hin)
        rcases h01' i with h' | h'
        · rw [h']
          rcases h01 i with h | h <;> rw [h] <;> linarith
        · rcases Nat.eq_zero_or_pos i with rfl | hi0
          · rw [h0'] at h'; norm_num at h'
          obtain ⟨m, rfl⟩ : ∃ m, i = m + 1 := ⟨i - 1, by omega⟩
          have q1 : 1 ≤ X z * b (m + 1) * b m := by
            by_contra hcon
            rw [(hχ' m hin).2 (not_le.1 hcon)] at h'; norm_num at h'
          have q2 : 1 < X c * b (m + 1) * b m := by
            refine q1.trans_lt ?_
            have := hb.pos (m + 1) hin
            have := hb.pos m (by omega)
            gcongr
          rw [h', (hχ m hin).1 q2]; linarith
      refine this.trans ?_
      rw [sum_add_distrib, sum_const, card_range, nsmul_eq_mul]
    have p := abs_lt.1 hz1
    have : (n : ℝ) * (v - ε) < n * u := by
      rw [mul_sub, hval, hval']
      nlinarith
    exact lt_of_mul_lt_mul_left this hn'.le
  · -- from the right
    filter_upwards [nhdsWithin_le_nhds ev0, nhdsWithin_le_nhds ev1, nhdsWithin_le_nhds ev2, self_mem_nhdsWithin] with z hz0 hz1 hz2 hzc u hu
    obtain ⟨χ', h01', h0', hχ', hval'⟩ := hu
    have hXz := hXm c z hc hzc
    have hcmp : ∑ i ∈ range n, χ i * (1 - P (X c * b i * b i)) ≤ ∑ i ∈ range n, χ' i * (1 - P (X z * b i * b i)) + n * (ε / 2) := by
      have : ∑ i ∈ range n, χ i * (1 - P (X c * b i * b i)) ≤ ∑ i ∈ range n, (χ' i * (1 - P (X z * b i * b i)) + ε / 2) := by
        refine sum_le_sum fun i hi => ?_
        have hin := mem_range.1 hi
        have p1 := abs_lt.1 (hz2 i hi)
        have p2 := hP.le_one _ (hb.arg_pos (hX0 c hc) hin hin)
        have p3 := hP.le_one _ (hb.arg_pos (hX0 z hz0) hin hin)
        rcases h01 i with h' | h'
        · rw [h']
          rcases h01' i with h | h <;> rw [h] <;> linarith
        · rcases Nat.eq_zero_or_pos i with rfl | hi0
          · rw [h0] at h'; norm_num at h'
          obtain ⟨m, rfl⟩ : ∃ m, i = m + 1 := ⟨i - 1, by omega⟩
          have q1 : 1 ≤ X c * b (m + 1) * b m := by
            by_contra hcon
            rw [(hχ m hin).2 (not_le.1 hcon)] at h'; norm_num at h'
          have q2 : 1 < X z * b (m + 1) * b m := by
            refine q1.trans_lt ?_
            have := hb.pos (m + 1) hin
            have := hb.pos m (by omega)
            gcongr
          rw [h', (hχ' m hin).1 q2]; linarith
      refine this.trans ?_
      rw [sum_add_distrib, sum_const, card_range, nsmul_eq_mul]
    have p := abs_lt.1 hz1
    have : (n : ℝ) * u < n * (v + ε) := by
      rw [mul_add, hval, hval']
      nlinarith
    exact lt_of_mul_lt_mul_left this hn'.le

/-- for small arguments the estimate is small -/
theorem EstVal.small (hb : Weights n b) (hP : ConnFn P) (hn : 0 < n) {ε : ℝ} (hε : 0 < ε) :
    ∃ δ, 0 < δ ∧ ∀ x, 0 < x → x < δ → ∀ v, EstVal n b P x v → v ≤ ε := by
  have hn' : (0 : ℝ) < n := by exact_mod_cast hn
  obtain ⟨δ, hδ, hsm⟩ := hP.small (ε / n) (by positivity)
  have hb0 := hb.pos 0 hn
  refine ⟨δ / (b 0 * b 0), by positivity, fun x hx hxδ v hv => ?_⟩
  refine (EstVal.bounds hb hP hx hn hv).2.trans ?_
  rw [div_le_iff₀ hn', pairSum_eq]
  have hle : ∀ i ∈ range n, ∀ j ∈ range n, P (x * b i * b j) ≤ ε / n := by
    intro i hi j hj
    have hi := mem_range.1 hi
    have hj := mem_range.1 hj
    refine (hsm _ (hb.arg_pos hx hi hj) ?_).le
    have a1 := hb.anti 0 i (Nat.zero_le _) hi
    have a2 := hb.anti 0 j (Nat.zero_le _) hj
    have a3 := hb.pos j hj
    calc x * b i * b j ≤ x * b 0 * b 0 := by gcongr
      _ = x * (b 0 * b 0) := by ring
      _ < δ := by rwa [lt_div_iff₀ (by positivity)] at hxδ
  calc ∑ i ∈ range n, ∑ j ∈ (range n).erase i, P (x * b i * b j)
      ≤ ∑ i ∈ range n, ∑ j ∈ (range n).erase i, ε / n :=
        sum_le_sum fun i hi => sum_le_sum fun j hj => hle i hi j (mem_of_mem_erase hj)
    _ ≤ ∑ i ∈ range n, ∑ j ∈ range n, ε / n :=
        sum_le_sum fun i hi => sum_le_sum_of_subset_of_nonneg (erase_subset _ _) fun _ _ _ => by positivity
    _ = ε * n := by
        simp only [sum_const, card_range, nsmul_eq_mul]; field_simp

end Girgs.Scaling
