import Verif.Proofs.NodeDegree
import Verif.Spec.Concentration
import Mathlib.Analysis.SpecialFunctions.Exponential
import Mathlib.Probability.Independence.Integration
/-
Exponential bounds for the number of successes of independent coins.
-/
namespace Girgs
open MeasureTheory Spec CFloat Tree
open scoped ENNReal

/-! ### real numbers -/

/-- the exponential function near zero -/
theorem exp_le_bernstein {l : ℝ} (h0 : 0 ≤ l) (h3 : l < 3) : Real.exp l - 1 - l ≤ l ^ 2 / 2 / (1 - l / 3) := by
  have hs : Summable fun k : ℕ => l ^ k / (Nat.factorial k : ℝ) := Real.summable_pow_div_factorial l
  have he : Real.exp l = ∑' k : ℕ, l ^ k / (Nat.factorial k : ℝ) := by
    rw [Real.exp_eq_exp_ℝ, NormedSpace.exp_eq_tsum_div]
  have h2 := hs.sum_add_tsum_nat_add 2
  have hr0 : 0 ≤ l / 3 := by positivity
  have hr1 : l / 3 < 1 := by linarith
  have hg := (summable_geometric_of_lt_one hr0 hr1).mul_left (l ^ 2 / 2)
  have h4 : ∑' k : ℕ, l ^ (k + 2) / (Nat.factorial (k + 2) : ℝ) ≤ ∑' k : ℕ, l ^ 2 / 2 * (l / 3) ^ k := by
    refine Summable.tsum_le_tsum (fun k => ?_) ((summable_nat_add_iff 2).2 hs) hg
    have hf : (2 : ℝ) * 3 ^ k ≤ (Nat.factorial (k + 2) : ℝ) := by
      have : 2 * 3 ^ k ≤ Nat.factorial (k + 2) := by
        induction k with
        | zero => decide
        | succ k ih =>
          have e : Nat.factorial (k + 1 + 2) = (k + 3) * Nat.factorial (k + 2) := Nat.factorial_succ (k + 2)
          rw [e, pow_succ]
          nlinarith
      exact_mod_cast this
    have e : l ^ 2 / 2 * (l / 3) ^ k = l ^ (k + 2) / (2 * 3 ^ k) := by
      rw [div_pow, pow_add]; field_simp
    rw [e]
    gcongr
  rw [tsum_mul_left, tsum_geometric_of_lt_one hr0 hr1] at h4
  rw [he, ← h2]
  simp only [Finset.sum_range_succ, Finset.sum_range_zero, Nat.factorial, pow_zero, pow_one] at *
  norm_num at *
  rw [div_eq_mul_inv (l ^ 2 / 2)]
  linarith

theorem exp_neg_le_quadratic {l : ℝ} (h0 : 0 ≤ l) : Real.exp (-l) ≤ 1 - l + l ^ 2 / 2 := by
  have h1 := Real.quadratic_le_exp_of_nonneg h0
  have h2 : Real.exp (-l) ≤ 1 / (1 + l + l ^ 2 / 2) := by
    rw [Real.exp_neg, inv_eq_one_div]
    exact one_div_le_one_div_of_le (by positivity) h1
  refine h2.trans ?_
  rw [div_le_iff₀ (by positivity)]
  nlinarith [pow_nonneg h0 3, pow_nonneg h0 4]

/-- the best exponent of the upper tail -/
theorem chernoff_up {M t : ℝ} (hM : 0 ≤ M) (ht : 0 ≤ t) :
    ∃ l, 0 ≤ l ∧ (Real.exp l - 1) * M - l * (M + t) ≤ -(t ^ 2 / (2 * (M + t / 3))) := by
  rcases eq_or_lt_of_le hM with h | h
  · subst h
    refine ⟨3 / 2, by norm_num, ?_⟩
    rcases eq_or_lt_of_le ht with h | h
    · subst h; simp
    · have : t ^ 2 / (2 * (0 + t / 3)) = 3 / 2 * t := by field_simp; ring
      rw [this]; linarith
  · have hd : 0 < M + t / 3 := by positivity
    refine ⟨t / (M + t / 3), by positivity, ?_⟩
    set l := t / (M + t / 3) with hl
    have hl3 : l < 3 := by rw [hl, div_lt_iff₀ hd]; linarith
    have h1 := exp_le_bernstein (show 0 ≤ l by positivity) hl3
    have e1 : 1 - l / 3 = M / (M + t / 3) := by rw [hl]; field_simp; ring
    have e2 : l ^ 2 / 2 / (1 - l / 3) * M = t ^ 2 / (2 * (M + t / 3)) := by
      rw [e1, hl]; field_simp
    have e3 : l * t = t ^ 2 / (M + t / 3) := by rw [hl]; ring
    have h2 : (Real.exp l - 1 - l) * M ≤ t ^ 2 / (2 * (M + t / 3)) := by
      rw [← e2]; exact mul_le_mul_of_nonneg_right h1 hM
    have e4 : t ^ 2 / (M + t / 3) = 2 * (t ^ 2 / (2 * (M + t / 3))) := by field_simp
    nlinarith

/-- an exponent of the lower tail -/
theorem chernoff_down_le {m M t : ℝ} (hM : 0 ≤ M) (hm : m ≤ M) (ht : 0 ≤ t) :
    ∃ l, 0 ≤ l ∧ (Real.exp (-l) - 1) * m + l * (m - t) ≤ -(t ^ 2 / (2 * M)) := by
  rcases eq_or_lt_of_le hM with h | h
  · subst h
    exact ⟨0, le_rfl, by simp⟩
  · refine ⟨t / M, by positivity, ?_⟩
    have h1 := exp_neg_le_quadratic (show 0 ≤ t / M by positivity)
    have h0 := Real.add_one_le_exp (-(t / M))
    have h2 : (Real.exp (-(t / M)) - 1 + t / M) * m ≤ (Real.exp (-(t / M)) - 1 + t / M) * M := mul_le_mul_of_nonneg_left hm (by linarith)
    have h3 : (Real.exp (-(t / M)) - 1 + t / M) * M ≤ (t / M) ^ 2 / 2 * M := mul_le_mul_of_nonneg_right (by linarith) hM
    have e1 : (t / M) ^ 2 / 2 * M = t ^ 2 / (2 * M) := by field_simp
    have e2 : t / M * t = 2 * (t ^ 2 / (2 * M)) := by field_simp
    nlinarith

/-- the best exponent of the lower tail -/
theorem chernoff_down {M t : ℝ} (hM : 0 ≤ M) (ht : 0 ≤ t) :
    ∃ l, 0 ≤ l ∧ (Real.exp (-l) - 1) * M + l * (M - t) ≤ -(t ^ 2 / (2 * M)) := chernoff_down_le hM le_rfl ht

/-! ### coins -/

open Classical in
/-- the exponential moments of the number of successes -/
theorem flips_mgf {E : Type} (A : E → Prop) (s : ℝ) : ∀ L : List (E × ℝ),
    ∑' es, flips L es * ENNReal.ofReal (Real.exp (s * (es.countP fun e => A e : ℕ))) =
      (L.map fun c => if A c.1 then ENNReal.ofReal (1 + unit c.2 * (Real.exp s - 1)) else 1).prod := by
  intro L
  induction L with
  | nil => rw [flips, tsum_pure]; simp
  | cons c L ih =>
    obtain ⟨e, p⟩ := c
    rw [tsum_flips_cons, List.map_cons, List.prod_cons, ← ih]
    have hp1 : 0 ≤ 1 - unit p := by have := unit_le_one p; linarith
    by_cases h : A e
    · have e1 : ∀ es : List E, ENNReal.ofReal (Real.exp (s * ((e :: es).countP fun e => A e : ℕ))) =
          ENNReal.ofReal (Real.exp s) * ENNReal.ofReal (Real.exp (s * (es.countP fun e => A e : ℕ))) := by
        intro es
        rw [← ENNReal.ofReal_mul (Real.exp_pos _).le, ← Real.exp_add, List.countP_cons_of_pos (by simpa using h)]
        congr 2
        push_cast; ring
      simp only [e1, if_pos h, mul_left_comm _ (ENNReal.ofReal (Real.exp s)), ENNReal.tsum_mul_left]
      rw [← mul_assoc, ← ENNReal.ofReal_mul (Real.exp_pos s).le, ← add_mul, ← ENNReal.ofReal_add (mul_nonneg (Real.exp_pos _).le (unit_nonneg p)) hp1]
      congr 2; ring
    · have e1 : ∀ es : List E, (e :: es).countP (fun e => decide (A e)) = es.countP fun e => decide (A e) :=
        fun es => List.countP_cons_of_neg (by simpa using h)
      simp only [e1, if_neg h, one_mul]
      rw [← add_mul, ← ENNReal.ofReal_add (unit_nonneg p) hp1]
      simp

open Classical in
/-- tails of the number of successes -/
theorem flips_tail {E : Type} (A : E → Prop) (L : List (E × ℝ)) {s k : ℝ} {Q : ℕ → Prop} (hQ : ∀ N : ℕ, Q N → s * k ≤ s * N) :
    ∑' es, flips L es * Set.indicator {es | Q (es.countP fun e => A e)} 1 es ≤
      ENNReal.ofReal (Real.exp (-(s * k))) * (L.map fun c => if A c.1 then ENNReal.ofReal (1 + unit c.2 * (Real.exp s - 1)) else 1).prod := by
  rw [← flips_mgf, ← ENNReal.tsum_mul_left]
  refine ENNReal.tsum_le_tsum fun es => ?_
  rw [mul_left_comm]
  refine mul_le_mul le_rfl ?_ bot_le bot_le
  by_cases h : Q (es.countP fun e => A e)
  · rw [Set.indicator_of_mem (by exact h), Pi.one_apply, ← ENNReal.ofReal_mul (Real.exp_pos _).le, ← Real.exp_add, ENNReal.one_le_ofReal]
    apply Real.one_le_exp
    have := hQ _ h
    linarith
  · rw [Set.indicator_of_notMem (by exact h)]; exact bot_le

/-- sums to products -/
theorem prod_le_exp {ι : Type} (S : Finset ι) (f : ι → ℝ) (s : ℝ) (h0 : ∀ i ∈ S, 0 ≤ 1 + f i * (Real.exp s - 1)) :
    ∏ i ∈ S, ENNReal.ofReal (1 + f i * (Real.exp s - 1)) ≤ ENNReal.ofReal (Real.exp ((Real.exp s - 1) * ∑ i ∈ S, f i)) := by
  rw [← ENNReal.ofReal_prod_of_nonneg h0, Finset.mul_sum, Real.exp_sum]
  refine ENNReal.ofReal_le_ofReal (Finset.prod_le_prod h0 fun i _ => ?_)
  have := Real.add_one_le_exp ((Real.exp s - 1) * f i)
  linarith

/-! ### edges -/

theorem edgesIn_perm {A : ℕ → ℕ → Prop} {es fs : List (ℕ × ℕ)} (h : es.Perm fs) : edgesIn A es = edgesIn A fs := h.countP_eq _

open Classical in
/-- tails of the number of edges among given pairs, from the distribution of the edges -/
theorem coins_tail {n : ℕ} {L : List ((ℕ × ℕ) × ℝ)} (honce : EachPairOnce n (L.map Prod.fst)) {p : ℕ → ℕ → ℝ}
    (hp : ∀ a b, p a b = p b a) (hL : ∀ c ∈ L, unit c.2 = p c.1.1 c.1.2) {A : ℕ → ℕ → Prop} (hA : ∀ u v, A u v → A v u) {s k : ℝ} {Q : ℕ → Prop}
    (hQ : ∀ N : ℕ, Q N → s * k ≤ s * N) :
    ∑' es, flips L es * Set.indicator {es | Q (edgesIn A es)} 1 es ≤
      ENNReal.ofReal (Real.exp (-(s * k))) * ∏ e ∈ upairs n, if A e.1 e.2 then ENNReal.ofReal (1 + p e.1 e.2 * (Real.exp s - 1)) else 1 := by
  have hsim := EachPairOnce.simple honce (List.Subperm.refl _)
  have h1 := flips_tail (fun e : ℕ × ℕ => A e.1 e.2) L hQ
  refine (le_of_eq ?_).trans (h1.trans (le_of_eq ?_))
  · rfl
  · congr 1
    rw [upairs, ← prod_eachPair honce hsim (fun a b => if A a b then ENNReal.ofReal (1 + p a b * (Real.exp s - 1)) else 1)
      (fun a b => by rw [hp a b, show A a b ↔ A b a from ⟨hA _ _, hA _ _⟩]), List.map_map]
    congr 1
    apply List.map_congr_left
    intro c hc
    simp only [Function.comp, hL c hc]

/-- sums over related pairs -/
theorem pairSum_eq {n : ℕ} (A : ℕ → ℕ → Prop) [∀ u v, Decidable (A u v)] (f : ℕ → ℕ → ℝ) : pairSum n A f = ∑ e ∈ upairs n with A e.1 e.2, f e.1 e.2 := by
  unfold pairSum
  have h1 : ∀ u : Fin n, (∑ v : Fin n, if u < v ∧ A u v then f u v else 0) = ∑ v ∈ Finset.range n, if u.1 < v ∧ A u v then f u v else 0 := by
    intro u
    rw [← Fin.sum_univ_eq_sum_range (fun v => if u.1 < v ∧ A u v then f u v else 0)]
    rfl
  have h2 : ∑ u : Fin n, (∑ v ∈ Finset.range n, if u.1 < v ∧ A u v then f u v else 0) = ∑ u ∈ Finset.range n, ∑ v ∈ Finset.range n, if u < v ∧ A u v then f u v else 0 := by
    rw [← Fin.sum_univ_eq_sum_range (fun u => ∑ v ∈ Finset.range n, if u < v ∧ A u v then f u v else 0)]
  rw [upairs, Finset.filter_filter, Finset.sum_filter, Finset.sum_product, ← h2]
  refine Finset.sum_congr rfl fun u _ => ?_
  rw [← h1]
  refine Finset.sum_congr rfl fun v _ => ?_
  congr 1

open Classical in
/-- the concentration bounds from the exponential tail bounds -/
theorem concentrate {n : ℕ} {p : ℕ → ℕ → ℝ} (h01 : ∀ u v, u < n → v < n → u ≠ v → 0 ≤ p u v ∧ p u v ≤ 1) {A : ℕ → ℕ → Prop} {prob : (ℕ → Prop) → ℝ≥0∞}
    (h : ∀ (s k : ℝ) (Q : ℕ → Prop), (∀ N : ℕ, Q N → s * k ≤ s * N) →
      prob Q ≤ ENNReal.ofReal (Real.exp (-(s * k))) * ∏ e ∈ upairs n, if A e.1 e.2 then ENNReal.ofReal (1 + p e.1 e.2 * (Real.exp s - 1)) else 1)
    {mean : ℝ} (hmean : mean = pairSum n A p) {t : ℝ} (ht : 0 ≤ t) :
    prob (fun k => mean + t ≤ k) ≤ ENNReal.ofReal (Real.exp (-(t ^ 2 / (2 * (mean + t / 3))))) ∧
    prob (fun k => (k : ℝ) ≤ mean - t) ≤ ENNReal.ofReal (Real.exp (-(t ^ 2 / (2 * mean)))) := by
  rw [pairSum_eq] at hmean
  have hp : ∀ e ∈ (upairs n).filter (fun e : ℕ × ℕ => A e.1 e.2), 0 ≤ p e.1 e.2 ∧ p e.1 e.2 ≤ 1 := by
    intro e he
    have := mem_upairs.1 (Finset.mem_filter.1 he).1
    exact h01 _ _ (by omega) this.2 (by omega)
  have hM : 0 ≤ mean := by rw [hmean]; exact Finset.sum_nonneg fun e he => (hp e he).1
  have main : ∀ (s k : ℝ) (Q : ℕ → Prop), (∀ N : ℕ, Q N → s * k ≤ s * N) → prob Q ≤ ENNReal.ofReal (Real.exp ((Real.exp s - 1) * mean - s * k)) := by
    intro s k Q hQ
    refine (h s k Q hQ).trans ?_
    rw [← Finset.prod_filter]
    have h0 : ∀ e ∈ (upairs n).filter (fun e : ℕ × ℕ => A e.1 e.2), 0 ≤ 1 + p e.1 e.2 * (Real.exp s - 1) := by
      intro e he
      have := hp e he
      nlinarith [Real.exp_pos s]
    refine (mul_le_mul le_rfl (prod_le_exp _ (fun e : ℕ × ℕ => p e.1 e.2) s h0) bot_le bot_le).trans ?_
    rw [← ENNReal.ofReal_mul (Real.exp_pos _).le, ← Real.exp_add, ← hmean]
    exact ENNReal.ofReal_le_ofReal (Real.exp_le_exp.2 (by linarith))
  constructor
  · obtain ⟨l, hl, hb⟩ := chernoff_up hM ht
    refine (main l (mean + t) _ fun N hN => mul_le_mul_of_nonneg_left hN hl).trans ?_
    exact ENNReal.ofReal_le_ofReal (Real.exp_le_exp.2 hb)
  · obtain ⟨l, hl, hb⟩ := chernoff_down hM ht
    refine (main (-l) (mean - t) _ fun N hN => by nlinarith).trans ?_
    exact ENNReal.ofReal_le_ofReal (Real.exp_le_exp.2 (by linarith))

end Girgs
