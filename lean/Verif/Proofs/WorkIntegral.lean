import Verif.Proofs.WorkSum
/-
Integration over uniform positions, and the numbers of levels, layers and cells in terms of the weights.
-/
namespace Girgs
open Spec CFloat MeasureTheory Tree
open scoped ENNReal

/-! ### positions -/

theorem probAlpha_le {a t : ℝ} (ha : 1 < a) (ht : 0 < t) : Scaling.probAlpha a t ≤ a / (a - 1) * t := by
  have h1 : 0 < a - 1 := by linarith
  have e : a / (a - 1) * t = t + t / (a - 1) := by field_simp; ring
  rw [e]
  unfold Scaling.probAlpha
  split
  · have : 0 < t / (a - 1) := div_pos ht h1
    linarith
  · unfold Scaling.rawAlpha
    have := Real.rpow_nonneg ht.le a
    have : (t - t ^ a) / (a - 1) ≤ t / (a - 1) := by
      rw [div_le_div_iff_of_pos_right h1]; linarith
    linarith

theorem uniformPositions_ae (n D : ℕ) : ∀ᵐ X ∂uniformPositions n D, ∀ u d, X u d ∈ Set.Ico (0 : ℝ) 1 := by
  rw [ae_all_iff]
  intro u
  unfold uniformPositions
  exact (measurePreserving_eval (fun _ : Fin n => unitCube D) u).quasiMeasurePreserving.ae (Scaling.unitCube_ae D)

/-- integral of a bounded function of two positions -/
theorem lintegral_pair {n D : ℕ} {f : ℝ → ℝ} (hm : Measurable f) (h0 : ∀ r, 0 ≤ r → 0 ≤ f r) (h1 : ∀ r, 0 ≤ r → f r ≤ 1) {k : ℝ}
    (hk : ∀ q : Fin D → ℝ, (∀ d, q d ∈ Set.Ico (0 : ℝ) 1) → ∫ p, f (torusDist p q) ∂unitCube D = k) {u v : Fin n} (huv : u ≠ v) :
    ∫⁻ X, ENNReal.ofReal (f (torusDist (X u) (X v))) ∂uniformPositions n D = ENNReal.ofReal k := by
  have hmz : Measurable fun z : (Fin D → ℝ) × (Fin D → ℝ) => f (torusDist z.1 z.2) := hm.comp Scaling.torusDist_measurable
  have hmX : Measurable fun X : Fin n → Fin D → ℝ => f (torusDist (X u) (X v)) :=
    hmz.comp (g := fun z : (Fin D → ℝ) × (Fin D → ℝ) => f (torusDist z.1 z.2)) (f := fun X : Fin n → Fin D → ℝ => (X u, X v))
      ((measurable_pi_apply u).prodMk (measurable_pi_apply v))
  have hb : ∀ p q : Fin D → ℝ, |f (torusDist p q)| ≤ 1 := fun p q => by
    rw [abs_of_nonneg (h0 _ (Scaling.torusDist_nonneg p q))]; exact h1 _ (Scaling.torusDist_nonneg p q)
  rw [← Scaling.pair_expect (f := fun p q => f (torusDist p q)) hmz hb hk huv]
  rw [ofReal_integral_eq_lintegral_ofReal]
  · exact Integrable.of_bound hmX.aestronglyMeasurable 1 (Filter.Eventually.of_forall fun X => hb _ _)
  · exact Filter.Eventually.of_forall fun X => h0 _ (Scaling.torusDist_nonneg _ _)

/-- the sum of the products of all pairs -/
theorem sum_pairs_le (n : ℕ) (b : ℕ → ℝ) : 2 * ∑ v ∈ Finset.range n, ∑ u ∈ Finset.range v, b u * b v ≤ (∑ u ∈ Finset.range n, b u) ^ 2 := by
  induction n with
  | zero => simp
  | succ n ih =>
    rw [Finset.sum_range_succ, Finset.sum_range_succ (fun u => b u), ← Finset.sum_mul]
    nlinarith [sq_nonneg (b n)]

theorem sum_getD (w : List ℝ) : ∑ u ∈ Finset.range w.length, w.getD u 0 = w.sum := by
  induction w with
  | nil => simp
  | cons a w ih =>
    rw [List.length_cons, Finset.sum_range_succ', List.sum_cons, ← ih, add_comm]
    simp

section
variable {D n : Nat} {w : List ℝ} {a : ℝ}

theorem measurable_pairFn {f : ℝ → ℝ → ℝ} (hf : ∀ t, Measurable (f t)) (u v : Nat) :
    Measurable fun X : Fin n → Fin D → ℝ => pairFn w X f u v := by
  unfold pairFn
  by_cases h : u < n ∧ v < n
  · simp only [h, and_self, dite_true]
    have h1 : Measurable fun X : Fin n → Fin D → ℝ => torusDist (X ⟨u, h.1⟩) (X ⟨v, h.2⟩) :=
      Scaling.torusDist_measurable.comp (g := fun z : (Fin D → ℝ) × (Fin D → ℝ) => torusDist z.1 z.2)
        (f := fun X : Fin n → Fin D → ℝ => (X ⟨u, h.1⟩, X ⟨v, h.2⟩))
        ((measurable_pi_apply (⟨u, h.1⟩ : Fin n)).prodMk (measurable_pi_apply (⟨v, h.2⟩ : Fin n)))
    exact ENNReal.measurable_ofReal.comp ((hf _).comp h1)
  · simp only [h, dite_false]
    exact measurable_const

/-- if the expectation for one pair is at most `c` times the ball volume, the expectation for all pairs is linear in the sum of the weights -/
theorem lintegral_pairs_le (hn : n = w.length) (hpos : ∀ u ∈ w, 0 < u) {f : ℝ → ℝ → ℝ} (hf : ∀ t, Measurable (f t)) {c : ℝ} (hc : 0 ≤ c)
    (hk : ∀ t, 0 < t → ∀ u v : Fin n, u ≠ v → ∫⁻ X, ENNReal.ofReal (f t (torusDist (X u) (X v))) ∂uniformPositions n D ≤ ENNReal.ofReal (c * (2 ^ D * t))) :
    ∫⁻ X : Fin n → Fin D → ℝ, ∑ v ∈ Finset.range n, ∑ u ∈ Finset.range v, pairFn w X f u v ∂uniformPositions n D ≤
      ENNReal.ofReal (c * (2 * 8 ^ D) * w.sum) := by
  have hw0 : ∀ i, 0 ≤ w.getD i 0 := by
    intro i
    rw [List.getD_eq_getElem?_getD]
    cases h : w[i]? with
    | none => simp
    | some u => exact (hpos u (List.mem_of_getElem? h)).le
  rw [lintegral_finset_sum _ fun v _ => Finset.measurable_sum _ fun u _ => measurable_pairFn hf u v]
  simp_rw [lintegral_finset_sum _ fun u _ => measurable_pairFn hf u _]
  rcases Nat.eq_zero_or_pos n with h0 | h0
  · subst h0; simp
  have hW : 0 < w.sum := List.sum_pos w hpos (by rintro rfl; simp at hn; omega)
  have hterm : ∀ v ∈ Finset.range n, ∀ u ∈ Finset.range v, ∫⁻ X : Fin n → Fin D → ℝ, pairFn w X f u v ∂uniformPositions n D ≤
      ENNReal.ofReal (c * (2 ^ D * (4 * 4 ^ D * (w.getD u 0 * w.getD v 0 / w.sum)))) := by
    intro v hv u hu
    rw [Finset.mem_range] at hu hv
    have hun : u < n := by omega
    have e : ∀ X : Fin n → Fin D → ℝ, pairFn w X f u v = ENNReal.ofReal (f (4 * 4 ^ D * (w.getD u 0 * w.getD v 0 / w.sum)) (torusDist (X ⟨u, hun⟩) (X ⟨v, hv⟩))) := by
      intro X; unfold pairFn; rw [dif_pos ⟨hun, hv⟩]
    simp_rw [e]
    have hgu : 0 < w.getD u 0 := by
      rw [List.getD_eq_getElem?_getD, List.getElem?_eq_getElem (by omega)]
      exact hpos _ (List.getElem_mem _)
    have hgv : 0 < w.getD v 0 := by
      rw [List.getD_eq_getElem?_getD, List.getElem?_eq_getElem (by omega)]
      exact hpos _ (List.getElem_mem _)
    refine hk _ (by positivity) _ _ ?_
    intro h
    rw [Fin.mk.injEq] at h
    omega
  refine le_trans (Finset.sum_le_sum fun v hv => Finset.sum_le_sum fun u hu => hterm v hv u hu) ?_
  have hnn : ∀ u v : ℕ, 0 ≤ c * (2 ^ D * (4 * 4 ^ D * (w.getD u 0 * w.getD v 0 / w.sum))) := by
    intro u v
    have := mul_nonneg (hw0 u) (hw0 v)
    positivity
  have hcongr : ∀ v ∈ Finset.range n, ∑ u ∈ Finset.range v, ENNReal.ofReal (c * (2 ^ D * (4 * 4 ^ D * (w.getD u 0 * w.getD v 0 / w.sum)))) =
      ENNReal.ofReal (∑ u ∈ Finset.range v, c * (2 ^ D * (4 * 4 ^ D * (w.getD u 0 * w.getD v 0 / w.sum)))) := fun v _ =>
    (ENNReal.ofReal_sum_of_nonneg fun u _ => hnn u v).symm
  rw [Finset.sum_congr rfl hcongr, ← ENNReal.ofReal_sum_of_nonneg fun v _ => Finset.sum_nonneg fun u _ => hnn u v]
  refine ENNReal.ofReal_le_ofReal ?_
  have h1 := sum_pairs_le n fun i => w.getD i 0
  rw [show ∑ u ∈ Finset.range n, w.getD u 0 = w.sum by rw [hn]; exact sum_getD w] at h1
  have e2 : ∑ v ∈ Finset.range n, ∑ u ∈ Finset.range v, c * (2 ^ D * (4 * 4 ^ D * (w.getD u 0 * w.getD v 0 / w.sum))) =
      c * (4 * 8 ^ D) / w.sum * ∑ v ∈ Finset.range n, ∑ u ∈ Finset.range v, w.getD u 0 * w.getD v 0 := by
    simp_rw [Finset.mul_sum]
    refine Finset.sum_congr rfl fun v _ => Finset.sum_congr rfl fun u _ => ?_
    rw [show (8 : ℝ) ^ D = 2 ^ D * 4 ^ D by rw [← mul_pow]; norm_num]
    ring
  rw [e2]
  calc c * (4 * 8 ^ D) / w.sum * ∑ v ∈ Finset.range n, ∑ u ∈ Finset.range v, w.getD u 0 * w.getD v 0
      ≤ c * (4 * 8 ^ D) / w.sum * (w.sum ^ 2 / 2) := by
        refine mul_le_mul_of_nonneg_left ?_ (by positivity)
        linarith
    _ = c * (2 * 8 ^ D) * w.sum := by field_simp; ring

theorem lintegral_conn (hD : 1 ≤ D) (hn : n = w.length) (hpos : ∀ u ∈ w, 0 < u) (ha : 1 < a) :
    ∫⁻ X : Fin n → Fin D → ℝ, ∑ v ∈ Finset.range n, ∑ u ∈ Finset.range v, pairFn w X (Scaling.connProb D a) u v ∂uniformPositions n D ≤
      ENNReal.ofReal (a / (a - 1) * (2 * 8 ^ D) * w.sum) := by
  have h1 : 0 < a - 1 := by linarith
  refine lintegral_pairs_le hn hpos (fun t => Scaling.connProb_measurable D a t) (by positivity) ?_
  intro t ht u v huv
  rw [lintegral_pair (f := Scaling.connProb D a t) (Scaling.connProb_measurable D a t) (fun r hr => (Scaling.connProb_mem a t r ht hr).1)
    (fun r hr => (Scaling.connProb_mem a t r ht hr).2) (fun q hq => Scaling.conn_expect hD hq (by linarith) (by linarith) ht) huv]
  exact ENNReal.ofReal_le_ofReal (probAlpha_le ha (by positivity))

theorem lintegral_threshold (hD : 1 ≤ D) (hn : n = w.length) (hpos : ∀ u ∈ w, 0 < u) :
    ∫⁻ X : Fin n → Fin D → ℝ, ∑ v ∈ Finset.range n, ∑ u ∈ Finset.range v, pairFn w X (fun t r => if r ^ D < t then 1 else 0) u v ∂uniformPositions n D ≤
      ENNReal.ofReal (1 * (2 * 8 ^ D) * w.sum) := by
  have hm : ∀ t : ℝ, Measurable fun r : ℝ => if r ^ D < t then (1 : ℝ) else 0 := fun t =>
    Measurable.ite (measurableSet_lt (by fun_prop) measurable_const) measurable_const measurable_const
  refine lintegral_pairs_le hn hpos hm zero_le_one ?_
  intro t ht u v huv
  rw [lintegral_pair (f := fun r => if r ^ D < t then 1 else 0) (hm t) (fun r _ => by split <;> norm_num)
    (fun r _ => by split <;> norm_num) (k := Scaling.probThreshold (2 ^ D * t)) ?_ huv]
  · refine ENNReal.ofReal_le_ofReal ?_
    rw [one_mul]; exact min_le_right _ _
  · intro q hq
    rw [← Scaling.threshold_expect hD hq ht]
    rfl
end

/-! ### levels, layers and cells -/

section
variable {D : Nat} {ndebug : Bool} {w : List ℝ} {x : List (Fin D → ℝ)} {alpha : XR} {T : Tree XR D} {m : ℝ}

theorem BuiltX.cells_le (b : BuiltX D ndebug w x alpha T m) (s : SupportedInput D w x) (i j : Nat) :
    (2 : ℝ) ^ (D * partitioningBaseLevel D T.blc i j) ≤ 1 + w.sum / (4 * m ^ 2) * ((1 / 2) ^ i * (1 / 2) ^ j) := by
  have hm := b.m_pos s
  have hW := b.W_pos s
  have hnn : 0 ≤ w.sum / (4 * m ^ 2) * ((1 / 2) ^ i * (1 / 2) ^ j) := by positivity
  rcases Nat.eq_zero_or_pos (partitioningBaseLevel D T.blc i j) with h0 | h0
  · rw [h0, Nat.mul_zero, pow_zero]; linarith
  · have h1 := Props.pbl_mul_le h0
    have hDl : 0 < D * partitioningBaseLevel D T.blc i j := Nat.mul_pos s.D1 h0
    have hblc : 0 < T.blc := by omega
    have hlow := b.blc_low hblc
    obtain ⟨N, hN⟩ : ∃ N : Nat, T.blc = N := ⟨T.blc.toNat, by omega⟩
    rw [hN, zpow_natCast] at hlow
    set P := D * partitioningBaseLevel D T.blc i j with hP
    have hN2 : P + i + j + 2 ≤ N := by omega
    have h2 : (2 : ℝ) ^ (P + i + j + 2) * m ^ 2 ≤ w.sum :=
      le_trans (mul_le_mul_of_nonneg_right (pow_le_pow_right₀ (by norm_num) hN2) (by positivity)) hlow
    have h3 : (2 : ℝ) ^ P ≤ w.sum / (4 * m ^ 2) * ((1 / 2) ^ i * (1 / 2) ^ j) := by
      rw [one_div, inv_pow, inv_pow, ← mul_inv, ← div_eq_mul_inv, div_div, le_div_iff₀ (by positivity)]
      refine le_trans (le_of_eq ?_) h2
      simp only [pow_add]; ring
    linarith

theorem half_sum (n : ℕ) : ∑ i ∈ Finset.range n, (1 / 2 : ℝ) ^ i ≤ 2 := by
  have : ∑ i ∈ Finset.range n, (1 / 2 : ℝ) ^ i = 2 - 2 * (1 / 2) ^ n := by
    induction n with
    | zero => simp
    | succ n ih => rw [Finset.sum_range_succ, ih, pow_succ]; ring
  rw [this]
  have : (0 : ℝ) < (1 / 2) ^ n := by positivity
  linarith

theorem sq_le_two_pow (k : ℕ) : (k + 1) ^ 2 ≤ 3 * 2 ^ k := by
  induction k using Nat.strong_induction_on with
  | _ k ih =>
    rcases k with _ | _ | _ | k
    · norm_num
    · norm_num
    · norm_num
    · have := ih (k + 2) (by omega)
      have e : 2 ^ (k + 1 + 1 + 1) = 2 * 2 ^ (k + 2) := by rw [Nat.pow_succ, Nat.mul_comm]
      rw [e]
      generalize 2 ^ (k + 2) = P at *
      have : (k + 1 + 1 + 1 + 1) ^ 2 ≤ 2 * (k + 2 + 1) ^ 2 := by ring_nf; nlinarith
      omega

theorem BuiltX.layers_sq (b : BuiltX D ndebug w x alpha T m) (s : SupportedInput D w x) : (T.layers : ℝ) ^ 2 ≤ 3 * (w.sum / m) ∧ (T.layers : ℝ) ≤ w.sum / m := by
  have hm := b.m_pos s
  obtain ⟨u, hu, h1⟩ := b.layers_top
  have h2 : u ≤ w.sum := sum_ge_mem s.wpos hu
  have hp := b.layers_pos
  obtain ⟨k, hk⟩ : ∃ k, T.layers = k + 1 := ⟨T.layers - 1, by omega⟩
  rw [hk, Nat.add_sub_cancel] at h1
  have h3 : (2 : ℝ) ^ k ≤ w.sum / m := by rw [le_div_iff₀ hm]; linarith
  rw [hk]
  constructor
  · have h4 : (((k + 1 : ℕ) : ℝ)) ^ 2 ≤ 3 * 2 ^ k := by exact_mod_cast sq_le_two_pow k
    linarith
  · have h4 : ((k + 1 : ℕ) : ℝ) ≤ 2 ^ k := by exact_mod_cast Nat.lt_two_pow_self (n := k)
    linarith

theorem geo_levels {D : Nat} (h1 : 1 ≤ D) (l : Nat) : ∑ m ∈ Finset.range (l + 1), 2 ^ (D * m) ≤ 2 * 2 ^ (D * l) := by
  have h2 : ∀ l, 2 * 2 ^ (D * l) ≤ 2 ^ (D * (l + 1)) := by
    intro l
    rw [← Nat.pow_succ']
    refine Nat.pow_le_pow_right (by norm_num) ?_
    rw [Nat.mul_add]; omega
  induction l with
  | zero => simp
  | succ l ih =>
    rw [Finset.sum_range_succ]
    have := h2 l
    omega

theorem geo_depth {D : Nat} (h1 : 1 ≤ D) (L : Nat) : ∑ l ∈ Finset.range (L + 1), 2 ^ (D * l) * (1 + (L + 1 - l)) ≤ 6 * 2 ^ (D * L) := by
  have h2 : ∀ l, 2 * 2 ^ (D * l) ≤ 2 ^ (D * (l + 1)) := by
    intro l
    rw [← Nat.pow_succ']
    refine Nat.pow_le_pow_right (by norm_num) ?_
    rw [Nat.mul_add]; omega
  induction L with
  | zero => simp
  | succ L ih =>
    rw [Finset.sum_range_succ]
    have e : ∑ l ∈ Finset.range (L + 1), 2 ^ (D * l) * (1 + (L + 1 + 1 - l)) =
        ∑ l ∈ Finset.range (L + 1), 2 ^ (D * l) * (1 + (L + 1 - l)) + ∑ l ∈ Finset.range (L + 1), 2 ^ (D * l) := by
      rw [← Finset.sum_add_distrib]
      refine Finset.sum_congr rfl fun l hl => ?_
      rw [Finset.mem_range] at hl
      rw [show L + 1 + 1 - l = L + 1 - l + 1 by omega]; ring
    rw [e]
    have h3 := geo_levels h1 L
    have h4 := h2 L
    rw [show 1 + (L + 1 + 1 - (L + 1)) = 2 by omega]
    omega

/-- the calls and iterations of the recursion over cell pairs -/
theorem BuiltX.visits (b : BuiltX D ndebug w x alpha T m) (s : SupportedInput D w x) :
    ∃ k, visitSteps T T.levels 0 0 0 = some k ∧ (k : ℝ) ≤ 8 * 6 ^ D * (3 * (w.sum / m) + w.sum / m ^ 2) := by
  have ok := b.ok
  have hm := b.m_pos s
  have hW := b.W_pos s
  obtain ⟨k, h1, h2⟩ := ok.visitSteps_le
  refine ⟨k, h1, ?_⟩
  have h3 := sum_layPairs_le ok (fun l => 2 ^ (D * l)) (geo_levels s.D1)
  set S := ∑ i ∈ Finset.range T.layers, ∑ j ∈ Finset.range T.layers, 2 ^ (D * partitioningBaseLevel D T.blc i j) with hS
  have h4 : k ≤ 6 ^ D * (8 * S) := by
    refine h2.trans ?_
    have e : ∑ l ∈ Finset.range T.levels, 6 ^ D * 2 ^ (D * l) * costP T l = 6 ^ D * ∑ l ∈ Finset.range T.levels, 2 ^ (D * l) * costP T l := by
      rw [Finset.mul_sum]; exact Finset.sum_congr rfl fun l _ => by ring
    rw [e]
    refine Nat.mul_le_mul_left _ (h3.trans ?_)
    have h5 := geo_depth s.D1 (partitioningBaseLevel D T.blc 0 0)
    rw [← ok.levels_eq] at h5
    have h6 : 2 ^ (D * partitioningBaseLevel D T.blc 0 0) ≤ S := by
      have h0 : 0 ∈ Finset.range T.layers := Finset.mem_range.2 b.layers_pos
      refine le_trans ?_ (Finset.single_le_sum (f := fun i => ∑ j ∈ Finset.range T.layers, 2 ^ (D * partitioningBaseLevel D T.blc i j)) (fun _ _ => Nat.zero_le _) h0)
      exact Finset.single_le_sum (f := fun j => 2 ^ (D * partitioningBaseLevel D T.blc 0 j)) (fun _ _ => Nat.zero_le _) h0
    omega
  have h7 : (S : ℝ) ≤ 3 * (w.sum / m) + w.sum / m ^ 2 := by
    rw [hS]
    push_cast
    refine le_trans (Finset.sum_le_sum fun i _ => Finset.sum_le_sum fun j _ => b.cells_le s i j) ?_
    simp_rw [Finset.sum_add_distrib, ← Finset.mul_sum, ← Finset.sum_mul]
    simp only [Finset.sum_const, Finset.card_range, nsmul_eq_mul, mul_one]
    have h8 := half_sum T.layers
    have h9 : (0 : ℝ) ≤ ∑ i ∈ Finset.range T.layers, (1 / 2 : ℝ) ^ i := Finset.sum_nonneg fun _ _ => by positivity
    have h10 := (b.layers_sq s).1
    have h11 : w.sum / (4 * m ^ 2) * ((∑ i ∈ Finset.range T.layers, (1 / 2 : ℝ) ^ i) * ∑ i ∈ Finset.range T.layers, (1 / 2 : ℝ) ^ i) ≤ w.sum / m ^ 2 := by
      calc _ ≤ w.sum / (4 * m ^ 2) * (2 * 2) := mul_le_mul_of_nonneg_left (mul_le_mul h8 h8 h9 (by norm_num)) (by positivity)
        _ = w.sum / m ^ 2 := by field_simp; ring
    nlinarith
  have h12 : (k : ℝ) ≤ 6 ^ D * (8 * S) := by exact_mod_cast h4
  calc (k : ℝ) ≤ 6 ^ D * (8 * S) := h12
    _ = 8 * 6 ^ D * S := by ring
    _ ≤ _ := mul_le_mul_of_nonneg_left h7 (by positivity)

end
end Girgs
