import Verif.Proofs.WorkIntegral
import Verif.Proofs.WorkErase
import Verif.Proofs.IdealRng
/-
C89: the work of the GIRG sampler is linear in expectation.
-/
namespace Girgs.Props
open Girgs Spec CFloat MeasureTheory Tree
open scoped ENNReal

/-- C89 (what is counted).  For any kind of floating point numbers, any generator and any calls: the functions that count the pairs looked at
make the same draws and stop in the same states as the sampling calls, and the edges are among the pairs looked at, in the same order. -/
theorem C89_counts {F : Type} [CFloat F] {D : Nat} (T : Tree F D) (rng : Rng F) (ts : List Task) (g : rng.G) :
    (runTasks T rng ts g = none ∧ lookTasks T rng ts g = none) ∨
    ∃ looked edges g', lookTasks T rng ts g = some (looked, g') ∧ runTasks T rng ts g = some (edges, g') ∧ edges.Sublist looked := by
  rcases lookTasks_agree (T := T) (rng := rng) ts g with ⟨h1, h2⟩ | ⟨l, e, g', h1, h2, h3⟩
  · exact Or.inl ⟨h2, h1⟩
  · exact Or.inr ⟨l, e, g', h1, h2, h3⟩

section
variable {D : Nat} {ndebug : Bool} {w : List ℝ} {x : List (Fin D → ℝ)} {alpha : XR} {T : Tree XR D} {m : ℝ}

theorem min_unique (b : ∃ m', BuiltX D ndebug w x alpha T m') (hm : m ∈ w) (hmin : ∀ u ∈ w, m ≤ u) : BuiltX D ndebug w x alpha T m := by
  obtain ⟨m', b⟩ := b
  have : m' = m := le_antisymm (b.min m hm) (hmin m' b.mem)
  rw [← this]; exact b

/-- C89 (recursion).  For every supported input, whatever the positions, the number of calls of `visitCellPair` plus the number of iterations of
its loops is at most `8 * 6^D * (3 * W / w0 + W / w0^2)`, where `W` is the sum of the weights and `w0` the smallest weight. -/
theorem C89_recursion (s : SupportedInput D w x) (hc : Constructed ndebug (xw w) (xp x) alpha T) (hm : m ∈ w) (hmin : ∀ u ∈ w, m ≤ u) :
    ∃ k, visitSteps T T.levels 0 0 0 = some k ∧ (k : ℝ) ≤ 8 * 6 ^ D * (3 * (w.sum / m) + w.sum / m ^ 2) :=
  (min_unique (hc.builtX s) hm hmin).visits s

theorem target_eq (D : Nat) (blc : Int) (i : Nat) : weightLayerTargetLevel D blc i = partitioningBaseLevel D (blc + 1) i 0 := by
  unfold weightLayerTargetLevel partitioningBaseLevel
  rw [show blc - (i : Int) - 1 = blc + 1 - i - (0 : ℕ) - 2 by push_cast; ring]

/-- C89 (memory).  The index over the cells of all layers has at most `1 + W / w0 + W / w0^2` entries, and there are as many nodes as weights. -/
theorem C89_index (s : SupportedInput D w x) (hc : Constructed ndebug (xw w) (xp x) alpha T) (hm : m ∈ w) (hmin : ∀ u ∈ w, m ≤ u) :
    (T.firstInCell.length : ℝ) ≤ 1 + w.sum / m + w.sum / m ^ 2 ∧ T.nodes.length = w.length := by
  have b := min_unique (hc.builtX s) hm hmin
  have ok := b.ok
  have hm0 := b.m_pos s
  have hW := b.W_pos s
  refine ⟨?_, by rw [ok.length_nodes, b.n_eq]⟩
  rw [ok.first_eq, List.length_map, List.length_range]
  unfold layerOff
  push_cast
  have hterm : ∀ i ∈ Finset.range T.layers, (2 : ℝ) ^ (D * weightLayerTargetLevel D T.blc i) ≤ 1 + w.sum / (2 * m ^ 2) * (1 / 2) ^ i := by
    intro i _
    have hnn : 0 ≤ w.sum / (2 * m ^ 2) * (1 / 2) ^ i := by positivity
    rw [target_eq]
    rcases Nat.eq_zero_or_pos (partitioningBaseLevel D (T.blc + 1) i 0) with h0 | h0
    · rw [h0, Nat.mul_zero, pow_zero]; linarith
    · have h1 := pbl_mul_le h0
      have hDl : 0 < D * partitioningBaseLevel D (T.blc + 1) i 0 := Nat.mul_pos s.D1 h0
      have hblc : 0 < T.blc := by omega
      have hlow := b.blc_low hblc
      obtain ⟨N, hN⟩ : ∃ N : Nat, T.blc = N := ⟨T.blc.toNat, by omega⟩
      rw [hN, zpow_natCast] at hlow
      set P := D * partitioningBaseLevel D (T.blc + 1) i 0 with hP
      have h2 : (2 : ℝ) ^ (P + i + 1) * m ^ 2 ≤ w.sum :=
        le_trans (mul_le_mul_of_nonneg_right (pow_le_pow_right₀ (by norm_num) (by omega)) (by positivity)) hlow
      have h3 : (2 : ℝ) ^ P ≤ w.sum / (2 * m ^ 2) * (1 / 2) ^ i := by
        rw [one_div, inv_pow, ← div_eq_mul_inv, div_div, le_div_iff₀ (by positivity)]
        refine le_trans (le_of_eq ?_) h2
        simp only [pow_add]; ring
      linarith
  have hsum := Finset.sum_le_sum hterm
  rw [Finset.sum_add_distrib, ← Finset.mul_sum] at hsum
  simp only [Finset.sum_const, Finset.card_range, nsmul_eq_mul, mul_one] at hsum
  have h4 := (b.layers_sq s).2
  have h5 : w.sum / (2 * m ^ 2) * ∑ i ∈ Finset.range T.layers, (1 / 2 : ℝ) ^ i ≤ w.sum / m ^ 2 := by
    calc _ ≤ w.sum / (2 * m ^ 2) * 2 := mul_le_mul_of_nonneg_left (half_sum _) (by positivity)
      _ = w.sum / m ^ 2 := by field_simp
  linarith

end

/-! ### expectation -/

section
variable {D n : Nat} {ndebug : Bool} {w : List ℝ} {a m : ℝ}

theorem root_visit {alpha : XR} {x : List (Fin D → ℝ)} {T : Tree XR D} (b : BuiltX D ndebug w x alpha T m) :
    visitCellPair T T.levels 0 0 0 = some (visitP T T.levels 0 0 0) := by
  have ok := b.ok
  have hon : OnLevel D 0 0 := ⟨by simp [levelStart], by simp [levelStart]⟩
  have hlev : T.levels - 1 + 1 = T.levels := by have := ok.levels_eq; omega
  have hv := ok.visit_eq (T.levels - 1) T.levels 0 0 0 (by omega) (by omega) hon hon
  rw [hlev] at hv
  exact hv

/-- C89 (pairs, finite alpha).  Weights `w`, `alpha > 1`, independent uniform positions, ideal random numbers, any structure built from the positions, and
any distribution `tss` of the sampling calls to threads that each use their own generator: the expected number of pairs of nodes that all threads look at
is at most `10 * 8^D * alpha / (alpha - 1) * W`. -/
theorem C89_pairs {rng : Rng XR} [MeasurableSpace rng.G] {μ : Measure rng.G} (id : IdealRng rng μ)
    (hs : ∀ X : Fin n → Fin D → ℝ, (∀ u d, X u d ∈ Set.Ico (0 : ℝ) 1) → SupportedInput D w (List.ofFn X)) (hD : 1 ≤ D) (hn : n = w.length)
    (hpos : ∀ u ∈ w, 0 < u) (ha : 1 < a) (T : (Fin n → Fin D → ℝ) → Tree XR D)
    (hT : ∀ X, (∀ u d, X u d ∈ Set.Ico (0 : ℝ) 1) → Constructed ndebug (xw w) (xp (List.ofFn X)) (XR.fin a) (T X))
    (tss : (Fin n → Fin D → ℝ) → List (List Task))
    (htss : ∀ X, (∀ u d, X u d ∈ Set.Ico (0 : ℝ) 1) → ∃ ts, visitCellPair (T X) (T X).levels 0 0 0 = some ts ∧ (tss X).flatten.Perm ts) :
    (∀ X, (∀ u d, X u d ∈ Set.Ico (0 : ℝ) 1) → ∀ own ∈ tss X, ∀ g, ∃ r, lookTasks (T X) rng own g = some r) ∧
    ∫⁻ X, ((tss X).map fun own => ∫⁻ g, ((((lookTasks (T X) rng own g).map fun r => r.1.length).getD 0 : ℕ) : ℝ≥0∞) ∂μ).sum ∂uniformPositions n D ≤
      ENNReal.ofReal (10 * 8 ^ D * (a / (a - 1)) * w.sum) := by
  have ha0 : 0 < a := by linarith
  have hprobm := id.prob
  have hon : OnLevel D 0 0 := ⟨by simp [levelStart], by simp [levelStart]⟩
  have key : ∀ X, (∀ u d, X u d ∈ Set.Ico (0 : ℝ) 1) →
      (∀ own ∈ tss X, ∀ g, ∃ r, lookTasks (T X) rng own g = some r) ∧
      ((tss X).map fun own => ∫⁻ g, ((((lookTasks (T X) rng own g).map fun r => r.1.length).getD 0 : ℕ) : ℝ≥0∞) ∂μ).sum ≤
        5 * ∑ v ∈ Finset.range n, ∑ u ∈ Finset.range v, pairFn w X (Scaling.connProb D a) u v := by
    intro X hX
    have s := hs X hX
    obtain ⟨m, b⟩ := (hT X hX).builtX s
    obtain ⟨ts, hts, hperm⟩ := htss X hX
    rw [root_visit b, Option.some.injEq] at hts
    subst hts
    have hmem : ∀ own ∈ tss X, ∀ t ∈ own, t ∈ visitP (T X) (T X).levels 0 0 0 := fun own ho t ht =>
      hperm.mem_iff.1 (List.mem_flatten.2 ⟨own, ho, ht⟩)
    have hok : ∀ own ∈ tss X, ∀ t ∈ own, TaskOK (T X) t := fun own ho t ht => visitP_ok _ _ _ _ hon hon t (hmem own ho t ht)
    have hone : ∀ own ∈ tss X, ∃ r : rng.G → List (Nat × Nat) × rng.G, (∀ g, lookTasks (T X) rng own g = some (r g)) ∧
        ∫⁻ g, ((r g).1.length : ℝ≥0∞) ∂μ = ((own.flatMap (lookCoins (T X))).map fun c => ENNReal.ofReal (unit c.2)).sum := by
      intro own ho
      obtain ⟨r, h1, _, h2⟩ := lookTasks_expected (T := T X) id (L := lookCoins (T X)) own (fun t ht => lookTask_law id b s ha0 (hok own ho t ht))
      exact ⟨r, h1, h2⟩
    refine ⟨fun own ho g => (hone own ho).imp' (fun r => r g) fun r hr => hr.1 g, ?_⟩
    have e : (tss X).map (fun own => ∫⁻ g, ((((lookTasks (T X) rng own g).map fun r => r.1.length).getD 0 : ℕ) : ℝ≥0∞) ∂μ) =
        (tss X).map fun own => ((own.flatMap (lookCoins (T X))).map fun c => ENNReal.ofReal (unit c.2)).sum := by
      refine List.map_congr_left fun own ho => ?_
      obtain ⟨r, h1, h2⟩ := hone own ho
      rw [← h2]
      simp_rw [h1]
      rfl
    rw [e]
    have e2 : ∀ L : List (List Task), (L.map fun own => ((own.flatMap (lookCoins (T X))).map fun c => ENNReal.ofReal (unit c.2)).sum).sum =
        ((L.flatten.flatMap (lookCoins (T X))).map fun c => ENNReal.ofReal (unit c.2)).sum := by
      intro L
      induction L with
      | nil => rfl
      | cons own L ih => rw [List.map_cons, List.sum_cons, ih, List.flatten_cons, List.flatMap_append, List.map_append, List.sum_append]
    rw [e2]
    refine b.look_sum s hperm ?_ ?_
    · intro t ht h2
      have htok := visitP_ok _ _ _ _ hon hon t (hperm.mem_iff.1 ht)
      obtain ⟨ra, rb, hr⟩ := b.ok.ranges_ok htok
      obtain ⟨bd, h3, _⟩ := b.boundII s ha0 htok h2 hr
      exact ⟨bd, h3⟩
    · intro t ht c hc
      exact b.look_prob s ha0 (hperm.mem_iff.1 ht) hc
  refine ⟨fun X hX => (key X hX).1, ?_⟩
  have hae : ∀ᵐ X ∂uniformPositions n D, ((tss X).map fun own => ∫⁻ g, ((((lookTasks (T X) rng own g).map fun r => r.1.length).getD 0 : ℕ) : ℝ≥0∞) ∂μ).sum ≤
      5 * ∑ v ∈ Finset.range n, ∑ u ∈ Finset.range v, pairFn w X (Scaling.connProb D a) u v := by
    filter_upwards [uniformPositions_ae n D] with X hX using (key X hX).2
  refine le_trans (lintegral_mono_ae hae) ?_
  rw [lintegral_const_mul' _ _ (by norm_num)]
  refine le_trans (mul_le_mul le_rfl (lintegral_conn hD hn hpos ha) bot_le bot_le) ?_
  rw [show (5 : ℝ≥0∞) = ENNReal.ofReal 5 by simp, ← ENNReal.ofReal_mul (by norm_num)]
  refine ENNReal.ofReal_le_ofReal (le_of_eq ?_)
  ring

/-- C89 (one thread, finite alpha).  The expectation of the complete work of the sampler (calls of `visitCellPair`, iterations of its loops, and pairs of
nodes looked at) is at most a constant, which depends on `D` and `alpha > 1` only, times `W + W / w0 + W / w0^2`. -/
theorem C89_expected {rng : Rng XR} [MeasurableSpace rng.G] {μ : Measure rng.G} (id : IdealRng rng μ)
    (hs : ∀ X : Fin n → Fin D → ℝ, (∀ u d, X u d ∈ Set.Ico (0 : ℝ) 1) → SupportedInput D w (List.ofFn X)) (hD : 1 ≤ D) (hn : n = w.length)
    (hpos : ∀ u ∈ w, 0 < u) (ha : 1 < a) (hm : m ∈ w) (hmin : ∀ u ∈ w, m ≤ u) (T : (Fin n → Fin D → ℝ) → Tree XR D)
    (hT : ∀ X, (∀ u d, X u d ∈ Set.Ico (0 : ℝ) 1) → Constructed ndebug (xw w) (xp (List.ofFn X)) (XR.fin a) (T X)) :
    ∃ work : (Fin n → Fin D → ℝ) → rng.G → ℕ,
      (∀ X, (∀ u d, X u d ∈ Set.Ico (0 : ℝ) 1) → ∀ g, sequentialWork (T X) rng g = some (work X g)) ∧
      ∫⁻ X, ∫⁻ g, (work X g : ℝ≥0∞) ∂μ ∂uniformPositions n D ≤
        ENNReal.ofReal (24 * 8 ^ D * (a / (a - 1)) * (w.sum + w.sum / m + w.sum / m ^ 2)) := by
  have hprobm := id.prob
  have hm0 := hpos m hm
  have hW : 0 < w.sum := List.sum_pos w hpos (List.ne_nil_of_mem hm)
  have h1 : 0 < a - 1 := by linarith
  set calls : (Fin n → Fin D → ℝ) → List Task := fun X => visitP (T X) (T X).levels 0 0 0 with hcalls
  obtain ⟨hdef, hbound⟩ := C89_pairs id hs hD hn hpos ha T hT (fun X => [calls X]) (fun X hX => by
    obtain ⟨m, b⟩ := (hT X hX).builtX (hs X hX)
    exact ⟨_, root_visit b, by simp [hcalls]⟩)
  set steps : (Fin n → Fin D → ℝ) → ℕ := fun X => (visitSteps (T X) (T X).levels 0 0 0).getD 0 with hsteps
  have hst : ∀ X, (∀ u d, X u d ∈ Set.Ico (0 : ℝ) 1) → visitSteps (T X) (T X).levels 0 0 0 = some (steps X) ∧
      (steps X : ℝ≥0∞) ≤ ENNReal.ofReal (8 * 6 ^ D * (3 * (w.sum / m) + w.sum / m ^ 2)) := by
    intro X hX
    obtain ⟨k, h1, h2⟩ := C89_recursion (hs X hX) (hT X hX) hm hmin
    have e : steps X = k := by simp only [hsteps]; rw [h1]; rfl
    rw [e]
    refine ⟨h1, ?_⟩
    rw [← ENNReal.ofReal_natCast]
    exact ENNReal.ofReal_le_ofReal h2
  refine ⟨fun X g => steps X + ((lookTasks (T X) rng (calls X) g).map fun r => r.1.length).getD 0, ?_, ?_⟩
  · intro X hX g
    obtain ⟨m', b⟩ := (hT X hX).builtX (hs X hX)
    obtain ⟨r, hr⟩ := hdef X hX (calls X) (by simp) g
    unfold sequentialWork
    rw [obind (hst X hX).1, obind (root_visit b)]
    refine (obind hr _).trans ?_
    simp only [hr, Option.map_some, Option.getD_some]
  · have hae : ∀ᵐ X ∂uniformPositions n D,
        ∫⁻ g, ((steps X + ((lookTasks (T X) rng (calls X) g).map fun r => r.1.length).getD 0 : ℕ) : ℝ≥0∞) ∂μ ≤
          ENNReal.ofReal (8 * 6 ^ D * (3 * (w.sum / m) + w.sum / m ^ 2)) +
          (([calls X] : List (List Task)).map fun own => ∫⁻ g, ((((lookTasks (T X) rng own g).map fun r => r.1.length).getD 0 : ℕ) : ℝ≥0∞) ∂μ).sum := by
      filter_upwards [uniformPositions_ae n D] with X hX
      simp only [Nat.cast_add, List.map_cons, List.map_nil, List.sum_cons, List.sum_nil, add_zero]
      rw [lintegral_add_left measurable_const]
      refine add_le_add ?_ le_rfl
      rw [lintegral_const, measure_univ, mul_one]
      exact (hst X hX).2
    refine le_trans (lintegral_mono_ae hae) ?_
    rw [lintegral_add_left measurable_const, lintegral_const, measure_univ, mul_one]
    refine le_trans (add_le_add le_rfl hbound) ?_
    rw [← ENNReal.ofReal_add (by positivity) (by positivity)]
    refine ENNReal.ofReal_le_ofReal ?_
    have h68 : (6 : ℝ) ^ D ≤ 8 ^ D := pow_le_pow_left₀ (by norm_num) (by norm_num) D
    have hA : 1 ≤ a / (a - 1) := by rw [le_div_iff₀ h1]; linarith
    have h8 : (0 : ℝ) < 8 ^ D := by positivity
    set A := a / (a - 1)
    set E := (8 : ℝ) ^ D
    set P := w.sum / m
    set Q := w.sum / m ^ 2
    have hP : 0 ≤ P := by positivity
    have hQ : 0 ≤ Q := by positivity
    have hEA : 6 ^ D ≤ E * A := h68.trans (le_mul_of_one_le_right h8.le hA)
    have h6 : (0 : ℝ) ≤ 6 ^ D := by positivity
    have : 8 * 6 ^ D * (3 * P + Q) ≤ 24 * (E * A) * (P + Q) := by
      calc 8 * 6 ^ D * (3 * P + Q) ≤ 24 * 6 ^ D * (P + Q) := by nlinarith [mul_nonneg h6 hQ]
        _ ≤ 24 * (E * A) * (P + Q) := mul_le_mul_of_nonneg_right (by linarith) (by linarith)
    nlinarith [mul_nonneg (mul_nonneg h8.le (by positivity : (0:ℝ) ≤ A)) hW.le]

/-! ### threshold -/

theorem coins_I {T : Tree XR D} (ok : TreeOK T) {t : Task} (ht : TaskOK T t) (h1 : t.two = false) : ∀ c ∈ lookCoins T t, c.2 = 1 := by
  obtain ⟨ra, rb, hr⟩ := ok.ranges_ok ht
  obtain ⟨mp, hmp⟩ := ok.maxProb_some ht
  have e : lookCoins T t = constCoins T 1 (pairListI t ra rb) := by
    unfold lookCoins; rw [hr.eq, hmp]; simp [h1]
  rw [e]
  intro c hc
  unfold constCoins at hc
  obtain ⟨p, _, rfl⟩ := List.mem_map.1 hc
  rfl

/-- a call of type I looks at all its pairs, whatever the generator -/
theorem look_I {T : Tree XR D} (rng : Rng XR) (ok : TreeOK T) {t : Task} (ht : TaskOK T t) (h1 : t.two = false) (g : rng.G) :
    ∃ r, lookTask T rng t g = some r ∧ r.1.length = (lookCoins T t).length := by
  obtain ⟨ra, rb, hr⟩ := ok.ranges_ok ht
  obtain ⟨mp, hmp⟩ := ok.maxProb_some ht
  have e : lookCoins T t = constCoins T 1 (pairListI t ra rb) := by
    unfold lookCoins; rw [hr.eq, hmp]; simp [h1]
  have key : ∀ (L : List (Nat × Nat)), (∀ c ∈ L, c.1 < T.nodes.length ∧ c.2 < T.nodes.length) → ∀ g : rng.G,
      ∃ r, lookPairsI T rng L g = some r ∧ r.1.length = L.length := by
    intro L
    induction L with
    | nil => intro _ g; exact ⟨([], g), rfl, rfl⟩
    | cons c L ih =>
      intro hL g
      obtain ⟨hc1, hc2⟩ := hL c (by simp)
      obtain ⟨c1, c2⟩ := c
      obtain ⟨r, h1, h2⟩ := ih (fun c hc => hL c (by simp [hc])) (decideI T rng T.nodes[c1] T.nodes[c2] g).2
      refine ⟨((T.nodes[c1].index, T.nodes[c2].index) :: r.1, r.2), ?_, ?_⟩
      · unfold lookPairsI
        refine (obind (show rd T.nodes c1 = _ from List.getElem?_eq_getElem hc1) _).trans ?_
        refine (obind (show rd T.nodes c2 = _ from List.getElem?_eq_getElem hc2) _).trans ?_
        exact (obind h1 _).trans rfl
      · simp [h2]
  have hlen : (lookCoins T t).length = (pairListI t ra rb).length := by rw [e]; simp [constCoins]
  unfold lookTask
  rw [if_neg (by simp [h1])]
  unfold lookTypeI
  by_cases hc : ra.1 = ra.2 ∨ rb.1 = rb.2
  · have hnil : pairListI t ra rb = [] := by
      rw [List.eq_nil_iff_forall_not_mem]
      rintro ⟨p, q⟩ hm
      have := hr.mem_pairListI.1 hm
      omega
    refine ⟨([], g), ?_, by rw [hlen, hnil]⟩
    refine (obind hr.eq _).trans ?_
    simp [hc]
  · obtain ⟨r, h2, h3⟩ := key (pairListI t ra rb) (by
      rintro ⟨p, q⟩ hm
      have := hr.mem_pairListI.1 hm
      have h1 := hr.nA
      have h2 := hr.nB
      rw [ok.length_nodes]
      exact ⟨by simp only; omega, by simp only; omega⟩) g
    refine ⟨r, ?_, by rw [h3, hlen]⟩
    refine (obind hr.eq _).trans ?_
    simp only [hc, if_false]
    exact (obind hr.pairsI_eq _).trans h2

theorem look_all_I {T : Tree XR D} (rng : Rng XR) (ok : TreeOK T) : ∀ (ts : List Task), (∀ t ∈ ts, TaskOK T t) → (∀ t ∈ ts, t.two = false) → ∀ g : rng.G,
    ∃ r, lookTasks T rng ts g = some r ∧ r.1.length = (ts.flatMap (lookCoins T)).length := by
  intro ts
  induction ts with
  | nil => intro _ _ g; exact ⟨([], g), rfl, rfl⟩
  | cons t ts ih =>
    intro hok h1 g
    obtain ⟨r, h2, h3⟩ := look_I rng ok (hok t (by simp)) (h1 t (by simp)) g
    obtain ⟨r', h4, h5⟩ := ih (fun t ht => hok t (by simp [ht])) (fun t ht => h1 t (by simp [ht])) r.2
    refine ⟨_, (obind h2 _).trans ((obind h4 _).trans rfl), ?_⟩
    simp [h3, h5]

/-- C89 (pairs, alpha = infinity, release build).  Weights `w`, independent uniform positions, any generators in any states, any distribution `tss` of the
sampling calls to threads: the number of pairs of nodes a thread looks at does not depend on the generator, and the expected number of pairs that all
threads look at is at most `2 * 8^D * W`. -/
theorem C89_threshold (rng : Rng XR)
    (hs : ∀ X : Fin n → Fin D → ℝ, (∀ u d, X u d ∈ Set.Ico (0 : ℝ) 1) → SupportedInput D w (List.ofFn X)) (hD : 1 ≤ D) (hn : n = w.length)
    (hpos : ∀ u ∈ w, 0 < u) (T : (Fin n → Fin D → ℝ) → Tree XR D)
    (hT : ∀ X, (∀ u d, X u d ∈ Set.Ico (0 : ℝ) 1) → Constructed true (xw w) (xp (List.ofFn X)) XR.pinf (T X))
    (tss : (Fin n → Fin D → ℝ) → List (List Task))
    (htss : ∀ X, (∀ u d, X u d ∈ Set.Ico (0 : ℝ) 1) → ∃ ts, visitCellPair (T X) (T X).levels 0 0 0 = some ts ∧ (tss X).flatten.Perm ts) :
    ∃ k : (Fin n → Fin D → ℝ) → List Task → ℕ,
      (∀ X, (∀ u d, X u d ∈ Set.Ico (0 : ℝ) 1) → ∀ own ∈ tss X, ∀ g, ∃ r, lookTasks (T X) rng own g = some r ∧ r.1.length = k X own) ∧
      ∫⁻ X, ((((tss X).map (k X)).sum : ℕ) : ℝ≥0∞) ∂uniformPositions n D ≤ ENNReal.ofReal (2 * 8 ^ D * w.sum) := by
  have hon : OnLevel D 0 0 := ⟨by simp [levelStart], by simp [levelStart]⟩
  refine ⟨fun X own => (own.flatMap (lookCoins (T X))).length, ?_, ?_⟩
  · intro X hX own ho g
    obtain ⟨m, b⟩ := (hT X hX).builtX (hs X hX)
    obtain ⟨ts, hts, hperm⟩ := htss X hX
    rw [root_visit b, Option.some.injEq] at hts
    subst hts
    have hth : (T X).ndebug = true ∧ (T X).isThreshold = true := ⟨b.ndebug_eq, by unfold Tree.isThreshold; rw [b.alpha_eq]; rfl⟩
    have hmem : ∀ t ∈ own, t ∈ visitP (T X) (T X).levels 0 0 0 := fun t ht => hperm.mem_iff.1 (List.mem_flatten.2 ⟨own, ho, ht⟩)
    refine look_all_I rng b.ok own (fun t ht => visitP_ok _ _ _ _ hon hon t (hmem t ht)) (fun t ht => ?_) g
    have := hmem t ht
    rw [visitP_release hth, List.mem_filter] at this
    simpa using this.2
  · have hae : ∀ᵐ X ∂uniformPositions n D, ((((tss X).map fun own => (own.flatMap (lookCoins (T X))).length).sum : ℕ) : ℝ≥0∞) ≤
        1 * ∑ v ∈ Finset.range n, ∑ u ∈ Finset.range v, pairFn w X (fun t r => if r ^ D < t then 1 else 0) u v := by
      filter_upwards [uniformPositions_ae n D] with X hX
      have s := hs X hX
      obtain ⟨m, b⟩ := (hT X hX).builtX s
      obtain ⟨ts, hts, hperm⟩ := htss X hX
      rw [root_visit b, Option.some.injEq] at hts
      subst hts
      have hth : (T X).ndebug = true ∧ (T X).isThreshold = true := ⟨b.ndebug_eq, by unfold Tree.isThreshold; rw [b.alpha_eq]; rfl⟩
      have htwo : ∀ t ∈ (tss X).flatten, t.two = false := by
        intro t ht
        have := hperm.mem_iff.1 ht
        rw [visitP_release hth, List.mem_filter] at this
        simpa using this.2
      have e1 : ∀ L : List (List Task), (L.map fun own => (own.flatMap (lookCoins (T X))).length).sum = (L.flatten.flatMap (lookCoins (T X))).length := by
        intro L
        induction L with
        | nil => rfl
        | cons own L ih => rw [List.map_cons, List.sum_cons, ih, List.flatten_cons, List.flatMap_append, List.length_append]
      rw [e1]
      have e2 : (((tss X).flatten.flatMap (lookCoins (T X))).length : ℝ≥0∞) =
          (((tss X).flatten.flatMap (lookCoins (T X))).map fun c => ENNReal.ofReal (unit c.2)).sum := by
        have h1 : ∀ c ∈ (tss X).flatten.flatMap (lookCoins (T X)), ENNReal.ofReal (unit c.2) = 1 := by
          intro c hc
          obtain ⟨t, ht, hc⟩ := List.mem_flatMap.1 hc
          rw [coins_I b.ok (visitP_ok _ _ _ _ hon hon t (hperm.mem_iff.1 ht)) (htwo t ht) c hc, unit_eq (by norm_num) (by norm_num)]; simp
        rw [List.map_congr_left h1]
        simp
      rw [e2]
      refine b.look_sum s hperm (fun t ht h2 => by rw [htwo t ht] at h2; cases h2) fun t ht c hc => ?_
      rw [one_mul]
      exact b.look_threshold s (hperm.mem_iff.1 ht) (htwo t ht) hc
    refine le_trans (lintegral_mono_ae hae) ?_
    simp only [one_mul]
    refine le_trans (lintegral_threshold hD hn hpos) (le_of_eq ?_)
    rw [one_mul]

end
/-! ### the hypotheses are met -/

/-- weights 1, 1 and 5 in the plane, at any positions -/
theorem exampleWeights : ∀ X : Fin 3 → Fin 2 → ℝ, (∀ u d, X u d ∈ Set.Ico (0 : ℝ) 1) → SupportedInput 2 [1, 1, 5] (List.ofFn X) := by
  intro X hX
  refine ⟨by norm_num, by norm_num, by simp, by norm_num, by norm_num, by simp, ?_, ?_, ?_, ?_⟩
  · intro u hu
    have h1 : (1 : ℝ) < 2 ^ 1024 := one_lt_pow₀ (by norm_num) (by norm_num)
    have h2 : (5 : ℝ) < 2 ^ 1024 := lt_of_lt_of_le (by norm_num : (5 : ℝ) < 2 ^ 3) (pow_le_pow_right₀ (by norm_num) (by norm_num))
    simp only [List.mem_cons, List.not_mem_nil, or_false] at hu
    rcases hu with rfl | rfl | rfl
    · exact h1
    · exact h1
    · exact h2
  · intro p hp d
    obtain ⟨u, rfl⟩ := (List.mem_ofFn' _ _).1 hp
    exact hX u d
  · intro u hu
    simp only [List.mem_cons, List.not_mem_nil, or_false] at hu
    rcases hu with rfl | rfl | rfl <;> norm_num
  · intro u hu v hv
    simp only [List.mem_cons, List.not_mem_nil, or_false] at hu hv
    rcases hu with rfl | rfl | rfl <;> rcases hv with rfl | rfl | rfl <;> norm_num

example : ∃ (_ : MeasurableSpace idealRng.G) (μ : Measure idealRng.G) (T : (Fin 3 → Fin 2 → ℝ) → Tree XR 2) (work : (Fin 3 → Fin 2 → ℝ) → idealRng.G → ℕ),
    (∀ X, (∀ u d, X u d ∈ Set.Ico (0 : ℝ) 1) → Constructed true (xw [1, 1, 5]) (xp (List.ofFn X)) (XR.fin 2) (T X)) ∧
    (∀ X, (∀ u d, X u d ∈ Set.Ico (0 : ℝ) 1) → ∀ g, sequentialWork (T X) idealRng g = some (work X g)) ∧
    ∫⁻ X, ∫⁻ g, (work X g : ℝ≥0∞) ∂μ ∂uniformPositions 3 2 ≤ ENNReal.ofReal (24 * 8 ^ 2 * 2 * 21) := by
  have hex : ∀ X : Fin 3 → Fin 2 → ℝ, ∃ T, (∀ u d, X u d ∈ Set.Ico (0 : ℝ) 1) → Constructed true (xw [1, 1, 5]) (xp (List.ofFn X)) (XR.fin 2) T := by
    intro X
    by_cases h : ∀ u d, X u d ∈ Set.Ico (0 : ℝ) 1
    · obtain ⟨T, hT⟩ := constructedX_exists true (XR.fin 2) (exampleWeights X h) 8 (by norm_num) (by norm_num)
      exact ⟨T, fun _ => hT⟩
    · obtain ⟨T, _⟩ := constructedX_exists true (XR.fin 2) (exampleWeights (fun _ _ => 0) (by simp)) 8 (by norm_num) (by norm_num)
      exact ⟨T, fun h' => absurd h' h⟩
  choose T hT using hex
  obtain ⟨work, h1, h2⟩ := C89_expected (a := 2) (m := 1) idealRng_ideal exampleWeights (by norm_num) (by norm_num) (by simp) (by norm_num) (by simp) (by simp) T hT
  refine ⟨_, seqMeasure, T, work, hT, h1, h2.trans (ENNReal.ofReal_le_ofReal (by norm_num))⟩

end Girgs.Props
