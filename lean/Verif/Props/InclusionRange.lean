import Verif.Props.InclusionReturns
/-
C76: the output of inclusion_range.
-/
namespace Girgs
namespace Props
open Spec Tree Real Tools Inclusion Cli Examples
open XR (fin)

/-! ### bisection -/

theorem half_lt_fin (x : ℝ) : ((CFloat.ofRat (1 / 2) : XR) <. fin x) = decide (1 / 2 < x) := by
  rw [show (CFloat.ofRat (1 / 2) : XR) = fin (1 / 2) by rw [XR.ofRat_eq]; norm_num]
  exact XR.lt_fin _ _

theorem mid_fin (x y : ℝ) : (fin x +. fin y) /. (CFloat.ofRat 2 : XR) = fin ((x + y) / 2) := by
  rw [show (CFloat.ofRat 2 : XR) = fin 2 by rw [XR.ofRat_eq]; norm_num, XR.add_fin, XR.div_fin _ _ two_ne_zero]

/-- what a finished bisection knows -/
theorem bisect_spec {diff : XR → ℕ × ℕ → Prop} {pick : ℕ × ℕ → Bool} {P : ℝ → Bool → Prop} (hd : ∀ d sub, diff (fin d) sub → P d (pick sub))
    {x y lo' hi' : XR} {trace : List (XR × (ℕ × ℕ))} (h : Bisect diff pick x y lo' hi' trace) : ∀ {lo hi : ℝ}, x = fin lo → y = fin hi → lo ≤ hi →
    ∃ a b : ℝ, lo' = fin a ∧ hi' = fin b ∧ lo ≤ a ∧ a ≤ b ∧ b ≤ hi ∧ b - a ≤ 1 / 2 ∧ (b - a) * 2 ^ trace.length = hi - lo ∧
      (a = lo ∨ lo < a ∧ P a true) ∧ (b = hi ∨ b < hi ∧ P b false) ∧ (hi - lo ≤ 1 / 2 → a = lo ∧ b = hi) ∧ (1 / 2 < hi - lo → 1 / 4 < b - a ∧ ∃ pk, P ((lo + hi) / 2) pk) := by
  induction h with
  | @stop x y h =>
    rintro lo hi rfl rfl hle
    rw [XR.sub_fin, half_lt_fin, decide_eq_false_iff_not] at h
    exact ⟨lo, hi, rfl, rfl, le_rfl, hle, le_rfl, not_lt.1 h, by simp, Or.inl rfl, Or.inl rfl, fun _ => ⟨rfl, rfl⟩, fun h' => absurd h' h⟩
  | @up x y lo' hi' sub trace h1 h2 h3 h4 ih =>
    rintro lo hi rfl rfl hle
    rw [XR.sub_fin, half_lt_fin, decide_eq_true_eq] at h1
    rw [mid_fin] at h2 ih
    obtain ⟨a, b, rfl, rfl, k1, k2, k3, k4, k5, k6, k7, k9, k8⟩ := ih rfl rfl (by linarith)
    have hP := hd _ _ h2
    rw [h3] at hP
    refine ⟨a, b, rfl, rfl, by linarith, k2, k3, k4, ?_, Or.inr ⟨by linarith, ?_⟩, k7, fun hn => absurd h1 (not_lt.2 hn), fun _ => ⟨?_, _, hP⟩⟩
    · rw [List.length_cons, pow_succ, ← mul_assoc, k5]; ring
    · rcases k6 with rfl | ⟨_, h⟩
      · exact hP
      · exact h
    · by_cases hh : 1 / 2 < hi - (lo + hi) / 2
      · exact (k8 hh).1
      · obtain ⟨rfl, rfl⟩ := k9 (not_lt.1 hh); linarith
  | @down x y lo' hi' sub trace h1 h2 h3 h4 ih =>
    rintro lo hi rfl rfl hle
    rw [XR.sub_fin, half_lt_fin, decide_eq_true_eq] at h1
    rw [mid_fin] at h2 ih
    obtain ⟨a, b, rfl, rfl, k1, k2, k3, k4, k5, k6, k7, k9, k8⟩ := ih rfl rfl (by linarith)
    have hP := hd _ _ h2
    rw [h3] at hP
    refine ⟨a, b, rfl, rfl, k1, k2, by linarith, k4, ?_, k6, Or.inr ⟨by linarith, ?_⟩, fun hn => absurd h1 (not_lt.2 hn), fun _ => ⟨?_, _, hP⟩⟩
    · rw [List.length_cons, pow_succ, ← mul_assoc, k5]; ring
    · rcases k7 with rfl | ⟨_, h⟩
      · exact hP
      · exact h
    · by_cases hh : 1 / 2 < (lo + hi) / 2 - lo
      · exact (k8 hh).1
      · obtain ⟨rfl, rfl⟩ := k9 (not_lt.1 hh); linarith

/-! ### specification of a block of lines -/

/-- a GIRG for the desired degree `d` has been generated, with scaling `k` -/
def Tested (radii : List ℝ) (R d k : ℝ) : Prop :=
  0 < d ∧ d ≤ radii.length - 1 ∧ 0 < k ∧ d - 2 / 100 ≤ thresholdGirgDegree 1 ((convWeights radii R).map (· * k)) ∧
    thresholdGirgDegree 1 ((convWeights radii R).map (· * k)) < d + 2 / 100 + 1 / radii.length

/-- each edge of the hyperbolic random graph is an edge of the GIRG with scaling `k` -/
def HrgInGirg (radii angles : List ℝ) (R k : ℝ) : Prop :=
  ∀ u v, u < radii.length → v < radii.length → u ≠ v → HypRule radii angles R u v → ConvRule radii angles R k u v

/-- each edge of the GIRG with scaling `k` is an edge of the hyperbolic random graph -/
def GirgInHrg (radii angles : List ℝ) (R k : ℝ) : Prop :=
  ∀ u v, u < radii.length → v < radii.length → u ≠ v → ConvRule radii angles R k u v → HypRule radii angles R u v

/-- what the output for one size and one repetition means -/
structure BlockCorrect (n : ℕ) (radii angles : List ℝ) (R : ℝ) (rep : ℕ) (block : List (Line XR)) : Prop where
  /-- `h`: the average degree of the hyperbolic random graph; `l1`, `u1`, `l2`, `u2`: the intervals of the two searches -/
  out : ∃ h l1 u1 l2 u2 : ℝ, h = 2 * pairCount n (HypRule radii angles R) / n ∧
    block = (if l1 = h then [.warnHigh] else []) ++ (if u2 = 6 / 5 * h then [.warnLow] else []) ++
      [.row n (fin h) (fin ((l2 + u2) / 2)) (fin ((l1 + u1) / 2)) rep] ∧
    (h ≤ l1 ∧ l1 ≤ u1 ∧ u1 ≤ 2 * h ∧ u1 - l1 ≤ 1 / 2 ∧ (1 / 2 < h → 1 / 4 < u1 - l1 ∧ 3 / 2 * h ≤ n - 1)) ∧
    (1 / 2 * h ≤ l2 ∧ l2 ≤ u2 ∧ u2 ≤ 6 / 5 * h ∧ u2 - l2 ≤ 1 / 2 ∧ (1 / 2 < 7 / 10 * h → 1 / 4 < u2 - l2)) ∧
    (l1 = h ∨ h < l1 ∧ ∃ k, Tested radii R l1 k ∧ (SizeOk radii R l1 → ¬ HrgInGirg radii angles R k)) ∧
    (u1 = 2 * h ∨ u1 < 2 * h ∧ ∃ k, Tested radii R u1 k ∧ (SizeOk radii R u1 → HrgInGirg radii angles R k)) ∧
    (l2 = 1 / 2 * h ∨ 1 / 2 * h < l2 ∧ ∃ k, Tested radii R l2 k ∧ (SizeOk radii R l2 → GirgInHrg radii angles R k)) ∧
    (u2 = 6 / 5 * h ∨ u2 < 6 / 5 * h ∧ ∃ k, Tested radii R u2 k ∧ (SizeOk radii R u2 → ¬ GirgInHrg radii angles R k))

theorem int32_range {x y : ℤ} (h : int32 x = some y) : y = x ∧ x ≤ 2147483647 := by
  unfold int32 at h
  split_ifs at h with h1
  exact ⟨(Option.some.inj h).symm, by omega⟩

/-! ### one call -/

theorem pairCount_zero_iff {n : ℕ} {P Q : ℕ → ℕ → Prop} (hP : ∀ u v, P u v → P v u) (hQ : ∀ u v, Q u v → Q v u) :
    pairCount n (fun u v => P u v ∧ ¬ Q u v) = 0 ↔ ∀ u v, u < n → v < n → u ≠ v → P u v → Q u v := by
  rw [pairCount_eq_zero]
  constructor
  · intro h u v hu hv huv hr
    rcases lt_or_gt_of_ne huv with hlt | hlt
    · by_contra hn; exact h u v hlt hv ⟨hr, hn⟩
    · by_contra hn; exact h v u hlt hu ⟨hP _ _ hr, fun h' => hn (hQ _ _ h')⟩
  · rintro h u v hlt hv ⟨hr, hn⟩
    exact hn (h u v (by omega) hv (by omega) hr)

/-- one call of `diff` -/
theorem range_diff {m : Machine XR} (hu : UnitRng m.rng) {threads : ℕ} {radii angles : List ℝ} {T R : ℝ} (hin : HypInput radii angles T R) (h2 : 2 ≤ radii.length)
    {edges : List (ℕ × ℕ)} (hg : IsGraphOf radii.length (HypRule radii angles R) edges) {hrg : List Edge}
    (hs : Sorted (unifyEdges (intEdges edges)) hrg) {d : ℝ} {sub : ℕ × ℕ}
    (h : RangeDiff m threads (girgWeights (xw radii) (fin R)) (girgPositions (xw angles)) hrg (fin d) sub) :
    ∃ k, Tested radii R d k ∧ (SizeOk radii R d → (sub.1 = 0 ↔ HrgInGirg radii angles R k) ∧ (sub.2 = 0 ↔ GirgInHrg radii angles R k)) := by
  obtain ⟨s, es, hpart, sorted, hs', _, _, rfl⟩ := h
  obtain ⟨k, hk, rfl, hd0, hdn, q1, q2, _, q3⟩ := conv_part hu hin h2 hpart
  refine ⟨k, ⟨hd0, hdn, hk, q1, q2⟩, fun hsz => ?_⟩
  rw [range_counts (fun u v h => hypRule_symm h) (fun u v h => convRule_symm h) hg (q3 hsz) hs hs']
  exact ⟨pairCount_zero_iff (fun u v h => hypRule_symm h) (fun u v h => convRule_symm h),
    pairCount_zero_iff (fun u v h => convRule_symm h) (fun u v h => hypRule_symm h)⟩

theorem graph_count {n : ℕ} {P : ℕ → ℕ → Prop} (hP : ∀ u v, P u v → P v u) {es : List (ℕ × ℕ)} (h : IsGraphOf n P es) : es.length = pairCount n P := by
  obtain ⟨d, e⟩ := unified_spec hP h
  rw [← length_eq_pairCount d e]
  simp [unifyEdges, intEdges]

/-- C76, one size and one repetition. -/
theorem range_call {m : Machine XR} (he : IntervalEngine m.eng) (hu : UnitRng m.rng) {c : RangeConfig XR} {α : ℝ} (hα : c.alpha = fin α) (hα0 : 1 / 2 ≤ α)
    {rep : ℕ} {n : ℤ} (hn2 : 2 ≤ n) (hn31 : n ≤ 2147483647)
    (hR : ∀ R, Radius.LikeNetworKit m.ndebug n c.alpha (fin 0) (fin c.deg) R → ∃ r : ℝ, R = fin r ∧ 4 / 3 ≤ r ∧ r ≤ 165 / 4) {block : List (Line XR)}
    (h : RangeCall m c rep n block) :
    ∃ (R : ℝ) (radii angles : List ℝ), Radius.LikeNetworKit m.ndebug n c.alpha (fin 0) (fin c.deg) (fin R) ∧ radii.length = n.toNat ∧ angles.length = n.toNat ∧
      (∀ r ∈ radii, 0 < r ∧ r < R) ∧ (∀ a ∈ angles, 0 ≤ a ∧ a < 2 * π) ∧ (c.rseed + rep + n ≤ 2147483647 ∧ c.aseed + rep + n ≤ 2147483647) ∧
      BlockCorrect n.toNat radii angles R rep block := by
  obtain ⟨rs, as, R, radii, angles, edges, _, _, i1, i2, hrad, hpart, hrg, hs, l1, h1, t1, b1, l2, h2, t2, b2, rfl⟩ := h
  rw [ofRat_zero', XR.ofInt_eq] at hrad
  obtain ⟨R, rfl, hR1, hR2⟩ := hR R hrad
  rw [hα] at hpart
  obtain ⟨rs, as, rfl, rfl, e1, e2, hrs, has, hin, hgraph⟩ := hrg_part he hu hα0 (by omega) hn31 hR1 hR2 hpart
  have hcnt := graph_count (fun u v h => hypRule_symm h) hgraph
  rw [← e1] at hgraph
  have hn0 : (0 : ℝ) < n := by exact_mod_cast (by omega : 0 < n)
  have hnn : ((n.toNat : ℕ) : ℝ) = n := by
    have : ((n.toNat : ℕ) : ℤ) = n := by omega
    exact_mod_cast this
  set h : ℝ := 2 * pairCount n.toNat (HypRule rs as R) / n with hh
  have hdeg : (CFloat.ofNat edges.length : XR) *. CFloat.ofRat 2 /. CFloat.ofInt n = fin h := by
    rw [XR.ofNat_eq, XR.ofInt_eq, XR.ofRat_eq, XR.mul_fin, XR.div_fin _ _ hn0.ne', hcnt, hh]
    congr 1
    push_cast
    ring
  have hh0 : 0 ≤ h := by rw [hh]; positivity
  rw [hdeg] at b1 b2 ⊢
  have c1 : (CFloat.ofRat 2 : XR) *. fin h = fin (2 * h) := by rw [XR.ofRat_eq, XR.mul_fin]; norm_num
  have c2 : (CFloat.ofRat (1 / 2) : XR) *. fin h = fin (1 / 2 * h) := by rw [XR.ofRat_eq, XR.mul_fin]; norm_num
  have c3 : fin h *. (CFloat.ofRat (6 / 5) : XR) = fin (6 / 5 * h) := by rw [XR.ofRat_eq, XR.mul_fin, mul_comm]; norm_num
  rw [c1] at b1
  rw [c2, c3] at b2
  rw [c3]
  have hd1 := fun (d : ℝ) sub (h : RangeDiff m c.para.toNat (girgWeights (xw rs) (fin R)) (girgPositions (xw as)) hrg (fin d) sub) =>
    range_diff hu hin (by omega) hgraph hs h
  obtain ⟨a, b, rfl, rfl, k1, k2, k3, k4, _, k6, k7, _, k8⟩ := bisect_spec (P := fun d pk => ∃ k, Tested rs R d k ∧ (SizeOk rs R d → (pk = true ↔ ¬ HrgInGirg rs as R k)))
    (fun d sub h => by
      obtain ⟨k, t, e⟩ := hd1 d sub h
      exact ⟨k, t, fun hz => by rw [← (e hz).1]; simp⟩) b1 rfl rfl (by linarith)
  obtain ⟨a', b', rfl, rfl, k1', k2', k3', k4', _, k6', k7', _, k8'⟩ := bisect_spec
    (P := fun d pk => ∃ k, Tested rs R d k ∧ (SizeOk rs R d → (pk = true ↔ GirgInHrg rs as R k)))
    (fun d sub h => by
      obtain ⟨k, t, e⟩ := hd1 d sub h
      exact ⟨k, t, fun hz => by rw [← (e hz).2]; simp⟩) b2 rfl rfl (by linarith)
  refine ⟨R, rs, as, hrad, e1, e2, hrs, has, ⟨(int32_range i1).2, (int32_range i2).2⟩, ⟨h, a, b, a', b', by rw [hh, hnn], ?_, ⟨k1, k2, k3, k4, fun hb => ?_⟩, ⟨k1', k2', k3', k4', fun hb => ?_⟩, ?_, ?_, ?_, ?_⟩⟩
  · rw [mid_fin, mid_fin, XR.eq_fin, XR.eq_fin]
    have : (n : ℤ) = ((n.toNat : ℕ) : ℤ) := by omega
    rw [← this]
    simp only [decide_eq_true_eq]
  · obtain ⟨q1, pk, k, t, _⟩ := k8 (by linarith)
    refine ⟨q1, ?_⟩
    have := t.2.1
    rw [e1] at this
    linarith
  · exact (k8' (by linarith)).1
  · rcases k6 with h | ⟨h, k, t, e⟩
    · exact Or.inl h
    · exact Or.inr ⟨h, k, t, fun hz => (e hz).1 rfl⟩
  · rcases k7 with h | ⟨h, k, t, e⟩
    · exact Or.inl h
    · exact Or.inr ⟨h, k, t, fun hz => by
        have := e hz
        simp only [Bool.false_eq_true, false_iff, not_not] at this
        exact this⟩
  · rcases k6' with h | ⟨h, k, t, e⟩
    · exact Or.inl h
    · exact Or.inr ⟨h, k, t, fun hz => (e hz).1 rfl⟩
  · rcases k7' with h | ⟨h, k, t, e⟩
    · exact Or.inl h
    · exact Or.inr ⟨h, k, t, fun hz => by
        have := e hz
        simp only [Bool.false_eq_true, false_iff] at this
        exact this⟩

/-! ### the loops -/

/-- the sizes are `n`, `2n`, `4n`, … up to `n2` -/
theorem size_loop {call : ℤ → List (Line XR) → Prop} {n2 n : ℤ} {lines : List (Line XR)} (h : SizeLoop call n2 n lines) (hn : 1 ≤ n) :
    ∃ (J : ℕ) (block : ℕ → List (Line XR)), (∀ j : ℕ, n * 2 ^ j ≤ n2 ↔ j < J) ∧ (0 < J → n * 2 ^ J ≤ 2147483647) ∧ lines = (List.range J).flatMap block ∧
      ∀ j < J, call (n * 2 ^ j) (block j) := by
  induction h with
  | @stop n h =>
    refine ⟨0, fun _ => [], fun j => ?_, by simp, by simp, by simp⟩
    have : (1 : ℤ) ≤ 2 ^ j := one_le_pow₀ (by norm_num)
    constructor
    · intro h'; nlinarith
    · omega
  | @next n n' ls rest h1 h2 h3 _ ih =>
    obtain ⟨rfl, h4⟩ := int32_range h3
    obtain ⟨J, block, k1, k2, rfl, k4⟩ := ih (by omega)
    have e : ∀ j : ℕ, 2 * n * 2 ^ j = n * 2 ^ (j + 1) := fun j => by ring
    refine ⟨J + 1, fun j => match j with | 0 => ls | j + 1 => block j, fun j => ?_, fun _ => ?_, ?_, fun j hj => ?_⟩
    · cases j with
      | zero => simpa using h1
      | succ j => rw [← e, k1]; omega
    · rcases Nat.eq_zero_or_pos J with rfl | hJ
      · simpa [mul_comm] using h4
      · rw [← e]; exact k2 hJ
    · rw [List.range_succ_eq_map, List.flatMap_cons, List.flatMap_map]
    · cases j with
      | zero => simpa using h2
      | succ j => have := k4 j (by omega); rwa [e] at this

theorem rep_loop {body : ℕ → List (Line XR) → Prop} {rep k : ℕ} {lines : List (Line XR)} (h : RepLoop body rep k lines) :
    ∃ block : ℕ → List (Line XR), lines = (List.range k).flatMap block ∧ ∀ i < k, body (rep + i) (block i) := by
  induction h with
  | stop => exact ⟨fun _ => [], by simp, by simp⟩
  | @next rep k ls rest h1 _ ih =>
    obtain ⟨block, rfl, h2⟩ := ih
    refine ⟨fun j => match j with | 0 => ls | j + 1 => block j, ?_, fun j hj => ?_⟩
    · rw [List.range_succ_eq_map, List.flatMap_cons, List.flatMap_map]
    · cases j with
      | zero => simpa using h1
      | succ j => have := h2 j (by omega); rwa [show rep + 1 + j = rep + (j + 1) by omega] at this

/-- the number of sizes -/
theorem sizes_exist {n n2 : ℤ} (hn : 1 ≤ n) : ∃ J : ℕ, ∀ j : ℕ, n * 2 ^ j ≤ n2 ↔ j < J := by
  classical
  have hex : ∃ j : ℕ, n2 < n * 2 ^ j := by
    refine ⟨n2.toNat, ?_⟩
    have h1 : n2 ≤ n2.toNat := Int.self_le_toNat n2
    have h2 : (n2.toNat : ℤ) < 2 ^ n2.toNat := by exact_mod_cast Nat.lt_two_pow_self
    nlinarith
  refine ⟨Nat.find hex, fun j => ?_⟩
  constructor
  · intro h
    by_contra hle
    have hf := Nat.find_spec hex
    have : (2 : ℤ) ^ Nat.find hex ≤ 2 ^ j := pow_le_pow_right₀ (by norm_num) (not_lt.1 hle)
    nlinarith
  · intro h
    have := Nat.find_min hex h
    exact not_lt.1 this

theorem range_run {m : Machine XR} {argv : List String} {c : RangeConfig XR} (hc : readRange m (parseArgs argv) = some c) {lines : List (Line XR)}
    (h : RangeMain m argv .done lines) : wantsHelp argv = false ∧ checkRange c = none ∧
      RepLoop (fun rep l => SizeLoop (RangeCall m c rep) c.n2 c.n1 l) 0 c.reps.toNat lines := by
  unfold RangeMain at h
  cases h1 : wantsHelp argv with
  | true => rw [h1, if_pos rfl] at h; cases h.1
  | false =>
    rw [h1, if_neg (by simp), hc] at h
    simp only at h
    cases h2 : checkRange c with
    | some x => rw [h2] at h; cases h.1
    | none => rw [h2] at h; exact ⟨rfl, rfl, h.2⟩

theorem range_checked {c : RangeConfig XR} (h : checkRange c = none) :
    Accepted c.alpha (Set.Icc (1 / 2) 1) ∧ (1 ≤ c.deg ∧ c.deg ≤ c.n1 - 1) ∧ (0 ≤ c.reps ∧ c.reps ≤ 100000) ∧ (1 ≤ c.para ∧ c.para ≤ 8) := by
  have ha : rangeFails c.alpha (CFloat.ofRat (1 / 2)) (CFloat.ofRat 1) false false = false ↔ Accepted c.alpha (Set.Icc (1 / 2) 1) := by
    rw [ofRat_one', show (CFloat.ofRat (1 / 2) : XR) = fin (1 / 2) by rw [XR.ofRat_eq]; norm_num]
    exact rangeFails_accepted fun x => C55_real x _ _ _ _
  have hi : ∀ x a b : ℤ, rangeFailsInt x a b false false = false ↔ a ≤ x ∧ x ≤ b := fun x a b => by rw [C55_int]; simp
  unfold checkRange at h
  rw [← ha, ← hi, ← hi, ← hi]
  split_ifs at h <;> simp_all

/-- C76.  A run of `inclusion_range` that ends normally: for each repetition `rep` and each size `n = n1 * 2^j` up to `n2`, in this order, one block of
output; the seeds `rseed + rep + n` and `aseed + rep + n` and the size `n1 * 2^J` after the last one fit into an `int`.  For each block there are `n` points of a hyperbolic random graph with radius
`R` such that the block is correct (`BlockCorrect`): it reports the average degree `h` of this hyperbolic random graph, and for the two searches the middles of
intervals of length at most 1/2 inside of `[h, 2h]` and `[h/2, 6h/5]`, such that the ends of the intervals are the initial ends or degrees for which GIRGs have been generated:
the GIRG for the lower end of the first interval does not contain the hyperbolic random graph and the one for its upper end does; the one for the lower end of the second
interval is contained in the hyperbolic random graph, the one for its upper end is not.  There are warnings exactly if `l1 = h` or `u2 = 6h/5`.
If `h > 1/2`, then `3/2 * h ≤ n - 1`. -/
theorem C76_output (m : Machine XR) (he : IntervalEngine m.eng) (hu : UnitRng m.rng) {argv : List String} {c : RangeConfig XR}
    (hc : readRange m (parseArgs argv) = some c) {α : ℝ} (hα : c.alpha = fin α)
    (hR : ∀ (n : ℤ) R, c.n1 ≤ n → n ≤ c.n2 → Radius.LikeNetworKit m.ndebug n c.alpha (fin 0) (fin c.deg) R → ∃ r : ℝ, R = fin r ∧ 4 / 3 ≤ r ∧ r ≤ 165 / 4)
    {lines : List (Line XR)} (h : RangeMain m argv .done lines) :
    ∃ (n1 J : ℕ) (block : ℕ → ℕ → List (Line XR)), c.n1 = n1 ∧ 2 ≤ n1 ∧ (∀ j : ℕ, (n1 : ℤ) * 2 ^ j ≤ c.n2 ↔ j < J) ∧
      lines = (List.range c.reps.toNat).flatMap (fun rep => (List.range J).flatMap (block rep)) ∧
      ∀ rep < c.reps.toNat, ∀ j < J, n1 * 2 ^ J ≤ 2147483647 ∧
        c.rseed + rep + n1 * 2 ^ j ≤ 2147483647 ∧ c.aseed + rep + n1 * 2 ^ j ≤ 2147483647 ∧
        ∃ (R : ℝ) (radii angles : List ℝ), Radius.LikeNetworKit m.ndebug (n1 * 2 ^ j) c.alpha (fin 0) (fin c.deg) (fin R) ∧
          radii.length = n1 * 2 ^ j ∧ angles.length = n1 * 2 ^ j ∧ (∀ r ∈ radii, 0 < r ∧ r < R) ∧ (∀ a ∈ angles, 0 ≤ a ∧ a < 2 * π) ∧
          BlockCorrect (n1 * 2 ^ j) radii angles R rep (block rep j) := by
  obtain ⟨_, hck, hrep⟩ := range_run hc h
  obtain ⟨ka, kd, _, _⟩ := range_checked hck
  rw [hα] at ka
  have ka := accepted_fin ka
  have hn1 : 2 ≤ c.n1 := by omega
  obtain ⟨J, hJ⟩ := sizes_exist (n := c.n1) (n2 := c.n2) (by omega)
  obtain ⟨blk, rfl, hb⟩ := rep_loop hrep
  have key : ∀ rep : ℕ, ∃ block : ℕ → List (Line XR), rep < c.reps.toNat → blk rep = (List.range J).flatMap block ∧ (0 < J → c.n1 * 2 ^ J ≤ 2147483647) ∧
      ∀ j < J, RangeCall m c rep (c.n1 * 2 ^ j) (block j) := by
    intro rep
    by_cases hr : rep < c.reps.toNat
    · have := hb rep hr
      rw [zero_add] at this
      obtain ⟨J', block, k1, k2, k3, k4⟩ := size_loop this (by omega)
      have : J' = J := by
        rcases lt_trichotomy J' J with h | h | h
        · have := (k1 J').1 ((hJ J').2 h); omega
        · exact h
        · have := (hJ J).1 ((k1 J).2 h); omega
      subst this
      exact ⟨block, fun _ => ⟨k3, k2, k4⟩⟩
    · exact ⟨fun _ => [], fun h => absurd h hr⟩
  choose block hblock using key
  have hcast : (c.n1.toNat : ℤ) = c.n1 := by omega
  refine ⟨c.n1.toNat, J, block, by omega, by omega, by rw [hcast]; exact hJ, ?_, fun rep hr j hj => ?_⟩
  · refine List.flatMap_congr ?_
    intro rep hr
    exact (hblock rep (by simpa using hr)).1
  · obtain ⟨_, h2, h3⟩ := hblock rep hr
    have h2 := h2 (by omega)
    have hle := (hJ j).2 hj
    have hge : c.n1 ≤ c.n1 * 2 ^ j := by
      have : (1 : ℤ) ≤ 2 ^ j := one_le_pow₀ (by norm_num)
      nlinarith
    have hlt : c.n1 * 2 ^ j ≤ 2147483647 := by
      have : (2 : ℤ) ^ j ≤ 2 ^ J := pow_le_pow_right₀ (by norm_num) hj.le
      nlinarith
    obtain ⟨R, radii, angles, q1, q2, q3, q4, q5, ⟨q6, q7⟩, q8⟩ := range_call he hu hα ka.1 (by omega) hlt (fun R hr => hR _ R hge hle hr) (h3 j hj)
    have e : (c.n1 * 2 ^ j).toNat = c.n1.toNat * 2 ^ j := by
      have : ((c.n1.toNat * 2 ^ j : ℕ) : ℤ) = c.n1 * 2 ^ j := by push_cast; rw [hcast]
      omega
    rw [e] at q2 q3 q8
    refine ⟨?_, ?_, ?_, R, radii, angles, ?_, q2, q3, q4, q5, q8⟩
    · have : ((c.n1.toNat * 2 ^ J : ℕ) : ℤ) ≤ 2147483647 := by push_cast; rw [hcast]; exact h2
      exact_mod_cast this
    · rw [hcast]; exact q6
    · rw [hcast]; exact q7
    · rw [hcast]; exact q1

end Props
end Girgs
