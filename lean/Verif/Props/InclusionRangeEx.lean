import Verif.Props.InclusionRangeRet
/-
C76: a concrete run of inclusion_range.
-/
namespace Girgs
namespace Props
open Spec Tree Real Tools Inclusion Cli Examples
open XR (fin)

/-- an engine whose numbers from an interval that begins with 0 run through its quarters, and are the middle of other intervals -/
noncomputable def quarterEngine : Engine XR where
  G := ℕ
  seed _ := 0
  next g := g
  uniform a b g := (if CFloat.eq a (fin 0) then (b -. a) *. fin ((g % 4 : ℕ) / 4) else (a +. b) /. fin 2, g + 1)

theorem quarterEngine_zero (b : ℝ) (g : ℕ) : quarterEngine.uniform (fin 0) (fin b) g = (fin (b * ((g % 4 : ℕ) / 4)), g + 1) := by
  show ((if CFloat.eq (fin 0) (fin 0) then (fin b -. fin 0) *. fin (((g % 4 : ℕ) : ℝ) / 4) else (fin 0 +. fin b) /. fin 2), g + 1) = _
  rw [XR.eq_fin, if_pos (by simp), XR.sub_fin, sub_zero, XR.mul_fin]

theorem quarterEngine_other {a : ℝ} (ha : a ≠ 0) (b : ℝ) (g : ℕ) : quarterEngine.uniform (fin a) (fin b) g = (fin ((a + b) / 2), g + 1) := by
  show ((if CFloat.eq (fin a) (fin 0) then (fin b -. fin a) *. fin (((g % 4 : ℕ) : ℝ) / 4) else (fin a +. fin b) /. fin 2), g + 1) = _
  rw [XR.eq_fin, if_neg (by simpa using ha), XR.add_fin, XR.div_fin _ _ two_ne_zero]

theorem quarterEngine_interval : IntervalEngine quarterEngine := by
  intro a b
  show ∀ g : ℕ, a < b → _
  intro g h
  by_cases ha : a = 0
  · subst ha
    have h4 : ((g % 4 : ℕ) : ℝ) ≤ 3 := by exact_mod_cast (by omega : g % 4 ≤ 3)
    have h0 : (0 : ℝ) ≤ ((g % 4 : ℕ) : ℝ) := by positivity
    exact ⟨_, congrArg Prod.fst (quarterEngine_zero b g), by positivity, by nlinarith⟩
  · exact ⟨_, congrArg Prod.fst (quarterEngine_other ha b g), by linarith, by linarith⟩

/-- a machine with this engine -/
noncomputable def quarterMachine : Machine XR :=
  { exampleMachine with
    eng := quarterEngine
    stoi := fun s => if s = "8" then some 8 else if s = "1" then some 1 else none
    stoi_int := by
      intro s x h
      split_ifs at h <;> simp only [Option.some.injEq] at h <;> omega
    stod := fun s => if s = "1" then some (fin 1) else none }

/-- a command line -/
def rangeArgs : List String := ["inclusion_range", "-n1", "8", "-n2", "8", "-deg", "1", "-alpha", "1", "-reps", "1", "-para", "1"]

noncomputable def rangeExample : RangeConfig XR := ⟨8, 8, fin 1, 1, 12, 130, 1, 1⟩

theorem rangeExample_read : readRange quarterMachine (parseArgs rangeArgs) = some rangeExample := by
  unfold rangeExample
  simp [readRange, getOr, parseArgs, parseFrom, assign, optionName, quarterMachine, rangeArgs]

theorem rangeExample_check : checkRange rangeExample = none := by
  have e1 : (CFloat.ofRat (1 / 2) : XR) = fin (1 / 2) := by rw [XR.ofRat_eq]; norm_num
  have hi : ∀ x a b : ℤ, a ≤ x → x ≤ b → rangeFailsInt x a b false false = false := fun x a b h1 h2 => by rw [C55_int]; simp [h1, h2]
  unfold checkRange rangeExample
  rw [e1, ofRat_one', (C55_real 1 (1 / 2) 1 false false).2 (by norm_num)]
  simp only
  rw [hi _ _ _ (by norm_num) (by norm_num), hi _ _ _ (by norm_num) (by norm_num), hi _ _ _ (by norm_num) (by norm_num)]
  rfl

/-- the radii found for the example -/
theorem rangeExample_radius : (∃ R : ℝ, Radius.LikeNetworKit true 8 (fin 1) (fin 0) (fin 1) (fin R)) ∧
    ∀ R, Radius.LikeNetworKit true 8 (fin 1) (fin 0) (fin 1) R → ∃ x : ℝ, R = fin x ∧ 4 / 3 ≤ x ∧ x ≤ 165 / 4 ∧ exp (x / 2) ≤ 456 := by
  have hpi := pi_gt_three
  have hpi4 := pi_le_four
  have hx : 0 < 64 / π := by positivity
  set r : ℝ := 2 * log (64 / π) with hr
  have hy : exp (-r / 2) = π / 64 := by
    rw [hr, show -(2 * log (64 / π)) / 2 = -log (64 / π) by ring, exp_neg, exp_log hx, inv_div]
  have hdeg : hrgDegree 8 1 0 r = 1 := by
    unfold hrgDegree xi
    rw [if_pos rfl, hy]
    field_simp
    norm_num
  have hr1 : 8 / 3 ≤ r := by
    have : 4 / 3 ≤ log (64 / π) := by
      rw [le_log_iff_exp_le hx]
      have h1 : exp (4 / 3) ≤ exp 2 := exp_le_exp.2 (by norm_num)
      have h2 : exp 2 = exp 1 ^ 2 := by rw [← exp_nat_mul]; norm_num
      have h3 := exp_one_lt_d9
      have h4 : exp 1 ^ 2 ≤ 3 ^ 2 := pow_le_pow_left₀ (exp_pos 1).le (by linarith) 2
      have h5 : 16 ≤ 64 / π := by rw [le_div_iff₀ pi_pos]; linarith
      linarith
    linarith
  have hr2 : r ≤ 8 := by
    have : log (64 / π) ≤ 4 := by
      rw [log_le_iff_le_exp hx]
      have h2 : exp 4 = exp 1 ^ 4 := by rw [← exp_nat_mul]; norm_num
      have h3 := exp_one_gt_d9
      have h4 : (5 / 2) ^ 4 ≤ exp 1 ^ 4 := pow_le_pow_left₀ (by norm_num) (by linarith) 4
      have h5 : 64 / π ≤ 64 / 3 := by gcongr
      rw [h2]; linarith
    linarith
  have hz0 : 0 < exp (-r / 4) := exp_pos _
  have hz : exp (-r / 4) ^ 2 = π / 64 := by rw [← exp_nat_mul, ← hy]; congr 1; push_cast; ring
  have hz1 : exp (-r / 4) ≤ 1 / 4 := by
    have : exp (-r / 4) ^ 2 ≤ (1 / 4) ^ 2 := by rw [hz]; linarith
    exact (pow_le_pow_iff_left₀ hz0.le (by norm_num) (by norm_num)).1 this
  have hlow : 1 < coldDegree 8 1 (r / 2) := by
    unfold coldDegree xi
    rw [show -(r / 2) / 2 = -r / 4 by ring, show -1 * (r / 2) = -r / 2 by ring, hy]
    have e : 2 / π * (1 / (1 - 1 / 2) : ℝ) ^ 2 * 8 * (exp (-r / 4) + π / 64 * (1 * (r / 2 / 2) * (π / 4 * (1 / 1) ^ 2 - (π - 1) * (1 / 1) + (π - 2)) - 1)) =
        64 / π * exp (-r / 4) + (r / 4 * (π / 4 - 1) - 1) := by field_simp; ring
    rw [e]
    have h1 : 4 ≤ 64 / π * exp (-r / 4) := by
      have h2 : 64 / π * exp (-r / 4) ^ 2 = 1 := by rw [hz]; field_simp
      have h3 : 0 < 64 / π * exp (-r / 4) := by positivity
      nlinarith
    nlinarith
  have hupp : coldDegree 8 1 (2 * r) < 1 := by
    unfold coldDegree xi
    have e1 : exp (-(2 * r) / 2) = (π / 64) ^ 2 := by rw [← hy, ← exp_nat_mul]; congr 1; push_cast; ring
    have e2 : exp (-1 * (2 * r)) = (π / 64) ^ 4 := by rw [← hy, ← exp_nat_mul]; congr 1; push_cast; ring
    rw [e1, e2]
    have e : 2 / π * (1 / (1 - 1 / 2) : ℝ) ^ 2 * 8 * ((π / 64) ^ 2 + (π / 64) ^ 4 * (1 * (2 * r / 2) * (π / 4 * (1 / 1) ^ 2 - (π - 1) * (1 / 1) + (π - 2)) - 1)) =
        π / 64 * (1 - (π / 64) ^ 2 * (r * (1 - π / 4) + 1)) := by field_simp; ring
    rw [e]
    have h1 : 0 ≤ (π / 64) ^ 2 * (r * (1 - π / 4) + 1) := by
      have : 0 ≤ r * (1 - π / 4) := mul_nonneg (by linarith) (by linarith)
      positivity
    nlinarith
  constructor
  · obtain ⟨x, h1, _, _⟩ := C52_returns (ndebug := true) (n := 8) (k := 1) (α := 1) (ε := 1 / 100) (r := r) (by norm_num) (by norm_num) one_pos (by norm_num) hdeg hlow hupp
    exact ⟨x, (C52_zero (by norm_num) _).2 (by exact_mod_cast h1)⟩
  · intro R hR
    obtain ⟨i, hi⟩ := (C52_zero (by norm_num) _).1 hR
    have := C52_bracket (ndebug := true) (n := 8) (k := 1) (α := 1) (ε := 1 / 100) (r := r) (by norm_num) (by norm_num) one_pos hdeg hlow hupp i
    have hi' : Radius.searchState true (fin 8) (fin 1) (fin 1) (fin (1 / 100)) i = .returned R := by exact_mod_cast hi
    rw [hi'] at this
    obtain ⟨x, rfl, hx1, _⟩ := this
    rw [Set.uIcc_of_le (by linarith)] at hx1
    refine ⟨x, rfl, by linarith [hx1.1], by linarith [hx1.2], ?_⟩
    have h1 : exp (x / 2) ≤ exp r := exp_le_exp.2 (by linarith [hx1.2])
    have h2 : exp r = (64 / π) ^ 2 := by
      rw [hr, mul_comm, exp_mul, exp_log hx]
      norm_cast
    have h3 : 64 / π ≤ 64 / 3 := by gcongr
    have h4 : (64 / π) ^ 2 ≤ (64 / 3) ^ 2 := by gcongr
    rw [h2] at h1
    linarith

theorem quarter_chunk : (quarterMachine.omp 1).chunks 1 8 = [List.range 8] := rfl

/-- the points drawn by the example: four places, each used twice -/
theorem rangeExample_points {R : ℝ} (hR1 : 4 / 3 ≤ R) {rs as : List ℝ} {d d' : ℕ → quarterMachine.eng.G} {s s' : ℤ}
    (h : SampleRadii (quarterMachine.omp 1) quarterMachine.eng d 8 (fin 1) (fin R) s false (xw rs))
    (h' : SampleAngles (quarterMachine.omp 1) quarterMachine.eng d' 8 s' false (xw as)) (hs' : 0 ≤ s') :
    rs.length = 8 ∧ as.length = 8 ∧
    (∀ i < 8, rs[i]? = some (arcosh ((1 + 1 / 2 ^ 52 + cosh R) / 2))) ∧ (∀ i < 8, as[i]? = some (2 * π * ((i % 4 : ℕ) / 4))) := by
  obtain ⟨o, h⟩ := h
  obtain ⟨o', h'⟩ := h'
  have g1 := h
  have g2 := h'
  obtain ⟨t, ht, ht0, hI, gens, hg, _⟩ := h
  obtain ⟨t', ht', ht0', hI', gens', hg', _⟩ := h'
  obtain rfl : 1 = t := Option.some.inj ht
  obtain rfl : 1 = t' := Option.some.inj ht'
  obtain ⟨ra, an, k1, k2, k3, k4⟩ := sampleHelper_iff _ _ _ _ _ _ _ _ _ _ ht ht0 hI hg
  obtain ⟨ra', an', k1', k2', k3', k4'⟩ := sampleHelper_iff _ _ _ _ _ _ _ _ _ _ ht' ht0' hI' hg'
  have e1 := (k1 _).1 g1
  have e2 := (k1' _).1 g2
  rw [Prod.mk.injEq] at e1 e2
  rw [← e1.1] at k2 k4
  rw [← e2.2] at k3' k4'
  simp only [xw, List.length_map, if_true] at k2 k3'
  have hch : ∀ i < 8, (List.range 8)[i]? = some i := fun i hi => by simp [hi]
  have inj : ∀ {l : List ℝ} {i : ℕ} {x : ℝ}, (xw l)[i]? = some (fin x) → l[i]? = some x := by
    intro l i x h
    simp only [xw, List.getElem?_map, Option.map_eq_some_iff] at h
    obtain ⟨y, hy, e⟩ := h
    cases e; exact hy
  refine ⟨k2, k3', fun i hi => ?_, fun i hi => ?_⟩
  · refine inj ?_
    rw [(k4 0 (List.range 8) i i (by rw [quarter_chunk]; rfl) (hch i hi)).1 rfl]
    congr 1
    unfold radiusAt
    have e : ∀ g : quarterMachine.eng.G, (quarterMachine.eng.uniform oneUp (CFloat.cosh ((fin 1 : XR) *. fin R)) g).1 = fin ((1 + 1 / 2 ^ 52 + cosh R) / 2) := by
      intro g
      rw [oneUp_eq, XR.mul_fin, xr_cosh, one_mul]
      exact congrArg Prod.fst (quarterEngine_other (by positivity) _ g)
    have hc : 1 ≤ (1 + 1 / 2 ^ 52 + cosh R) / 2 := by
      have := one_le_cosh R
      have : (0 : ℝ) < 1 / 2 ^ 52 := by positivity
      linarith
    rw [e, XR.acosh_fin _ hc, ofRat_one', XR.div_fin _ _ one_ne_zero, XR.mul_fin]
    norm_num
  · refine inj ?_
    rw [(k4' 0 (List.range 8) i i (by rw [quarter_chunk]; rfl) (hch i hi)).2 rfl]
    congr 1
    unfold angleAt
    have hgen : gens' 0 = (0 : ℕ) := by
      unfold seedGens at hg'
      rw [if_pos hs'] at hg'
      split_ifs at hg'
      rw [← Option.some.inj hg']
      rfl
    have hwarm : warmUp quarterMachine.eng 8 1 (gens' 0) = (0 : ℕ) := by
      rw [hgen]
      exact Function.iterate_fixed rfl _
    have hu : ∀ g : ℕ, quarterMachine.eng.uniform (CFloat.ofRat 0) (CFloat.ofRat 2 *. CFloat.pi) g = (fin (2 * π * ((g % 4 : ℕ) / 4)), g + 1) := by
      intro g
      rw [ofRat_zero', show (CFloat.ofRat 2 : XR) *. CFloat.pi = fin (2 * π) by rw [XR.ofRat_eq, XR.pi_eq, XR.mul_fin]; norm_num]
      exact quarterEngine_zero _ g
    have hf : ∀ g : ℕ, afterIter quarterMachine.eng false true (CFloat.ofRat 1) (CFloat.ofRat 10) g = g + 1 := by
      intro g
      unfold afterIter afterAngle
      simp only [if_true, Bool.false_eq_true, if_false]
      exact congrArg Prod.snd (hu g)
    have hit : ∀ (f : ℕ → ℕ), (∀ g, f g = g + 1) → ∀ k : ℕ, f^[k] 0 = k := by
      intro f hf k
      induction k with
      | zero => rfl
      | succ k ih => rw [Function.iterate_succ_apply', ih, hf]
    rw [hwarm]
    have := hit _ hf i
    refine Eq.trans (congrArg (fun g : ℕ => (quarterMachine.eng.uniform (CFloat.ofRat 0) (CFloat.ofRat 2 *. CFloat.pi) g).1) this) ?_
    exact congrArg Prod.fst (hu i)

/-- two points of the example are adjacent if and only if they coincide -/
theorem rangeExample_rule {R : ℝ} (hR1 : 4 / 3 ≤ R) {rs as : List ℝ} (h1 : ∀ i < 8, rs[i]? = some (arcosh ((1 + 1 / 2 ^ 52 + cosh R) / 2)))
    (h2 : ∀ i < 8, as[i]? = some (2 * π * ((i % 4 : ℕ) / 4))) {u v : ℕ} (hu : u < 8) (hv : v < 8) : HypRule rs as R u v ↔ u % 4 = v % 4 := by
  set r := arcosh ((1 + 1 / 2 ^ 52 + cosh R) / 2) with hr
  have hc1 : 1 < (1 + 1 / 2 ^ 52 + cosh R) / 2 := by
    have := one_le_cosh R
    have : (0 : ℝ) < 1 / 2 ^ 52 := by positivity
    linarith
  have hr0 : 0 < r := arcosh_pos hc1
  have hcr : cosh r = (1 + 1 / 2 ^ 52 + cosh R) / 2 := cosh_arcosh hc1.le
  have key : HypRule rs as R u v ↔ hypCosh r (2 * π * ((u % 4 : ℕ) / 4)) r (2 * π * ((v % 4 : ℕ) / 4)) < cosh R := by
    have e : hypDist r (2 * π * ((u % 4 : ℕ) / 4)) r (2 * π * ((v % 4 : ℕ) / 4)) < R ↔ hypCosh r (2 * π * ((u % 4 : ℕ) / 4)) r (2 * π * ((v % 4 : ℕ) / 4)) < cosh R := by
      rw [hypDist_lt_iff hr0 hr0 (by linarith), hc_eq]
    rw [← e]
    constructor
    · rintro ⟨a, b, c, d, e1, e2, e3, e4, h⟩
      rw [h1 u hu] at e1; rw [h1 v hv] at e2; rw [h2 u hu] at e3; rw [h2 v hv] at e4
      cases e1; cases e2; cases e3; cases e4
      exact h
    · intro h
      exact ⟨_, _, _, _, h1 u hu, h1 v hv, h2 u hu, h2 v hv, h⟩
  rw [key]
  have hsq := cosh_sq r
  unfold hypCosh
  constructor
  · intro h
    by_contra hne
    have hcos : cos (2 * π * ((u % 4 : ℕ) / 4) - 2 * π * ((v % 4 : ℕ) / 4)) ≤ 0 := by
      have e : ∀ a b : ℝ, 2 * π * (a / 4) - 2 * π * (b / 4) = (a - b) * (π / 2) := fun a b => by ring
      rw [e]
      have c3 : cos (3 * (π / 2)) = 0 := by
        rw [show 3 * (π / 2) = π / 2 + π by ring, cos_add_pi, cos_pi_div_two, neg_zero]
      have c2 : cos (2 * (π / 2)) = -1 := by rw [show 2 * (π / 2) = π by ring, cos_pi]
      have c1 := cos_pi_div_two
      have hu4 : u % 4 < 4 := Nat.mod_lt _ (by norm_num)
      have hv4 : v % 4 < 4 := Nat.mod_lt _ (by norm_num)
      generalize u % 4 = a at *
      generalize v % 4 = b at *
      have cases4 : ∀ x : ℝ, (x = 1 ∨ x = 2 ∨ x = 3) → cos (x * (π / 2)) ≤ 0 := by
        rintro x (rfl | rfl | rfl)
        · rw [one_mul, c1]
        · rw [c2]; norm_num
        · rw [c3]
      have : (a : ℝ) - b = 1 ∨ (a : ℝ) - b = 2 ∨ (a : ℝ) - b = 3 ∨ (b : ℝ) - a = 1 ∨ (b : ℝ) - a = 2 ∨ (b : ℝ) - a = 3 := by
        have : a = b + 1 ∨ a = b + 2 ∨ a = b + 3 ∨ b = a + 1 ∨ b = a + 2 ∨ b = a + 3 := by omega
        rcases this with rfl | rfl | rfl | rfl | rfl | rfl <;> push_cast <;> norm_num
      rcases this with h | h | h | h | h | h
      · exact cases4 _ (by simp [h])
      · exact cases4 _ (by simp [h])
      · exact cases4 _ (by simp [h])
      all_goals
        rw [← cos_neg, show -((a - b : ℝ) * (π / 2)) = (b - a) * (π / 2) by ring]
        exact cases4 _ (by simp [h])
    have hs : 0 ≤ sinh r * sinh r := mul_self_nonneg _
    have h3 : cosh R ≤ cosh r * cosh r := by
      rw [hcr]
      have := one_le_cosh R
      generalize cosh R = c at *
      have h52 : (0 : ℝ) < 1 / 2 ^ 52 := by positivity
      generalize (1 / 2 ^ 52 : ℝ) = ε at *
      nlinarith [sq_nonneg (c - 1)]
    nlinarith
  · intro h
    rw [h, sub_self, cos_zero, mul_one]
    have h4 : (1 : ℝ) < cosh R := one_lt_cosh.2 (by linarith)
    nlinarith

theorem rangeExample_count {R : ℝ} (hR1 : 4 / 3 ≤ R) {rs as : List ℝ} (h1 : ∀ i < 8, rs[i]? = some (arcosh ((1 + 1 / 2 ^ 52 + cosh R) / 2)))
    (h2 : ∀ i < 8, as[i]? = some (2 * π * ((i % 4 : ℕ) / 4))) : pairCount 8 (HypRule rs as R) = 4 := by
  have e : {p : ℕ × ℕ | p.1 < p.2 ∧ p.2 < 8 ∧ HypRule rs as R p.1 p.2} = (({(0, 4), (1, 5), (2, 6), (3, 7)} : Finset (ℕ × ℕ)) : Set (ℕ × ℕ)) := by
    ext ⟨u, v⟩
    simp only [Set.mem_setOf_eq, Finset.coe_insert, Finset.coe_singleton, Set.mem_insert_iff, Set.mem_singleton_iff, Prod.mk.injEq]
    constructor
    · rintro ⟨a, b, c⟩
      rw [rangeExample_rule hR1 h1 h2 (by omega) b] at c
      omega
    · intro h
      have : u < v ∧ v < 8 ∧ u % 4 = v % 4 := by omega
      exact ⟨this.1, this.2.1, (rangeExample_rule hR1 h1 h2 (by omega) this.2.1).2 this.2.2⟩
  unfold pairCount
  rw [e, Set.ncard_coe_finset]
  rfl

/-- the hypotheses of C76 are met: a run with 8 nodes -/
theorem rangeExample_run : ∃ lines, RangeMain quarterMachine rangeArgs .done lines := by
  obtain ⟨⟨R, hR⟩, hb⟩ := rangeExample_radius
  obtain ⟨x, hx, hR1, hR2, hexp⟩ := hb _ hR
  cases hx
  refine C76_returns quarterMachine rfl quarterEngine_interval exampleRng_unit rfl rangeExample_read rangeExample_check rfl (by norm_num [rangeExample])
    (by norm_num [rangeExample]) fun n h1 h2 => ?_
  obtain rfl : n = 8 := le_antisymm h2 h1
  refine ⟨R, ?_, hR1, hR2, Or.inl rfl, fun rep radii angles d d' hrep hr ha => ?_⟩
  · have : ((rangeExample.deg : ℤ) : ℝ) = 1 := by norm_num [rangeExample]
    rw [this]
    exact hR
  · obtain ⟨l1, _, p1, p2⟩ := rangeExample_points hR1 hr ha (by show 0 ≤ (130 : ℤ) + rep + 8; omega)
    have hc : pairCount (8 : ℤ).toNat (HypRule radii angles R) = 4 := rangeExample_count hR1 p1 p2
    rw [hc]
    refine ⟨by norm_num, Or.inr ?_⟩
    have h1 := List.sum_le_card_nsmul (convWeights radii R) (456 : ℝ) fun y hy => by
      obtain ⟨r, hr, rfl⟩ := List.mem_map.1 hy
      obtain ⟨i, hi⟩ := List.mem_iff_getElem?.1 hr
      have hi8 : i < 8 := by
        have := (List.getElem?_eq_some_iff.1 hi).1
        omega
      rw [p1 i hi8] at hi
      have : 0 ≤ r := by rw [← Option.some.inj hi]; exact arcosh_nonneg (by
        have := one_le_cosh R
        have : (0 : ℝ) < 1 / 2 ^ 52 := by positivity
        linarith)
      exact (exp_le_exp.2 (by linarith)).trans hexp
    rw [conv_length, nsmul_eq_mul, l1] at h1
    have h0 := convWeights_sum_pos (R := R) (radii := radii) (by rintro rfl; simp at l1)
    unfold SizeOk
    rw [l1]
    norm_num at h1 ⊢
    nlinarith

/-- C76 at work: a run ends and prints for size 8 the average degree 1 of the hyperbolic random graph -/
example : ∃ pre low high, RangeMain quarterMachine rangeArgs .done (pre ++ [.row 8 (fin 1) low high 0]) := by
  obtain ⟨lines, h⟩ := rangeExample_run
  obtain ⟨_, hb⟩ := rangeExample_radius
  have hd : ((rangeExample.deg : ℤ) : ℝ) = 1 := by norm_num [rangeExample]
  obtain ⟨_, _, hrep⟩ := range_run rangeExample_read h
  obtain ⟨blk, e, hblk⟩ := rep_loop hrep
  have e1 : rangeExample.reps.toNat = 1 := rfl
  rw [e1] at e hblk
  obtain ⟨J, block, k1, _, k3, k4⟩ := size_loop (hblk 0 (by norm_num)) (by norm_num [rangeExample])
  have hJ : J = 1 := by
    have h0 := (k1 0).1 (by norm_num [rangeExample])
    have h1 : ¬ 1 < J := fun h => absurd ((k1 1).2 h) (by norm_num [rangeExample])
    omega
  subst hJ
  have hcall := k4 0 (by norm_num)
  have e8 : rangeExample.n1 * 2 ^ 0 = 8 := by norm_num [rangeExample]
  rw [e8] at hcall
  have hlines : lines = block 0 := by rw [e]; simp [List.range_succ, k3]
  have hcall' := hcall
  obtain ⟨rs, as, R, radii, angles, edges, _, _, i1, i2, hrad, hpart, hrg, hs, l1, h1, t1, b1, l2, h2, t2, b2, eb⟩ := hcall
  rw [ofRat_zero', XR.ofInt_eq, hd] at hrad
  obtain ⟨R, rfl, hR1, hR2, _⟩ := hb R hrad
  obtain ⟨ra, an, rfl, rfl, _, _, _, _, _, hgraph⟩ := hrg_part quarterEngine_interval exampleRng_unit (by norm_num) (by norm_num) (by norm_num) hR1 hR2 hpart
  obtain ⟨_, ⟨d1, s1⟩, ⟨d2, s2⟩, _⟩ := hpart
  have has : 0 ≤ as := by
    rw [← (int32_range i2).1.symm]
    norm_num [rangeExample]
  obtain ⟨_, _, p1, p2⟩ := rangeExample_points hR1 s1 s2 has
  have hlen : edges.length = 4 := (graph_count (fun u v h => hypRule_symm h) hgraph).trans (rangeExample_count hR1 p1 p2)
  have hdeg : (CFloat.ofNat edges.length : XR) *. CFloat.ofRat 2 /. CFloat.ofInt 8 = fin 1 := by
    rw [hlen, XR.ofNat_eq, XR.ofInt_eq, XR.ofRat_eq, XR.mul_fin, XR.div_fin _ _ (by norm_num)]
    norm_num
  rw [hdeg] at eb
  rw [hlines, eb] at h
  exact ⟨_, _, _, h⟩

end Props
end Girgs
