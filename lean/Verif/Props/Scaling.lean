import Verif.Proofs.ScalingReturns
import Verif.Proofs.SorterHistory
/-
C28 - C32, C58, C59: scaling the weights for an expected average degree.
-/
namespace Girgs.Props
open Scaling Spec CFloat
open XR (fin)

variable {F : Type} [CFloat F]

/-! ### C28 -/

/-- C28, for every floating point type.  If `scaleWeights` throws, the weights are unchanged. -/
theorem C28_unchanged {alg : StdAlg F} {ndebug : Bool} {part : List (List ℕ)} {weights ws : List F} {desired : F} {d : ℕ} {alpha : F}
    (h : ScaleWeights alg ndebug part weights desired d alpha (.thrown ws)) : ws = weights := by
  unfold ScaleWeights at h
  split at h
  · obtain ⟨s, _, h⟩ := h; cases h
  · obtain ⟨s, _, h⟩ := h; cases h
  · cases h; rfl

/-- C28, for every floating point type.  If `scaleWeights` returns `s`, then every weight has been multiplied by `s`. -/
theorem C28_multiplies {alg : StdAlg F} {ndebug : Bool} {part : List (List ℕ)} {weights ws : List F} {desired : F} {d : ℕ} {alpha s : F}
    (h : ScaleWeights alg ndebug part weights desired d alpha (.returned s ws)) :
    ws.length = weights.length ∧ ∀ (i : ℕ) (x : F), weights[i]? = some x → ws[i]? = some (x *. s) := by
  have : ws = weights.map fun x => x *. s := by
    unfold ScaleWeights at h
    split at h
    · obtain ⟨s, _, h⟩ := h; cases h; rfl
    · obtain ⟨s, _, h⟩ := h; cases h; rfl
    · cases h
  subst this
  refine ⟨List.length_map _, fun i x hi => ?_⟩
  rw [List.getElem?_map, hi]; rfl

/-- C28.  `scaleWeights` throws exactly if `alpha` is NaN, at most 0 (including minus infinity) or 1. -/
theorem C28_rejects_iff (alg : StdAlg XR) (ndebug : Bool) (part : List (List ℕ)) (weights : List XR) (desired : XR) (d : ℕ) (alpha : XR) :
    (∃ ws, ScaleWeights alg ndebug part weights desired d alpha (.thrown ws)) ↔
      alpha = .nan ∨ alpha = .ninf ∨ ∃ a : ℝ, alpha = fin a ∧ (a ≤ 0 ∨ a = 1) := by
  have key : estimatorFor alpha = .throw ↔ alpha = .nan ∨ alpha = .ninf ∨ ∃ a : ℝ, alpha = fin a ∧ (a ≤ 0 ∨ a = 1) := by
    unfold estimatorFor
    rw [XR.ofRat_eq, XR.ofRat_eq, XR.ofRat_eq]
    cases alpha with
    | nan => simp [CFloat.lt, XR.lt]
    | ninf => simp [CFloat.lt, XR.lt]
    | pinf => simp [CFloat.lt, XR.lt]
    | fin a =>
      simp only [CFloat.lt, XR.lt, CFloat.eq, XR.eq]
      by_cases h8 : (8 : ℝ) < a
      · have : ¬ (a ≤ 0 ∨ a = 1) := by rintro (h | h) <;> linarith
        simp [h8, this]
      · by_cases h0 : (0 : ℝ) < a
        · by_cases h1 : a = 1
          · simp [h8, h0, h1]
          · simp [h8, h0, h1]
        · simp [h8, h0, not_lt.1 h0]
  rw [← key]
  constructor
  · rintro ⟨ws, h⟩
    unfold ScaleWeights at h
    split at h
    · obtain ⟨s, _, h⟩ := h; cases h
    · obtain ⟨s, _, h⟩ := h; cases h
    · assumption
  · intro h
    refine ⟨weights, ?_⟩
    unfold ScaleWeights
    rw [h]

/-- C28.  A call that returns uses the threshold estimator iff `alpha > 8` (including plus infinity), and the general estimator iff `alpha` is a
number in `(0, 8]` other than 1. -/
theorem C28_estimator {alg : StdAlg XR} {ndebug : Bool} {part : List (List ℕ)} {weights ws : List XR} {desired : XR} {d : ℕ} {alpha s : XR}
    (h : ScaleWeights alg ndebug part weights desired d alpha (.returned s ws)) :
    ((alpha = .pinf ∨ ∃ a : ℝ, alpha = fin a ∧ 8 < a) ∧ EstimateThreshold alg ndebug part weights desired d s) ∨
    ((∃ a : ℝ, alpha = fin a ∧ 0 < a ∧ a ≤ 8 ∧ a ≠ 1) ∧ EstimateAlpha alg ndebug part weights desired d alpha s) := by
  unfold ScaleWeights estimatorFor at h
  rw [XR.ofRat_eq, XR.ofRat_eq, XR.ofRat_eq] at h
  split at h
  · rename_i hc
    obtain ⟨s', hs, h⟩ := h
    cases h
    refine Or.inl ⟨?_, hs⟩
    cases alpha with
    | nan => simp [CFloat.lt, XR.lt] at hc
    | ninf => simp [CFloat.lt, XR.lt] at hc
    | pinf => exact Or.inl rfl
    | fin a =>
      refine Or.inr ⟨a, rfl, ?_⟩
      by_contra h8
      have h8' : ¬ (((8 : ℚ) : ℝ) < a) := by simpa using h8
      rw [if_neg (by simpa [CFloat.lt, XR.lt] using h8)] at hc
      split at hc <;> cases hc
  · rename_i hc
    obtain ⟨s', hs, h⟩ := h
    cases h
    refine Or.inr ⟨?_, hs⟩
    cases alpha with
    | nan => simp [CFloat.lt, XR.lt] at hc
    | ninf => simp [CFloat.lt, XR.lt] at hc
    | pinf => simp [CFloat.lt, XR.lt] at hc
    | fin a =>
      refine ⟨a, rfl, ?_⟩
      by_cases h8 : (8 : ℝ) < a
      · rw [if_pos (by simpa [CFloat.lt, XR.lt] using h8)] at hc; cases hc
      rw [if_neg (by simpa [CFloat.lt, XR.lt] using h8)] at hc
      by_cases hb : ((fin ((0 : ℚ) : ℝ) <. fin a) && !(CFloat.eq (fin a) (fin ((1 : ℚ) : ℝ)))) = true
      · simp only [CFloat.lt, XR.lt, CFloat.eq, XR.eq] at hb
        simp only [Bool.and_eq_true, decide_eq_true_eq, Bool.not_eq_true', decide_eq_false_iff_not] at hb
        exact ⟨by exact_mod_cast hb.1, not_lt.1 h8, by exact_mod_cast hb.2⟩
      · rw [if_neg hb] at hc; cases hc
  · cases h

/-! ### C29 -/

/-- C29, for every floating point type and every searched function (with side effects on a state, possibly undefined at some points).
If the search returns `c`, then the last evaluation of `f` was at `c`, and its value `v` is not further than the accuracy 0.02 from the target. -/
theorem C29_accuracy {S : Type} {f : F → S → Option (F × S)} {desired : F} {st : S} {c : F} (h : Returns f desired st c) :
    ∃ st₁ st₂ v, f c st₁ = some (v, st₂) ∧ (CFloat.ofRat (2 / 100) <. CFloat.abs (v -. desired)) = false :=
  returns_accurate h

/-- the searched function computes the real function `g` on the positive numbers, whatever its state -/
def Computes {S : Type} (f : XR → S → Option (XR × S)) (g : ℝ → ℝ) : Prop :=
  ∀ st x, 0 < x → ∃ st', f (fin x) st = some (fin (g x), st')

theorem Computes.evaluates {S : Type} {f : XR → S → Option (XR × S)} {g : ℝ → ℝ} (h : Computes f g) :
    Evaluates f (fun _ => True) fun x v => v = g x :=
  ⟨fun st _ x hx => by obtain ⟨st', e⟩ := h st x hx; exact ⟨g x, st', e, trivial, rfl⟩⟩

/-- C29.  Throughout the search (after every number `k` of loop iterations) the bounds satisfy `0 < lower < upper`; in the bisection the target
lies between the values at the bounds and the current value is the one at the midpoint; nothing undefined happens; and if the search has returned,
then it returned the midpoint of such a bracket, with a value within 0.02 of the target. -/
theorem C29_bracket {S : Type} {f : XR → S → Option (XR × S)} {g : ℝ → ℝ} (hf : Computes f g) (desired : ℝ) (st : S) (k : ℕ) :
    match run f (fin desired) accuracy k (start st) with
    | .running s => ∃ l u : ℝ, s.lower = fin l ∧ s.upper = fin u ∧ 0 < l ∧ l < u ∧
        ∀ mid, s.phase = .bisect mid → mid = fin (g ((u + l) / 2)) ∧ g l ≤ desired ∧ desired ≤ g u
    | .returned c _ => ∃ l u : ℝ, c = fin ((u + l) / 2) ∧ 0 < l ∧ l < u ∧ |g ((u + l) / 2) - desired| ≤ 2 / 100
    | .undefined => False := by
  have h := run_sinv hf.evaluates (des := desired) (st := st) trivial k
  generalize run f (fin desired) accuracy k (start st) = o at h
  cases o with
  | running s =>
    obtain ⟨_, l, u, ⟨h1, h2, h3, h4⟩, h5⟩ := h
    refine ⟨l, u, h1, h2, h3, h4, fun mid hm => ?_⟩
    rw [hm] at h5
    obtain ⟨m, rfl, rfl, ⟨v, rfl, hl⟩, v', rfl, hu⟩ := h5
    exact ⟨rfl, hl, hu⟩
  | returned c st' =>
    obtain ⟨_, l, u, v, hc, hl, hu, rfl, hv⟩ := h
    exact ⟨l, u, hc, hl, hu, by norm_num at hv ⊢; exact hv⟩
  | undefined => exact h

/-- C29.  For continuous `g` that is at most the target near 0 and at least the target for all large arguments, the search returns. -/
theorem C29_returns {S : Type} {f : XR → S → Option (XR × S)} {g : ℝ → ℝ} (hf : Computes f g) {desired : ℝ} (st : S)
    (hcont : ContinuousOn g (Set.Ioi 0)) (hlow : ∃ y, 0 < y ∧ ∀ x, 0 < x → x ≤ y → g x ≤ desired)
    (hhigh : ∃ y, ∀ x, y ≤ x → desired ≤ g x) : ∃ c, Returns f (fin desired) st c := by
  refine search_returns hf.evaluates ?_ trivial ?_ ?_
  · rintro x hx v rfl ε hε
    have hc : ContinuousAt g x := hcont.continuousAt (Ioi_mem_nhds hx)
    have h1 : ∀ᶠ z in nhds x, |g z - g x| < ε := by
      have := Metric.tendsto_nhds.1 hc ε hε
      simpa [Real.dist_eq] using this
    constructor
    · filter_upwards [h1.filter_mono nhdsWithin_le_nhds] with z hz u hu
      rw [hu]; linarith [(abs_lt.1 hz).1]
    · filter_upwards [h1.filter_mono nhdsWithin_le_nhds] with z hz u hu
      rw [hu]; linarith [(abs_lt.1 hz).2]
  · obtain ⟨y, hy⟩ := hhigh
    exact ⟨y, fun x hx v hv => hv ▸ hy x hx⟩
  · obtain ⟨y, hy0, hy⟩ := hlow
    exact ⟨y, hy0, fun x hx hxy v hv => hv ▸ hy x hx hxy⟩

/-- C29.  If the function stays below the target, or above the target, the search never returns. -/
theorem C29_diverges {S : Type} {f : XR → S → Option (XR × S)} {g : ℝ → ℝ} (hf : Computes f g) {desired : ℝ} (st : S)
    (h : (∀ x, 0 < x → g x < desired) ∨ ∀ x, 0 < x → desired < g x) : Diverges f (fin desired) st := by
  rcases h with h | h
  · exact search_diverges_high hf.evaluates trivial fun x hx v hv => hv ▸ h x hx
  · exact search_diverges_low hf.evaluates trivial fun x hx v hv => hv ▸ h x hx

/-- a function that satisfies the hypotheses: `g(x) = x^2`, target 10 -/
example : ∃ c, Returns (fun (x : XR) (_ : Unit) => some (x *. x, ())) (fin 10) () c :=
  C29_returns (g := fun x => x * x) (fun _ x _ => ⟨(), rfl⟩) () (by fun_prop)
    ⟨1, one_pos, fun x h0 h1 => by nlinarith⟩ ⟨4, fun x hx => by nlinarith⟩

/-! ### C30 -/

/-- C30, for every floating point type whose comparisons are those of extended real values `key` on the numbers `Num` (all doubles but NaN), every
implementation of `std::partition` and `std::sort`, every history of thresholds and both build types.  For weights between the smallest normal
and the largest double: after the queries `ts` with answers `ps`, the vector is a permutation of the weights, and every answer, also the early ones,
is still correct: the first `p` elements are sorted in descending order and are at least the threshold; no element after them is above the threshold. -/
theorem C30_queries {Num : F → Prop} {key : F → EReal} (ho : OrderedBy Num key) {alg : StdAlg F} {ndebug : Bool} {weights : List F}
    (hw : ∀ x ∈ weights, Num x ∧ key dblMin ≤ key x ∧ key x ≤ key dblMax) (hmin : Num (dblMin : F)) (hmax : Num (dblMax : F))
    {ts : List F} (hts : ∀ t ∈ ts, Num t) {s : LazySorter F} {ps : List ℕ}
    (h : (LazySorter.new weights).queries alg ndebug ts = some (s, ps)) :
    s.vec.Perm weights ∧ ps.length = ts.length ∧
    ∀ (i p : ℕ) (t : F), ts[i]? = some t → ps[i]? = some p →
      p ≤ s.vec.length ∧ (s.vec.take p).Pairwise (fun a b => (a <. b) = false) ∧ (∀ x ∈ s.vec.take p, ge x t = true) ∧
      ∀ x ∈ s.vec.drop p, (t <. x) = false := by
  obtain ⟨h1, h2, _, _, _, h3⟩ := LInv.queries ho hmin (fun x hx => (hw x hx).1) (fun x hx => (hw x hx).2.1) ts _ _
    (LInv.new hmax fun x hx => (hw x hx).2.2) hts h
  refine ⟨h1.perm, h2, fun i p t ht hp => ?_⟩
  refine h3 (t, p) ?_
  rw [List.mem_iff_getElem?]
  exact ⟨i, by rw [List.getElem?_zip_eq_some]; exact ⟨ht, hp⟩⟩

/-- C30.  Later queries do not change the elements before a position that was returned earlier, so the cached powers of these elements stay valid. -/
theorem C30_stable {Num : F → Prop} {key : F → EReal} (ho : OrderedBy Num key) {alg : StdAlg F} {ndebug : Bool} {weights : List F}
    (hw : ∀ x ∈ weights, Num x ∧ key dblMin ≤ key x ∧ key x ≤ key dblMax) (hmin : Num (dblMin : F)) (hmax : Num (dblMax : F))
    {ts ts' : List F} (hts : ∀ t ∈ ts ++ ts', Num t) {s s' : LazySorter F} {ps ps' : List ℕ}
    (h : (LazySorter.new weights).queries alg ndebug ts = some (s, ps)) (h' : s.queries alg ndebug ts' = some (s', ps')) :
    ∀ p ∈ ps, s'.vec.take p = s.vec.take p := by
  obtain ⟨h1, _, _, _, hp, _⟩ := LInv.queries ho hmin (fun x hx => (hw x hx).1) (fun x hx => (hw x hx).2.1) ts _ _
    (LInv.new hmax fun x hx => (hw x hx).2.2) (fun t ht => hts t (by simp [ht])) h
  obtain ⟨_, _, _, hpre, _, _⟩ := LInv.queries ho hmin (fun x hx => (hw x hx).1) (fun x hx => (hw x hx).2.1) ts' _ _ h1
    (fun t ht => hts t (by simp [ht])) h'
  intro p hpm
  have := congrArg (List.take p) hpre
  rwa [List.take_take, List.take_take, min_eq_left (hp p hpm)] at this

/-- C30.  In a release build every query is answered. -/
theorem C30_total (alg : StdAlg F) (weights ts : List F) : ∃ s ps, (LazySorter.new weights).queries alg true ts = some (s, ps) := by
  obtain ⟨⟨s, ps⟩, h⟩ := LazySorter.queries_release alg ts (LazySorter.new weights)
  exact ⟨s, ps, h⟩

/-- C30 applies to exact extended reals: the comparisons of the numbers are those of their values -/
example : OrderedBy IsNum xkey ∧ IsNum (dblMin : XR) ∧ IsNum (dblMax : XR) ∧
    ∀ x ∈ [fin 1, fin 2, fin 3], IsNum x ∧ xkey dblMin ≤ xkey x ∧ xkey x ≤ xkey dblMax := by
  refine ⟨xr_ordered, by rw [dblMin_eq]; exact XR.noConfusion, by rw [dblMax_eq]; exact XR.noConfusion, ?_⟩
  have key : ∀ y : ℝ, 1 ≤ y → y ≤ 3 → IsNum (fin y) ∧ xkey dblMin ≤ xkey (fin y) ∧ xkey (fin y) ≤ xkey dblMax := by
    intro y h1 h3
    rw [dblMin_eq, dblMax_eq]
    refine ⟨XR.noConfusion, ?_, ?_⟩
    · show ((minR : ℝ) : EReal) ≤ ((y : ℝ) : EReal)
      rw [EReal.coe_le_coe_iff]
      refine le_trans ?_ h1
      unfold minR
      have : (1 / ((2 ^ 1022 : ℕ) : ℚ) : ℚ) ≤ 1 := by
        rw [div_le_one (by positivity)]
        exact_mod_cast Nat.one_le_two_pow
      exact_mod_cast this
    · show ((y : ℝ) : EReal) ≤ ((maxR : ℝ) : EReal)
      rw [EReal.coe_le_coe_iff]
      refine h3.trans ?_
      unfold maxR
      have : (3 : ℕ) ≤ (2 ^ 53 - 1) * 2 ^ 971 := by
        calc 3 ≤ (2 ^ 53 - 1) * 1 := by norm_num
          _ ≤ _ := Nat.mul_le_mul_left _ Nat.one_le_two_pow
      exact_mod_cast this
  intro x hx
  simp only [List.mem_cons, List.not_mem_nil, or_false] at hx
  rcases hx with rfl | rfl | rfl <;> exact key _ (by norm_num) (by norm_num)

/-- The lower bound on the weights is needed: once all elements are sorted, the sorter takes the smallest normal double for the smallest element.
With the subnormal weight `minR/4`, a query for `minR/4` followed by a query for `minR/2` returns position 1, although the element there is below the
threshold. -/
theorem C30_subnormal_wrong (alg : StdAlg XR) :
    ∃ s, (LazySorter.new [fin (minR / 4)]).queries alg true [fin (minR / 4), fin (minR / 2)] = some (s, [1, 1]) ∧
      s.vec = [fin (minR / 4)] ∧ ge (fin (minR / 4)) (fin (minR / 2)) = false := by
  have hm := minR_pos
  have hlt : minR < maxR := by
    refine lt_of_le_of_lt (b := 1) ?_ ?_
    · unfold minR
      have : (1 / ((2 ^ 1022 : ℕ) : ℚ) : ℚ) ≤ 1 := by
        rw [div_le_one (by positivity)]
        exact_mod_cast Nat.one_le_two_pow
      exact_mod_cast this
    · unfold maxR
      have : (1 : ℕ) < (2 ^ 53 - 1) * 2 ^ 971 := by
        calc 1 < (2 ^ 53 - 1) * 1 := by norm_num
          _ ≤ _ := Nat.mul_le_mul_left _ Nat.one_le_two_pow
      exact_mod_cast this
  have hge : ge (fin (minR / 4)) (fin (minR / 4)) = true := (ge_fin _ _).2 le_rfl
  have hpart : alg.partition (fun x => ge x (fin (minR / 4))) [fin (minR / 4)] = ([fin (minR / 4)], []) := by
    have hp := alg.partition_perm (fun x => ge x (fin (minR / 4))) [fin (minR / 4)]
    have hr := alg.partition_right (fun x => ge x (fin (minR / 4))) [fin (minR / 4)]
    generalize alg.partition (fun x => ge x (fin (minR / 4))) [fin (minR / 4)] = q at hp hr
    obtain ⟨a, b⟩ := q
    have hab : a ++ b = [fin (minR / 4)] := List.perm_singleton.1 hp
    cases b with
    | nil => rw [List.append_nil] at hab; exact Prod.ext hab rfl
    | cons y b =>
      have hy : y ∈ [fin (minR / 4)] := by rw [← hab]; simp
      rw [List.mem_singleton] at hy
      have := hr y (by simp)
      rw [hy] at this
      exact absurd (hge.symm.trans this) (by decide)
  have hsort : alg.sort [fin (minR / 4)] = [fin (minR / 4)] := List.perm_singleton.1 (alg.sort_perm _)
  have hpart0 : alg.partition (fun x => ge x (fin (minR / 2))) [] = ([], []) := by
    have hp := alg.partition_perm (fun x => ge x (fin (minR / 2))) []
    have := List.append_eq_nil_iff.1 (List.perm_nil.1 hp)
    exact Prod.ext this.1 this.2
  have q1 : (LazySorter.new [fin (minR / 4)]).sortDownto alg true (fin (minR / 4)) = some (⟨[fin (minR / 4)], 1, dblMin⟩, 1) := by
    unfold LazySorter.sortDownto LazySorter.new
    rw [if_pos (by rw [dblMax_eq]; simp only [CFloat.lt, XR.lt]; exact decide_eq_true (by linarith))]
    simp only [List.drop_zero, hpart, hsort]
    simp
  have q2 : (⟨[fin (minR / 4)], 1, dblMin⟩ : LazySorter XR).sortDownto alg true (fin (minR / 2)) = some (⟨[fin (minR / 4)], 1, dblMin⟩, 1) := by
    unfold LazySorter.sortDownto
    rw [if_pos (by rw [dblMin_eq]; simp only [CFloat.lt, XR.lt]; exact decide_eq_true (by linarith))]
    simp only [List.drop_one, List.tail_cons, hpart0]
    simp
  refine ⟨⟨[fin (minR / 4)], 1, dblMin⟩, ?_, rfl, ?_⟩
  · rw [LazySorter.queries, q1]
    show (LazySorter.queries alg true ⟨[fin (minR / 4)], 1, dblMin⟩ [fin (minR / 2)]).bind _ = _
    rw [LazySorter.queries, q2]
    rfl
  · rw [Bool.eq_false_iff]
    intro h
    have := (ge_fin _ _).1 h
    linarith

end Girgs.Props
