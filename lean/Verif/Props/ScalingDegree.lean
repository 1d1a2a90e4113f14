import Verif.Props.Scaling
import Verif.Proofs.SearchBound
/-
C31, C32, C58, C59: the expected average degree that scaling the weights achieves.
-/
namespace Girgs.Props
open Scaling Spec CFloat
open XR (fin)

theorem normal_of {w : List ℝ} (h : NormalWeights w) : Normal w := by
  intro y hy
  obtain ⟨h1, h2⟩ := h y hy
  refine ⟨?_, ?_⟩
  · have : minR = 1 / 2 ^ 1022 := by
      unfold minR
      generalize 1022 = k
      push_cast
      rfl
    rw [this]; exact h1
  · have : maxR = (2 ^ 53 - 1) * 2 ^ 971 := by
      unfold maxR
      generalize 971 = k
      rw [Nat.cast_mul, Nat.cast_pow, Nat.cast_sub (by norm_num)]
      norm_num
    rw [this]; exact h2

theorem normal_of_range {w : List ℝ} (h : ∀ y ∈ w, 1 ≤ y ∧ y ≤ 1000) : NormalWeights w := by
  intro y hy
  obtain ⟨h1, h2⟩ := h y hy
  have h3 : (1 : ℝ) ≤ 2 ^ 1022 := one_le_pow₀ (by norm_num)
  have h4 : (1 : ℝ) ≤ 2 ^ 971 := one_le_pow₀ (by norm_num)
  generalize (2 : ℝ) ^ 1022 = A at h3 ⊢
  generalize (2 : ℝ) ^ 971 = B at h4 ⊢
  refine ⟨?_, ?_⟩
  · rw [div_le_iff₀ (by linarith)]; nlinarith
  · nlinarith

/-- an evaluation history of a function with an invariant -/
theorem evaluations_spec {S : Type} {f : XR → S → Option (XR × S)} {Inv : S → Prop} {Val : ℝ → ℝ → Prop} (hf : Evaluates f Inv Val) :
    ∀ (cs : List ℝ) (st : S), Inv st → (∀ c ∈ cs, 0 < c) →
      ∃ vs : List ℝ, evaluations f st (cs.map fin) = some (vs.map fin) ∧ vs.length = cs.length ∧
        ∀ (i : ℕ) (c v : ℝ), cs[i]? = some c → vs[i]? = some v → Val c v
  | [], st, _, _ => ⟨[], rfl, rfl, by simp⟩
  | c :: cs, st, hst, hc => by
    obtain ⟨v, st', e, hst', hv⟩ := hf.eval st hst c (hc c (by simp))
    obtain ⟨vs, e2, hl, h⟩ := evaluations_spec hf cs st' hst' fun c h => hc c (by simp [h])
    refine ⟨v :: vs, ?_, by simp [hl], ?_⟩
    · rw [List.map_cons, evaluations, e]
      show (evaluations f st' (cs.map fin)).bind _ = _
      rw [e2]; rfl
    · intro i a b ha hb
      cases i with
      | zero => cases ha; cases hb; exact hv
      | succ i => exact h i a b ha hb

theorem evaluations_mono {F S : Type} [CFloat F] {f f' : F → S → Option (F × S)} (h : ∀ c s r, f c s = some r → f' c s = some r) :
    ∀ (cs : List F) (st : S) (vs : List F), evaluations f st cs = some vs → evaluations f' st cs = some vs
  | [], _, _, e => e
  | c :: cs, st, vs, e => by
    rw [evaluations] at e
    obtain ⟨⟨v, st'⟩, e1, e⟩ := Option.bind_eq_some_iff.1 e
    obtain ⟨vs', e2, e⟩ := Option.bind_eq_some_iff.1 e
    rw [evaluations, h _ _ _ e1]
    show (evaluations f' st' cs).bind _ = _
    rw [evaluations_mono h cs st' vs' e2]
    exact e

/-- the estimate and the sum over the pairs -/
theorem estVal_exact {n : ℕ} {b : ℕ → ℝ} {P : ℝ → ℝ} {x v : ℝ} (hP : ConnFn P) (hb : Weights n b) (hn : 0 < n)
    (hno : ∀ i < n, ∀ j < n, 1 ≤ x * b i * b j → 1 ≤ x * b i * b i) (h : EstVal n b P x v) :
    v = pairSum n (fun i j => P (x * b i * b j)) / n := by
  obtain ⟨χ, h01, h0, hχ, e⟩ := h
  have : ∑ i ∈ Finset.range n, χ i * (1 - P (x * b i * b i)) = 0 := by
    refine Finset.sum_eq_zero fun i hi => ?_
    rw [Finset.mem_range] at hi
    cases i with
    | zero => rw [h0, zero_mul]
    | succ i =>
      rcases lt_or_ge (x * b (i + 1) * b i) 1 with h1 | h1
      · rw [(hχ i hi).2 h1, zero_mul]
      · rw [hP.eq_one _ (hno (i + 1) hi i (by omega) h1), sub_self, mul_zero]
  rw [this, sub_zero] at e
  rw [← e, mul_div_cancel_left₀]
  exact_mod_cast (by omega : n ≠ 0)

section C31
variable {w : List ℝ} {part : List (List ℕ)} {d : ℕ}

/-- C31.  Evaluate the function searched by `estimateWeightScalingThreshold` at any positive points `cs`, one after the other (the lazily sorted
weights are shared state), with the loop iterations distributed in any way among the threads, any standard library, release build, exact arithmetic.
All evaluations are defined, and each value `v` at `c` is the expected average degree `E` of the threshold GIRG whose weights are scaled by `c^d`, or
less than `1/n` below it: `E - 1/n < v ≤ E`. -/
theorem C31_estimate (hw : NormalWeights w) (hne : w ≠ []) (hp : part.flatten.Perm (List.range w.length)) (alg : StdAlg XR) (hd : 1 ≤ d)
    (cs : List ℝ) (hcs : ∀ c ∈ cs, 0 < c) :
    ∃ vs : List ℝ, evaluations (thresholdFn alg true part (w.map fin) d) (LazySorter.new (w.map fin)) (cs.map fin) = some (vs.map fin) ∧
      vs.length = cs.length ∧
      ∀ (i : ℕ) (c v : ℝ), cs[i]? = some c → vs[i]? = some v →
        thresholdGirgDegree d (w.map (· * c ^ d)) - 1 / w.length < v ∧ v ≤ thresholdGirgDegree d (w.map (· * c ^ d)) := by
  have hN := normal_of hw
  obtain ⟨vs, h1, h2, h3⟩ := evaluations_spec (threshold_evaluates hN hne hp alg d) cs _ (SorterOk.new hN) hcs
  refine ⟨vs, h1, h2, fun i c v hc hv => ?_⟩
  have hc0 : 0 < c := hcs c (List.mem_of_getElem? hc)
  have hW := List.sum_pos w hN.pos hne
  have := (h3 i c v hc hv).bounds (bw_weights hN.pos) probThreshold_conn (by positivity) (List.length_pos_iff.2 hne)
  rw [thresholdX_eq d hc0] at this
  rw [thresholdDegree_scaled hd hN.pos hne (by positivity)]
  exact this

/-- C31.  The value is exact if no weight `a` has `(2c)^d*a*a/W < 1 ≤ (2c)^d*a*b/W` for another weight `b`; in particular as long as all the
connection probabilities are below 1. -/
theorem C31_exact (hw : NormalWeights w) (hne : w ≠ []) (hp : part.flatten.Perm (List.range w.length)) (alg : StdAlg XR) (hd : 1 ≤ d)
    {c : ℝ} (hc : 0 < c) (hno : ∀ a ∈ w, ∀ b ∈ w, 1 ≤ (2 * c) ^ d * (a * b / w.sum) → 1 ≤ (2 * c) ^ d * (a * a / w.sum)) :
    evaluations (thresholdFn alg true part (w.map fin) d) (LazySorter.new (w.map fin)) [fin c] =
      some [fin (thresholdGirgDegree d (w.map (· * c ^ d)))] := by
  have hN := normal_of hw
  obtain ⟨v, st', e, _, hv⟩ := (threshold_evaluates hN hne hp alg d).eval _ (SorterOk.new hN) c hc
  have : v = thresholdGirgDegree d (w.map (· * c ^ d)) := by
    rw [thresholdDegree_scaled hd hN.pos hne (by positivity), ← thresholdX_eq d hc]
    refine estVal_exact probThreshold_conn (bw_weights hN.pos) (List.length_pos_iff.2 hne) ?_ hv
    intro i hi j hj h
    have := hno _ (bw_mem w hi) _ (bw_mem w hj)
    rw [← Real.rpow_natCast] at this
    have e : ∀ y z, (2 * c) ^ (d : ℝ) * (y * z / w.sum) = (2 * c) ^ (d : ℝ) / w.sum * y * z := fun y z => by ring
    rw [e, e] at this
    exact this h
  rw [evaluations, e, ← this]
  rfl

/-- C31.  A debug build that passes its assertions computes the same values. -/
theorem C31_debug {F : Type} [CFloat F] {alg : StdAlg F} {part : List (List ℕ)} {weights cs vs : List F} {s : LazySorter F}
    (h : evaluations (thresholdFn alg false part weights d) s cs = some vs) : evaluations (thresholdFn alg true part weights d) s cs = some vs :=
  evaluations_mono (fun _ _ _ h => thresholdFn_release h) cs s vs h

/-- The deviation in C31 is real: for the weights 2 and 1 in dimension 1 and `c = 1`, both nodes are connected whatever their positions (expected
average degree 1), but the estimate is 5/6.  The correction for `u = v` in the saturated pairs is applied although the pair is not among them
(`if (w2 >= w1)` should read `if (w2 > w1)`). -/
theorem C31_not_exact (alg : StdAlg XR) :
    evaluations (thresholdFn alg true [[0, 1]] [fin 2, fin 1] 1) (LazySorter.new [fin 2, fin 1]) [fin 1] = some [fin (5 / 6)] ∧
      thresholdGirgDegree 1 ([2, 1].map (· * 1 ^ 1)) = 1 := by
  have hw : NormalWeights [2, 1] := normal_of_range (by intro y hy; fin_cases hy <;> norm_num)
  have hN := normal_of hw
  have hne : ([2, 1] : List ℝ) ≠ [] := by simp
  have hsd : sortDesc [2, 1] = [2, 1] := by
    refine List.Perm.eq_of_pairwise (le := fun a b : ℝ => b ≤ a) ?_ (sortDesc_sorted _) (by simp) (sortDesc_perm _)
    intro a b _ _ h1 h2
    exact le_antisymm h2 h1
  have b0 : bw [2, 1] 0 = 2 := by unfold bw; rw [hsd]; rfl
  have b1 : bw [2, 1] 1 = 1 := by unfold bw; rw [hsd]; rfl
  constructor
  · obtain ⟨v, st', e, _, χ, h01, h0, hχ, hv⟩ := (threshold_evaluates (part := [[0, 1]]) hN hne (by simp [List.range_succ]) alg 1).eval _ (SorterOk.new hN) 1 one_pos
    have hx : ((2 * 1 : ℝ)) ^ ((1 : ℕ) : ℝ) / ([2, 1] : List ℝ).sum = 2 / 3 := by
      rw [Real.rpow_natCast]; norm_num
    rw [hx] at hχ hv
    have h1 : χ 1 = 1 := (hχ 0 (by norm_num)).1 (by rw [b0, b1]; norm_num)
    have : v = 5 / 6 := by
      simp only [List.length_cons, List.length_nil, pairSum, Finset.sum_range_succ, Finset.sum_range_zero, b0, b1, h0, h1, probThreshold] at hv
      norm_num at hv
      linarith
    rw [evaluations]
    have e' : thresholdFn alg true [[0, 1]] [fin 2, fin 1] 1 (fin 1) (LazySorter.new [fin 2, fin 1]) = some (fin v, st') := e
    rw [e', this]
    rfl
  · rw [thresholdDegree_scaled le_rfl hN.pos hne (by norm_num)]
    simp only [List.length_cons, List.length_nil, pairSum, Finset.sum_range_succ, Finset.sum_range_zero, b0, b1, probThreshold]
    norm_num

end C31

/-! ### C32 -/

/-- C32.  Scaling all weights by `c^D` turns the threshold rule `dist^D < w_u*w_v/W` into `dist < c*(w_u*w_v/W)^(1/D)`. -/
theorem C32_threshold {D : ℕ} (hD : 1 ≤ D) {w : List ℝ} (hw : ∀ y ∈ w, 0 < y) (x : List (Fin D → ℝ)) {c : ℝ} (hc : 0 < c) (u v : ℕ) :
    ThresholdRule (w.map (· * c ^ D)) x u v ↔
      ∃ a b p q, w[u]? = some a ∧ w[v]? = some b ∧ x[u]? = some p ∧ x[v]? = some q ∧ torusDist p q < c * (a * b / w.sum) ^ (1 / D : ℝ) := by
  have hD0 : (D : ℝ) ≠ 0 := by exact_mod_cast (by omega : D ≠ 0)
  have key : ∀ a ∈ w, ∀ b ∈ w, ∀ p q : Fin D → ℝ,
      (torusDist p q ^ D < a * c ^ D * (b * c ^ D) / (w.map (· * c ^ D)).sum ↔ torusDist p q < c * (a * b / w.sum) ^ (1 / D : ℝ)) := by
    intro a ha b hb p q
    have hW : 0 < w.sum := List.sum_pos w hw (List.ne_nil_of_mem ha)
    have hq : 0 < a * b / w.sum := div_pos (mul_pos (hw a ha) (hw b hb)) hW
    have e1 := scaled_arg w (s := c ^ D) (by positivity) hW.ne' 1 a b
    rw [one_mul, one_mul] at e1
    have e2 : c ^ D / w.sum * a * b = (c * (a * b / w.sum) ^ (1 / D : ℝ)) ^ D := by
      rw [mul_pow, ← Real.rpow_natCast ((a * b / w.sum) ^ (1 / D : ℝ)), ← Real.rpow_mul hq.le, one_div_mul_cancel hD0, Real.rpow_one]
      ring
    rw [e1, e2]
    exact pow_lt_pow_iff_left₀ (torusDist_nonneg p q) (by positivity) (by omega)
  unfold ThresholdRule
  constructor
  · rintro ⟨a, b, p, q, h1, h2, h3, h4, h5⟩
    rw [List.getElem?_map] at h1 h2
    obtain ⟨a', ha, rfl⟩ := Option.map_eq_some_iff.1 h1
    obtain ⟨b', hb, rfl⟩ := Option.map_eq_some_iff.1 h2
    exact ⟨a', b', p, q, ha, hb, h3, h4, (key _ (List.mem_of_getElem? ha) _ (List.mem_of_getElem? hb) p q).1 h5⟩
  · rintro ⟨a, b, p, q, h1, h2, h3, h4, h5⟩
    refine ⟨a * c ^ D, b * c ^ D, p, q, by rw [List.getElem?_map, h1]; rfl, by rw [List.getElem?_map, h2]; rfl, h3, h4, ?_⟩
    exact (key _ (List.mem_of_getElem? h1) _ (List.mem_of_getElem? h2) p q).2 h5

/-- C32.  Scaling all weights by `c^(1/α)` turns the connection probability `min(1, (w_u*w_v/W/dist^D)^α)` into `min(1, c*(w_u*w_v/W/dist^D)^α)`. -/
theorem C32_girg {D : ℕ} {w : List ℝ} (hw : ∀ y ∈ w, 0 < y) (x : List (Fin D → ℝ)) {c α : ℝ} (hc : 0 < c) (hα : 0 < α) (u v : ℕ)
    {a b : ℝ} {p q : Fin D → ℝ} (ha : w[u]? = some a) (hb : w[v]? = some b) (hp : x[u]? = some p) (hq : x[v]? = some q) (hpq : torusDist p q ≠ 0) :
    girgProb (w.map (· * c ^ (1 / α))) x α u v = min 1 (c * (a * b / w.sum / torusDist p q ^ D) ^ α) := by
  have hW : 0 < w.sum := List.sum_pos w hw (List.ne_nil_of_mem (List.mem_of_getElem? ha))
  have ha0 := hw a (List.mem_of_getElem? ha)
  have hb0 := hw b (List.mem_of_getElem? hb)
  have hd : 0 < torusDist p q := lt_of_le_of_ne (torusDist_nonneg p q) (Ne.symm hpq)
  have hs : 0 < c ^ (1 / α) := Real.rpow_pos_of_pos hc _
  unfold girgProb
  rw [List.getElem?_map, List.getElem?_map, ha, hb, hp, hq]
  simp only [Option.map_some, hpq, if_false]
  have e1 := scaled_arg w hs.ne' hW.ne' 1 a b
  rw [one_mul, one_mul] at e1
  rw [e1, show c ^ (1 / α) / w.sum * a * b / torusDist p q ^ D = c ^ (1 / α) * (a * b / w.sum / torusDist p q ^ D) by ring,
    Real.mul_rpow hs.le (by positivity), ← Real.rpow_mul hc.le, one_div_mul_cancel hα.ne', Real.rpow_one]

/-- the hypotheses of C32 for three nodes -/
example : ThresholdRule (D := 1) ([1, 2, 3].map (· * (2 : ℝ) ^ 1)) [fun _ => 0, fun _ => 1 / 2, fun _ => 1 / 4] 0 2 :=
  (C32_threshold le_rfl (by intro y hy; fin_cases hy <;> norm_num) _ two_pos 0 2).2
    ⟨1, 3, _, _, rfl, rfl, rfl, rfl, by norm_num [torusDist, circleDist, List.finRange, abs_of_neg]⟩

/-! ### C58 -/

section C58
variable {w : List ℝ} {part : List (List ℕ)} {d : ℕ} {α : ℝ}

/-- C58.  The same for the function searched by `estimateWeightScaling`, for every `alpha > 0` other than 1, dimension 1 to 30 and less than `2^31`
nodes: all evaluations, at any positive points in any order, are defined, and each value `v` at `c` satisfies `E - 1/n < v ≤ E` for the expected
average degree `E` of the GIRG with parameter `alpha` whose weights are scaled by `c^(1/alpha)`. -/
theorem C58_estimate (hw : NormalWeights w) (hne : w ≠ []) (hn : w.length < 2 ^ 31) (hp : part.flatten.Perm (List.range w.length)) (alg : StdAlg XR)
    (hd : 1 ≤ d) (hd30 : d ≤ 30) (hα : 0 < α) (hα1 : α ≠ 1) (cs : List ℝ) (hcs : ∀ c ∈ cs, 0 < c) :
    ∃ vs : List ℝ, evaluations (alphaFn alg true part (w.map fin) d (fin α)) ⟨LazySorter.new (w.map fin), []⟩ (cs.map fin) = some (vs.map fin) ∧
      vs.length = cs.length ∧
      ∀ (i : ℕ) (c v : ℝ), cs[i]? = some c → vs[i]? = some v →
        girgDegree d α (w.map (· * c ^ (1 / α))) - 1 / w.length < v ∧ v ≤ girgDegree d α (w.map (· * c ^ (1 / α))) := by
  have hN := normal_of hw
  obtain ⟨vs, h1, h2, h3⟩ := evaluations_spec (alpha_evaluates hN hne hn hp alg hd hd30 hα hα1) cs _ (AlphaOk.new hN α) hcs
  refine ⟨vs, h1, h2, fun i c v hc hv => ?_⟩
  have hc0 : 0 < c := hcs c (List.mem_of_getElem? hc)
  have hW := List.sum_pos w hN.pos hne
  have := (h3 i c v hc hv).bounds (bw_weights hN.pos) (probAlpha_conn hα hα1) (alphaX_pos hW hc0) (List.length_pos_iff.2 hne)
  rw [girgDegree_scaled hd hN.pos hne (Real.rpow_pos_of_pos hc0 _) hα hα1]
  exact this

/-- C58.  A debug build that passes its assertions computes the same values. -/
theorem C58_debug {F : Type} [CFloat F] {alg : StdAlg F} {part : List (List ℕ)} {weights cs vs : List F} {alpha : F} {s : AlphaState F}
    (h : evaluations (alphaFn alg false part weights d alpha) s cs = some vs) : evaluations (alphaFn alg true part weights d alpha) s cs = some vs :=
  evaluations_mono (fun _ _ _ h => alphaFn_release h) cs s vs h

end C58

/-- the hypotheses of C31 and C58 are met by the weights 1, 5, 2 and two threads -/
example : NormalWeights [1, 5, 2] ∧ [[0, 2], [1]].flatten.Perm (List.range 3) :=
  ⟨normal_of_range (by intro y hy; fin_cases hy <;> norm_num), by decide⟩

/-! ### C59 -/

section C59
variable {w : List ℝ} {part : List (List ℕ)} {d : ℕ}

/-- `alpha` is infinity or a positive number other than 1 -/
def AlphaAccepted (alpha : XR) : Prop := alpha = .pinf ∨ ∃ a : ℝ, alpha = fin a ∧ 0 < a ∧ a ≠ 1

theorem estimatorFor_pinf : estimatorFor (XR.pinf) = .threshold := by
  unfold estimatorFor; rw [XR.ofRat_eq]; rfl

theorem estimatorFor_big {a : ℝ} (h : 8 < a) : estimatorFor (fin a) = .threshold := by
  unfold estimatorFor; rw [XR.ofRat_eq, if_pos (by simpa [CFloat.lt, XR.lt] using h)]

theorem estimatorFor_small {a : ℝ} (h : a ≤ 8) (h0 : 0 < a) (h1 : a ≠ 1) : estimatorFor (fin a) = .general := by
  unfold estimatorFor
  rw [XR.ofRat_eq, XR.ofRat_eq, XR.ofRat_eq, if_neg (by simpa [CFloat.lt, XR.lt] using h), if_pos]
  simp only [CFloat.lt, XR.lt, CFloat.eq, XR.eq, Bool.and_eq_true, decide_eq_true_eq, Bool.not_eq_true', decide_eq_false_iff_not]
  exact ⟨by exact_mod_cast h0, by exact_mod_cast h1⟩

theorem accepted_cases {alpha : XR} (h : AlphaAccepted alpha) :
    estimatorFor alpha = .threshold ∨ ∃ a : ℝ, alpha = fin a ∧ 0 < a ∧ a ≠ 1 ∧ estimatorFor alpha = .general := by
  rcases h with rfl | ⟨a, rfl, h0, h1⟩
  · exact Or.inl estimatorFor_pinf
  · rcases le_or_gt a 8 with h8 | h8
    · exact Or.inr ⟨a, rfl, h0, h1, estimatorFor_small h8 h0 h1⟩
    · exact Or.inl (estimatorFor_big h8)

/-- C59.  In exact arithmetic (release build) with at least two nodes, `scaleWeights` returns exactly if the desired average degree is positive and at
most `n - 1`; otherwise it runs forever. -/
theorem C59_returns_iff (hw : NormalWeights w) (hn2 : 2 ≤ w.length) (hn : w.length < 2 ^ 31) (hp : part.flatten.Perm (List.range w.length))
    (alg : StdAlg XR) (hd : 1 ≤ d) (hd30 : d ≤ 30) {alpha : XR} (hα : AlphaAccepted alpha) (desired : ℝ) :
    ((∃ s ws, ScaleWeights alg true part (w.map fin) (fin desired) d alpha (.returned s ws)) ↔ 0 < desired ∧ desired ≤ w.length - 1) ∧
    (¬ (0 < desired ∧ desired ≤ w.length - 1) → ScaleWeightsDiverges alg true part (w.map fin) (fin desired) d alpha) := by
  have hN := normal_of hw
  have hne : w ≠ [] := by rintro rfl; simp at hn2
  have hW := List.sum_pos w hN.pos hne
  rcases accepted_cases hα with he | ⟨a, rfl, h0, h1, he⟩
  · obtain ⟨p1, p2, p3, p4, p5⟩ := thresholdX_props hW hd
    have := est_returns_iff (bw_weights hN.pos) probThreshold_conn hn2 p1 p2 p3 p4 p5 (threshold_evaluates hN hne hp alg d) (SorterOk.new hN) desired
    unfold ScaleWeights ScaleWeightsDiverges
    rw [he]
    refine ⟨?_, this.2⟩
    rw [← this.1]
    constructor
    · rintro ⟨s, ws, s', ⟨c, hc, _⟩, _⟩
      exact ⟨c, hc⟩
    · rintro ⟨c, hc⟩
      exact ⟨_, _, _, ⟨c, hc, rfl⟩, rfl⟩
  · obtain ⟨p1, p2, p3, p4, p5⟩ := alphaX_props hW d h0
    have := est_returns_iff (bw_weights hN.pos) (probAlpha_conn h0 h1) hn2 p1 p2 p3 p4 p5 (alpha_evaluates hN hne hn hp alg hd hd30 h0 h1)
      (AlphaOk.new hN a) desired
    unfold ScaleWeights ScaleWeightsDiverges
    rw [he]
    refine ⟨?_, this.2⟩
    rw [← this.1]
    constructor
    · rintro ⟨s, ws, s', ⟨c, hc, _⟩, _⟩
      exact ⟨c, hc⟩
    · rintro ⟨c, hc⟩
      exact ⟨_, _, _, ⟨c, hc, rfl⟩, rfl⟩

/-- C59.  If `scaleWeights` returns (release or debug build, exact arithmetic), then all weights have been multiplied by a positive number, and the
expected average degree of the GIRG with the new weights and uniform positions is at least `desired - 0.02` and less than `desired + 0.02 + 1/n`:
for `alpha = infinity`, that of the threshold model; for `alpha ≤ 8`, that of the model with parameter `alpha`.  For `8 < alpha < infinity`, where the
implementation uses the threshold model as an approximation, it is still at least `desired - 0.02`, and less than `desired + 0.02 + 1/n` times
`alpha/(alpha-1)`. -/
theorem C59_degree (hw : NormalWeights w) (hne : w ≠ []) (hn : w.length < 2 ^ 31) (hp : part.flatten.Perm (List.range w.length))
    {alg : StdAlg XR} {ndebug : Bool} (hd : 1 ≤ d) (hd30 : d ≤ 30) {alpha : XR} {desired : ℝ} {s : XR} {ws : List XR}
    (h : ScaleWeights alg ndebug part (w.map fin) (fin desired) d alpha (.returned s ws)) :
    ∃ k : ℝ, 0 < k ∧ s = fin k ∧ ws = (w.map (· * k)).map fin ∧
      (alpha = .pinf → desired - 2 / 100 ≤ thresholdGirgDegree d (w.map (· * k)) ∧
        thresholdGirgDegree d (w.map (· * k)) < desired + 2 / 100 + 1 / w.length) ∧
      (∀ a : ℝ, alpha = fin a → a ≤ 8 → desired - 2 / 100 ≤ girgDegree d a (w.map (· * k)) ∧
        girgDegree d a (w.map (· * k)) < desired + 2 / 100 + 1 / w.length) ∧
      (∀ a : ℝ, alpha = fin a → 8 < a → desired - 2 / 100 ≤ girgDegree d a (w.map (· * k)) ∧
        girgDegree d a (w.map (· * k)) < a / (a - 1) * (desired + 2 / 100 + 1 / w.length)) := by
  have hN := normal_of hw
  have hW := List.sum_pos w hN.pos hne
  have hl := List.length_pos_iff.2 hne
  have hws : ws = (w.map fin).map (fun x => x *. s) := by
    unfold ScaleWeights at h
    split at h
    · obtain ⟨s, _, h⟩ := h; cases h; rfl
    · obtain ⟨s, _, h⟩ := h; cases h; rfl
    · cases h
  have hmap : ∀ k, s = fin k → ws = (w.map (· * k)).map fin := by
    rintro k rfl
    rw [hws, List.map_map, List.map_map]
    rfl
  rcases C28_estimator h with ⟨hα, c, hc, hs⟩ | ⟨⟨a, rfl, h0, h8, h1⟩, c, hc, hs⟩
  · obtain ⟨c', v, rfl, hc0, hv, hacc⟩ := returned_value (threshold_evaluates hN hne hp alg d) (SorterOk.new hN) (returns_release hc)
    have hk : s = fin (c' ^ d) := by
      rw [hs, XR.ofNat_eq, XR.pow_fin _ _ hc0, Real.rpow_natCast]
    have hb := hv.bounds (bw_weights hN.pos) probThreshold_conn (by positivity) hl
    rw [thresholdX_eq d hc0] at hb
    rw [← thresholdDegree_scaled hd hN.pos hne (pow_pos hc0 d)] at hb
    obtain ⟨ha1, ha2⟩ := abs_le.1 hacc
    have hlow : desired - 2 / 100 ≤ thresholdGirgDegree d (w.map (· * c' ^ d)) := by linarith [hb.2]
    have hhigh : thresholdGirgDegree d (w.map (· * c' ^ d)) < desired + 2 / 100 + 1 / w.length := by linarith [hb.1]
    refine ⟨c' ^ d, pow_pos hc0 d, hk, hmap _ hk, fun _ => ⟨hlow, hhigh⟩, ?_, ?_⟩
    · rintro a rfl h8
      rcases hα with hα | ⟨a', hα, h⟩
      · cases hα
      · cases hα; linarith
    · rintro a rfl h8
      obtain ⟨q1, q2⟩ := girgDegree_threshold hd hN.pos hne (pow_pos hc0 d) (show 1 < a by linarith)
      refine ⟨hlow.trans q1, q2.trans_lt ?_⟩
      have : 0 < a / (a - 1) := div_pos (by linarith) (by linarith)
      exact mul_lt_mul_of_pos_left hhigh this
  · obtain ⟨c', v, rfl, hc0, hv, hacc⟩ := returned_value (alpha_evaluates hN hne hn hp alg hd hd30 h0 h1) (AlphaOk.new hN a) (returns_alpha_release hc)
    have hk : s = fin (c' ^ (1 / a)) := by
      rw [hs, XR.ofRat_eq, XR.div_fin _ _ h0.ne', XR.pow_fin _ _ hc0]
      norm_num
    have hb := hv.bounds (bw_weights hN.pos) (probAlpha_conn h0 h1) (alphaX_pos hW hc0) hl
    have hpos := Real.rpow_pos_of_pos hc0 (1 / a)
    have e := girgDegree_scaled hd hN.pos hne hpos h0 h1
    unfold alphaX at hb
    rw [← e] at hb
    obtain ⟨ha1, ha2⟩ := abs_le.1 hacc
    have hlow : desired - 2 / 100 ≤ girgDegree d a (w.map (· * c' ^ (1 / a))) := by linarith [hb.2]
    have hhigh : girgDegree d a (w.map (· * c' ^ (1 / a))) < desired + 2 / 100 + 1 / w.length := by linarith [hb.1]
    refine ⟨c' ^ (1 / a), hpos, hk, hmap _ hk, ⟨fun h => XR.noConfusion h, ?_, ?_⟩⟩
    · rintro a' ha' _
      cases ha'
      exact ⟨hlow, hhigh⟩
    · rintro a' ha' h
      cases ha'
      linarith

/-- C32, for the program.  If `scaleWeights` uses the threshold estimator (`alpha > 8`) and returns, then with the constant `c` found by the search all weights
have been multiplied by `c^d`, and the threshold rule for the new weights is `dist < c*(w_u*w_v/W)^(1/d)` in terms of the old ones. -/
theorem C32_scaled_threshold (hw : NormalWeights w) (hne : w ≠ []) (hp : part.flatten.Perm (List.range w.length))
    {alg : StdAlg XR} {ndebug : Bool} (hd : 1 ≤ d) {alpha : XR} (hα : alpha = .pinf ∨ ∃ a : ℝ, alpha = fin a ∧ 8 < a) {desired : ℝ} {s : XR} {ws : List XR}
    (h : ScaleWeights alg ndebug part (w.map fin) (fin desired) d alpha (.returned s ws)) :
    ∃ (c : ℝ) (w' : List ℝ), 0 < c ∧ Returns (thresholdFn alg ndebug part (w.map fin) d) (fin desired) (LazySorter.new (w.map fin)) (fin c) ∧
      s = fin (c ^ d) ∧ ws = w'.map fin ∧ w' = w.map (· * c ^ d) ∧
      ∀ (x : List (Fin d → ℝ)) (u v : ℕ), ThresholdRule w' x u v ↔
        ∃ a b p q, w[u]? = some a ∧ w[v]? = some b ∧ x[u]? = some p ∧ x[v]? = some q ∧ torusDist p q < c * (a * b / w.sum) ^ (1 / d : ℝ) := by
  have hN := normal_of hw
  have he : estimatorFor alpha = .threshold := by
    rcases hα with rfl | ⟨a, rfl, h8⟩
    · exact estimatorFor_pinf
    · exact estimatorFor_big h8
  unfold ScaleWeights at h
  rw [he] at h
  obtain ⟨s', ⟨c, hc, rfl⟩, h⟩ := h
  cases h
  obtain ⟨c', v, rfl, hc0, _⟩ := returned_value (threshold_evaluates hN hne hp alg d) (SorterOk.new hN) (returns_release hc)
  have hk : (CFloat.pow (fin c') (CFloat.ofNat d) : XR) = fin (c' ^ d) := by
    rw [XR.ofNat_eq, XR.pow_fin _ _ hc0, Real.rpow_natCast]
  refine ⟨c', _, hc0, hc, hk, ?_, rfl, fun x u v => C32_threshold hd hN.pos x hc0 u v⟩
  rw [hk, List.map_map, List.map_map]
  rfl

/-- C32, for the program.  If `scaleWeights` uses the general estimator (`alpha ≤ 8`) and returns, then with the constant `c` found by the search all weights
have been multiplied by `c^(1/alpha)`, and the connection probability for the new weights is `min(1, c*(w_u*w_v/W/dist^d)^alpha)` in terms of the old ones. -/
theorem C32_scaled_girg (hw : NormalWeights w) (hne : w ≠ []) (hn : w.length < 2 ^ 31) (hp : part.flatten.Perm (List.range w.length))
    {alg : StdAlg XR} {ndebug : Bool} (hd : 1 ≤ d) (hd30 : d ≤ 30) {α : ℝ} (h0 : 0 < α) (h1 : α ≠ 1) (h8 : α ≤ 8) {desired : ℝ} {s : XR} {ws : List XR}
    (h : ScaleWeights alg ndebug part (w.map fin) (fin desired) d (fin α) (.returned s ws)) :
    ∃ (c : ℝ) (w' : List ℝ), 0 < c ∧ Returns (alphaFn alg ndebug part (w.map fin) d (fin α)) (fin desired) ⟨LazySorter.new (w.map fin), []⟩ (fin c) ∧
      s = fin (c ^ (1 / α)) ∧ ws = w'.map fin ∧ w' = w.map (· * c ^ (1 / α)) ∧
      ∀ (x : List (Fin d → ℝ)) (u v : ℕ) (a b : ℝ) (p q : Fin d → ℝ), w[u]? = some a → w[v]? = some b → x[u]? = some p → x[v]? = some q →
        torusDist p q ≠ 0 → girgProb w' x α u v = min 1 (c * (a * b / w.sum / torusDist p q ^ d) ^ α) := by
  have hN := normal_of hw
  unfold ScaleWeights at h
  rw [estimatorFor_small h8 h0 h1] at h
  obtain ⟨s', ⟨c, hc, rfl⟩, h⟩ := h
  cases h
  obtain ⟨c', v, rfl, hc0, _⟩ := returned_value (alpha_evaluates hN hne hn hp alg hd hd30 h0 h1) (AlphaOk.new hN α) (returns_alpha_release hc)
  have hk : (CFloat.pow (fin c') (CFloat.ofRat 1 /. fin α) : XR) = fin (c' ^ (1 / α)) := by
    rw [XR.ofRat_eq, XR.div_fin _ _ h0.ne', XR.pow_fin _ _ hc0]
    norm_num
  refine ⟨c', _, hc0, hc, hk, ?_, rfl, fun x u v a b p q ha hb hp hq hpq => C32_girg hN.pos x hc0 h0 u v ha hb hp hq hpq⟩
  rw [hk, List.map_map, List.map_map]
  rfl

/-- C59.  The factor.  If the desired degree is at most `n-1`, all weights are at least `m` and `alpha > 1`, then the weights are multiplied by at most
`max(2^d, W/m²)`, and by at least `(desired - 0.02)*n/(2^d*W)`, for finite `alpha` times `(alpha-1)/alpha`. -/
theorem C59_factor (hw : NormalWeights w) (hn2 : 2 ≤ w.length) (hn : w.length < 2 ^ 31) (hp : part.flatten.Perm (List.range w.length))
    {alg : StdAlg XR} {ndebug : Bool} (hd : 1 ≤ d) (hd30 : d ≤ 30) {alpha : XR} {desired : ℝ} (hdes : desired ≤ w.length - 1) {m : ℝ} (hm : 0 < m)
    (hmin : ∀ y ∈ w, m ≤ y) {k : ℝ} {ws : List XR} (h : ScaleWeights alg ndebug part (w.map fin) (fin desired) d alpha (.returned (fin k) ws)) :
    (alpha = .pinf → k ≤ max (2 ^ d) (w.sum / m ^ 2) ∧ (desired - 2 / 100) * w.length ≤ 2 ^ d * w.sum * k) ∧
    (∀ a : ℝ, alpha = fin a → 1 < a → k ≤ max (2 ^ d) (w.sum / m ^ 2) ∧ (desired - 2 / 100) * w.length * ((a - 1) / a) ≤ 2 ^ d * w.sum * k) := by
  have hN := normal_of hw
  have hne : w ≠ [] := by rintro rfl; simp at hn2
  have hW := List.sum_pos w hN.pos hne
  have hl : (0 : ℝ) < w.length := by exact_mod_cast List.length_pos_iff.2 hne
  have hup : (alpha = .pinf ∨ ∃ a : ℝ, alpha = fin a ∧ 1 < a) → k ≤ max (2 ^ d) (w.sum / m ^ 2) := by
    intro hα'
    have hbm : ∀ i < w.length, m ≤ bw w i := fun i hi => hmin _ (bw_mem w hi)
    rcases C28_estimator h with ⟨hα, c, hc, hs⟩ | ⟨⟨a, rfl, h0, h8, h1⟩, c, hc, hs⟩
    · obtain ⟨c', v, rfl, hc0, _, _⟩ := returned_value (threshold_evaluates hN hne hp alg d) (SorterOk.new hN) (returns_release hc)
      have hk : k = c' ^ d := by
        rw [XR.ofNat_eq, XR.pow_fin _ _ hc0, Real.rpow_natCast] at hs
        exact XR.fin.inj hs
      have hd0 : (d : ℝ) ≠ 0 := by exact_mod_cast (by omega : d ≠ 0)
      have hC : 0 < (w.sum / m ^ 2) ^ (1 / d : ℝ) / 2 := by positivity
      have e : ((w.sum / m ^ 2) ^ (1 / d : ℝ)) ^ d = w.sum / m ^ 2 := by
        rw [← Real.rpow_natCast, ← Real.rpow_mul (by positivity), one_div_mul_cancel hd0, Real.rpow_one]
      have := est_returned_le probThreshold_conn hn2 (thresholdX_props hW hd).2.1 (threshold_evaluates hN hne hp alg d) (SorterOk.new hN) hdes hC (by
        intro i hi j hj
        rw [mul_div_cancel₀ _ (two_ne_zero), Real.rpow_natCast, e]
        have h1 := hbm i hi
        have h2 := hbm j hj
        have h3 := hm.trans_le h1
        calc (1 : ℝ) = w.sum / m ^ 2 / w.sum * m * m := by field_simp
          _ ≤ _ := by gcongr) (fun i hi => hm.trans_le (hbm i hi)) (returns_release hc)
      rw [hk]
      rw [mul_div_cancel₀ _ (two_ne_zero)] at this
      rcases le_max_iff.1 this with h | h
      · exact (pow_le_pow_left₀ hc0.le h d).trans (le_max_left _ _)
      · refine le_trans ?_ (le_max_right _ _)
        rw [← e]
        exact pow_le_pow_left₀ hc0.le h d
    · obtain ⟨c', v, rfl, hc0, _, _⟩ := returned_value (alpha_evaluates hN hne hn hp alg hd hd30 h0 h1) (AlphaOk.new hN a) (returns_alpha_release hc)
      have h1a : 1 < a := by
        rcases hα' with h | ⟨b, h, h'⟩
        · cases h
        · cases h; exact h'
      have hk : k = c' ^ (1 / a) := by
        rw [XR.ofRat_eq, XR.div_fin _ _ h0.ne', XR.pow_fin _ _ hc0] at hs
        have := XR.fin.inj hs
        rw [this]; norm_num
      have hC : 0 < (w.sum / m ^ 2 / 2 ^ d) ^ a := by positivity
      have e : ((w.sum / m ^ 2 / 2 ^ d) ^ a) ^ (1 / a) = w.sum / m ^ 2 / 2 ^ d := by
        rw [← Real.rpow_mul (by positivity), mul_one_div_cancel h0.ne', Real.rpow_one]
      have := est_returned_le (probAlpha_conn h0 h1) hn2 (alphaX_props hW d h0).2.1 (alpha_evaluates hN hne hn hp alg hd hd30 h0 h1) (AlphaOk.new hN a) hdes hC (by
        intro i hi j hj
        unfold alphaX
        rw [e]
        have h1 := hbm i hi
        have h2 := hbm j hj
        have h3 := hm.trans_le h1
        calc (1 : ℝ) = 2 ^ d * (w.sum / m ^ 2 / 2 ^ d) / w.sum * m * m := by field_simp
          _ ≤ _ := by gcongr) (fun i hi => hm.trans_le (hbm i hi)) (returns_alpha_release hc)
      have h2 : (2 : ℝ) ^ (1 / a) ≤ 2 ^ d := by
        rw [← Real.rpow_natCast]
        refine Real.rpow_le_rpow_of_exponent_le (by norm_num) ?_
        have : 1 / a ≤ 1 := by rw [div_le_one h0]; exact h1a.le
        have : (1 : ℝ) ≤ d := by exact_mod_cast hd
        linarith
      rw [hk]
      rcases le_max_iff.1 this with h | h
      · exact ((Real.rpow_le_rpow hc0.le h (by positivity)).trans h2).trans (le_max_left _ _)
      · refine le_trans ?_ (le_max_right _ _)
        refine (Real.rpow_le_rpow hc0.le h (by positivity)).trans ?_
        rw [Real.mul_rpow (by norm_num) hC.le, e]
        calc (2 : ℝ) ^ (1 / a) * (w.sum / m ^ 2 / 2 ^ d) ≤ 2 ^ d * (w.sum / m ^ 2 / 2 ^ d) := by gcongr
          _ = w.sum / m ^ 2 := by field_simp
  obtain ⟨k', hk', hkk, _, q1, q2, q3⟩ := C59_degree hw hne hn hp hd hd30 h
  cases hkk
  have hlow := thresholdDegree_le hd hN.pos hne hk'
  refine ⟨fun hα => ⟨hup (Or.inl hα), ?_⟩, fun a hα h1 => ⟨hup (Or.inr ⟨a, hα, h1⟩), ?_⟩⟩
  · have := (q1 hα).1.trans hlow
    rw [le_div_iff₀ hl] at this
    linarith
  · have hd1 : desired - 2 / 100 ≤ girgDegree d a (w.map (· * k)) := by
      rcases le_or_gt a 8 with h8 | h8
      · exact (q2 a hα h8).1
      · exact (q3 a hα h8).1
    have h2 := hd1.trans (girgDegree_threshold hd hN.pos hne hk' h1).2
    have ha1 : 0 < a - 1 := by linarith
    have h3 : (desired - 2 / 100) * ((a - 1) / a) ≤ thresholdGirgDegree d (w.map (· * k)) := by
      have h4 : 0 < (a - 1) / a := div_pos ha1 (by linarith)
      have := mul_le_mul_of_nonneg_right h2 h4.le
      have e : a / (a - 1) * thresholdGirgDegree d (w.map (· * k)) * ((a - 1) / a) = thresholdGirgDegree d (w.map (· * k)) := by
        have : a ≠ 0 := by linarith
        generalize thresholdGirgDegree d (w.map (· * k)) = z
        field_simp
      rwa [e] at this
    have := h3.trans hlow
    rw [le_div_iff₀ hl] at this
    linarith

/-- C59 at work: three weights, desired average degree 1, `alpha = 2`, two threads: `scaleWeights` returns -/
example : ∃ s ws, ScaleWeights (mergeAlg XR) true [[0, 2], [1]] ([1, 5, 2].map fin) (fin 1) 2 (fin 2) (.returned s ws) :=
  (C59_returns_iff (w := [1, 5, 2]) (normal_of_range (by intro y hy; fin_cases hy <;> norm_num)) (by simp) (by norm_num)
    (by simp only [List.length_cons, List.length_nil]; decide) _ (by norm_num)
    (by norm_num) (Or.inr ⟨2, rfl, by norm_num, by norm_num⟩) 1).1.2 (by norm_num)

end C59

end Girgs.Props
