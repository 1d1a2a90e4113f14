import Verif.Proofs.Threshold
import Verif.Props.Edges
/-
C18, C19, C23, C57: exact decisions, and the bound used for skipping.
-/
namespace Girgs.Props
open Spec Build Tree CFloat

/-! ### C18 -/

/-- C18.  For `alpha = infinity`, whatever the random numbers, the number of threads, the schedule and the build type: every
execution of `girgs::generateEdges` returns exactly the threshold graph: `u` and `v` are connected iff
`dist(u,v)^D < w_u*w_v/W`, every edge is listed once. -/
theorem C18_threshold_exact {D : Nat} {w : List ℝ} {x : List (Fin D → ℝ)} (s : SupportedInput D w x) (env : Env)
    (rng : Rng XR) (hgeo : GeoBounded rng) (gens : Nat → rng.G) (out : List (Nat × Nat)) (notice : Notice)
    (hg : GenerateEdges env rng gens (xw w) (xl x) XR.pinf out notice) :
    IsGraphOf w.length (ThresholdRule w x) out ∧ notice = .none :=
  graph_of_rule s XR.pinf env rng hgeo gens _ (fun _ _ h => ThresholdRule.symm h) (fun _ _ b =>
    ⟨b.decided_threshold s rng, fun _ _ ht h2 _ _ hh => b.hit_not_rule s ht h2 hh⟩) hg

/-- C18 at work: of the three nodes with weights 1, 1, 5 at (0,0), (1/2,1/4), (7/8,1/3) (W = 7) the first and the third
are connected (distance 1/3, 1/9 < 5/7), the first and the second are not (distance 1/2, 1/4 ≥ 1/7). -/
example : ∃ out notice, GenerateEdges (exampleEnv true) exampleRng (fun _ => ()) (xw [1, 1, 5])
    (xl [![0, 0], ![1 / 2, 1 / 4], ![7 / 8, 1 / 3]]) XR.pinf out notice ∧
    ((0, 2) ∈ out ∨ (2, 0) ∈ out) ∧ (0, 1) ∉ out ∧ (1, 0) ∉ out := by
  obtain ⟨⟨out, notice, h⟩, _⟩ := C17_simple_graph exampleInput XR.pinf (exampleEnv true) exampleRng exampleRng_geo (fun _ => ())
  obtain ⟨⟨_, _, h3⟩, _⟩ := C18_threshold_exact exampleInput _ _ exampleRng_geo _ out notice h
  have d02 : torusDist ![(0 : ℝ), 0] ![7 / 8, 1 / 3] = 1 / 3 := by
    norm_num [torusDist, circleDist, List.finRange_succ, List.finRange_zero]
  have d01 : torusDist ![(0 : ℝ), 0] ![1 / 2, 1 / 4] = 1 / 2 := by
    norm_num [torusDist, circleDist, List.finRange_succ, List.finRange_zero]
  refine ⟨out, notice, h, (h3 0 2 (by norm_num) (by norm_num) (by norm_num)).2 ?_, ?_⟩
  · exact ⟨1, 5, _, _, rfl, rfl, rfl, rfl, by rw [d02]; norm_num⟩
  · have : ¬ ThresholdRule [1, 1, 5] [![0, 0], ![1 / 2, 1 / 4], ![7 / 8, 1 / 3]] 0 1 := by
      rintro ⟨a, b, p, q, h1, h2, h3, h4, h5⟩
      simp only [List.getElem?_cons_zero, List.getElem?_cons_succ, Option.some.injEq] at h1 h2 h3 h4
      subst h1 h2 h3 h4
      rw [d01] at h5
      norm_num at h5
    rw [← h3 0 1 (by norm_num) (by norm_num) (by norm_num)] at this
    tauto

/-! ### C19 -/

/-- C19.  For finite `alpha = a > 0`: for every type II call `t` of the recursion and every pair of nodes it draws from,
with input weights `u`, `v` and input positions `p`, `q`: the bound used for skipping is a number `bd` in `(0,1]`, and the
true edge probability `(u*v/W / dist^D)^a`, which is also what the implementation computes for the pair, is at most `bd`. -/
theorem C19_bound_dominates {D : Nat} {ndebug : Bool} {w : List ℝ} {x : List (Fin D → ℝ)} {a : ℝ} {T : Tree XR D}
    (s : SupportedInput D w x) (ha : 0 < a) (hc : Constructed ndebug (xw w) (xp x) (XR.fin a) T) {ts : List Task}
    (hts : visitCellPair T T.levels 0 0 0 = some ts) (t : Task) (ht : t ∈ ts) (h2 : t.two = true) :
    ∃ bd : ℝ, T.maxProb t = some (XR.fin bd) ∧ 0 < bd ∧ bd ≤ 1 ∧
      ∀ cs, T.candidates t = some cs → ∀ c ∈ cs, ∃ y z u v p q, T.nodes[c.1]? = some y ∧ T.nodes[c.2]? = some z ∧
        w[y.index]? = some u ∧ w[z.index]? = some v ∧ x[y.index]? = some p ∧ x[z.index]? = some q ∧
        0 < torusDist p q ∧
        T.edgeProb y z = XR.fin ((u * v / w.sum / torusDist p q ^ D) ^ a) ∧ (u * v / w.sum / torusDist p q ^ D) ^ a ≤ bd := by
  obtain ⟨m, b⟩ := hc.builtX s
  have ok := b.ok
  have hon : OnLevel D 0 0 := ⟨by simp [levelStart], by simp [levelStart]⟩
  have hlev : T.levels - 1 + 1 = T.levels := by have := ok.levels_eq; omega
  have hv := ok.visit_eq (T.levels - 1) T.levels 0 0 0 (by omega) (by omega) hon hon
  rw [hlev, hts, Option.some.injEq] at hv
  subst hv
  have htok := visitP_ok _ _ _ _ hon hon t ht
  obtain ⟨r, wu, hb⟩ := b.typeII s htok h2
  have hpos := hb.ratio_pos
  have hle := hb.ratio_le
  have hW := b.W_pos s
  refine ⟨(wu / r ^ D) ^ a, ?_, Real.rpow_pos_of_pos hpos a, Real.rpow_le_one hpos.le hle ha.le, ?_⟩
  · rw [hb.maxProb, b.alpha_eq, XR.pow_fin _ _ hpos, XR.fmin_fin, min_eq_left (Real.rpow_le_one hpos.le hle ha.le)]
  · intro cs hcs c hc
    obtain ⟨ra, rb, hr⟩ := ok.ranges_ok htok
    rw [hr.candidates_eq, Option.some.injEq] at hcs
    subst hcs
    unfold candList at hc
    rw [if_pos h2] at hc
    obtain ⟨i, j⟩ := c
    have hhit : Hit T t i j := mem_pair_hit ok hr ((hr.pairLists_perm (htok.two h2).1).mem_iff.2 hc)
    obtain ⟨y, z, hy, hz, h3, h4, _⟩ := hhit
    obtain ⟨u, p, e1, e2, e3, e4⟩ := b.lookup hy
    obtain ⟨v, q, f1, f2, f3, f4⟩ := b.lookup hz
    obtain ⟨h5, h6⟩ := hb.pair y (List.mem_of_getElem? hy) z (List.mem_of_getElem? hz) u v p q e1 f1 e2 f2 h3 h4
    have hd : 0 < torusDist p q := lt_of_lt_of_le hb.rpos h6
    have hu0 := s.wpos u (List.mem_of_getElem? e1)
    have hv0 := s.wpos v (List.mem_of_getElem? f1)
    have hratio : 0 < u * v / w.sum / torusDist p q ^ D := by positivity
    refine ⟨y, z, u, v, p, q, hy, hz, e1, f1, e2, f2, hd, ?_, ?_⟩
    · obtain ⟨g1, g2⟩ := b.terms s e3 f3 e4 f4
      unfold edgeProb
      rw [g1, g2, XR.div_fin _ _ (by positivity), b.alpha_eq, XR.pow_fin _ _ hratio]
    · apply Real.rpow_le_rpow hratio.le _ ha.le
      exact div_le_div₀ hb.wpos.le h5.le (pow_pos hb.rpos D) (pow_le_pow_left₀ hb.rpos.le h6 D)

/-! ### C23 -/

/-- C23.  For `alpha = 0` (and uniform random numbers below 1) every execution returns the complete graph. -/
theorem C23_complete_graph {D : Nat} {w : List ℝ} {x : List (Fin D → ℝ)} (s : SupportedInput D w x) (env : Env)
    (rng : Rng XR) (hgeo : GeoBounded rng) (hu : ∀ g, ∃ r, r < 1 ∧ (rng.uniform g).1 = XR.fin r) (gens : Nat → rng.G)
    (out : List (Nat × Nat)) (notice : Notice)
    (hg : GenerateEdges env rng gens (xw w) (xl x) (XR.fin 0) out notice) :
    IsGraphOf w.length (fun _ _ => True) out ∧ notice = .none :=
  graph_of_rule s (XR.fin 0) env rng hgeo gens _ (fun _ _ h => h) (fun T _ b =>
    ⟨b.decided_complete s rng (fun g => by obtain ⟨r, h1, h2⟩ := hu g; rw [h2]; simpa using h1), fun h => by
      have : T.isThreshold = false := by unfold Tree.isThreshold; rw [b.alpha_eq]; rfl
      rw [this] at h; exact absurd h.2 (by simp)⟩) hg

example : ∃ out notice, GenerateEdges (exampleEnv true) exampleRng (fun _ => ()) (xw [1, 1, 5])
    (xl [![0, 0], ![1 / 2, 1 / 4], ![7 / 8, 1 / 3]]) (XR.fin 0) out notice ∧ ((0, 1) ∈ out ∨ (1, 0) ∈ out) := by
  obtain ⟨⟨out, notice, h⟩, _⟩ := C17_simple_graph exampleInput (XR.fin 0) (exampleEnv true) exampleRng exampleRng_geo (fun _ => ())
  obtain ⟨⟨_, _, h3⟩, _⟩ := C23_complete_graph exampleInput _ _ exampleRng_geo
    (fun _ => ⟨1 / 2, by norm_num, rfl⟩) _ out notice h
  exact ⟨out, notice, h, (h3 0 1 (by norm_num) (by norm_num) (by norm_num)).2 trivial⟩

/-! ### C57 -/

/-- C57 (what holds).  In every type II call the lower bound of the distance term is at least the upper bound of the weight
term: the asserted condition with `>=` instead of `>`. -/
theorem C57_weak_bound {D : Nat} {ndebug : Bool} {w : List ℝ} {x : List (Fin D → ℝ)} {alpha : XR} {T : Tree XR D}
    (s : SupportedInput D w x) (hc : Constructed ndebug (xw w) (xp x) alpha T) {ts : List Task}
    (hts : visitCellPair T T.levels 0 0 0 = some ts) (t : Task) (ht : t ∈ ts) (h2 : t.two = true) :
    ∃ wu r : ℝ, T.wUpper t.i t.j = some (XR.fin wu) ∧ Coord.dist D t.cellA t.cellB t.level = some (XR.fin r) ∧ wu ≤ r ^ D := by
  obtain ⟨m, b⟩ := hc.builtX s
  have ok := b.ok
  have hon : OnLevel D 0 0 := ⟨by simp [levelStart], by simp [levelStart]⟩
  have hlev : T.levels - 1 + 1 = T.levels := by have := ok.levels_eq; omega
  have hv := ok.visit_eq (T.levels - 1) T.levels 0 0 0 (by omega) (by omega) hon hon
  rw [hlev, hts, Option.some.injEq] at hv
  subst hv
  obtain ⟨r, wu, hb⟩ := b.typeII s (visitP_ok _ _ _ _ hon hon t ht) h2
  exact ⟨wu, r, hb.wUpper, hb.dist, hb.wle⟩

/-- 16 nodes of weight 1 on a circle: one at 0, the others at 1/2 -/
theorem assertInput : SupportedInput 1 (List.replicate 16 1) ((fun _ => 0) :: List.replicate 15 (fun _ => 1 / 2)) := by
  have hsum : (List.replicate 16 (1 : ℝ)).sum = 16 := by rw [List.sum_replicate]; norm_num
  refine ⟨by norm_num, by norm_num, by simp, by simp, by simp, ?_, ?_, ?_, ?_, ?_⟩
  · intro u hu; rw [List.eq_of_mem_replicate hu]; norm_num
  · intro u hu; rw [List.eq_of_mem_replicate hu]; exact one_lt_pow₀ (by norm_num) (by norm_num)
  · intro p hp d
    rcases List.mem_cons.1 hp with rfl | hp
    · norm_num
    · rw [List.eq_of_mem_replicate hp]; norm_num
  · intro u hu; rw [List.eq_of_mem_replicate hu, hsum]; norm_num
  · intro u hu v hv; rw [List.eq_of_mem_replicate hu, List.eq_of_mem_replicate hv]; norm_num

/-- C57 (what fails).  The debug assertion `dist_lower_bound > w_upper_bound` of type II sampling can fire: for these 16
nodes the recursion calls `sampleTypeII` for the cells [0,1/4) and [1/2,3/4), both non-empty, and there
`dist_lower_bound = w_upper_bound = 1/4`.  A debug build aborts on this input; a release build is not affected. -/
theorem C57_assertion_can_fire {ndebug : Bool} {a : ℝ} {T : Tree XR 1}
    (hc : Constructed ndebug (xw (List.replicate 16 1)) (xp ((fun _ => 0) :: List.replicate 15 (fun _ => 1 / 2))) (XR.fin a) T) :
    ∃ ts, visitCellPair T T.levels 0 0 0 = some ts ∧ ∃ t ∈ ts, t.two = true ∧ T.assertBound t = some false := by
  obtain ⟨m, b⟩ := hc.builtX assertInput
  have ok := b.ok
  have hsum : (List.replicate 16 (1 : ℝ)).sum = 16 := by rw [List.sum_replicate]; norm_num
  obtain rfl : m = 1 := List.eq_of_mem_replicate b.mem
  have hb0 := b.blc_nonneg (by rw [hsum]; norm_num)
  obtain ⟨N, hN⟩ : ∃ N : Nat, T.blc = N := ⟨T.blc.toNat, by omega⟩
  have hblc : T.blc = 4 := by
    have h1 := b.blc_high hb0
    have h2 := b.blc_low
    rw [hsum, hN] at h1 h2
    have h1' : (16 : ℝ) < 2 ^ (N + 1) := by
      have e : (2 : ℝ) ^ ((N : ℤ) + 1) = 2 ^ (N + 1) := by rw [← zpow_natCast]; push_cast; rfl
      rw [e] at h1; simpa using h1
    have h3 : 3 < N := by
      by_contra hc
      have : (2 : ℝ) ^ (N + 1) ≤ 2 ^ 4 := pow_le_pow_right₀ (by norm_num) (by omega)
      norm_num at this
      linarith
    have h4 : (2 : ℝ) ^ N ≤ 16 := by
      have := h2 (by omega)
      rw [zpow_natCast] at this
      simpa using this
    have h5 : N < 5 := by
      by_contra hc
      have : (2 : ℝ) ^ 5 ≤ 2 ^ N := pow_le_pow_right₀ (by norm_num) (by omega)
      norm_num at this
      linarith
    omega
  have hlayers : T.layers = 1 := by
    obtain ⟨u, hu, h1⟩ := b.layers_top
    rw [List.eq_of_mem_replicate hu, mul_one] at h1
    have := b.layers_pos
    by_contra hc
    have : (2 : ℝ) ^ 1 ≤ 2 ^ (T.layers - 1) := pow_le_pow_right₀ (by norm_num) (by omega)
    norm_num at this
    linarith
  have hlevels : T.levels = 3 := by rw [ok.levels_eq, hblc]; rfl
  have hth : T.isThreshold = false := by unfold Tree.isThreshold; rw [b.alpha_eq]; rfl
  have hon : OnLevel 1 0 0 := ⟨by simp [levelStart], by simp [levelStart]⟩
  have hv := ok.visit_eq (T.levels - 1) T.levels 0 0 0 (by omega) (by omega) hon hon
  rw [show T.levels - 1 + 1 = T.levels by omega] at hv
  have lp2 : (0, 0) ∈ layPairs T 2 := by
    unfold layPairs allLayerPairs; rw [hlayers, hblc]; decide
  set t : Task := ⟨true, 3, 5, 2, 0, 0⟩ with ht
  have hmem : t ∈ visitP T T.levels 0 0 0 := by
    rw [hlevels]
    have t00 : touchB 1 0 0 0 = true := by decide
    have t12 : touchB 1 1 1 2 = true := by decide
    have t35 : touchB 1 2 3 5 = false := by decide
    unfold visitP
    rw [t00]
    simp only [Bool.true_eq_false, if_false, List.mem_append]
    right
    simp only [show (2 : Nat) ≠ 0 by norm_num, if_false, List.mem_flatMap]
    refine ⟨(1, 2), mem_kids.2 (by norm_num), ?_⟩
    unfold visitP
    simp only [t12, Bool.true_eq_false, if_false, List.mem_append]
    right
    simp only [show (1 : Nat) ≠ 0 by norm_num, if_false, List.mem_flatMap]
    refine ⟨(3, 5), mem_kids.2 (by norm_num), ?_⟩
    unfold visitP
    simp only [t35, if_true]
    unfold tasksII
    simp only [hth, Bool.and_false, Bool.false_eq_true, if_false, List.mem_flatMap, List.mem_map]
    refine ⟨2, ?_, (0, 0), lp2, rfl⟩
    rw [hlevels]; decide
  refine ⟨_, hv, t, hmem, rfl, ?_⟩
  have htok := visitP_ok _ _ _ _ hon hon t hmem
  obtain ⟨ra, rb, hr⟩ := ok.ranges_ok htok
  have htl : 2 ≤ weightLayerTargetLevel 1 T.blc (0 : Nat) := by rw [hblc]; decide
  have hnode : ∀ k : Nat, k < 16 → ∃ (p : Nat) (y : Node XR 1), T.nodes[p]? = some y ∧ y.index = k := by
    intro k hk
    obtain ⟨p, hp, e⟩ := ok.idx_surj (u := k) (by rw [b.n_eq]; simpa using hk)
    have hp' : p < T.nodes.length := by rw [ok.length_nodes]; exact hp
    refine ⟨p, _, List.getElem?_eq_getElem hp', ?_⟩
    rw [← e, Tree.idx_eq (List.getElem?_eq_getElem hp')]
  have g3 : gridCoord 1 2 3 0 = 0 := by decide
  have g5 : gridCoord 1 2 5 0 = 2 := by decide
  have hA : ra.1 ≠ ra.2 := by
    obtain ⟨p, y, hy, hi⟩ := hnode 0 (by norm_num)
    have : InLC T y t.i t.level t.cellA := by
      refine (b.inLC_iff assertInput (List.mem_of_getElem? hy) (u := 1) (q := fun _ => 0) (by rw [hi]; rfl) (by rw [hi]; rfl)
        (by rw [hlayers]; decide) htl htok.hA).2 ⟨by norm_num [ht], by norm_num [ht], ?_⟩
      intro d
      obtain rfl : d = 0 := Subsingleton.elim _ _
      show ((gridCoord 1 2 3 0 : Nat) : ℝ) / 2 ^ 2 ≤ 0 ∧ (0 : ℝ) < (((gridCoord 1 2 3 0 : Nat) : ℝ) + 1) / 2 ^ 2
      rw [g3]; norm_num
    have := (hr.memA p y hy).2 this
    omega
  have hB : rb.1 ≠ rb.2 := by
    obtain ⟨p, y, hy, hi⟩ := hnode 1 (by norm_num)
    have : InLC T y t.j t.level t.cellB := by
      refine (b.inLC_iff assertInput (List.mem_of_getElem? hy) (u := 1) (q := fun _ => 1 / 2) (by rw [hi]; rfl) (by rw [hi]; rfl)
        (by rw [hlayers]; decide) htl htok.hB).2 ⟨by norm_num [ht], by norm_num [ht], ?_⟩
      intro d
      obtain rfl : d = 0 := Subsingleton.elim _ _
      show ((gridCoord 1 2 5 0 : Nat) : ℝ) / 2 ^ 2 ≤ 1 / 2 ∧ (1 / 2 : ℝ) < (((gridCoord 1 2 5 0 : Nat) : ℝ) + 1) / 2 ^ 2
      rw [g5]; norm_num
    have := (hr.memB p y hy).2 this
    omega
  unfold Tree.assertBound
  rw [obind hr.eq]
  simp only [hA, hB, or_self, if_false]
  have hw : T.wUpper t.i t.j = some (XR.fin (1 / 4)) := by
    unfold Tree.wUpper
    rw [obind (Coord.shl1_eq (show t.i + 1 ≤ 30 by decide)), obind (Coord.shl1_eq (show t.j + 1 ≤ 30 by decide)), b.w0, b.W, hsum]
    simp only [XR.ofInt_eq, XR.mul_fin]
    rw [XR.div_fin _ _ (by norm_num)]
    norm_num [ht]
  have hd : Coord.dist 1 t.cellA t.cellB t.level = some (XR.fin (1 / 4)) := by
    rw [dist_eq le_rfl (by norm_num) (by decide) htok.hA htok.hB]
    have e : (List.finRange 1).foldl (fun r (d : Fin 1) => max r (ringDist 2 (gridCoord 1 2 3 d) (gridCoord 1 2 5 d))) 0 = 2 := by decide
    rw [e]
    norm_num
  rw [obind hw, obind hd, C09_pow_to_the]
  simp

example : ∃ T : Tree XR 1, Constructed false (xw (List.replicate 16 1)) (xp ((fun _ => 0) :: List.replicate 15 (fun _ => 1 / 2))) (XR.fin 2) T :=
  constructedX_exists false (XR.fin 2) assertInput 4 (by norm_num) (by norm_num)

end Girgs.Props
