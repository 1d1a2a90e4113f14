import Verif.Proofs.AssertLevels
/-
The assertions evaluated by the sampling calls hold in exact arithmetic, except possibly the one in line 245.
-/
namespace Girgs
open CFloat Tree Spec

section visit
variable {F : Type} [CFloat F] {D : Nat} {T : Tree F D}

/-- type I calls are made on the level of their layer pair -/
theorem visitP_level : ∀ (k A B l : Nat), ∀ t ∈ visitP T k A B l, t.two = false →
    partitioningBaseLevel D T.blc t.i t.j = t.level := by
  intro k
  induction k with
  | zero => intro A B l t ht; simp [visitP] at ht
  | succ k ih =>
    intro A B l t ht h2
    unfold visitP at ht
    split at ht
    · obtain ⟨_, h1, _⟩ := mem_tasksII.1 ht
      rw [h1] at h2; cases h2
    · rw [List.mem_append] at ht
      rcases ht with ht | ht
      · obtain ⟨_, _, _, e, _, _, h4, _⟩ := mem_tasksI.1 ht
        rw [e]; exact h4
      · split at ht
        · cases ht
        · obtain ⟨p, hp, ht⟩ := List.mem_flatMap.1 ht
          exact ih _ _ _ t ht h2

theorem TreeOK.level_lt (ok : TreeOK T) {t : Task} (ht : TaskOK T t) : t.level < T.levels := by
  have := ht.hl
  have := pbl_le_zero (D := D) (blc := T.blc) t.i t.j
  rw [ok.levels_eq]; omega

theorem TreeOK.levelled_checks' (ok : TreeOK T) {i l A : Nat} (hi : i < T.layers) (hl : l ≤ weightLayerTargetLevel D T.blc i)
    (hd : D * (l + 1) ≤ 31) (hA : OnLevel D l A) :
    ∃ L, Asserts.levelledCell D ⟨weightLayerTargetLevel D T.blc i, layerOff D T.blc i⟩ A l = some L ∧ AllHold L := by
  obtain ⟨h1, _, h3⟩ := levelledCell_eq (o := layerOff D T.blc i) ok.D1 ok.D5 (ok.target_depth hi) hl hA
  have hd' : D * l ≤ 31 := le_trans (Nat.mul_le_mul_left _ (by omega)) hd
  have hD5 := ok.D5
  refine ⟨[Asserts.layer 107 (decide (l ≤ weightLayerTargetLevel D T.blc i)),
    Asserts.layer 108 (decide (levelStart D l ≤ A ∧ A < levelStart D (l + 1))), Asserts.layer 118 (decide ((A - levelStart D l) * 2 ^ (D * (weightLayerTargetLevel D T.blc i - l)) ≤
      (A - levelStart D l) * 2 ^ (D * (weightLayerTargetLevel D T.blc i - l)) + 2 ^ (D * (weightLayerTargetLevel D T.blc i - l)) - 1))], ?_, ?_⟩
  · unfold Asserts.levelledCell
    refine (obind (Coord.firstCellOfLevel_eq ok.D1 (by omega) hd') _).trans ?_
    refine (obind (Coord.firstCellOfLevel_eq ok.D1 (by omega) hd) _).trans ?_
    refine (obind h1 _).trans ?_
    rfl
  · intro c hc
    simp only [List.mem_cons, List.not_mem_nil, or_false] at hc
    rcases hc with rfl | rfl | rfl
    · simpa [Asserts.layer] using hl
    · exact decide_eq_true (show levelStart D l ≤ A ∧ A < levelStart D (l + 1) from hA)
    · simp only [Asserts.layer, decide_eq_true_eq]; omega

theorem TreeOK.levelled_checks (ok : TreeOK T) {i l A : Nat} (hi : i < T.layers) (hl : l ≤ weightLayerTargetLevel D T.blc i)
    (hlev : l < T.levels) (hA : OnLevel D l A) :
    ∃ L, Asserts.levelledCell D ⟨weightLayerTargetLevel D T.blc i, layerOff D T.blc i⟩ A l = some L ∧ AllHold L :=
  ok.levelled_checks' hi hl (ok.depth_le hlev) hA

theorem TreeOK.iterator_checks (ok : TreeOK T) {i l A : Nat} (hi : i < T.layers) (hl : l ≤ weightLayerTargetLevel D T.blc i)
    (hlev : l < T.levels) (hA : OnLevel D l A) :
    ∃ L, Asserts.cellIterators D T.firstInCell ⟨weightLayerTargetLevel D T.blc i, layerOff D T.blc i⟩ A l = some L ∧ AllHold L := by
  obtain ⟨L, h1, h2⟩ := ok.levelled_checks hi hl hlev hA
  obtain ⟨b, e, h3, h4, _⟩ := ok.cellIterators_spec hi hl hA
  refine ⟨_, ?_, h2.append (M := [Asserts.layer 100 (decide (b ≤ e))]) ?_⟩
  · unfold Asserts.cellIterators
    refine (obind h1 _).trans ?_
    refine (obind h3 _).trans ?_
    rfl
  · intro c hc
    simp only [List.mem_cons, List.not_mem_nil, or_false] at hc
    subst hc
    simpa [Asserts.layer] using h4

theorem TreeOK.range_checks (ok : TreeOK T) {t : Task} (ht : TaskOK T t) : ∃ L, T.rangeChecks t = some L ∧ AllHold L := by
  have hlev := ok.level_lt ht
  obtain ⟨L, h1, h2⟩ := ok.iterator_checks ht.hi (le_trans ht.hl (pbl_le_target_left _ _)) hlev ht.hA
  obtain ⟨L', h3, h4⟩ := ok.iterator_checks ht.hj (le_trans ht.hl (pbl_le_target_right _ _)) hlev ht.hB
  refine ⟨_, ?_, h2.append h4⟩
  unfold Tree.rangeChecks
  refine (obind (ok.rd_weightLayers ht.hi) _).trans ?_
  refine (obind (ok.rd_weightLayers ht.hj) _).trans ?_
  refine (obind h1 _).trans ?_
  refine (obind h3 _).trans ?_
  rfl

/-- the ranges are those of `cellIterators` -/
theorem RangesOK.iters (ok : TreeOK T) {t : Task} (ht : TaskOK T t) {ra rb : Nat × Nat} (h : RangesOK T t ra rb) :
    WeightLayer.cellIterators D T.firstInCell ⟨weightLayerTargetLevel D T.blc t.i, layerOff D T.blc t.i⟩ t.cellA t.level = some ra ∧
    WeightLayer.cellIterators D T.firstInCell ⟨weightLayerTargetLevel D T.blc t.j, layerOff D T.blc t.j⟩ t.cellB t.level = some rb := by
  have e := h.eq
  unfold Tree.ranges at e
  rw [obind (ok.rd_weightLayers ht.hi), obind (ok.rd_weightLayers ht.hj)] at e
  simp only [Option.bind_eq_bind, Option.bind_eq_some_iff, Option.some.injEq, Prod.mk.injEq] at e
  obtain ⟨a, h1, b, h2, rfl, rfl⟩ := e
  exact ⟨h1, h2⟩

/-- `kthPoint` is the `k`-th node of the range of `cellIterators` -/
theorem kthPoint_eq {wl : WeightLayer} {cell level : Nat} {ra : Nat × Nat}
    (h : wl.cellIterators D T.firstInCell cell level = some ra) (k : Nat) :
    wl.kthPoint D T.nodes T.firstInCell cell level k = rd T.nodes (ra.1 + k) := by
  unfold WeightLayer.cellIterators at h
  simp only [Option.bind_eq_bind, Option.bind_eq_some_iff, Option.some.injEq] at h
  obtain ⟨be, h1, b, h2, e, _, rfl⟩ := h
  unfold WeightLayer.kthPoint
  rw [obind h1, obind h2]

end visit

section exact
variable {D : Nat} {ndebug : Bool} {w : List ℝ} {x : List (Fin D → ℝ)} {alpha : XR} {T : Tree XR D} {m : ℝ}

theorem BuiltX.levelFacts (b : BuiltX D ndebug w x alpha T m) (s : SupportedInput D w x) :
    LevelFacts D T.w0 T.W T.blc T.layers T.levels :=
  ⟨⟨m, w.sum, b.m_pos s, b.W_pos s, b.w0, b.W, b.blc_low, b.blc_high, b.blc_nonneg⟩, b.ok.D1, b.ok.levels_eq⟩

/-- the coordinates `cellForPoint` passes to `deposit` are small enough for its assertions -/
theorem cellForPoint_checks {l : Nat} (h1 : 1 ≤ D) (h30 : l ≤ 30) (hl : D * l ≤ 31) (p : Fin D → ℝ) (hp : ∀ d, 0 ≤ p d ∧ p d < 1) :
    ∃ L, Asserts.cellForPoint D (fun d => XR.fin (p d)) l = some L ∧ AllHold L := by
  have hN : (0 : ℝ) < 2 ^ l := by positivity
  have hN' : (2 : ℝ) ^ l ≤ 2 ^ 30 := pow_le_pow_right₀ (by norm_num) h30
  have h : ∀ d, CFloat.toU32 (XR.fin (p d) *. CFloat.ofInt (2 ^ l : Int)) = some (gridOf l (p d)) := by
    intro d
    obtain ⟨h0, h1⟩ := hp d
    simp only [XR.ofInt_eq, XR.mul_fin]
    rw [XR.toU32_fin _ (by positivity)]
    · simp [gridOf]
    · push_cast
      have h2 : p d * 2 ^ l ≤ 1 * 2 ^ 30 := by
        apply mul_le_mul h1.le hN' hN.le (by norm_num)
      have h3 : (1 : ℝ) * 2 ^ 30 < 2 ^ 32 := by norm_num
      linarith
  refine ⟨Asserts.deposit D fun d => gridOf l (p d), ?_, ?_⟩
  · unfold Asserts.cellForPoint
    refine (obind (Coord.shl1_eq h30) _).trans ?_
    exact obind (tupleM_some h) _
  · have hg : ∀ d, gridOf l (p d) < 2 ^ l := fun d => gridOf_lt (hp d).1 (hp d).2
    unfold Asserts.deposit
    split
    · rename_i h2
      subst h2
      have : 2 ^ l ≤ 2 ^ 15 := Nat.pow_le_pow_right (by norm_num) (by omega)
      intro c hc
      obtain ⟨d, _, rfl⟩ := List.mem_map.1 hc
      have := hg d
      simp only [Asserts.bits, decide_eq_true_eq]; omega
    · split
      · rename_i _ h3
        subst h3
        have : 2 ^ l ≤ 2 ^ 10 := Nat.pow_le_pow_right (by norm_num) (by omega)
        intro c hc
        obtain ⟨d, _, rfl⟩ := List.mem_map.1 hc
        have := hg d
        simp only [Asserts.bits, decide_eq_true_eq]; split <;> omega
      · split
        · rename_i _ _ h4
          subst h4
          have : 2 ^ l ≤ 2 ^ 7 := Nat.pow_le_pow_right (by norm_num) (by omega)
          intro c hc
          obtain ⟨d, _, rfl⟩ := List.mem_map.1 hc
          have := hg d
          simp only [Asserts.bits, decide_eq_true_eq]; omega
        · exact allHold_nil

theorem toU32_layer {u : ℝ} (hm : 0 < m) {k : Nat} (hk : k ≤ 30) (h1 : 2 ^ k * m ≤ u) (h2 : u < 2 ^ (k + 1) * m) :
    toU32 (CFloat.log2 (XR.fin u /. XR.fin m)) = some k := by
  have hp : (1 : ℝ) ≤ 2 ^ k := one_le_pow₀ (by norm_num)
  have a1 : 2 ^ k ≤ u / m := (le_div_iff₀ hm).2 h1
  have a2 : u / m < 2 ^ (k + 1) := (div_lt_iff₀ hm).2 h2
  have hu1 : 1 ≤ u / m := le_trans hp a1
  have hl0 : 0 ≤ Real.logb 2 (u / m) := Real.logb_nonneg (by norm_num) hu1
  have hl1 : Real.logb 2 (u / m) < ((k + 1 : Nat) : ℝ) := logb_lt_nat (by linarith) a2
  have hk' : ((k + 1 : Nat) : ℝ) ≤ 31 := by exact_mod_cast (by omega : k + 1 ≤ 31)
  rw [XR.div_fin _ _ hm.ne', XR.log2_fin _ (by linarith), XR.toU32_fin _ hl0 (by norm_num; linarith), Option.some.injEq,
    floor_logb_iff hu1]
  exact ⟨a1, a2⟩

/-- the assertions about a node of a sampling call -/
theorem BuiltX.layer_check (b : BuiltX D ndebug w x alpha T m) (s : SupportedInput D w x) {i l A : Nat} (line : Nat)
    (hi : i < T.layers) (hl : l ≤ weightLayerTargetLevel D T.blc i) (hA : OnLevel D l A) {y : Node XR D} (hy : y ∈ T.nodes)
    (hin : InLC T y i l A) : T.layerCheck line i y = some (Asserts.tree line true) := by
  obtain ⟨u, q, k, hu, hq, hw, _⟩ := b.node y hy
  obtain ⟨h1, h2, _⟩ := (b.inLC_iff s hy hu hq hi hl hA).1 hin
  have hly := b.ok.layers_le
  unfold Tree.layerCheck
  rw [b.w0, hw, obind (toU32_layer (b.m_pos s) (by omega) h1 h2)]
  simp

theorem BuiltX.node_checks (b : BuiltX D ndebug w x alpha T m) (s : SupportedInput D w x) {i l A : Nat} (l1 l2 : Nat)
    (hi : i < T.layers) (hl : l ≤ weightLayerTargetLevel D T.blc i) (hlev : l < T.levels) (hA : OnLevel D l A)
    {ra : Nat × Nat} (hra : WeightLayer.cellIterators D T.firstInCell ⟨weightLayerTargetLevel D T.blc i, layerOff D T.blc i⟩ A l = some ra)
    {p : Nat} {y : Node XR D} (hp : ra.1 ≤ p) (hy : T.nodes[p]? = some y) (hin : InLC T y i l A) :
    ∃ L, T.nodeChecks l1 l2 ⟨weightLayerTargetLevel D T.blc i, layerOff D T.blc i⟩ A l (p - ra.1) y = some L ∧ AllHold L := by
  obtain ⟨u, q, k, hu, hq, hw, hc, _⟩ := b.node y (List.mem_of_getElem? hy)
  obtain ⟨_, _, hbox⟩ := (b.inLC_iff s (List.mem_of_getElem? hy) hu hq hi hl hA).1 hin
  have hqu := s.unit q (List.mem_of_getElem? hq)
  obtain ⟨L, h1, h2⟩ := b.ok.levelled_checks hi hl hlev hA
  have hd := b.ok.depth_le hlev
  have hd' : D * l ≤ 31 := le_trans (Nat.mul_le_mul_left _ (by omega)) hd
  have h30 : l ≤ 30 := by
    have := Nat.le_mul_of_pos_left (l + 1) b.ok.D1
    omega
  obtain ⟨M, h3, h4⟩ := cellForPoint_checks s.D1 h30 hd' q hqu
  have hD5 := s.D5
  have hA' : A = levelStart D l + (A - levelStart D l) := by have := hA.1; omega
  have hcell : A - levelStart D l = cellR D l q := by
    rw [cellR_unique s.D1 s.D5 (by omega) q hqu hA.local_lt, ← hA']; exact hbox
  have hsub : subU A (levelStart D l) = A - levelStart D l := subU_eq (Coord.onLevel_lt32 s.D1 hd' hA) hA.1
  have hk : WeightLayer.kthPoint D T.nodes T.firstInCell ⟨weightLayerTargetLevel D T.blc i, layerOff D T.blc i⟩ A l (p - ra.1) = some y := by
    rw [kthPoint_eq hra, show ra.1 + (p - ra.1) = p by omega]; exact hy
  have hcp : Coord.cellForPoint D y.coord l = some (cellR D l q) := by rw [hc]; exact cellForPoint_eq h30 q hqu
  have hcc : Asserts.cellForPoint D y.coord l = some M := by rw [hc]; exact h3
  refine ⟨L ++ M ++ [Asserts.tree l1 (decide (y.index = y.index)), Asserts.tree l2 (decide (subU A (levelStart D l) = cellR D l q))],
    ?_, (h2.append h4).append ?_⟩
  · unfold Tree.nodeChecks
    refine (obind h1 _).trans ?_
    refine (obind hk _).trans ?_
    refine (obind (Coord.firstCellOfLevel_eq s.D1 (by omega) hd') _).trans ?_
    refine (obind hcc _).trans ?_
    refine (obind hcp _).trans ?_
    rfl
  · intro c hc
    simp only [List.mem_cons, List.not_mem_nil, or_false] at hc
    rcases hc with rfl | rfl
    · simp [Asserts.tree]
    · simp [Asserts.tree, hsub, hcell]

theorem BuiltX.pair_checksI (b : BuiltX D ndebug w x alpha T m) (s : SupportedInput D w x) {t : Task} (ht : TaskOK T t)
    {ra rb : Nat × Nat} (hr : RangesOK T t ra rb) {c : Nat × Nat} (hc : c ∈ pairListI t ra rb) :
    ∃ L, T.pairChecksI t ra rb c = some L ∧ AllHold L := by
  have ok := b.ok
  obtain ⟨p, q⟩ := c
  obtain ⟨hp, hq, hlt⟩ := hr.mem_pairListI.1 hc
  have hlev := ok.level_lt ht
  have hpn : p < T.nodes.length := by rw [ok.length_nodes]; have := hr.nA; omega
  have hqn : q < T.nodes.length := by rw [ok.length_nodes]; have := hr.nB; omega
  have ep : T.nodes[p]? = some T.nodes[p] := List.getElem?_eq_getElem hpn
  have eq : T.nodes[q]? = some T.nodes[q] := List.getElem?_eq_getElem hqn
  have inA := (hr.memA _ _ ep).1 hp
  have inB := (hr.memB _ _ eq).1 hq
  have hlA := le_trans ht.hl (pbl_le_target_left (D := D) (blc := T.blc) t.i t.j)
  have hlB := le_trans ht.hl (pbl_le_target_right (D := D) (blc := T.blc) t.i t.j)
  obtain ⟨iA, iB⟩ := hr.iters ok ht
  obtain ⟨L, h1, h2⟩ := b.node_checks s 195 199 ht.hi hlA hlev ht.hA iA hp.1 ep inA
  obtain ⟨M, h3, h4⟩ := b.node_checks s 196 200 ht.hj hlB hlev ht.hB iB hq.1 eq inB
  have h5 := b.layer_check s 203 ht.hi hlA ht.hA (List.mem_of_getElem? ep) inA
  have h6 := b.layer_check s 204 ht.hj hlB ht.hB (List.mem_of_getElem? eq) inB
  have hne : T.nodes[p].index ≠ T.nodes[q].index := by
    intro h
    have hpq : p = q := ok.idx_inj (by rw [← ok.length_nodes]; exact hpn) (by rw [← ok.length_nodes]; exact hqn)
      (by rw [Tree.idx_eq ep, Tree.idx_eq eq]; exact h)
    subst hpq
    have e1 := inA.layer_eq inB
    have e2 := inA.cell_eq inB
    have := hlt ⟨e2, e1⟩
    omega
  refine ⟨L ++ M ++ [Asserts.tree 203 true, Asserts.tree 204 true, Asserts.tree 206 (decide (T.nodes[p].index ≠ T.nodes[q].index))], ?_,
    (h2.append h4).append ?_⟩
  · unfold Tree.pairChecksI
    refine (obind (a := T.nodes[p]) ep _).trans ?_
    refine (obind (a := T.nodes[q]) eq _).trans ?_
    refine (obind (ok.rd_weightLayers ht.hi) _).trans ?_
    refine (obind (ok.rd_weightLayers ht.hj) _).trans ?_
    refine (obind h1 _).trans ?_
    refine (obind h3 _).trans ?_
    refine (obind h5 _).trans ?_
    refine (obind h6 _).trans ?_
    rfl
  · intro c hc
    simp only [List.mem_cons, List.not_mem_nil, or_false] at hc
    rcases hc with rfl | rfl | rfl
    · rfl
    · rfl
    · simp [Asserts.tree, hne]

/-- type I calls: all assertions hold -/
theorem BuiltX.checksI (b : BuiltX D ndebug w x alpha T m) (s : SupportedInput D w x) {t : Task} (ht : TaskOK T t)
    (hlev : partitioningBaseLevel D T.blc t.i t.j = t.level ∨ t.two = true) :
    ∃ L, T.checksI t = some L ∧ AllHold L := by
  have ok := b.ok
  obtain ⟨L, h1, h2⟩ := ok.range_checks ht
  obtain ⟨ra, rb, hr⟩ := ok.ranges_ok ht
  have hd := ok.depth_le (ok.level_lt ht)
  have htouch : Coord.touching D t.cellA t.cellB t.level = some (touchB D t.level t.cellA t.cellB) := by
    rw [Coord.touching_eq ok.D1 ok.D5 hd ht.hA ht.hB]; rfl
  obtain ⟨P, h3, h4⟩ := AllHold.concatM (L := pairListI t ra rb) fun c hc => b.pair_checksI s ht hr hc
  have hown : AllHold (T.baseChecks t.i t.j ++ [Asserts.tree 161 (decide (partitioningBaseLevel D T.blc t.i t.j = t.level) ||
      !touchB D t.level t.cellA t.cellB)] ++ L) := by
    refine (AllHold.append ((b.levelFacts s).base ht.hi ht.hj) ?_).append h2
    intro c hc
    simp only [List.mem_cons, List.not_mem_nil, or_false] at hc
    subst hc
    rcases hlev with h | h
    · simp [Asserts.tree, h]
    · simp [Asserts.tree, (ht.two h).2]
  unfold Tree.checksI
  rw [obind htouch, obind h1, obind hr.eq]
  simp only
  split
  · exact ⟨_, rfl, hown⟩
  · rw [obind hr.pairsI_eq, obind h3]
    exact ⟨_, rfl, hown.append h4⟩

/-- the pairs drawn by a type II call -/
theorem BuiltX.pair_checksII (b : BuiltX D ndebug w x alpha T m) (s : SupportedInput D w x) {t : Task} (ht : TaskOK T t)
    {r wu : ℝ} (hb : BoundsII D w x T t r wu) {y z : Node XR D} (hy : y ∈ T.nodes) (hz : z ∈ T.nodes)
    (inA : InLC T y t.i t.level t.cellA) (inB : InLC T z t.j t.level t.cellB) :
    ∃ L, T.pairChecksII t (XR.fin wu) (XR.fin r) y z = some L ∧ AllHold L := by
  obtain ⟨u, p, k, hu, hp, hw, hc, _⟩ := b.node y hy
  obtain ⟨v, q, k', hv, hq, hw', hc', _⟩ := b.node z hz
  have hlA := le_trans ht.hl (pbl_le_target_left (D := D) (blc := T.blc) t.i t.j)
  have hlB := le_trans ht.hl (pbl_le_target_right (D := D) (blc := T.blc) t.i t.j)
  obtain ⟨e1, e2⟩ := b.terms s hw hw' hc hc'
  obtain ⟨h1, h2⟩ := hb.pair y hy z hz u v p q hu hv hp hq inA inB
  unfold Tree.pairChecksII
  rw [obind (b.layer_check s 279 ht.hi hlA ht.hA hy inA), obind (b.layer_check s 280 ht.hj hlB ht.hB hz inB), e1, e2,
    Props.C09_pow_to_the, XR.fle_fin]
  refine ⟨_, rfl, ?_⟩
  intro c hc
  simp only [List.mem_cons, List.not_mem_nil, or_false] at hc
  rcases hc with rfl | rfl | rfl | rfl
  · rfl
  · rfl
  · exact XR.lt_fin _ _ ▸ decide_eq_true h1
  · exact decide_eq_true (pow_le_pow_left₀ hb.rpos.le h2 D)

end exact
end Girgs
