import Verif.Proofs.BuiltX
/-
C12, C13, C14: the data structure built by the constructor.
-/
namespace Girgs.Props
open Spec Build

/-! ### C12 -/

/-- C12.  The index array over `M` cells for nodes with the given cell ids (already sorted by cell id), built with any
number of threads: no order of the marking writes and no schedule of the repair loops leads to an undefined access;
executions run to their end; and in every execution entry `c` is the number of nodes with cell id below `c`. -/
theorem C12_index (M threads : Nat) (cells : List Nat) (hs : cells.Pairwise (· ≤ ·)) (hlt : ∀ c ∈ cells, c < M)
    (h1 : 1 ≤ cells.length) (hn : cells.length < 2147483648) (hM : M < 2147483648) (ht1 : 1 ≤ threads)
    (ht : threads < 2147483648) :
    IndexSafe M threads cells ∧ (∃ out, IndexRun M threads cells out) ∧
      ∀ out, IndexRun M threads cells out → out.length = M + 1 ∧
        ∀ c, c ≤ M → out[c]? = some (cells.filter fun x => x < c).length := by
  have hc : Cells M cells := ⟨hs, hlt, h1, by omega, hM⟩
  refine ⟨hc.indexSafe ht1 ht, hc.indexRun_exists ht1 ht, ?_⟩
  intro out hr
  rw [hc.indexRun ht1 ht hr]
  refine ⟨by simp, ?_⟩
  intro c hcM
  rw [List.getElem?_map, List.getElem?_range (by omega)]
  simp [fin, List.countP_eq_length_filter]

/-- hypotheses of C12 at work: five nodes in cells 0, 2, 2, 5, 9 of 10 cells, with 4 threads -/
example : ∃ out, IndexRun 10 4 [0, 2, 2, 5, 9] out ∧ out[3]? = some 3 ∧ out[6]? = some 4 ∧ out[10]? = some 5 := by
  obtain ⟨_, ⟨out, h⟩, hall⟩ := C12_index 10 4 [0, 2, 2, 5, 9] (by decide) (by decide) (by decide) (by decide)
    (by decide) (by decide) (by decide)
  obtain ⟨_, h2⟩ := hall out h
  exact ⟨out, h, (h2 3 (by decide)).trans (by decide), (h2 6 (by decide)).trans (by decide), (h2 10 (by decide)).trans (by decide)⟩

/-- C12 for a constructed data structure: the nodes are a permutation of the input nodes, sorted by cell id, and the
index array has, for every cell id `c` up to the number of cells, the number of nodes in smaller cells. -/
theorem C12_constructed {D : Nat} {ndebug : Bool} {w : List ℝ} {x : List (Fin D → ℝ)} {alpha : XR} {T : Tree XR D}
    (s : SupportedInput D w x) (hc : Constructed ndebug (xw w) (xp x) alpha T) :
    (T.nodes.map Node.index).Perm (List.range w.length) ∧
    (∀ y ∈ T.nodes, (xw w)[y.index]? = some y.weight ∧ (xp x)[y.index]? = some y.coord) ∧
    (T.nodes.map Node.cellId).Pairwise (· ≤ ·) ∧
    (∀ y ∈ T.nodes, y.cellId + 1 < T.firstInCell.length) ∧
    ∀ c, c < T.firstInCell.length → T.firstInCell[c]? = some (T.nodes.filter fun y => y.cellId < c).length := by
  obtain ⟨m, b⟩ := hc.builtX s
  have hlen : T.firstInCell.length = layerOff D T.blc T.layers + 1 := by rw [b.ok.first_eq]; simp
  refine ⟨by rw [← b.n_eq]; exact b.ok.index_perm, ?_, b.ok.sorted, ?_, ?_⟩
  · intro y hy
    obtain ⟨u, q, k, h1, h2, h3, h4, _⟩ := b.node y hy
    simp [xw, xp, h1, h2, h3, h4]
  · intro y hy
    have := b.ok.cell_lt y hy
    omega
  · intro c hc
    have := b.ok.rd_first (c := c) (by omega)
    rw [rd, List.countP_map] at this
    rw [this, List.countP_eq_length_filter]
    rfl

/-! ### C13 -/

/-- C13.  In the data structure built from supported input, for every weight layer `i`, every level `l` up to the target
level of that layer and every cell `A` of level `l`: `cellIterators` returns a range `[b,e)` of node positions; a node
(with input weight `u` and input position `q`) is in the range iff `2^i*w0 ≤ u < 2^(i+1)*w0` and `q` lies in the box of
`A`; `pointsInCell` is the length of the range and `kthPoint` its `k`-th element. -/
theorem C13_layers_hand_out {D : Nat} {ndebug : Bool} {w : List ℝ} {x : List (Fin D → ℝ)} {alpha : XR} {T : Tree XR D}
    (s : SupportedInput D w x) (hc : Constructed ndebug (xw w) (xp x) alpha T)
    {m : ℝ} (hm : m ∈ w) (hmin : ∀ u ∈ w, m ≤ u) (i l A : Nat) (wl : WeightLayer) (hi : T.weightLayers[i]? = some wl)
    (hl : l ≤ wl.target) (hA : OnLevel D l A) :
    ∃ b e, wl.cellIterators D T.firstInCell A l = some (b, e) ∧ b ≤ e ∧ e ≤ w.length ∧
      (∀ p y u q, T.nodes[p]? = some y → w[y.index]? = some u → x[y.index]? = some q →
        (b ≤ p ∧ p < e ↔ 2 ^ i * m ≤ u ∧ u < 2 ^ (i + 1) * m ∧ InBox D l A q)) ∧
      wl.pointsInCell D T.firstInCell A l = some (e - b) ∧
      ∀ k, k < e - b → wl.kthPoint D T.nodes T.firstInCell A l k = T.nodes[b + k]? ∧ (T.nodes[b + k]?).isSome := by
  obtain ⟨m', b⟩ := hc.builtX s
  obtain rfl : m = m' := le_antisymm (hmin m' b.mem) (b.min m hm)
  have hil : i < T.layers := by
    have h := (List.getElem?_eq_some_iff.1 hi).1
    rw [b.ok.weightLayers_eq] at h; simpa using h
  have hwl := b.ok.rd_weightLayers hil
  rw [rd, hi, Option.some.injEq] at hwl
  subst hwl
  obtain ⟨b', e', h1, h2, h3, h4⟩ := b.ok.cellIterators_spec hil hl hA
  refine ⟨b', e', h1, h2, by rw [← b.n_eq]; exact h3, ?_, ?_, ?_⟩
  · intro p y u q hp hu hq
    rw [h4 p y hp]
    exact b.inLC_iff s (List.mem_of_getElem? hp) hu hq hil hl hA
  · unfold WeightLayer.cellIterators at h1
    unfold WeightLayer.pointsInCell
    cases e1 : WeightLayer.levelledCell D ⟨weightLayerTargetLevel D T.blc i, layerOff D T.blc i⟩ A l with
    | none => rw [e1] at h1; cases h1
    | some be =>
      simp only [e1, Option.bind_eq_bind, Option.bind_some] at h1 ⊢
      cases e2 : rd T.firstInCell (layerOff D T.blc i + be.1) with
      | none => rw [e2] at h1; cases h1
      | some b2 =>
        cases e3 : rd T.firstInCell (layerOff D T.blc i + u32 (be.2 + 1)) with
        | none => rw [e2, e3] at h1; cases h1
        | some e4 =>
          simp only [e2, e3, Option.bind_some, Option.some.injEq, Prod.mk.injEq] at h1 ⊢
          obtain ⟨rfl, rfl⟩ := h1
          exact subU_eq (by have := b.ok.small; omega) h2
  · intro k hk
    have hlt : b' + k < T.nodes.length := by rw [b.ok.length_nodes]; omega
    refine ⟨?_, by rw [List.getElem?_eq_getElem hlt]; rfl⟩
    unfold WeightLayer.cellIterators at h1
    unfold WeightLayer.kthPoint
    cases e1 : WeightLayer.levelledCell D ⟨weightLayerTargetLevel D T.blc i, layerOff D T.blc i⟩ A l with
    | none => rw [e1] at h1; cases h1
    | some be =>
      simp only [e1, Option.bind_eq_bind, Option.bind_some] at h1 ⊢
      cases e2 : rd T.firstInCell (layerOff D T.blc i + be.1) with
      | none => rw [e2] at h1; cases h1
      | some b2 =>
        cases e3 : rd T.firstInCell (layerOff D T.blc i + u32 (be.2 + 1)) with
        | none => rw [e2, e3] at h1; cases h1
        | some e4 =>
          simp only [e2, e3, Option.bind_some, Option.some.injEq, Prod.mk.injEq] at h1 ⊢
          obtain ⟨rfl, rfl⟩ := h1
          rfl

/-! ### C14 -/

/-- `pbl > 0` bounds `D * pbl` -/
theorem pbl_mul_le {D : Nat} {blc : Int} {i j : Nat} (h : 0 < partitioningBaseLevel D blc i j) :
    ((D * partitioningBaseLevel D blc i j : Nat) : Int) ≤ blc - i - j - 2 := by
  have hpos : 0 ≤ blc - (i : Int) - j - 2 := by
    by_contra hc
    have h0 := Int.tdiv_nonneg (a := -(blc - (i : Int) - j - 2)) (b := (D : Int)) (by omega) (Int.natCast_nonneg D)
    rw [Int.neg_tdiv] at h0
    have : partitioningBaseLevel D blc i j = 0 := by
      unfold partitioningBaseLevel cdiv imax
      split <;> omega
    omega
  have h1 := Int.tdiv_nonneg hpos (Int.natCast_nonneg D)
  have e : (partitioningBaseLevel D blc i j : Int) = (blc - (i : Int) - j - 2).tdiv D := by
    unfold partitioningBaseLevel cdiv
    rw [Coord.imax_eq, Int.toNat_of_nonneg (by omega), max_eq_left h1]
  push_cast
  rw [e]
  exact Int.mul_tdiv_self_le hpos

theorem volume_bound {D : Nat} {ndebug : Bool} {w : List ℝ} {x : List (Fin D → ℝ)} {alpha : XR} {T : Tree XR D} {m : ℝ}
    (s : SupportedInput D w x) (b : BuiltX D ndebug w x alpha T m) {i j : Nat}
    (h : 0 < partitioningBaseLevel D T.blc i j) {u v : ℝ} (hu0 : 0 < u) (hv0 : 0 < v) (hu : u < 2 ^ (i + 1) * m) (hv : v < 2 ^ (j + 1) * m) :
    u * v / w.sum < ((1 / 2) ^ partitioningBaseLevel D T.blc i j) ^ D := by
  have hm := b.m_pos s
  have h1 := pbl_mul_le h
  have hDl : 0 < D * partitioningBaseLevel D T.blc i j := Nat.mul_pos s.D1 h
  have hblc : 0 < T.blc := by omega
  have hlow := b.blc_low hblc
  obtain ⟨N, hN⟩ : ∃ N : Nat, T.blc = N := ⟨T.blc.toNat, by omega⟩
  rw [hN, zpow_natCast] at hlow
  set l := partitioningBaseLevel D T.blc i j with hl
  have hN2 : D * l + (i + 1) + (j + 1) ≤ N := by omega
  have hW : 0 < w.sum := lt_of_lt_of_le (by positivity) hlow
  rw [← pow_mul, Nat.mul_comm l D, one_div, inv_pow, div_lt_iff₀ hW, ← div_eq_inv_mul, lt_div_iff₀ (by positivity)]
  calc u * v * 2 ^ (D * l) < (2 ^ (i + 1) * m) * (2 ^ (j + 1) * m) * 2 ^ (D * l) := by
        apply mul_lt_mul_of_pos_right _ (by positivity)
        exact mul_lt_mul hu hv.le hv0 (by positivity)
    _ = 2 ^ (D * l + (i + 1) + (j + 1)) * m ^ 2 := by rw [pow_add (2 : ℝ) (D * l + (i + 1)) (j + 1), pow_add (2 : ℝ) (D * l) (i + 1)]; ring
    _ ≤ 2 ^ N * m ^ 2 := mul_le_mul_of_nonneg_right (pow_le_pow_right₀ (by norm_num) hN2) (by positivity)
    _ ≤ w.sum := hlow

/-- C14 (layers): every weight belongs to a layer that exists: `2^i*w0 ≤ u < 2^(i+1)*w0`; there is no empty layer above
the one of the largest weight. -/
theorem C14_layers {D : Nat} {ndebug : Bool} {w : List ℝ} {x : List (Fin D → ℝ)} {alpha : XR} {T : Tree XR D}
    (s : SupportedInput D w x) (hc : Constructed ndebug (xw w) (xp x) alpha T)
    {m : ℝ} (hm : m ∈ w) (hmin : ∀ u ∈ w, m ≤ u) :
    (∀ u ∈ w, ∃! i, i < T.weightLayers.length ∧ 2 ^ i * m ≤ u ∧ u < 2 ^ (i + 1) * m) ∧
    1 ≤ T.weightLayers.length ∧ ∃ u ∈ w, 2 ^ (T.weightLayers.length - 1) * m ≤ u := by
  obtain ⟨m', b⟩ := hc.builtX s
  obtain rfl : m = m' := le_antisymm (hmin m' b.mem) (b.min m hm)
  have hlen : T.weightLayers.length = T.layers := by rw [b.ok.weightLayers_eq]; simp
  rw [hlen]
  refine ⟨?_, b.layers_pos, b.layers_top⟩
  intro u hu
  obtain ⟨idx, hidx⟩ := List.mem_iff_getElem?.1 hu
  have hlt : idx < T.n := by rw [b.n_eq]; exact (List.getElem?_eq_some_iff.1 hidx).1
  have : idx ∈ T.nodes.map Node.index := b.ok.index_perm.mem_iff.2 (List.mem_range.2 hlt)
  obtain ⟨y, hy, rfl⟩ := List.mem_map.1 this
  obtain ⟨u', q, k, h1, h2, h3, h4, h5, h6, h7, h8⟩ := b.node y hy
  rw [hidx, Option.some.injEq] at h1
  subst h1
  refine ⟨k, ⟨h5, h6, h7⟩, ?_⟩
  rintro k' ⟨_, h9, h10⟩
  exact layer_unique_weight (b.m_pos s) h9 h10 h6 h7

/-- C14 (comparison levels): every ordered pair of layers is listed for exactly one level; that level exists, is not
deeper than the target level of either layer, and unless it is the root level, its cells have volume larger than
`u*v/W` for all weights `u`, `v` of the two layers. -/
theorem C14_comparison_levels {D : Nat} {ndebug : Bool} {w : List ℝ} {x : List (Fin D → ℝ)} {alpha : XR} {T : Tree XR D}
    (s : SupportedInput D w x) (hc : Constructed ndebug (xw w) (xp x) alpha T)
    {m : ℝ} (hm : m ∈ w) (hmin : ∀ u ∈ w, m ≤ u) (i j : Nat) (wi wj : WeightLayer)
    (hi : T.weightLayers[i]? = some wi) (hj : T.weightLayers[j]? = some wj) :
    ∃ l ps, T.layerPairs[l]? = some ps ∧ ps.count (i, j) = 1 ∧
      (∀ l' ps', T.layerPairs[l']? = some ps' → l' ≠ l → (i, j) ∉ ps') ∧
      l < T.levels ∧ l ≤ wi.target ∧ l ≤ wj.target ∧
      (l = 0 ∨ ∀ u ∈ w, ∀ v ∈ w, 2 ^ i * m ≤ u → u < 2 ^ (i + 1) * m → 2 ^ j * m ≤ v → v < 2 ^ (j + 1) * m →
        u * v / w.sum < ((1 / 2) ^ l) ^ D) := by
  obtain ⟨m', b⟩ := hc.builtX s
  obtain rfl : m = m' := le_antisymm (hmin m' b.mem) (b.min m hm)
  have hil : i < T.layers := by
    have h := (List.getElem?_eq_some_iff.1 hi).1
    rw [b.ok.weightLayers_eq] at h; simpa using h
  have hjl : j < T.layers := by
    have h := (List.getElem?_eq_some_iff.1 hj).1
    rw [b.ok.weightLayers_eq] at h; simpa using h
  have hwl := b.ok.rd_weightLayers hil
  rw [rd, hi, Option.some.injEq] at hwl
  have hwl' := b.ok.rd_weightLayers hjl
  rw [rd, hj, Option.some.injEq] at hwl'
  subst hwl hwl'
  have hlev : partitioningBaseLevel D T.blc i j < T.levels := by
    have h1 := b.ok.levels_eq
    have h2 := pbl_le_zero (D := D) (blc := T.blc) i j
    omega
  have hrow : ∀ l, l < T.levels → T.layerPairs[l]? = some ((allLayerPairs T.layers).filter fun p => partitioningBaseLevel D T.blc p.1 p.2 = l) := by
    intro l hl
    rw [b.ok.layerPairs_eq, List.getElem?_map, List.getElem?_range hl]
    rfl
  have hnd : (allLayerPairs T.layers).Nodup := by
    unfold allLayerPairs
    rw [List.nodup_flatMap]
    refine ⟨fun a _ => (List.nodup_map_iff (fun p q h => (Prod.mk.inj h).2)).2 List.nodup_range, ?_⟩
    refine List.Pairwise.imp ?_ (List.nodup_range (n := T.layers))
    intro a a' hne
    rw [Function.onFun, List.disjoint_left]
    intro p hp hp'
    obtain ⟨_, _, rfl⟩ := List.mem_map.1 hp
    obtain ⟨_, _, h⟩ := List.mem_map.1 hp'
    exact hne (Prod.mk.inj h).1.symm
  have hmem : (i, j) ∈ allLayerPairs T.layers := by
    unfold allLayerPairs
    exact List.mem_flatMap.2 ⟨i, List.mem_range.2 hil, List.mem_map.2 ⟨j, List.mem_range.2 hjl, rfl⟩⟩
  refine ⟨partitioningBaseLevel D T.blc i j, _, hrow _ hlev, ?_, ?_, hlev, pbl_le_target_left i j, pbl_le_target_right i j, ?_⟩
  · rw [List.count_eq_one_of_mem (hnd.filter _)]
    exact List.mem_filter.2 ⟨hmem, by simp⟩
  · intro l' ps' h1 h2 h3
    have hl' : l' < T.levels := by
      have h := (List.getElem?_eq_some_iff.1 h1).1
      rw [b.ok.layerPairs_eq] at h; simpa using h
    rw [hrow l' hl', Option.some.injEq] at h1
    subst h1
    have := (List.mem_filter.1 h3).2
    simp only [decide_eq_true_eq] at this
    exact h2 this.symm
  · rcases Nat.eq_zero_or_pos (partitioningBaseLevel D T.blc i j) with h0 | h0
    · exact Or.inl h0
    · right
      intro u hu v hv _ h2 _ h4
      exact volume_bound s b h0 (s.wpos u hu) (s.wpos v hv) h2 h4

/-! ### the hypotheses of C12 - C14 hold for a concrete input -/

/-- three nodes in the plane with weights 1, 1 and 5 -/
theorem exampleInput : SupportedInput 2 [1, 1, 5] [![0, 0], ![1 / 2, 1 / 4], ![7 / 8, 1 / 3]] := by
  refine ⟨by norm_num, by norm_num, rfl, by norm_num, by norm_num, ?_, ?_, ?_, ?_, ?_⟩
  · simp
  · intro u hu
    have h1 : (1 : ℝ) < 2 ^ 1024 := one_lt_pow₀ (by norm_num) (by norm_num)
    have h2 : (5 : ℝ) < 2 ^ 1024 := lt_of_lt_of_le (by norm_num : (5 : ℝ) < 2 ^ 3) (pow_le_pow_right₀ (by norm_num) (by norm_num))
    simp only [List.mem_cons, List.not_mem_nil, or_false] at hu
    rcases hu with rfl | rfl | rfl
    · exact h1
    · exact h1
    · exact h2
  · intro p hp d
    simp only [List.mem_cons, List.not_mem_nil, or_false] at hp
    rcases hp with rfl | rfl | rfl <;> fin_cases d <;> norm_num
  · intro u hu
    simp only [List.mem_cons, List.not_mem_nil, or_false] at hu
    rcases hu with rfl | rfl | rfl <;> norm_num
  · intro u hu v hv
    simp only [List.mem_cons, List.not_mem_nil, or_false] at hu hv
    rcases hu with rfl | rfl | rfl <;> rcases hv with rfl | rfl | rfl <;> norm_num

example : ∃ T, Constructed true (xw [1, 1, 5]) (xp [![0, 0], ![1 / 2, 1 / 4], ![7 / 8, 1 / 3]]) (XR.fin 2) T ∧
    T.weightLayers.length = 3 := by
  obtain ⟨T, hT⟩ := constructedX_exists true (XR.fin 2) exampleInput 8 (by norm_num) (by norm_num)
  refine ⟨T, hT, ?_⟩
  have h := C14_layers exampleInput hT (m := 1) (by simp) (by simp)
  obtain ⟨i, ⟨h1, h2, h3⟩, _⟩ := h.1 5 (by simp)
  obtain ⟨u, hu, h4⟩ := h.2.2
  have h5 : u ≤ 5 := by
    simp only [List.mem_cons, List.not_mem_nil, or_false] at hu
    rcases hu with rfl | rfl | rfl <;> norm_num
  have i2 : i = 2 := layer_unique_weight (m := 1) (u := 5) (by norm_num) h2 h3 (by norm_num) (by norm_num)
  subst i2
  have : T.weightLayers.length - 1 < 3 := by
    by_contra hc
    have : (2 : ℝ) ^ 3 ≤ 2 ^ (T.weightLayers.length - 1) := pow_le_pow_right₀ (by norm_num) (not_lt.1 hc)
    norm_num at this
    linarith
  omega

end Girgs.Props
