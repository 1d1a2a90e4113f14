import Verif.Proofs.AssertSample
/-
The assertions of the constructor hold in exact arithmetic.
-/
namespace Girgs
open CFloat Build Spec

theorem isSorted_of_pairwise : ∀ {L : List Nat}, L.Pairwise (· ≤ ·) → Asserts.isSorted L = true
  | [], _ => rfl
  | [_], _ => rfl
  | a :: b :: L, h => by
    rw [List.pairwise_cons] at h
    have h1 := h.1 b (by simp)
    unfold Asserts.isSorted
    rw [isSorted_of_pairwise h.2]
    simpa using h1

theorem half_lt_ilog2 {x : Nat} (h0 : x ≠ 0) (h : x < 4294967296) : 2 ^ IntSort.ilog2 x / 2 < x := by
  unfold IntSort.ilog2
  rw [if_neg h0]
  obtain ⟨a, b⟩ := IntSort.shiftCount_spec 64 x (by omega) (lt_of_lt_of_le h (by norm_num))
  simp only
  split
  · rw [pow_succ, Nat.mul_div_cancel _ (by norm_num)]; assumption
  · rw [Nat.add_zero]
    have : 0 < 2 ^ IntSort.shiftCount 64 x := Nat.pow_pos (by norm_num)
    omega

theorem ilog2_checks {x : Nat} (h : x < 4294967296) : AllHold (Asserts.ilog2 x) := by
  unfold Asserts.ilog2
  split
  · exact allHold_nil
  · rename_i h0
    intro c hc
    simp only [List.mem_cons, List.not_mem_nil, or_false] at hc
    rcases hc with rfl | rfl
    · exact decide_eq_true (IntSort.le_two_pow_ilog2 h).1
    · exact decide_eq_true (half_lt_ilog2 h0 h)

/-- the assertions about the index hold if it is the prefix sum of the sorted cell ids -/
theorem index_checks {F : Type} {D M : Nat} {nodes : List (Node F D)} (h : Cells M (nodes.map Node.cellId)) :
    ∃ L, Asserts.index M nodes ((List.range (M + 1)).map (Build.fin (nodes.map Node.cellId))) = some L ∧ AllHold L := by
  have hget : ∀ c, c ≤ M → rd ((List.range (M + 1)).map (Build.fin (nodes.map Node.cellId))) c =
      some (Build.fin (nodes.map Node.cellId) c) := by
    intro c hc
    unfold rd
    rw [List.getElem?_map, List.getElem?_range (by omega)]; rfl
  have hpos : 1 ≤ nodes.length := by have := h.pos; rwa [List.length_map] at this
  have hlast : rd nodes (nodes.length - 1) = some (nodes[nodes.length - 1]'(by omega)) :=
    List.getElem?_eq_getElem _
  have hfle : ∀ c, Build.fin (nodes.map Node.cellId) c ≤ nodes.length := by
    intro c
    have := List.countP_le_length (p := fun y => decide (y < c)) (l := nodes.map Node.cellId)
    rwa [List.length_map] at this
  obtain ⟨C, hC1, hC2⟩ := AllHold.concatM (L := List.range M) (f := fun cid => (do
    let b ← rd ((List.range (M + 1)).map (Build.fin (nodes.map Node.cellId))) cid
    let e ← rd ((List.range (M + 1)).map (Build.fin (nodes.map Node.cellId))) (cid + 1)
    if b ≤ e then
      (List.range' b (e - b)).mapM fun idx => do
        let x ← rd nodes idx
        some (Asserts.tree 457 (decide (x.cellId = cid)))
    else none)) (by
      intro cid hcid
      rw [List.mem_range] at hcid
      refine ⟨(List.range' (Build.fin (nodes.map Node.cellId) cid)
        (Build.fin (nodes.map Node.cellId) (cid + 1) - Build.fin (nodes.map Node.cellId) cid)).map
          fun _ => Asserts.tree 457 true, ?_, ?_⟩
      · refine (obind (hget cid (by omega)) _).trans ?_
        refine (obind (hget (cid + 1) (by omega)) _).trans ?_
        rw [if_pos (fin_mono (by omega))]
        apply mapM_some'
        intro idx hidx
        rw [List.mem_range'_1] at hidx
        have hlt : idx < nodes.length := by have := hfle (cid + 1); omega
        refine (obind (List.getElem?_eq_getElem hlt) _).trans ?_
        have hx : (nodes.map Node.cellId)[idx]? = some nodes[idx].cellId := by
          rw [List.getElem?_map, List.getElem?_eq_getElem hlt]; rfl
        have h1 := lt_countP_iff h.sorted cid idx _ hx
        have h2 := lt_countP_iff h.sorted (cid + 1) idx _ hx
        have h3 : ¬ nodes[idx].cellId < cid := by rw [← h1]; unfold Build.fin at hidx; omega
        have h4 : nodes[idx].cellId < cid + 1 := by rw [← h2]; unfold Build.fin at hidx; omega
        rw [decide_eq_true (show nodes[idx].cellId = cid by omega)]
      · intro c hc
        obtain ⟨_, _, rfl⟩ := List.mem_map.1 hc
        rfl)
  unfold Asserts.index
  rw [obind hlast, obind (hget 0 (by omega)), obind (hget M le_rfl), obind hC1]
  refine ⟨_, rfl, AllHold.append ?_ hC2⟩
  intro c hc
  simp only [List.mem_cons, List.not_mem_nil, or_false] at hc
  rcases hc with rfl | rfl | rfl | rfl
  · refine decide_eq_true (h.lt _ ?_)
    exact List.mem_map.2 ⟨_, List.getElem_mem _, rfl⟩
  · refine decide_eq_true ?_
    unfold Build.fin
    rw [List.countP_eq_zero]
    simp
  · refine decide_eq_true ?_
    rw [h.fin_M, List.length_map]
  · apply isSorted_of_pairwise
    rw [List.pairwise_map]
    exact List.pairwise_lt_range.imp fun hab => fin_mono hab.le

section exact
variable {D : Nat} {w : List ℝ} {x : List (Fin D → ℝ)} {alpha : XR} {T : Tree XR D}

theorem HeaderX.levelFacts {h : Header XR} {m : ℝ} (hx : HeaderX D w h m) (s : SupportedInput D w x) :
    LevelFacts D h.w0 h.W h.blc h.layers h.levels :=
  ⟨⟨m, w.sum, s.wpos m hx.mem, lt_of_lt_of_le (s.wpos m hx.mem) (sum_ge_mem s.wpos hx.mem), hx.w0, hx.W, hx.blc_low,
    hx.blc_high, hx.blc_nonneg⟩, s.D1, hx.levels⟩

theorem classify_checks {h : Header XR} {m : ℝ} (hx : HeaderX D w h m) (s : SupportedInput D w x) {y : Node XR D}
    (hy : NodeOK D h.w0 h.blc h.layers (xw w) (xp x) y) :
    ∃ L, Asserts.classifyOne D h (layerOff D h.blc h.layers) y = some L ∧ AllHold L := by
  have ok := hx.inputOK s
  obtain ⟨k, e1, e2, hk⟩ := ok.layer y.weight (List.mem_of_getElem? hy.weight)
  have hsum := layerOff_mono (D := D) (blc := h.blc) (show k + 1 ≤ h.layers by omega)
  rw [layerOff_succ] at hsum
  have htot := ok.total
  have hD : D * weightLayerTargetLevel D h.blc k ≤ 30 := by
    by_contra hne
    have : 2 ^ 31 ≤ 2 ^ (D * weightLayerTargetLevel D h.blc k) := two_pow_le (by omega)
    omega
  have hl : weightLayerTargetLevel D h.blc k ≤ 30 := le_trans (Nat.le_mul_of_pos_left _ ok.D1) hD
  have hmem := List.mem_of_getElem? hy.coord
  obtain ⟨q, hq, hqe⟩ := List.mem_map.1 hmem
  obtain ⟨L, h1, h2⟩ := cellForPoint_checks s.D1 hl (by omega) q (s.unit q hq)
  rw [hqe] at h1
  unfold Asserts.classifyOne
  rw [obind e1, obind h1]
  refine ⟨_, rfl, AllHold.append (AllHold.append ((hx.levelFacts s).target hk) h2) ?_⟩
  intro c hc
  simp only [List.mem_cons, List.not_mem_nil, or_false] at hc
  subst hc
  exact decide_eq_true hy.cell_lt

theorem DebugConstructed.constructed {w : List XR} {x : List (Fin D → XR)} {c : Option (List Check)}
    (hc : DebugConstructed w x alpha T c) : Constructed false w x alpha T := by
  obtain ⟨h', lp, fc, nodes0, wl, e1, e2, e3, e4, e5, maxCell, e6, omp, t, B0, nodes, threads, first, ht1, ht, hB, hrun,
    hth1, hth2, hidx, rfl, _⟩ := hc
  exact ⟨h', lp, fc, nodes0, wl, e1, e2, e3, e4, e5, maxCell, e6, omp, t, B0, nodes, threads, first, ht1, ht, hB, hrun,
    hth1, hth2, hidx, rfl⟩

theorem Constructed.debug {w : List XR} {x : List (Fin D → XR)} (hc : Constructed false w x alpha T) :
    ∃ c, DebugConstructed w x alpha T c := by
  obtain ⟨h', lp, fc, nodes0, wl, e1, e2, e3, e4, e5, maxCell, e6, omp, t, B0, nodes, threads, first, ht1, ht, hB, hrun,
    hth1, hth2, hidx, rfl⟩ := hc
  exact ⟨_, h', lp, fc, nodes0, wl, e1, e2, e3, e4, e5, maxCell, e6, omp, t, B0, nodes, threads, first, ht1, ht, hB, hrun,
    hth1, hth2, hidx, rfl, rfl⟩

/-- every assertion of the constructor holds -/
theorem DebugConstructed.checks (s : SupportedInput D w x) {c : Option (List Check)}
    (hc : DebugConstructed (xw w) (xp x) alpha T c) : ∃ L, c = some L ∧ AllHold L := by
  obtain ⟨h, m, hx⟩ := headerX_exists s
  have ok := hx.inputOK s
  obtain ⟨h', lp, fc, nodes0, wl, e1, e2, e3, e4, e5, maxCell, e6, omp, t, B0, nodes, threads, first, ht1, ht, hB, hrun,
    hth1, hth2, hidx, rfl, rfl⟩ := hc
  obtain rfl : h = h' := by rw [hx.eq] at e1; exact Option.some.inj e1
  rw [firstCells_eq ok.total] at e3
  simp only [Option.some.injEq] at e3
  subst e3
  rw [List.getLast?_append] at e6
  simp only [List.getLast?_singleton, Option.some_or, Option.some.injEq] at e6
  subst e6
  obtain ⟨nodes0', e7, e8, e9⟩ := classify_eq ok
  obtain rfl : nodes0' = nodes0 := by rw [e7] at e4; exact Option.some.inj e4
  have hlen : nodes0'.length = (xw w).length := by
    have := congrArg List.length e8
    simpa using this
  have htot := ok.total
  have hsm := ok.small
  have hlt : ∀ x ∈ nodes0', x.cellId < layerOff D h.blc h.layers := fun x hx => (e9 x hx).cell_lt
  have hs : StablySorted Node.cellId nodes0' nodes := by
    refine IntSort.run_sorted ht1 (Props.threads_ok (by rw [hlen]; exact ht) (by rw [hlen]; omega)) (by rw [hlen]; exact hB) (Or.inl ?_) hrun
    exact Props.C10_keys_below_max _ _ _ (by omega) hlt
  have hcells := cells_of_sorted hs hlt (by rw [hlen]; exact ok.pos) (by rw [hlen]; exact hsm) htot
  have hfirst := hcells.indexRun hth1 hth2 hidx
  obtain ⟨C, hC1, hC2⟩ := AllHold.concatM (L := nodes0') (f := Asserts.classifyOne D h (layerOff D h.blc h.layers))
    (fun y hy => classify_checks hx s (e9 y hy))
  obtain ⟨I, hI1, hI2⟩ := index_checks hcells
  rw [← hfirst] at hI1
  have lf := hx.levelFacts s
  have hl0 := hx.layers_pos
  have hxl : (xp x).length = (xw w).length := ok.len
  have htl : AllHold ((List.range h.layers).flatMap fun l : Nat => Asserts.targetLevel D h.w0 h.W h.blc h.layers h.levels l) :=
    AllHold.flatMap fun l hl => lf.target (List.mem_range.1 hl)
  unfold Asserts.constructor
  simp only
  rw [obind hC1, obind hI1]
  refine ⟨_, rfl, AllHold.append (AllHold.append (AllHold.append (AllHold.append (AllHold.append (AllHold.append
    (AllHold.append (AllHold.append (AllHold.append (lf.base (i := 0) (j := 0) (by omega) (by omega)) ?_) ?_) ?_) htl) hC2)
    (ilog2_checks (x := layerOff D h.blc h.layers) (by omega))) ?_) hI2) htl⟩
  · intro c hc
    simp only [List.mem_cons, List.not_mem_nil, or_false] at hc
    rcases hc with rfl | rfl
    · exact decide_eq_true hxl.symm
    · refine decide_eq_true ?_
      have := ok.pos; omega
  · apply AllHold.flatMap
    intro p hp
    obtain ⟨i, hi, hp⟩ := List.mem_flatMap.1 hp
    obtain ⟨j, hj, rfl⟩ := List.mem_map.1 hp
    exact lf.base (List.mem_range.1 hi) (List.mem_range.1 hj)
  · intro c hc
    simp only [List.mem_cons, List.not_mem_nil, or_false] at hc
    subst hc
    exact decide_eq_true hxl
  · intro c hc
    simp only [List.mem_cons, List.not_mem_nil, or_false] at hc
    subst hc
    exact isSorted_of_pairwise hcells.sorted

end exact
end Girgs
