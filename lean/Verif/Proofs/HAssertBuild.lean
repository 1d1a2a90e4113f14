import Verif.Proofs.HAssertRun
import Verif.Proofs.AssertBuild
/-
The assertions of the constructor of the hyperbolic sampler in exact arithmetic: all hold, except the ones about `R ≥ 1`
and about radii below `R`, which fail exactly if these conditions are violated.
-/
namespace Girgs
open Real CFloat Spec HBuild

/-- all hold, except RadiusLayer.cpp:43 if `R < 1` and RadiusLayer.cpp:87 if some radius is `R` -/
def HBuildMostly (R : ℝ) (radii : List ℝ) (L : List Check) : Prop :=
  ∀ c ∈ L, c.holds = false → (c = HAsserts.build 43 false ∧ R < 1) ∨ (c = HAsserts.build 87 false ∧ R ∈ radii)

theorem HBuildMostly.append {R : ℝ} {radii : List ℝ} {A B : List Check} (ha : HBuildMostly R radii A) (hb : HBuildMostly R radii B) :
    HBuildMostly R radii (A ++ B) := fun c hc => (List.mem_append.1 hc).elim (ha c) (hb c)

theorem AllHold.hbuild {L : List Check} (h : AllHold L) (R : ℝ) (radii : List ℝ) : HBuildMostly R radii L := by
  intro c hc hf
  rw [h c hc] at hf; cases hf

/-- the assertions about the index hold if it is the prefix sum of the sorted cell ids -/
theorem hindex_checks {F : Type} {M : Nat} {points : List (HPoint F)} (h : Build.Cells M (points.map HPoint.cellId)) :
    ∃ L, HAsserts.index M points ((List.range (M + 1)).map (Build.fin (points.map HPoint.cellId))) = some L ∧ AllHold L := by
  have hget : ∀ c, c ≤ M → rd ((List.range (M + 1)).map (Build.fin (points.map HPoint.cellId))) c =
      some (Build.fin (points.map HPoint.cellId) c) := by
    intro c hc
    unfold rd
    rw [List.getElem?_map, List.getElem?_range (by omega)]; rfl
  have hpos : 1 ≤ points.length := by have := h.pos; rwa [List.length_map] at this
  have hlast : rd points (points.length - 1) = some (points[points.length - 1]'(by omega)) :=
    List.getElem?_eq_getElem _
  have hfle : ∀ c, Build.fin (points.map HPoint.cellId) c ≤ points.length := by
    intro c
    have := List.countP_le_length (p := fun y => decide (y < c)) (l := points.map HPoint.cellId)
    rwa [List.length_map] at this
  obtain ⟨C, hC1, hC2⟩ := AllHold.concatM (L := List.range M) (f := fun cid => (do
    let b ← rd ((List.range (M + 1)).map (Build.fin (points.map HPoint.cellId))) cid
    let e ← rd ((List.range (M + 1)).map (Build.fin (points.map HPoint.cellId))) (cid + 1)
    if b ≤ e then
      (List.range' b (e - b)).mapM fun idx => do
        let x ← rd points idx
        some (HAsserts.build 180 (decide (x.cellId = cid)))
    else none)) (by
      intro cid hcid
      rw [List.mem_range] at hcid
      refine ⟨(List.range' (Build.fin (points.map HPoint.cellId) cid)
        (Build.fin (points.map HPoint.cellId) (cid + 1) - Build.fin (points.map HPoint.cellId) cid)).map
          fun _ => HAsserts.build 180 true, ?_, ?_⟩
      · refine (obind (hget cid (by omega)) _).trans ?_
        refine (obind (hget (cid + 1) (by omega)) _).trans ?_
        rw [if_pos (Build.fin_mono (by omega))]
        apply mapM_some'
        intro idx hidx
        rw [List.mem_range'_1] at hidx
        have hlt : idx < points.length := by have := hfle (cid + 1); omega
        refine (obind (List.getElem?_eq_getElem hlt) _).trans ?_
        have hx : (points.map HPoint.cellId)[idx]? = some points[idx].cellId := by
          rw [List.getElem?_map, List.getElem?_eq_getElem hlt]; rfl
        have h1 := lt_countP_iff h.sorted cid idx _ hx
        have h2 := lt_countP_iff h.sorted (cid + 1) idx _ hx
        have h3 : ¬ points[idx].cellId < cid := by rw [← h1]; unfold Build.fin at hidx; omega
        have h4 : points[idx].cellId < cid + 1 := by rw [← h2]; unfold Build.fin at hidx; omega
        rw [decide_eq_true (show points[idx].cellId = cid by omega)]
      · intro c hc
        obtain ⟨_, _, rfl⟩ := List.mem_map.1 hc
        rfl)
  unfold HAsserts.index
  rw [obind hlast, obind (hget 0 (by omega)), obind (hget M le_rfl), obind hC1]
  refine ⟨_, rfl, AllHold.append ?_ hC2⟩
  intro c hc
  simp only [List.mem_cons, List.not_mem_nil, or_false] at hc
  rcases hc with rfl | rfl | rfl | rfl
  · refine decide_eq_true (h.lt _ ?_)
    exact List.mem_map.2 ⟨_, List.getElem_mem _, rfl⟩
  · refine decide_eq_true ?_
    unfold Build.fin
    rw [List.countP_eq_zero]
    simp
  · refine decide_eq_true ?_
    rw [h.fin_M, List.length_map]
  · apply isSorted_of_pairwise
    rw [List.pairwise_map]
    exact List.pairwise_lt_range.imp fun hab => Build.fin_mono hab.le

theorem HDebugConstructed.constructed {F : Type} [CFloat F] {radii angles : List F} {T R : F} {H : HTree F} {c : Option (List Check)}
    (hc : HDebugConstructed radii angles T R H c) : HConstructed false radii angles T R H := by
  obtain ⟨points, first, rls, r0, lp, fil, nl, lol, fc, maxCell, points0, e1, e2, e3, e4, e5, e6, e7, e8, e9, e10, _⟩ := hc
  exact ⟨points, first, rls, r0, lp, fil, ⟨nl, lol, fc, maxCell, points0, e1, e2, e3, e4, e5, e6⟩, e7, e8, e9, e10⟩

theorem HConstructed.debug {F : Type} [CFloat F] {radii angles : List F} {T R : F} {H : HTree F}
    (hc : HConstructed false radii angles T R H) : ∃ c, HDebugConstructed radii angles T R H c := by
  obtain ⟨points, first, rls, r0, lp, fil, ⟨nl, lol, fc, maxCell, points0, e1, e2, e3, e4, e5, e6⟩, e7, e8, e9, e10⟩ := hc
  exact ⟨_, points, first, rls, r0, lp, fil, nl, lol, fc, maxCell, points0, e1, e2, e3, e4, e5, e6, e7, e8, e9, e10, rfl⟩

section exact
variable {radii angles : List ℝ} {T R : ℝ} {H : HTree XR}

theorem lays_xr {layers : Nat} {rl : RadiusLayer XR} {nl : Nat} {tgt : Nat → Nat} (h : rl ∈ lays (XR.fin R) tgt nl layers) :
    ∃ i, i < layers ∧ rl = ⟨XR.fin (R - i - 1), XR.fin (R - i), tgt i, hOff tgt nl i⟩ := by
  obtain ⟨i, hi, rfl⟩ := List.mem_map.1 h
  exact ⟨i, List.mem_range.1 hi, by rw [radMin_XR, radMax_XR]⟩

/-- the bounds of the layers of a constructed tree -/
theorem HConstructed.layerRadii {ndebug : Bool} (hc : HConstructed ndebug (xw radii) (xw angles) (XR.fin T) (XR.fin R) H)
    (hin : HypInput radii angles T R) : LayerRadii R H := by
  have ok := HypInput.inputOK hin
  obtain ⟨points, first, rls, r0, lp, fil, hpart, hr0, hlp, hfil, rfl⟩ := hc
  obtain ⟨nl', lol, fc, M, points0, e1, e2, e3, _, e4, omp, t, B0, threads, ht1, ht, hB, hrun, hth1, hth2, hidx, c0, layers, hc0, hpr, hrl⟩ := hpart
  obtain rfl : ⌈R⌉.toNat = nl' := by have := ok.layers; rw [e1] at this; exact (Option.some.inj this).symm
  rw [ok.levels_eq, Option.some.injEq] at e2
  subst e2
  rw [ok.firstCells_eq, Option.some.injEq, Prod.mk.injEq] at e3
  obtain ⟨rfl, rfl⟩ := e3
  have hlp0 := ok.layers_pos
  obtain ⟨layers', g1, g2, g3, g4, _⟩ := prune_eq (nl := ⌈R⌉.toNat) (tgt := htgt R) c0 (⌈R⌉.toNat + 1) 1 le_rfl hlp0 (by omega)
  rw [hpr, Option.some.injEq] at g1
  subst g1
  rw [radiusLayers_eq g3, Option.some.injEq] at hrl
  subst hrl
  intro i rl hi
  simp only at hi
  obtain ⟨hlt, _⟩ := List.getElem?_eq_some_iff.1 hi
  rw [List.length_map, List.length_range] at hlt
  rw [List.getElem?_map, List.getElem?_range hlt] at hi
  obtain rfl := Option.some.inj hi
  exact ⟨radMin_XR R i, radMax_XR R i⟩

/-- the assertions about one point of a radius layer -/
theorem HBuiltX.layer_checks (b : HBuiltX false radii angles T R H) (hin : HypInput radii angles T R) {i : Nat} (hi : i < ⌈R⌉.toNat)
    {rl : RadiusLayer XR} (hrl : rl = ⟨XR.fin (R - i - 1), XR.fin (R - i), htgt R i, hOff (htgt R) ⌈R⌉.toNat i⟩) :
    ∃ L, HAsserts.layerPoints (xw radii) H.points H.firstInCell rl = some L ∧ AllHold L := by
  have ok := b.ok
  have hok := HypInput.inputOK hin
  have hle := hOff_le_total (tgt := htgt R) hi
  have htl := hok.tgt_lt hi
  have hp1 : 1 ≤ 2 ^ htgt R i := Nat.one_le_two_pow
  have hget : ∀ c, c ≤ hTotal (htgt R) ⌈R⌉.toNat → rd H.firstInCell c = some (Build.fin (H.points.map HPoint.cellId) c) := by
    intro c hc
    rw [ok.first_eq]
    unfold rd
    rw [List.getElem?_map, List.getElem?_range (by omega)]; rfl
  have hfle : ∀ c, Build.fin (H.points.map HPoint.cellId) c ≤ H.points.length := by
    intro c
    have := List.countP_le_length (p := fun y => decide (y < c)) (l := H.points.map HPoint.cellId)
    rwa [List.length_map] at this
  subst hrl
  unfold HAsserts.layerPoints
  simp only
  rw [obind (Angle.numCellsInLevel_eq (show htgt R i ≤ 31 by omega)), obind (hget _ (by omega)), obind (hget _ (by omega)),
    if_pos (Build.fin_mono (by omega))]
  apply AllHold.concatM
  intro idx hidx
  rw [List.mem_range'_1] at hidx
  have hlt : idx < H.points.length := by have := hfle (hOff (htgt R) ⌈R⌉.toNat i + 2 ^ htgt R i); omega
  have hx : (H.points.map HPoint.cellId)[idx]? = some H.points[idx].cellId := by
    rw [List.getElem?_map, List.getElem?_eq_getElem hlt]; rfl
  have h1 := lt_countP_iff ok.sorted (hOff (htgt R) ⌈R⌉.toNat i) idx _ hx
  have h2 := lt_countP_iff ok.sorted (hOff (htgt R) ⌈R⌉.toNat i + 2 ^ htgt R i) idx _ hx
  have h3 : ¬ H.points[idx].cellId < hOff (htgt R) ⌈R⌉.toNat i := by rw [← h1]; unfold Build.fin at hidx; omega
  have h4 : H.points[idx].cellId < hOff (htgt R) ⌈R⌉.toNat i + 2 ^ htgt R i := by rw [← h2]; unfold Build.fin at hidx; omega
  obtain ⟨r, a, d1, d2, _, _, _, _, _, d3⟩ := b.point_data hin (List.getElem_mem hlt)
  obtain ⟨d4, d5, _⟩ := d3 i 0 0 ⟨hi, by omega, h4, Nat.zero_le _, by
    rw [Nat.sub_zero, Nat.div_eq_of_lt (by omega)]; simp⟩
  rw [obind (show rd H.points idx = some H.points[idx] from List.getElem?_eq_getElem hlt), obind (rd_xw d1)]
  refine ⟨_, rfl, ?_⟩
  intro c hc
  simp only [List.mem_cons, List.not_mem_nil, or_false] at hc
  rcases hc with rfl | rfl
  · show Asserts.fle _ _ = true
    rw [XR.fle_fin]; exact decide_eq_true d4.le
  · show Asserts.fle _ _ = true
    rw [XR.fle_fin]; exact decide_eq_true d5

theorem baseLevel_holds {r s : ℝ} (hr : r < R) (hs : s < R) : (HAsserts.baseLevel (XR.fin r) (XR.fin s) (XR.fin R)).holds = true := by
  show ((XR.fin r <. XR.fin R) && (XR.fin s <. XR.fin R)) = true
  rw [show (XR.fin r <. XR.fin R) = true from XR.lt_fin _ _ ▸ decide_eq_true hr,
    show (XR.fin s <. XR.fin R) = true from XR.lt_fin _ _ ▸ decide_eq_true hs]
  rfl

theorem layerPairs_hold {nl layers : Nat} {tgt : Nat → Nat} : AllHold (HAsserts.layerPairs (XR.fin R) (lays (XR.fin R) tgt nl layers)) := by
  intro c hc
  obtain ⟨a, ha, hc⟩ := List.mem_flatMap.1 hc
  obtain ⟨b, hb, rfl⟩ := List.mem_map.1 hc
  obtain ⟨i, _, rfl⟩ := lays_xr ha
  obtain ⟨j, _, rfl⟩ := lays_xr hb
  have hi : (0 : ℝ) ≤ i := Nat.cast_nonneg _
  have hj : (0 : ℝ) ≤ j := Nat.cast_nonneg _
  exact baseLevel_holds (by linarith) (by linarith)

/-- the angle is in range -/
theorem angleOk_fin {a : ℝ} (h0 : 0 ≤ a) (h1 : a < 2 * π) : HAsserts.angleOk (XR.fin a) = true := by
  unfold HAsserts.angleOk
  rw [XR.ofRat_eq, XR.ofRat_eq, XR.pi_eq, XR.mul_fin, XR.fle_fin, decide_eq_true (by simpa using h0), XR.lt_fin,
    decide_eq_true (by push_cast; exact h1)]
  rfl

theorem classify_checksH {i : Nat} {r a : ℝ} (hr0 : 0 < r) (hr : r ≤ R) (ha0 : 0 ≤ a) (ha : a < 2 * π) :
    HAsserts.classifyOne (XR.fin R) i (XR.fin r) (XR.fin a) = [HAsserts.build 87 (decide (r < R)), HAsserts.build 88 true,
      HAsserts.point 39 true, HAsserts.point 40 true, HAsserts.point 41 true] := by
  unfold HAsserts.classifyOne
  rw [angleOk_fin ha0 ha, XR.ofRat_eq, XR.fle_fin, decide_eq_true (show ((0 : ℚ) : ℝ) ≤ r by push_cast; exact hr0.le), XR.lt_fin,
    decide_eq_true (show (0 : Int) ≤ (i : Int) by omega)]
  simp

/-- the assertions of the classification loop -/
theorem classifyAll_checks (hin : HypInput radii angles T R) :
    ∃ L, Tree.concatM (List.range (xw radii).length) (fun i => do
      let r ← rd (xw radii) i
      let a ← rd (xw angles) i
      some (HAsserts.classifyOne (XR.fin R) i r a)) = some L ∧ HBuildMostly R radii L ∧ (R ∈ radii → HAsserts.build 87 false ∈ L) := by
  have hlen : (xw radii).length = radii.length := by simp [xw]
  have key : ∀ i ∈ List.range (xw radii).length, (do
      let r ← rd (xw radii) i
      let a ← rd (xw angles) i
      some (HAsserts.classifyOne (XR.fin R) i r a)) = some [HAsserts.build 87 (decide (radii.getD i 0 < R)), HAsserts.build 88 true,
      HAsserts.point 39 true, HAsserts.point 40 true, HAsserts.point 41 true] := by
    intro i hi
    rw [List.mem_range, hlen] at hi
    have hr : radii[i]? = some radii[i] := List.getElem?_eq_getElem hi
    have ha : angles[i]? = some (angles[i]'(by rw [hin.len]; exact hi)) := List.getElem?_eq_getElem _
    rw [obind (rd_xw hr), obind (rd_xw ha)]
    have h1 := hin.radius _ (List.mem_of_getElem? hr)
    have h2 := hin.angle _ (List.mem_of_getElem? ha)
    rw [classify_checksH h1.1 h1.2 h2.1 h2.2, List.getD_eq_getElem?_getD, hr]
    rfl
  refine ⟨_, concatM_some key, ?_, ?_⟩
  · intro c hc hf
    obtain ⟨i, hi, hc⟩ := List.mem_flatMap.1 hc
    rw [List.mem_range, hlen] at hi
    have hr : radii[i]? = some radii[i] := List.getElem?_eq_getElem hi
    have h1 := hin.radius _ (List.mem_of_getElem? hr)
    have hg : radii.getD i 0 = radii[i] := by rw [List.getD_eq_getElem?_getD, hr]; rfl
    rw [hg] at hc
    simp only [List.mem_cons, List.not_mem_nil, or_false] at hc
    rcases hc with rfl | rfl | rfl | rfl | rfl
    · right
      have : ¬ radii[i] < R := by simpa [HAsserts.build] using hf
      refine ⟨by rw [decide_eq_false this], ?_⟩
      have e : R = radii[i] := le_antisymm (not_lt.1 this) h1.2
      rw [e]; exact List.getElem_mem hi
    all_goals cases hf
  · intro hR
    obtain ⟨i, hi⟩ := List.getElem?_of_mem hR
    have hlt := (List.getElem?_eq_some_iff.1 hi).1
    refine List.mem_flatMap.2 ⟨i, List.mem_range.2 (by rw [hlen]; exact hlt), ?_⟩
    have hg : radii.getD i 0 = R := by rw [List.getD_eq_getElem?_getD, hi]; rfl
    rw [hg, decide_eq_false (lt_irrefl R)]
    simp

/-- The assertions of the constructor: all hold except RadiusLayer.cpp:43, which fails iff `R < 1`, and RadiusLayer.cpp:87, which fails
iff some radius equals `R`. -/
theorem HDebugConstructed.checks (hin : HypInput radii angles T R) {c : Option (List Check)}
    (hc : HDebugConstructed (xw radii) (xw angles) (XR.fin T) (XR.fin R) H c) :
    ∃ L, c = some L ∧ HBuildMostly R radii L ∧ (R < 1 → HAsserts.build 43 false ∈ L) ∧ (R ∈ radii → HAsserts.build 87 false ∈ L) := by
  have ok := HypInput.inputOK hin
  have b := hc.constructed.builtX hin
  obtain ⟨points, first, rls, r0, lp, fil, nl', lol, fc, M, points0, e1, e2, e3, _, e4, ⟨omp, t, B0, threads, ht1, ht, hB, hrun, hth1, hth2,
    hidx, c0, layers, hc0, hpr, hrl⟩, hr0, hlp, hfil, hH, rfl⟩ := hc
  obtain rfl : ⌈R⌉.toNat = nl' := by have := ok.layers; rw [e1] at this; exact (Option.some.inj this).symm
  rw [ok.levels_eq, Option.some.injEq] at e2
  subst e2
  rw [ok.firstCells_eq, Option.some.injEq, Prod.mk.injEq] at e3
  obtain ⟨rfl, rfl⟩ := e3
  have hlp0 := ok.layers_pos
  obtain ⟨layers', g1, g2, g3, g4, _⟩ := prune_eq (nl := ⌈R⌉.toNat) (tgt := htgt R) c0 (⌈R⌉.toNat + 1) 1 le_rfl hlp0 (by omega)
  rw [hpr, Option.some.injEq] at g1
  subst g1
  rw [radiusLayers_eq g3, Option.some.injEq] at hrl
  have hrls : rls = lays (XR.fin R) (htgt R) ⌈R⌉.toNat layers := hrl.symm
  clear hrl
  have hpts : H.points = points := by rw [hH]
  have hfst : H.firstInCell = first := by rw [hH]
  have tok := b.ok
  have htot := ok.total
  have hcells : Build.Cells (hTotal (htgt R) ⌈R⌉.toNat) (points.map HPoint.cellId) := by
    refine ⟨hpts ▸ tok.sorted, ?_, ?_, ?_, htot⟩
    · intro c hc
      obtain ⟨x, hx, rfl⟩ := List.mem_map.1 hc
      exact (b.point x (hpts ▸ hx)).cell_lt
    · rw [List.length_map, ← hpts, tok.length_points, b.n_eq]
      exact ok.pos
    · rw [List.length_map, ← hpts, tok.length_points, b.n_eq]
      have := ok.small; omega
  obtain ⟨C, hC1, hC2, hC3⟩ := classifyAll_checks hin
  obtain ⟨I, hI1, hI2⟩ := hindex_checks hcells
  have hfe := tok.first_eq
  rw [hpts, hfst] at hfe
  have hfe' : first = (List.range (hTotal (htgt R) ⌈R⌉.toNat + 1)).map (Build.fin (points.map HPoint.cellId)) := hfe
  rw [← hfe'] at hI1
  obtain ⟨Y, hY1, hY2⟩ := AllHold.concatM (L := rls) (f := HAsserts.layerPoints (xw radii) points first) (by
    intro rl hl
    rw [hrls] at hl
    obtain ⟨i, hi, rfl⟩ := lays_xr hl
    have := b.layer_checks hin (i := i) (by omega) rfl
    rwa [hpts, hfst] at this)
  unfold HAsserts.buildPartition
  rw [obind hC1, obind hI1, obind hY1]
  have hlen : (xw radii).length = (xw angles).length := ok.len.symm
  have h43 : Asserts.fle (ofRat 1) (XR.fin R) = decide (1 ≤ R) := by
    rw [XR.ofRat_eq, XR.fle_fin]; push_cast; rfl
  have h58 : AllHold ((List.range ⌈R⌉.toNat).map fun l => HAsserts.baseLevel (radMin (XR.fin R) l) (XR.fin R -. ofRat 1) (XR.fin R)) := by
    intro c hc
    obtain ⟨l, _, rfl⟩ := List.mem_map.1 hc
    rw [radMin_XR, XR.ofRat_eq, XR.sub_fin]
    have hl : (0 : ℝ) ≤ l := Nat.cast_nonneg _
    exact baseLevel_holds (by linarith) (by push_cast; linarith)
  have h60 : Asserts.isSorted ((List.range ⌈R⌉.toNat).map (htgt R)).reverse = true := by
    apply isSorted_of_pairwise
    rw [List.pairwise_reverse, List.pairwise_map]
    refine List.Pairwise.imp_of_mem ?_ List.pairwise_lt_range
    intro i j hi hj hij
    rw [List.mem_range] at hi hj
    have hz : ∀ k, htgt R k = hpair R k 0 := fun k => by unfold htgt hpair; simp
    rw [hz, hz]
    exact pbl_le (disk_ceil hin.disk) hj (by omega) hij.le le_rfl
  have hlog : AllHold (Asserts.ilog2 (u32 (hTotal (htgt R) ⌈R⌉.toNat + 1))) := ilog2_checks (by rw [u32_eq (by omega)]; omega)
  have hpair1 : AllHold (HAsserts.layerPairs (XR.fin R) rls) := by rw [hrls]; exact layerPairs_hold
  have hpair2 : AllHold (if CFloat.eq (XR.fin T) (ofRat 0) then [] else HAsserts.layerPairs (XR.fin R) rls) := by
    split
    · exact allHold_nil
    · exact hpair1
  refine ⟨_, rfl, ?_, ?_, ?_⟩
  · refine HBuildMostly.append (HBuildMostly.append (HBuildMostly.append (HBuildMostly.append (HBuildMostly.append (HBuildMostly.append
      (HBuildMostly.append (HBuildMostly.append (HBuildMostly.append ?_ (h58.hbuild _ _)) ?_) hC2) (hlog.hbuild _ _)) ?_) (hI2.hbuild _ _))
      (hY2.hbuild _ _)) (hpair1.hbuild _ _)) (hpair2.hbuild _ _)
    · intro c hc hf
      simp only [List.mem_cons, List.not_mem_nil, or_false] at hc
      rcases hc with rfl | rfl
      · rw [decide_eq_true hlen] at hf; cases hf
      · rw [h43] at hf ⊢
        have : ¬ 1 ≤ R := by simpa [HAsserts.build] using hf
        exact Or.inl ⟨by rw [decide_eq_false this], not_le.1 this⟩
    · exact (allHold_one h60).hbuild _ _
    · exact (allHold_one (isSorted_of_pairwise hcells.sorted)).hbuild _ _
  · intro hR
    rw [h43, decide_eq_false (not_le.2 hR)]
    simp
  · intro hR
    have := hC3 hR
    simp [this]

end exact
end Girgs
