import Verif.Proofs.HAssertSample
/-
The assertions of type II calls and of complete sampling runs of the hyperbolic sampler, and the pair counters.
-/
namespace Girgs
open CFloat HTree Spec
open Real

section exact
variable {ndebug : Bool} {radii angles : List ℝ} {T R : ℝ} {H : HTree XR}

theorem angle_dist_XR {A B l b : Nat} (hl : l ≤ 30) (hb : Girgs.Angle.cellsBetween A B l = some b) :
    Girgs.Angle.dist (F := XR) A B l = some (XR.fin (b * (2 * π / 2 ^ l))) := by
  unfold Girgs.Angle.dist
  refine (obind hb _).trans ?_
  have hs : shl1 l = some ((2 : ℤ) ^ l) := by
    unfold shl1
    rw [if_pos (by omega)]
  refine (obind hs _).trans ?_
  rw [XR.ofRat_eq, XR.ofNat_eq, XR.pi_eq, XR.ofInt_eq, XR.mul_fin, XR.mul_fin, XR.div_fin _ _ (by push_cast; positivity)]
  congr 2
  push_cast; ring

theorem HTaskOK.level_le (b : HBuiltX ndebug radii angles T R H) {t : Task} (ht : HTaskOK H (hpair R) t) : t.level ≤ 30 := by
  have h1 := b.ok.pbl_top t.i t.j ht.hi ht.hj
  have h2 := b.ok.levels_le
  have h3 := b.ok.levels_eq
  have h4 := ht.hl
  omega

/-- the bounds of a type II call -/
theorem HBuiltX.boundsII_eq (b : HBuiltX ndebug radii angles T R H) (hrad : LayerRadii R H) {t : Task} (ht : HTaskOK H (hpair R) t)
    {wi wj : RadiusLayer XR} (hi : rd H.radiusLayers t.i = some wi) (hj : rd H.radiusLayers t.j = some wj) :
    H.boundsII t = some (XR.fin (betweenN t.level t.cellA t.cellB * (2 * π / 2 ^ t.level)), XR.fin (classDist R t)) := by
  have hl := ht.level_le b
  unfold HTree.boundsII
  rw [obind hi, obind hj, obind (angle_dist_XR hl (cellsBetween_eq (by omega) ht.hA ht.hB)), (hrad _ _ hi).1, (hrad _ _ hj).1, XR.ofRat_eq,
    hyperbolicDistance_XR]
  rw [Rat.cast_zero, zero_sub, hc_neg]
  rfl

theorem HBuiltX.pair_checksII (b : HBuiltX ndebug radii angles T R H) (hin : HypInput radii angles T R) (hrad : LayerRadii R H)
    {t : Task} (ht : HTaskOK H (hpair R) t) (h2 : t.two = true) (hT : 0 < T) {wi wj : RadiusLayer XR}
    (hi : rd H.radiusLayers t.i = some wi) (hj : rd H.radiusLayers t.j = some wj)
    (hp : hypProb (classDist R t) R T ≤ 1 / 5) {u v : HPoint XR} (hu : u ∈ H.points) (hv : v ∈ H.points)
    (inA : HIn (htgt R) ⌈R⌉.toNat u t.i t.level t.cellA) (inB : HIn (htgt R) ⌈R⌉.toNat v t.j t.level t.cellB)
    {x : ℝ} (hx0 : 0 ≤ x) (hx1 : x < hypProb (classDist R t) R T) (Z : Prop) :
    ∃ L, H.pairChecksII (xw radii) (xw angles) t (DistFilter.make (XR.fin (hypProb (classDist R t) R T)) (XR.fin R) (XR.fin T))
      (XR.fin (betweenN t.level t.cellA t.cellB * (2 * π / 2 ^ t.level)), XR.fin (classDist R t)) u v (XR.fin x) = some L ∧ HMostly Z L := by
  obtain ⟨r, a, h1, h3, hr, hrR, _, _, eu, hU⟩ := b.point_data hin hu
  obtain ⟨s, c, k1, k3, hs, hsR, _, _, ev, hV⟩ := b.point_data hin hv
  have hR0 := HypInput.R_pos hin
  have hl := ht.level_le b
  obtain ⟨L1, c1, c2⟩ := b.place_checks hin hrad 409 413 hi hl hu inA
  obtain ⟨L2, d1, d2⟩ := b.place_checks hin hrad 410 414 hj hl hv inB
  have dA := hU _ _ _ inA
  have dB := hV _ _ _ inB
  obtain ⟨f1, f2⟩ := ht.far b hin h2 dA dB
  obtain ⟨g1, _⟩ := InArc.sep ht.hA ht.hB dA.2.2 dB.2.2
  have hu' : u.distCosh v = XR.fin (cosh (hypDist r a s c)) := by
    rw [eu, ev, distCosh_XR hr hs, cosh_hypDist hr hs, ← hc_eq, max_eq_right (arcosh_hc hr hs)]
  have hd0 := hypDist_nonneg r a s c hr hs
  have hcd : classDist R t ≤ hypDist r a s c := by
    rw [← hypDist_eq hr hs]
    unfold classDist
    rw [arcosh_le_arcosh (by positivity) (by positivity)]
    exact max_le_max le_rfl f2
  have hRc : R < classDist R t := (lt_arcosh_iff hR0.le).2 f1
  obtain ⟨L3, e1, e2⟩ := prob_checks (H := H) 427 433 Z b.R_eq b.T_eq rfl hu' hT (hProb_pos _ _ _) (hProb_lt_one (classDist R t) R T).le hx0 hx1 hd0
    (Or.inl (invProb_nonneg_small hR0.le hT.le (hProb_pos _ _ _) hp))
  unfold HTree.pairChecksII
  rw [obind hi, obind hj, obind c1, obind d1, obind (rd_xw h3), obind (rd_xw k3)]
  simp only
  rw [obind e1]
  refine ⟨_, rfl, HMostly.append (AllHold.hmostly ((c2.append d2).append ?_) _) e2⟩
  rw [hu', XR.acosh_fin _ (one_le_cosh _), arcosh_cosh hd0, b.R_eq, XR.sub_fin, XR.sub_fin, XR.abs_fin, XR.abs_fin, XR.fle_fin, XR.fle_fin,
    XR.fle_fin, XR.lt_fin]
  exact AllHold.cons (decide_eq_true g1) (AllHold.cons (decide_eq_true (by rw [abs_sub_comm]; exact g1))
    (AllHold.cons (decide_eq_true hcd) (allHold_one (decide_eq_true (lt_of_lt_of_le hRc hcd)))))

theorem HBuiltX.loop_checks (b : HBuiltX ndebug radii angles T R H) (hin : HypInput radii angles T R) (hrad : LayerRadii R H)
    {t : Task} (ht : HTaskOK H (hpair R) t) (h2 : t.two = true) (hT : 0 < T) {wi wj : RadiusLayer XR}
    (hi : rd H.radiusLayers t.i = some wi) (hj : rd H.radiusLayers t.j = some wj)
    (hp : hypProb (classDist R t) R T ≤ 1 / 5) {rng : Tree.Rng XR} (ur : UnitRng rng) (hgeo : GeoBounded rng) {ra rb : Nat × Nat}
    (hr : HRangesOK H (htgt R) ⌈R⌉.toNat t ra rb) (Z : Prop) :
    ∀ (fuel k : Nat) (g : rng.G), k < 18446744073709551616 → (ra.2 - ra.1) * (rb.2 - rb.1) + 1 ≤ fuel + k → 1 ≤ fuel →
    ∃ L, H.loopChecks (xw radii) (xw angles) rng t (DistFilter.make (XR.fin (hypProb (classDist R t) R T)) (XR.fin R) (XR.fin T))
      (XR.fin (betweenN t.level t.cellA t.cellB * (2 * π / 2 ^ t.level)), XR.fin (classDist R t)) ra.1 rb.1 (ra.2 - ra.1) (rb.2 - rb.1) fuel k g =
        some L ∧ HMostly Z L := by
  have ok := b.ok
  have hA := hr.nA; have hB := hr.nB; have hsm := ok.small
  have hNb : (ra.2 - ra.1) * (rb.2 - rb.1) ≤ 4611686018427387904 := by
    calc (ra.2 - ra.1) * (rb.2 - rb.1) ≤ 2147483648 * 2147483648 := Nat.mul_le_mul (by omega) (by omega)
      _ = _ := by norm_num
  have hmp : (DistFilter.make (XR.fin (hypProb (classDist R t) R T)) (XR.fin R) (XR.fin T)).maxProb = XR.fin (hypProb (classDist R t) R T) := rfl
  intro fuel
  induction fuel with
  | zero => intro k g _ _ h; omega
  | succ fuel ih =>
    intro k g hk hfuel _
    unfold HTree.loopChecks
    simp only
    rw [hmp]
    by_cases hlt : k < (ra.2 - ra.1) * (rb.2 - rb.1)
    · rw [if_pos hlt]
      obtain ⟨hma, hmb⟩ := mem_pairListII.1 (List.mem_map.2 ⟨k, List.mem_range.2 hlt, rfl⟩ : decodeII ra rb k ∈ pairListII ra rb)
      have hpa : ra.1 + k % (ra.2 - ra.1) < H.points.length := by rw [ok.length_points]; omega
      have hpb : rb.1 + k / (ra.2 - ra.1) < H.points.length := by rw [ok.length_points]; omega
      have ea := List.getElem?_eq_getElem hpa
      have eb := List.getElem?_eq_getElem hpb
      obtain ⟨x, ex, hx0, hx1⟩ := ur.uniformTo (hypProb (classDist R t) R T) g (hProb_pos _ _ _)
      obtain ⟨P, h3, h4⟩ := b.pair_checksII hin hrad ht h2 hT hi hj hp (List.mem_of_getElem? ea) (List.mem_of_getElem? eb)
        ((hr.memA _ _ ea).1 hma) ((hr.memB _ _ eb).1 hmb) hx0 hx1 Z
      rw [← ex] at h3
      have hjb := hgeo (XR.fin (hypProb (classDist R t) R T)) (rng.uniformTo (XR.fin (hypProb (classDist R t) R T)) g).2
      generalize rng.uniformTo (XR.fin (hypProb (classDist R t) R T)) g = y at *
      generalize rng.geo (XR.fin (hypProb (classDist R t) R T)) y.2 = z at *
      have hmod : (k + 1 + z.1) % 18446744073709551616 = k + 1 + z.1 := Nat.mod_eq_of_lt (by omega)
      obtain ⟨L, h5, h6⟩ := ih (k + 1 + z.1) z.2 (by omega) (by omega) (by omega)
      rw [hmod, obind (show rd H.points (ra.1 + k % (ra.2 - ra.1)) = _ from ea), obind (show rd H.points (rb.1 + k / (ra.2 - ra.1)) = _ from eb),
        obind h3, obind h5]
      exact ⟨_, rfl, h4.append h6⟩
    · rw [if_neg hlt]
      exact ⟨[], rfl, allHold_nil.hmostly _⟩

/-- type II calls -/
theorem HBuiltX.checks_typeII (b : HBuiltX ndebug radii angles T R H) (hin : HypInput radii angles T R) (hrad : LayerRadii R H)
    {rng : Tree.Rng XR} (ur : UnitRng rng) (hgeo : GeoBounded rng) {t : Task} (ht : HTaskOK H (hpair R) t) (h2 : t.two = true)
    (hb2 : betweenN t.level t.cellA t.cellB ≤ 2) (g : rng.G) :
    ∃ C, H.checksII (xw radii) (xw angles) rng t g = some C ∧ HMostly (ShortcutUnsafe T R) C := by
  obtain ⟨ra, rb, hr⟩ := b.ok.ranges_ok ht
  obtain ⟨wi, wj, lo⟩ := b.ok.layers_ok ht hr
  obtain ⟨L, h1, h3⟩ := lo.size_checks ht
  have hl := ht.level_le b
  unfold HTree.checksII
  rw [obind h1, obind hr.sizes]
  simp only
  split
  · exact ⟨_, rfl, h3.hmostly _⟩
  · rename_i hz
    have hT : 0 < T := by
      refine lt_of_le_of_ne hin.temp (fun h => hz ?_)
      rw [b.tZero_iff, decide_eq_true h.symm]; rfl
    have hpos := betweenN_pos ht.hA ht.hB (ht.two h2)
    rw [obind (b.filterFor_eq hT ht h2 hb2), obind (cellsBetween_eq (by omega) ht.hA ht.hB)]
    have hown : AllHold (L ++ [HAsserts.tree 360 (decide (betweenN t.level t.cellA t.cellB = 1) ||
        decide (betweenN t.level t.cellA t.cellB = 2))]) := by
      refine h3.append (allHold_one ?_)
      show (decide (betweenN t.level t.cellA t.cellB = 1) || decide (betweenN t.level t.cellA t.cellB = 2)) = true
      rw [← Bool.decide_or]; apply decide_eq_true; omega
    have hmp : (DistFilter.make (XR.fin (hypProb (classDist R t) R T)) (XR.fin R) (XR.fin T)).maxProb =
      XR.fin (hypProb (classDist R t) R T) := rfl
    rw [hmp]
    split
    · obtain ⟨C, h5, h6⟩ := b.checks_typeI hin hrad ur ht g
      rw [obind h5]
      exact ⟨_, rfl, (hown.hmostly _).append h6⟩
    · rename_i hpp
      have hp : hypProb (classDist R t) R T ≤ 1 / 5 := by
        by_contra h
        apply hpp
        rw [XR.ofRat_eq, XR.lt_fin]
        apply decide_eq_true
        push_cast
        linarith
      rw [obind (b.boundsII_eq hrad ht lo.rdi lo.rdj)]
      simp only
      rw [b.R_eq, b.T_eq, oneDiv_probRec_XR hT, XR.eq_fin, decide_eq_true (rfl : hypProb (classDist R t) R T = _)]
      have hown' := hown.append (allHold_one (c := HAsserts.tree 382 true) rfl)
      split
      · exact ⟨_, rfl, hown'.hmostly _⟩
      · obtain ⟨K, h5, h6⟩ := lo.start_checks ht
        rw [obind h5, obind hr.starts]
        have hgb := hgeo (XR.fin (hypProb (classDist R t) R T)) g
        generalize rng.geo (XR.fin (hypProb (classDist R t) R T)) g = z at *
        obtain ⟨M, h7, h8⟩ := b.loop_checks hin hrad ht h2 hT lo.rdi lo.rdj hp ur hgeo hr (ShortcutUnsafe T R)
          ((ra.2 - ra.1) * (rb.2 - rb.1) + 1) z.1 z.2 (by omega) (by omega) (by omega)
        simp only
        rw [obind h7]
        exact ⟨_, rfl, ((hown'.append h6).hmostly _).append h8⟩

theorem HBuiltX.task_checks (b : HBuiltX ndebug radii angles T R H) (hin : HypInput radii angles T R) (hrad : LayerRadii R H)
    {rng : Tree.Rng XR} (ur : UnitRng rng) (hgeo : GeoBounded rng) {t : Task}
    (ht : t ∈ hvisit H.layers H.levels (hpair R) true H.levels 0 0 0) (g : rng.G) :
    ∃ C, H.taskChecks (xw radii) (xw angles) rng t g = some C ∧ HMostly (ShortcutUnsafe T R) C := by
  have htok := hvisit_ok _ _ _ _ onLv_zero onLv_zero t ht
  unfold HTree.taskChecks
  cases h2 : t.two
  · simpa using b.checks_typeI hin hrad ur htok g
  · simpa using b.checks_typeII hin hrad ur hgeo htok h2 (hvisit_root_between ht h2) g

theorem HBuiltX.tasks_checks (b : HBuiltX ndebug radii angles T R H) (hin : HypInput radii angles T R) (hrad : LayerRadii R H)
    {rng : Tree.Rng XR} (ur : UnitRng rng) (hgeo : GeoBounded rng) : ∀ (ts : List Task),
    (∀ t ∈ ts, t ∈ hvisit H.layers H.levels (hpair R) true H.levels 0 0 0) → ∀ g : rng.G,
    ∃ C, H.tasksChecks (xw radii) (xw angles) rng ts g = some C ∧ HMostly (ShortcutUnsafe T R) C := by
  intro ts
  induction ts with
  | nil => intro _ g; exact ⟨[], rfl, allHold_nil.hmostly _⟩
  | cons t ts ih =>
    intro hts g
    obtain ⟨L, h1, h2⟩ := b.task_checks hin hrad ur hgeo (hts t (by simp)) g
    obtain ⟨cs, es, g1, _, h3, _⟩ := hrunTask_spec hgeo (b.draws hin.temp ur) b.ok b.fo
      (hvisit_ok _ _ _ _ onLv_zero onLv_zero t (hts t (by simp))) g
    obtain ⟨M, h4, h5⟩ := ih (fun t ht => hts t (by simp [ht])) g1
    unfold HTree.tasksChecks
    rw [obind h1, obind h3, obind h4]
    exact ⟨_, rfl, h2.append h5⟩

end exact

/-! ### the counters -/

section counters
variable {F : Type} [CFloat F] {H : HTree F} {tgt : Nat → Nat} {pbl : Nat → Nat → Nat} {nl : Nat}

theorem HRangesOK.countI {t : Task} {ra rb : Nat × Nat} (h : HRangesOK H tgt nl t ra rb) :
    H.countI t = some (2 * ((pairListI t ra rb).length : Int)) := by
  have hA := h.leA; have hB := h.leB
  have ea : ((ra.2 - ra.1 : Nat) : Int) = (ra.2 : Int) - ra.1 := by omega
  have eb : ((rb.2 - rb.1 : Nat) : Int) = (rb.2 : Int) - rb.1 := by omega
  unfold HTree.countI
  rw [obind h.eq]
  simp only
  by_cases hs : t.cellA = t.cellB ∧ t.i = t.j
  · have e := h.same hs
    subst e
    have hl := length_pairListI_same (ra := ra) hs
    have hl' : 2 * ((pairListI t ra ra).length : Int) = ((ra.2 - ra.1 : Nat) : Int) * ((ra.2 - ra.1 - 1 : Nat) : Int) := by
      exact_mod_cast hl
    split
    · rename_i h0
      have : ra.2 - ra.1 = 0 := by omega
      rw [hl', this]; simp
    · rename_i h0
      rw [hl', ea, show ((ra.2 - ra.1 - 1 : Nat) : Int) = (ra.2 : Int) - ra.1 - 1 by omega]
  · rw [length_pairListI_diff hs]
    push_cast
    rw [ea, eb]
    split
    · rename_i h0
      rcases h0 with h0 | h0
      · rw [h0]; simp
      · rw [h0]; simp
    · congr 1; ring

theorem HTreeOK.counts_spec (ok : HTreeOK H tgt pbl nl) (fo : HFiltersOK H pbl) {t : Task} (ht : HTaskOK H pbl t) :
    ∃ a b cs, H.counts t = some (a, b) ∧ H.candidates t = some cs ∧ a + b = 2 * (cs.length : Int) := by
  obtain ⟨ra, rb, h⟩ := ok.ranges_ok ht
  have hA := h.leA; have hB := h.leB
  unfold HTree.counts
  cases h2 : t.two
  · refine ⟨2 * ((pairListI t ra rb).length : Int), 0, _, ?_, h.candidates_eq, ?_⟩
    · simp only [Bool.false_eq_true, if_false]
      rw [h.countI]; rfl
    · rw [candList, h2]; simp
  · have hlen : (pairListI t ra rb).length = (pairListII ra rb).length := (h.pairLists_perm (ht.ne h2)).length_eq
    have hcand := h.candidates_eq
    rw [candList, h2] at hcand
    simp only [if_true] at hcand ⊢
    have hk : 2 * ((ra.2 - ra.1 : Nat) : Int) * ((rb.2 - rb.1 : Nat) : Int) = 2 * ((pairListII ra rb).length : Int) := by
      rw [length_pairListII]; push_cast; ring
    unfold HTree.countII
    rw [obind h.sizes]
    simp only
    rw [hk]
    split
    · exact ⟨0, _, _, rfl, hcand, by simp⟩
    · rename_i hz
      have hz' : H.tZero = false := by
        cases hh : H.tZero with
        | false => rfl
        | true => rw [hh] at hz; simp at hz
      obtain ⟨row, p, b, _, _, _, _, _, hf⟩ := ok.filterFor_some fo hz' ht h2
      rw [obind hf]
      generalize (if b = 1 then p.1 else p.2) = f
      split
      · exact ⟨2 * ((pairListI t ra rb).length : Int), _, _, by rw [h.countI]; rfl, hcand, by rw [hlen]; ring⟩
      · exact ⟨0, _, _, rfl, hcand, by simp⟩

theorem HTreeOK.totals_spec (ok : HTreeOK H tgt pbl nl) (fo : HFiltersOK H pbl) : ∀ (ts : List Task), (∀ t ∈ ts, HTaskOK H pbl t) →
    ∃ a b cs, H.totals ts = some (a, b) ∧ H.allCandidates ts = some cs ∧ a + b = 2 * (cs.length : Int) := by
  intro ts
  induction ts with
  | nil => intro _; exact ⟨0, 0, [], rfl, rfl, by simp⟩
  | cons t ts ih =>
    intro hts
    obtain ⟨a, b, cs, h1, h2, h3⟩ := ok.counts_spec fo (hts t (by simp))
    obtain ⟨a', b', cs', h4, h5, h6⟩ := ih (fun t ht => hts t (by simp [ht]))
    refine ⟨a + a', b + b', cs ++ cs', ?_, ?_, ?_⟩
    · unfold HTree.totals
      rw [obind h1, obind h4]
    · unfold HTree.allCandidates Tree.concatM
      unfold HTree.allCandidates at h5
      rw [h2, h5]; rfl
    · rw [List.length_append]; push_cast; linarith

end counters
end Girgs
