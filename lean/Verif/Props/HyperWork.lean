import Verif.Proofs.HWorkRadii
import Verif.Props.Samplers
import Verif.Proofs.HWorkErase
import Verif.Proofs.IdealRng
import Verif.Props.HyperEdges
/-
C90: the work of the hyperbolic sampler is linear in expectation.
-/
open Real
namespace Girgs.Props
open Girgs Spec CFloat MeasureTheory Angle
open scoped ENNReal

/-- C90 (what is counted).  For any kind of floating point numbers, any generator and any calls: the functions that count the pairs looked at
make the same draws and stop in the same states as the sampling calls, and the edges are among the pairs looked at, in the same order. -/
theorem C90_counts {F : Type} [CFloat F] (H : HTree F) (rng : Tree.Rng F) (ts : List Task) (g : rng.G) :
    (HTree.runTasks H rng ts g = none ∧ HTree.lookTasks H rng ts g = none) ∨
    ∃ looked edges g', HTree.lookTasks H rng ts g = some (looked, g') ∧ HTree.runTasks H rng ts g = some (edges, g') ∧ edges.Sublist looked := by
  rcases HTree.lookTasks_agree (H := H) (rng := rng) ts g with ⟨h1, h2⟩ | ⟨l, e, g', h1, h2, h3⟩
  · exact Or.inl ⟨h2, h1⟩
  · exact Or.inr ⟨l, e, g', h1, h2, h3⟩

section
variable {ndebug : Bool} {radii angles : List ℝ} {T R : ℝ} {H : HTree XR}

/-- C90 (recursion).  For every supported input, whatever the points, the number of calls of `visitCellPair` plus the number of iterations of its
loops is at most `864 * exp (R / 2)`. -/
theorem C90_recursion (hin : HypInput radii angles T R) (hc : HConstructed ndebug (xw radii) (xw angles) (XR.fin T) (XR.fin R) H) :
    ∃ k, HTree.visitSteps H H.levels 0 0 0 = some k ∧ (k : ℝ) ≤ 864 * Real.exp (R / 2) :=
  (hc.builtX hin).visits hin

/-- C90 (memory).  The index over the cells of all layers has at most `9 * exp (R / 2)` entries, and there are as many points as radii. -/
theorem C90_index (hin : HypInput radii angles T R) (hc : HConstructed ndebug (xw radii) (xw angles) (XR.fin T) (XR.fin R) H) :
    (H.firstInCell.length : ℝ) ≤ 9 * Real.exp (R / 2) ∧ H.points.length = radii.length := by
  have b := hc.builtX hin
  exact ⟨b.index_le hin, by rw [b.ok.length_points, b.n_eq]; simp [xw]⟩

theorem hroot_visit (b : HBuiltX ndebug radii angles T R H) : ∃ ts, HTree.visitCellPair H H.levels 0 0 0 = some ts ∧
    ts.Sublist (hvisit H.layers H.levels (hpair R) true H.levels 0 0 0) := by
  have ok := b.ok
  have hlev : H.levels - 1 + 1 = H.levels := by have := ok.levels_eq; omega
  have hv := ok.visit_eq (H.levels - 1) H.levels 0 0 0 (by omega) (by omega) onLv_zero onLv_zero
  rw [hlev] at hv
  exact ⟨_, hv, hvisit_full _ _ _ _ _⟩

end

/-! ### expectation -/

section
variable {n : ℕ} {ndebug : Bool} {radii : List ℝ} {T R : ℝ}

/-- expected looks for fixed angles -/
theorem hpairs_fixed {rng : Tree.Rng XR} [MeasurableSpace rng.G] {μ : Measure rng.G} (id : IdealRng rng μ) (ur : UnitRng rng)
    {X : Fin n → Fin 1 → ℝ} {H : HTree XR} (hin : HypInput radii (circleAngles X) T R) (b : HBuiltX ndebug radii (circleAngles X) T R H)
    {tss : List (List Task)} {ts : List Task} (hts : HTree.visitCellPair H H.levels 0 0 0 = some ts) (hperm : tss.flatten.Perm ts)
    {K : ℝ≥0∞} {f : ℝ → ℝ → ℝ}
    (hf : ∀ t ∈ hvisit H.layers H.levels (hpair R) true H.levels 0 0 0, ∀ c ∈ hlookCoins H R T t,
      ENNReal.ofReal (unit c.2) ≤ K * hypPair radii R X f c.1.1 c.1.2) :
    (∀ own ∈ tss, ∀ g, ∃ r, HTree.lookTasks H rng own g = some r) ∧
      (tss.map fun own => ∫⁻ g, ((((HTree.lookTasks H rng own g).map fun r => r.1.length).getD 0 : ℕ) : ℝ≥0∞) ∂μ).sum ≤
        K * ∑ v ∈ Finset.range n, ∑ u ∈ Finset.range v, hypPair radii R X f u v := by
  obtain ⟨ts', h1, h2⟩ := hroot_visit b
  rw [h1, Option.some.injEq] at hts
  subst hts
  have hsub := hperm.subperm.trans h2.subperm
  have hmem : ∀ own ∈ tss, ∀ t ∈ own, t ∈ hvisit H.layers H.levels (hpair R) true H.levels 0 0 0 := fun own ho t ht =>
    hsub.subset (List.mem_flatten.2 ⟨own, ho, ht⟩)
  have hone : ∀ own ∈ tss, ∃ r : rng.G → List (ℕ × ℕ) × rng.G, (∀ g, HTree.lookTasks H rng own g = some (r g)) ∧
      ∫⁻ g, ((r g).1.length : ℝ≥0∞) ∂μ = ((own.flatMap (hlookCoins H R T)).map fun c => ENNReal.ofReal (unit c.2)).sum := by
    intro own ho
    obtain ⟨r, h1, _, h2⟩ := hlookTasks_expected (H := H) id (L := hlookCoins H R T) own
      (fun t ht => hlookTask_law id ur b hin (hgood_root (hmem own ho t ht)))
    exact ⟨r, h1, h2⟩
  refine ⟨fun own ho g => (hone own ho).imp' (fun r => r g) fun r hr => hr.1 g, ?_⟩
  have e : tss.map (fun own => ∫⁻ g, ((((HTree.lookTasks H rng own g).map fun r => r.1.length).getD 0 : ℕ) : ℝ≥0∞) ∂μ) =
      tss.map fun own => ((own.flatMap (hlookCoins H R T)).map fun c => ENNReal.ofReal (unit c.2)).sum := by
    refine List.map_congr_left fun own ho => ?_
    obtain ⟨r, h1, h2⟩ := hone own ho
    rw [← h2]
    simp_rw [h1]
    rfl
  rw [e]
  have e2 : ∀ L : List (List Task), (L.map fun own => ((own.flatMap (hlookCoins H R T)).map fun c => ENNReal.ofReal (unit c.2)).sum).sum =
      ((L.flatten.flatMap (hlookCoins H R T)).map fun c => ENNReal.ofReal (unit c.2)).sum := by
    intro L
    induction L with
    | nil => rfl
    | cons own L ih => rw [List.map_cons, List.sum_cons, ih, List.flatten_cons, List.flatMap_append, List.map_append, List.sum_append]
  rw [e2]
  refine b.hlook_sum hsub ?_ (fun t ht c hc => hf t (hsub.subset ht) c hc)
  have := hin.len
  simp only [circleAngles, List.length_ofFn] at this
  rw [b.n_eq, this]; simp [xw]

/-- C90 (pairs).  Points with radii `radii` and independent uniform angles in the disk of radius `R`, temperature `T < 1`, ideal random numbers, any structure
built from the points, and any distribution `tss` of the sampling calls to threads that each use their own generator: the expected number of pairs of points
that all threads look at is at most `90 / (1 - T)` times the sum of `exp ((R - r_u - r_v) / 2)` over all pairs of points. -/
theorem C90_pairs {rng : Tree.Rng XR} [MeasurableSpace rng.G] {μ : Measure rng.G} (id : IdealRng rng μ) (ur : UnitRng rng) (hn : n = radii.length)
    (hin : ∀ X : Fin n → Fin 1 → ℝ, (∀ u d, X u d ∈ Set.Ico (0 : ℝ) 1) → HypInput radii (circleAngles X) T R) (hT0 : 0 ≤ T) (hT1 : T < 1)
    (H : (Fin n → Fin 1 → ℝ) → HTree XR)
    (hH : ∀ X, (∀ u d, X u d ∈ Set.Ico (0 : ℝ) 1) → HConstructed ndebug (xw radii) (xw (circleAngles X)) (XR.fin T) (XR.fin R) (H X))
    (tss : (Fin n → Fin 1 → ℝ) → List (List Task))
    (htss : ∀ X, (∀ u d, X u d ∈ Set.Ico (0 : ℝ) 1) → ∃ ts, HTree.visitCellPair (H X) (H X).levels 0 0 0 = some ts ∧ (tss X).flatten.Perm ts) :
    (∀ X, (∀ u d, X u d ∈ Set.Ico (0 : ℝ) 1) → ∀ own ∈ tss X, ∀ g, ∃ r, HTree.lookTasks (H X) rng own g = some r) ∧
    ∫⁻ X, ((tss X).map fun own => ∫⁻ g, ((((HTree.lookTasks (H X) rng own g).map fun r => r.1.length).getD 0 : ℕ) : ℝ≥0∞) ∂μ).sum ∂uniformPositions n 1 ≤
      ENNReal.ofReal (90 / (1 - T) * hypPairSum radii R) := by
  have hprobm := id.prob
  have h1 : 0 < 1 - T := by linarith
  rcases hT0.eq_or_lt with rfl | hT
  · have key := fun X hX => hpairs_fixed id ur (hin X hX) ((hH X hX).builtX (hin X hX)) (htss X hX).choose_spec.1 (htss X hX).choose_spec.2
      (K := 1) (f := fun t r => if r ^ 1 < t then 1 else 0) (fun t ht c hc => ((hH X hX).builtX (hin X hX)).hlook_threshold (hin X hX) hX ht hc)
    refine ⟨fun X hX => (key X hX).1, ?_⟩
    have hae : ∀ᵐ X ∂uniformPositions n 1, ((tss X).map fun own => ∫⁻ g, ((((HTree.lookTasks (H X) rng own g).map fun r => r.1.length).getD 0 : ℕ) : ℝ≥0∞) ∂μ).sum ≤
        1 * ∑ v ∈ Finset.range n, ∑ u ∈ Finset.range v, hypPair radii R X (fun t r => if r ^ 1 < t then 1 else 0) u v := by
      filter_upwards [uniformPositions_ae n 1] with X hX using (key X hX).2
    refine le_trans (lintegral_mono_ae hae) ?_
    simp only [one_mul]
    refine (lintegral_hthreshold hn).trans (ENNReal.ofReal_le_ofReal ?_)
    have := hypPairSum_nonneg (radii := radii) (R := R)
    norm_num
    linarith
  · have key := fun X hX => hpairs_fixed id ur (hin X hX) ((hH X hX).builtX (hin X hX)) (htss X hX).choose_spec.1 (htss X hX).choose_spec.2
      (K := 5) (f := Scaling.connProb 1 (1 / T)) (fun t ht c hc => ((hH X hX).builtX (hin X hX)).hlook_prob (hin X hX) hT hX ht hc)
    refine ⟨fun X hX => (key X hX).1, ?_⟩
    have hae : ∀ᵐ X ∂uniformPositions n 1, ((tss X).map fun own => ∫⁻ g, ((((HTree.lookTasks (H X) rng own g).map fun r => r.1.length).getD 0 : ℕ) : ℝ≥0∞) ∂μ).sum ≤
        5 * ∑ v ∈ Finset.range n, ∑ u ∈ Finset.range v, hypPair radii R X (Scaling.connProb 1 (1 / T)) u v := by
      filter_upwards [uniformPositions_ae n 1] with X hX using (key X hX).2
    refine le_trans (lintegral_mono_ae hae) ?_
    rw [lintegral_const_mul' _ _ (by norm_num)]
    refine le_trans (mul_le_mul le_rfl (lintegral_hconn hn hT hT1) bot_le bot_le) ?_
    rw [show (5 : ℝ≥0∞) = ENNReal.ofReal 5 by simp, ← ENNReal.ofReal_mul (by norm_num)]
    refine ENNReal.ofReal_le_ofReal (le_of_eq ?_)
    ring

/-- C90 (one thread).  The expectation of the complete work of the sampler (calls of `visitCellPair`, iterations of its loops, and pairs of
points looked at) is at most `864 * exp (R / 2)` plus `90 / (1 - T)` times the sum of `exp ((R - r_u - r_v) / 2)` over all pairs of points. -/
theorem C90_expected {rng : Tree.Rng XR} [MeasurableSpace rng.G] {μ : Measure rng.G} (id : IdealRng rng μ) (ur : UnitRng rng) (hn : n = radii.length)
    (hin : ∀ X : Fin n → Fin 1 → ℝ, (∀ u d, X u d ∈ Set.Ico (0 : ℝ) 1) → HypInput radii (circleAngles X) T R) (hT0 : 0 ≤ T) (hT1 : T < 1)
    (H : (Fin n → Fin 1 → ℝ) → HTree XR)
    (hH : ∀ X, (∀ u d, X u d ∈ Set.Ico (0 : ℝ) 1) → HConstructed ndebug (xw radii) (xw (circleAngles X)) (XR.fin T) (XR.fin R) (H X)) :
    (∀ X, (∀ u d, X u d ∈ Set.Ico (0 : ℝ) 1) → ∀ g, ∃ k, HTree.sequentialWork (H X) rng g = some k) ∧
    ∫⁻ X, ∫⁻ g, (((HTree.sequentialWork (H X) rng g).getD 0 : ℕ) : ℝ≥0∞) ∂μ ∂uniformPositions n 1 ≤
        ENNReal.ofReal (864 * Real.exp (R / 2) + 90 / (1 - T) * hypPairSum radii R) := by
  have hprobm := id.prob
  have h1 : 0 < 1 - T := by linarith
  set calls : (Fin n → Fin 1 → ℝ) → List Task := fun X => (HTree.visitCellPair (H X) (H X).levels 0 0 0).getD [] with hcalls
  have hcall : ∀ X, (∀ u d, X u d ∈ Set.Ico (0 : ℝ) 1) → HTree.visitCellPair (H X) (H X).levels 0 0 0 = some (calls X) := by
    intro X hX
    obtain ⟨ts, h1, _⟩ := hroot_visit ((hH X hX).builtX (hin X hX))
    simp only [hcalls]
    rw [h1]; rfl
  obtain ⟨hdef, hbound⟩ := C90_pairs id ur hn hin hT0 hT1 H hH (fun X => [calls X]) (fun X hX => ⟨_, hcall X hX, by simp⟩)
  set steps : (Fin n → Fin 1 → ℝ) → ℕ := fun X => (HTree.visitSteps (H X) (H X).levels 0 0 0).getD 0 with hsteps
  have hst : ∀ X, (∀ u d, X u d ∈ Set.Ico (0 : ℝ) 1) → HTree.visitSteps (H X) (H X).levels 0 0 0 = some (steps X) ∧
      (steps X : ℝ≥0∞) ≤ ENNReal.ofReal (864 * Real.exp (R / 2)) := by
    intro X hX
    obtain ⟨k, h1, h2⟩ := C90_recursion (hin X hX) (hH X hX)
    have e : steps X = k := by simp only [hsteps]; rw [h1]; rfl
    rw [e]
    refine ⟨h1, ?_⟩
    rw [← ENNReal.ofReal_natCast]
    exact ENNReal.ofReal_le_ofReal h2
  have hwork : ∀ X, (∀ u d, X u d ∈ Set.Ico (0 : ℝ) 1) → ∀ g, HTree.sequentialWork (H X) rng g =
      some (steps X + ((HTree.lookTasks (H X) rng (calls X) g).map fun r => r.1.length).getD 0) := by
    intro X hX g
    obtain ⟨r, hr⟩ := hdef X hX (calls X) (by simp) g
    unfold HTree.sequentialWork
    rw [obind (hst X hX).1, obind (hcall X hX)]
    refine (obind hr _).trans ?_
    simp only [hr, Option.map_some, Option.getD_some]
  refine ⟨fun X hX g => ⟨_, hwork X hX g⟩, ?_⟩
  have hae : ∀ᵐ X ∂uniformPositions n 1, ∫⁻ g, (((HTree.sequentialWork (H X) rng g).getD 0 : ℕ) : ℝ≥0∞) ∂μ ≤
        ENNReal.ofReal (864 * Real.exp (R / 2)) +
        (([calls X] : List (List Task)).map fun own => ∫⁻ g, ((((HTree.lookTasks (H X) rng own g).map fun r => r.1.length).getD 0 : ℕ) : ℝ≥0∞) ∂μ).sum := by
    filter_upwards [uniformPositions_ae n 1] with X hX
    simp_rw [hwork X hX]
    simp only [Option.getD_some, Nat.cast_add, List.map_cons, List.map_nil, List.sum_cons, List.sum_nil, add_zero]
    rw [lintegral_add_left measurable_const]
    refine add_le_add ?_ le_rfl
    rw [lintegral_const, measure_univ, mul_one]
    exact (hst X hX).2
  refine le_trans (lintegral_mono_ae hae) ?_
  rw [lintegral_add_left measurable_const, lintegral_const, measure_univ, mul_one]
  refine le_trans (add_le_add le_rfl hbound) ?_
  rw [← ENNReal.ofReal_add (by positivity) (mul_nonneg (by positivity) hypPairSum_nonneg)]

/-! ### no temperature -/

/-- without temperature a call looks at all its pairs or at none, whatever the generator -/
theorem hlook_zero {X : Fin n → Fin 1 → ℝ} {H : HTree XR} (rng : Tree.Rng XR) (b : HBuiltX ndebug radii (circleAngles X) 0 R H) {t : Task}
    (ht : HTaskOK H (hpair R) t) (g : rng.G) :
    ∃ r, HTree.lookTask H rng t g = some r ∧ r.1.length = ((hlookCoins H R 0 t).filter fun c => decide (c.2 = 1)).length ∧
      ∀ c ∈ hlookCoins H R 0 t, c.2 = 1 ∨ c.2 = 0 := by
  have ok := b.ok
  have hz : H.tZero = true := by rw [b.tZero_iff]; simp
  have hmode : H.inThresholdMode = true := by
    rw [b.threshold_iff, decide_eq_true_eq]; norm_num
  obtain ⟨ra, rb, hr⟩ := ok.ranges_ok ht
  have key : ∀ (L : List (ℕ × ℕ)), (∀ c ∈ L, c.1 < H.points.length ∧ c.2 < H.points.length) → ∀ g : rng.G,
      ∃ r, HTree.lookPairsI H rng L g = some r ∧ r.1.length = L.length := by
    intro L
    induction L with
    | nil => intro _ g; exact ⟨([], g), rfl, rfl⟩
    | cons c L ih =>
      intro hL g
      obtain ⟨hc1, hc2⟩ := hL c (by simp)
      obtain ⟨c1, c2⟩ := c
      obtain ⟨r, h1, h2⟩ := ih (fun c hc => hL c (by simp [hc])) g
      refine ⟨((H.points[c1].id, H.points[c2].id) :: r.1, r.2), ?_, ?_⟩
      · unfold HTree.lookPairsI
        refine (obind (show rd H.points c1 = _ from List.getElem?_eq_getElem hc1) _).trans ?_
        refine (obind (show rd H.points c2 = _ from List.getElem?_eq_getElem hc2) _).trans ?_
        have hd : HTree.decideI H rng H.points[c1] H.points[c2] g = some (H.points[c1].isDistanceBelowR H.points[c2] H.coshR, g) := by
          unfold HTree.decideI; rw [if_pos hmode]
        refine (obind hd _).trans ?_
        exact (obind h1 _).trans rfl
      · simp [h2]
  have hone : ∀ L : List (ℕ × ℕ), ((hconst H 1 L).filter fun c => decide (c.2 = 1)).length = L.length ∧ ∀ c ∈ hconst H 1 L, c.2 = 1 := by
    intro L
    have h1 : ∀ c ∈ hconst H 1 L, c.2 = 1 := by
      intro c hc
      obtain ⟨p, _, rfl⟩ := List.mem_map.1 hc
      rfl
    refine ⟨?_, h1⟩
    rw [List.filter_eq_self.2 fun c hc => decide_eq_true (h1 c hc)]
    simp [hconst]
  have hzero : ∀ L : List (ℕ × ℕ), ((hconst H 0 L).filter fun c => decide (c.2 = 1)).length = 0 ∧ ∀ c ∈ hconst H 0 L, c.2 = 0 := by
    intro L
    have h1 : ∀ c ∈ hconst H 0 L, c.2 = 0 := by
      intro c hc
      obtain ⟨p, _, rfl⟩ := List.mem_map.1 hc
      rfl
    refine ⟨?_, h1⟩
    rw [List.filter_eq_nil_iff.2 fun c hc => by rw [h1 c hc]; simp]
    rfl
  unfold hlookCoins HTree.lookTask
  rw [hr.eq]
  simp only [hz, if_true]
  cases htwo : t.two
  · simp only [Bool.false_eq_true, if_false]
    obtain ⟨e1, e2⟩ := hone (pairListI t ra rb)
    rw [e1]
    unfold HTree.lookTypeI
    by_cases hc : ra.1 = ra.2 ∨ rb.1 = rb.2
    · have hnil : pairListI t ra rb = [] := by
        rw [List.eq_nil_iff_forall_not_mem]
        rintro ⟨p, q⟩ hm
        have := hr.mem_pairListI.1 hm
        omega
      refine ⟨([], g), ?_, by rw [hnil], fun c hc => Or.inl (e2 c hc)⟩
      refine (obind hr.eq _).trans ?_
      simp [hc]
    · obtain ⟨r, h2, h3⟩ := key (pairListI t ra rb) (by
        rintro ⟨p, q⟩ hm
        have := hr.mem_pairListI.1 hm
        have h1 := hr.nA
        have h2 := hr.nB
        rw [ok.length_points]
        exact ⟨by simp only; omega, by simp only; omega⟩) g
      refine ⟨r, ?_, h3, fun c hc => Or.inl (e2 c hc)⟩
      refine (obind hr.eq _).trans ?_
      simp only [hc, if_false]
      exact (obind hr.pairsI_eq _).trans h2
  · simp only [if_true]
    obtain ⟨e1, e2⟩ := hzero (pairListII ra rb)
    rw [e1]
    refine ⟨([], g), ?_, rfl, fun c hc => Or.inr (e2 c hc)⟩
    unfold HTree.lookTypeII
    refine (obind hr.sizes _).trans ?_
    simp [hz]

theorem hlook_zero_all {X : Fin n → Fin 1 → ℝ} {H : HTree XR} (rng : Tree.Rng XR) (b : HBuiltX ndebug radii (circleAngles X) 0 R H) :
    ∀ (ts : List Task), (∀ t ∈ ts, HTaskOK H (hpair R) t) → ∀ g : rng.G, ∃ r, HTree.lookTasks H rng ts g = some r ∧
      r.1.length = ((ts.flatMap (hlookCoins H R 0)).filter fun c => decide (c.2 = 1)).length := by
  intro ts
  induction ts with
  | nil => intro _ g; exact ⟨([], g), rfl, rfl⟩
  | cons t ts ih =>
    intro hok g
    obtain ⟨r, h2, h3, _⟩ := hlook_zero rng b (hok t (by simp)) g
    obtain ⟨r', h4, h5⟩ := ih (fun t ht => hok t (by simp [ht])) r.2
    refine ⟨_, (obind h2 _).trans ((obind h4 _).trans rfl), ?_⟩
    simp [h3, h5]

/-- C90 (no temperature).  Points with radii `radii` and independent uniform angles, any generators in any states, any distribution `tss` of the sampling
calls to threads, debug or release build: the number of pairs of points a thread looks at does not depend on the generator, and the expected number of
pairs that all threads look at is at most `18` times the sum of `exp ((R - r_u - r_v) / 2)` over all pairs of points. -/
theorem C90_threshold (rng : Tree.Rng XR) (hn : n = radii.length)
    (hin : ∀ X : Fin n → Fin 1 → ℝ, (∀ u d, X u d ∈ Set.Ico (0 : ℝ) 1) → HypInput radii (circleAngles X) 0 R)
    (H : (Fin n → Fin 1 → ℝ) → HTree XR)
    (hH : ∀ X, (∀ u d, X u d ∈ Set.Ico (0 : ℝ) 1) → HConstructed ndebug (xw radii) (xw (circleAngles X)) (XR.fin 0) (XR.fin R) (H X))
    (tss : (Fin n → Fin 1 → ℝ) → List (List Task))
    (htss : ∀ X, (∀ u d, X u d ∈ Set.Ico (0 : ℝ) 1) → ∃ ts, HTree.visitCellPair (H X) (H X).levels 0 0 0 = some ts ∧ (tss X).flatten.Perm ts) :
    ∃ k : (Fin n → Fin 1 → ℝ) → List Task → ℕ,
      (∀ X, (∀ u d, X u d ∈ Set.Ico (0 : ℝ) 1) → ∀ own ∈ tss X, ∀ g, ∃ r, HTree.lookTasks (H X) rng own g = some r ∧ r.1.length = k X own) ∧
      ∫⁻ X, ((((tss X).map (k X)).sum : ℕ) : ℝ≥0∞) ∂uniformPositions n 1 ≤ ENNReal.ofReal (18 * hypPairSum radii R) := by
  have hsub : ∀ X, (∀ u d, X u d ∈ Set.Ico (0 : ℝ) 1) →
      (tss X).flatten.Subperm (hvisit (H X).layers (H X).levels (hpair R) true (H X).levels 0 0 0) := by
    intro X hX
    obtain ⟨ts', h1, h2⟩ := hroot_visit ((hH X hX).builtX (hin X hX))
    obtain ⟨ts, hts, hperm⟩ := htss X hX
    rw [h1, Option.some.injEq] at hts
    subst hts
    exact hperm.subperm.trans h2.subperm
  refine ⟨fun X own => ((own.flatMap (hlookCoins (H X) R 0)).filter fun c => decide (c.2 = 1)).length, ?_, ?_⟩
  · intro X hX own ho g
    exact hlook_zero_all rng ((hH X hX).builtX (hin X hX)) own
      (fun t ht => (hgood_root (R := R) ((hsub X hX).subset (List.mem_flatten.2 ⟨own, ho, ht⟩))).1) g
  · have hae : ∀ᵐ X ∂uniformPositions n 1,
        ((((tss X).map fun own => ((own.flatMap (hlookCoins (H X) R 0)).filter fun c => decide (c.2 = 1)).length).sum : ℕ) : ℝ≥0∞) ≤
        1 * ∑ v ∈ Finset.range n, ∑ u ∈ Finset.range v, hypPair radii R X (fun t r => if r ^ 1 < t then 1 else 0) u v := by
      filter_upwards [uniformPositions_ae n 1] with X hX
      have b := (hH X hX).builtX (hin X hX)
      have hs := hsub X hX
      have e1 : ∀ L : List (List Task), (L.map fun own => ((own.flatMap (hlookCoins (H X) R 0)).filter fun c => decide (c.2 = 1)).length).sum =
          ((L.flatten.flatMap (hlookCoins (H X) R 0)).filter fun c => decide (c.2 = 1)).length := by
        intro L
        induction L with
        | nil => rfl
        | cons own L ih =>
          rw [List.map_cons, List.sum_cons, ih, List.flatten_cons, List.flatMap_append, List.filter_append, List.length_append]
      rw [e1]
      have e2 : ∀ L : List ((ℕ × ℕ) × ℝ), ((L.filter fun c => decide (c.2 = 1)).length : ℝ≥0∞) ≤ (L.map fun c => ENNReal.ofReal (unit c.2)).sum := by
        intro L
        induction L with
        | nil => simp
        | cons c L ih =>
          rw [List.map_cons, List.sum_cons]
          by_cases h : c.2 = 1
          · rw [List.filter_cons_of_pos (by simpa using h), List.length_cons, Nat.cast_add, Nat.cast_one, h, unit_eq (by norm_num) (by norm_num),
              ENNReal.ofReal_one, add_comm]
            exact add_le_add le_rfl ih
          · rw [List.filter_cons_of_neg (by simpa using h)]
            exact ih.trans le_add_self
      refine (e2 _).trans ?_
      refine b.hlook_sum hs ?_ fun t ht c hc => b.hlook_threshold (hin X hX) hX (hs.subset ht) hc
      have := (hin X hX).len
      simp only [circleAngles, List.length_ofFn] at this
      rw [b.n_eq, this]; simp [xw]
    refine le_trans (lintegral_mono_ae hae) ?_
    simp only [one_mul]
    refine le_trans (lintegral_hthreshold hn) (le_of_eq ?_)
    rw [mul_one]

end

/-! ### random radii -/

/-- the radius that `sampleRadii` writes, if the distribution returns the number at the fraction `y` of its interval -/
theorem C90_radius {eng : Engine XR} {g : eng.G} {i : ℕ} {α R y : ℝ} (hα : 1 / 2 < α) (hR : 2 / 3 ≤ R) (h0 : 0 ≤ y) (h1 : y < 1)
    (hu : (eng.uniform oneUp (CFloat.cosh (XR.fin α *. XR.fin R)) g).1 =
      XR.fin ((1 + 1 / 2 ^ 52) + (Real.cosh (α * R) - (1 + 1 / 2 ^ 52)) * y)) :
    hyperWrites eng true false (XR.fin α) (XR.fin R) g [i] = [HWrite.radius i (XR.fin (sampledRadius α R y))] := by
  have hb := cosh_big hα hR
  have he : (0 : ℝ) < 1 / 2 ^ 52 := by positivity
  have hx : 1 ≤ (1 + 1 / 2 ^ 52) + (Real.cosh (α * R) - (1 + 1 / 2 ^ 52)) * y := by
    have : 0 ≤ (Real.cosh (α * R) - (1 + 1 / 2 ^ 52)) * y := mul_nonneg (by linarith) h0
    linarith
  have hα0 : α ≠ 0 := by linarith
  simp only [hyperWrites, Bool.false_eq_true, if_false, if_true, List.nil_append, List.append_nil]
  rw [hu, XR.acosh_fin _ hx, XR.ofRat_eq, XR.div_fin _ _ hα0, XR.mul_fin]
  congr 3
  unfold sampledRadius
  push_cast
  ring

section
variable {n : ℕ} {ndebug : Bool} {α T R : ℝ}

theorem sampled_input (hn1 : 1 ≤ n) (hn2 : n < 2147483648) (hα : 1 / 2 < α) (hT0 : 0 ≤ T)
    (hdisk : (2 / 3 ≤ R ∧ R ≤ 1) ∨ (4 / 3 ≤ R ∧ R ≤ 165 / 4)) {Y X : Fin n → Fin 1 → ℝ} (hY : ∀ u d, Y u d ∈ Set.Ico (0 : ℝ) 1)
    (hX : ∀ u d, X u d ∈ Set.Ico (0 : ℝ) 1) : HypInput (sampledRadii α R Y) (circleAngles X) T R := by
  have hR : 2 / 3 ≤ R := by rcases hdisk with h | h <;> linarith [h.1]
  refine ⟨by simp [sampledRadii, circleAngles], by simpa [sampledRadii] using hn1, by simpa [sampledRadii] using hn2, ?_, ?_, hT0, hdisk⟩
  · intro r hr
    obtain ⟨u, rfl⟩ := (List.mem_ofFn' _ _).1 hr
    exact sampledRadius_range hα hR (hY u 0).1 (hY u 0).2
  · intro a ha
    obtain ⟨u, rfl⟩ := (List.mem_ofFn' _ _).1 ha
    have := Real.pi_pos
    exact ⟨mul_nonneg (by positivity) (hX u 0).1, by nlinarith [(hX u 0).2]⟩

/-- C90 (linear).  `n` points with the radii and angles that `sampleRadiiAndAngles` computes from independent uniform numbers `Y` and `X` for
`alpha > 1/2`, disk radius `R = 2 ln n + C`, temperature `T < 1`, ideal random numbers and any structure built from the points: the expected complete
work of the sampler is at most a constant, which depends on `alpha`, `T` and `C` only, times `n`. -/
theorem C90_linear {rng : Tree.Rng XR} [MeasurableSpace rng.G] {μ : Measure rng.G} (id : IdealRng rng μ) (ur : UnitRng rng) (hn1 : 1 ≤ n)
    (hn2 : n < 2147483648) (hα : 1 / 2 < α) (hT0 : 0 ≤ T) (hT1 : T < 1) {C : ℝ} (hRC : R = 2 * Real.log n + C)
    (hdisk : (2 / 3 ≤ R ∧ R ≤ 1) ∨ (4 / 3 ≤ R ∧ R ≤ 165 / 4)) (H : (Fin n → Fin 1 → ℝ) → (Fin n → Fin 1 → ℝ) → HTree XR)
    (hH : ∀ Y X, (∀ u d, Y u d ∈ Set.Ico (0 : ℝ) 1) → (∀ u d, X u d ∈ Set.Ico (0 : ℝ) 1) →
      HConstructed ndebug (xw (sampledRadii α R Y)) (xw (circleAngles X)) (XR.fin T) (XR.fin R) (H Y X)) :
    (∀ Y X, (∀ u d, Y u d ∈ Set.Ico (0 : ℝ) 1) → (∀ u d, X u d ∈ Set.Ico (0 : ℝ) 1) → ∀ g, ∃ k, HTree.sequentialWork (H Y X) rng g = some k) ∧
    ∫⁻ Y, ∫⁻ X, ∫⁻ g, (((HTree.sequentialWork (H Y X) rng g).getD 0 : ℕ) : ℝ≥0∞) ∂μ ∂uniformPositions n 1 ∂uniformPositions n 1 ≤
      ENNReal.ofReal ((864 * Real.exp (C / 2) + 180 / (1 - T) * (2 * α / (2 * α - 1)) ^ 2 * Real.exp (-(C / 2))) * n) := by
  have h1 : 0 < 1 - T := by linarith
  have hR : 2 / 3 ≤ R := by rcases hdisk with h | h <;> linarith [h.1]
  have key := fun Y (hY : ∀ u d, Y u d ∈ Set.Ico (0 : ℝ) 1) => C90_expected id ur (n := n) (radii := sampledRadii α R Y) (by simp [sampledRadii])
    (fun X hX => sampled_input hn1 hn2 hα hT0 hdisk hY hX) hT0 hT1 (H Y) (fun X hX => hH Y X hY hX)
  refine ⟨fun Y X hY hX g => (key Y hY).1 X hX g, ?_⟩
  have hae : ∀ᵐ Y ∂uniformPositions n 1, ∫⁻ X, ∫⁻ g, (((HTree.sequentialWork (H Y X) rng g).getD 0 : ℕ) : ℝ≥0∞) ∂μ ∂uniformPositions n 1 ≤
      ENNReal.ofReal (864 * Real.exp (R / 2)) + ENNReal.ofReal (90 / (1 - T)) * ENNReal.ofReal (hypPairSum (sampledRadii α R Y) R) := by
    filter_upwards [uniformPositions_ae n 1] with Y hY
    refine (key Y hY).2.trans (le_of_eq ?_)
    rw [ENNReal.ofReal_add (by positivity) (mul_nonneg (by positivity) hypPairSum_nonneg), ENNReal.ofReal_mul (p := 90 / (1 - T)) (by positivity)]
  refine le_trans (lintegral_mono_ae hae) ?_
  rw [lintegral_add_left measurable_const, lintegral_const, measure_univ, mul_one, lintegral_const_mul' _ _ ENNReal.ofReal_ne_top]
  refine le_trans (add_le_add le_rfl (mul_le_mul le_rfl (expected_pairSum n hα hR) bot_le bot_le)) ?_
  rw [← ENNReal.ofReal_mul (by positivity), ← ENNReal.ofReal_add (by positivity) (by positivity)]
  refine ENNReal.ofReal_le_ofReal (le_of_eq ?_)
  have hn0 : (0 : ℝ) < n := by exact_mod_cast hn1
  have e1 : Real.exp (R / 2) = n * Real.exp (C / 2) := by
    rw [hRC, show (2 * Real.log n + C) / 2 = Real.log n + C / 2 by ring, Real.exp_add, Real.exp_log hn0]
  have e2 : (n : ℝ) ^ 2 * Real.exp (-(R / 2)) = n * Real.exp (-(C / 2)) := by
    rw [Real.exp_neg, e1, Real.exp_neg]
    field_simp
  rw [e1]
  linear_combination (180 / (1 - T) * (2 * α / (2 * α - 1)) ^ 2) * e2

end

/-! ### the hypotheses are met -/

/-- 100 points, `alpha = 3/4`, `T = 1/2`, `C = -1` -/
example : ∃ (_ : MeasurableSpace idealRng.G) (μ : Measure idealRng.G) (H : (Fin 100 → Fin 1 → ℝ) → (Fin 100 → Fin 1 → ℝ) → HTree XR),
    (∀ Y X, (∀ u d, Y u d ∈ Set.Ico (0 : ℝ) 1) → (∀ u d, X u d ∈ Set.Ico (0 : ℝ) 1) →
      HConstructed true (xw (sampledRadii (3 / 4) (2 * Real.log (100 : ℕ) + -1) Y)) (xw (circleAngles X)) (XR.fin (1 / 2))
        (XR.fin (2 * Real.log (100 : ℕ) + -1)) (H Y X)) ∧
    (∀ Y X, (∀ u d, Y u d ∈ Set.Ico (0 : ℝ) 1) → (∀ u d, X u d ∈ Set.Ico (0 : ℝ) 1) → ∀ g, ∃ k, HTree.sequentialWork (H Y X) idealRng g = some k) ∧
    ∫⁻ Y, ∫⁻ X, ∫⁻ g, (((HTree.sequentialWork (H Y X) idealRng g).getD 0 : ℕ) : ℝ≥0∞) ∂μ ∂uniformPositions 100 1 ∂uniformPositions 100 1 ≤
      ENNReal.ofReal ((864 * Real.exp (-1 / 2) + 180 / (1 - 1 / 2) * (2 * (3 / 4) / (2 * (3 / 4) - 1)) ^ 2 * Real.exp (-(-1 / 2))) * (100 : ℕ)) := by
  have hdisk : (2 / 3 ≤ 2 * Real.log (100 : ℕ) + -1 ∧ 2 * Real.log (100 : ℕ) + -1 ≤ 1) ∨
      (4 / 3 ≤ 2 * Real.log (100 : ℕ) + -1 ∧ 2 * Real.log (100 : ℕ) + -1 ≤ 165 / 4) := by
    right
    have hlo : (4 : ℝ) ≤ Real.log (100 : ℕ) := by
      rw [Real.le_log_iff_exp_le (by norm_num)]
      have := Real.exp_one_lt_d9
      rw [show (4 : ℝ) = ((4 : ℕ) : ℝ) * 1 by norm_num, Real.exp_nat_mul]
      refine (pow_le_pow_left₀ (Real.exp_pos 1).le this.le 4).trans (by norm_num)
    have hhi : Real.log (100 : ℕ) ≤ 21 := by
      rw [Real.log_le_iff_le_exp (by norm_num)]
      have h1 : (1 : ℝ) + 1 ≤ Real.exp 1 := Real.add_one_le_exp 1
      rw [show (21 : ℝ) = ((21 : ℕ) : ℝ) * 1 by norm_num, Real.exp_nat_mul]
      refine le_trans ?_ (pow_le_pow_left₀ (by norm_num) h1 21)
      norm_num
    generalize Real.log (100 : ℕ) = l at *
    constructor <;> linarith
  have hex : ∀ Y X : Fin 100 → Fin 1 → ℝ, ∃ H, (∀ u d, Y u d ∈ Set.Ico (0 : ℝ) 1) → (∀ u d, X u d ∈ Set.Ico (0 : ℝ) 1) →
      HConstructed true (xw (sampledRadii (3 / 4) (2 * Real.log (100 : ℕ) + -1) Y)) (xw (circleAngles X)) (XR.fin (1 / 2))
        (XR.fin (2 * Real.log (100 : ℕ) + -1)) H := by
    intro Y X
    by_cases h : (∀ u d, Y u d ∈ Set.Ico (0 : ℝ) 1) ∧ ∀ u d, X u d ∈ Set.Ico (0 : ℝ) 1
    · have hin := sampled_input (T := 1 / 2) (α := 3 / 4) (by norm_num) (by norm_num) (by norm_num) (by norm_num) hdisk h.1 h.2
      obtain ⟨H, hH⟩ := hconstructed_exists true (XR.fin (1 / 2)) (HypInput.inputOK hin) 4 (by norm_num) (by norm_num)
      exact ⟨H, fun _ _ => hH⟩
    · obtain ⟨H, _⟩ := exampleHyp_constructed true (T := 0) le_rfl
      exact ⟨H, fun h1 h2 => absurd ⟨h1, h2⟩ h⟩
  choose H hH using hex
  refine ⟨_, seqMeasure, H, fun Y X hY hX => hH Y X hY hX, ?_⟩
  exact C90_linear idealRng_ideal idealRng_unit (by norm_num) (by norm_num) (by norm_num) (by norm_num) (by norm_num) rfl hdisk H
    (fun Y X hY hX => hH Y X hY hX)

end Girgs.Props
