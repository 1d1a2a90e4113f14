import Verif.Model.HyperWork
import Verif.Proofs.WorkLaw
import Verif.Proofs.HGraphLaw
/-
The distribution of the pairs that the sampling calls of the hyperbolic generator look at, with ideal random numbers.
-/
namespace Girgs
open MeasureTheory Spec CFloat Angle
open scoped ENNReal

variable {ndebug : Bool} {radii angles : List ℝ} {T R : ℝ} {H : HTree XR}

/-- all entries with the same probability -/
noncomputable def hconst (H : HTree XR) (q : ℝ) (L : List (ℕ × ℕ)) : List ((ℕ × ℕ) × ℝ) := L.map fun c => (H.idxPair c, q)

theorem flips_hconst_one (L : List (ℕ × ℕ)) : flips (hconst H 1 L) = PMF.pure (L.map H.idxPair) := by
  rw [← flips_one, List.map_map]; rfl

theorem flips_hconst_zero (L : List (ℕ × ℕ)) : flips (hconst H 0 L) = PMF.pure [] := by
  rw [← flips_zero (L.map H.idxPair), List.map_map]; rfl

/-- the pairs a sampling call may look at with the probabilities with which it looks at them -/
noncomputable def hlookCoins (H : HTree XR) (R T : ℝ) (t : Task) : List ((ℕ × ℕ) × ℝ) :=
  match H.ranges t with
  | some (ra, rb) =>
    if t.two then
      if H.tZero then hconst H 0 (pairListII ra rb)
      else if ofRat (1 / 5) <. XR.fin (hypProb (classDist R t) R T) then hconst H 1 (pairListI t ra rb)
      else if (ofNat ((ra.2 - ra.1) * (rb.2 - rb.1)) *. XR.fin (hypProb (classDist R t) R T)) <. ofRat (1 / 1000000) then
        hconst H 0 (pairListII ra rb)
      else hconst H (hypProb (classDist R t) R T) (pairListII ra rb)
    else hconst H 1 (pairListI t ra rb)
  | none => []

/-- the decision about a pair is defined -/
theorem decideProb_defined {f : DistFilter XR} {u v : HPoint XR} {p x : ℝ}
    (hf : f = DistFilter.make (XR.fin p) (XR.fin R) (XR.fin T)) (h0 : 0 < p) (h1 : p ≤ 1)
    (hx0 : 0 ≤ x) (hx1 : x < p) : ∃ d, HTree.decideProb H f u v (XR.fin x) = some d := by
  obtain ⟨hl1, hl2⟩ := lookup_XR (R := R) (T := T) h0 h1 hx0 hx1
  unfold HTree.decideProb
  simp only
  rw [hf]
  rw [obind hl1]
  split
  · exact ⟨_, rfl⟩
  · rw [obind hl2]
    split
    · exact ⟨_, rfl⟩
    · exact ⟨_, rfl⟩

section
variable {rng : Tree.Rng XR} [MeasurableSpace rng.G] {μ : Measure rng.G}

/-- a decision passes on a generator of the same distribution -/
theorem hdecideI_state (id : IdealRng rng μ) (ur : UnitRng rng) (b : HBuiltX ndebug radii angles T R H) (x y : HPoint XR) :
    ∃ r : rng.G → Bool × rng.G, (∀ g, HTree.decideI H rng x y g = some (r g)) ∧ Law μ (fun g => (true, (r g).2)) (PMF.pure true) := by
  have := id.prob
  by_cases hm : H.inThresholdMode = true
  · refine ⟨fun g => (x.isDistanceBelowR y H.coshR, g), fun g => ?_, Law.pure true⟩
    unfold HTree.decideI; rw [if_pos hm]
  · obtain ⟨u, hu, he, hmap⟩ := id.uniform
    have hf : H.filterI = DistFilter.make (XR.fin 1) (XR.fin R) (XR.fin T) := by rw [b.filterI_eq, XR.ofRat_eq, Rat.cast_one]
    have hdef : ∀ g, ∃ d, HTree.decideProb H H.filterI x y (rng.uniform g).1 = some d := by
      intro g
      obtain ⟨z, hz, h0, h1⟩ := ur.uniform g
      rw [hz]
      exact decideProb_defined hf one_pos le_rfl h0 h1
    choose d hd using hdef
    refine ⟨fun g => (d g, (u g).2), fun g => ?_, ?_⟩
    · unfold HTree.decideI
      rw [if_neg hm]
      simp only
      refine (obind (hd g) _).trans ?_
      rw [he]
    · refine ((Law.uniform01 hu hmap 0).map fun _ => true).congr (fun _ => rfl) ?_
      exact (PMF.map_const _ _).symm

theorem hlookPairsI_law (id : IdealRng rng μ) (ur : UnitRng rng) (b : HBuiltX ndebug radii angles T R H) : ∀ (L : List (ℕ × ℕ)),
    (∀ c ∈ L, c.1 < H.points.length ∧ c.2 < H.points.length) → LawO μ (HTree.lookPairsI H rng L) (flips (hconst H 1 L)) := by
  have hprobm := id.prob
  intro L
  rw [flips_hconst_one]
  induction L with
  | nil => intro _; exact ⟨fun g => ([], g), fun g => rfl, Law.pure _⟩
  | cons c L ih =>
    intro hL
    obtain ⟨hc1, hc2⟩ := hL c (by simp)
    obtain ⟨r, hr1, hr2⟩ := ih (fun c hc => hL c (by simp [hc]))
    have ea : H.points[c.1]? = some H.points[c.1] := List.getElem?_eq_getElem hc1
    have eb : H.points[c.2]? = some H.points[c.2] := List.getElem?_eq_getElem hc2
    have e : H.idxPair c = (H.points[c.1].id, H.points[c.2].id) := by
      unfold HTree.idxPair; rw [HTree.idx_eq ea, HTree.idx_eq eb]
    obtain ⟨dr, hdr, lawD⟩ := hdecideI_state id ur b H.points[c.1] H.points[c.2]
    refine ⟨_, fun g => ?_, (lawD.bind (run2 := fun _ g => (H.idxPair c :: (r g).1, (r g).2)) (Q := fun _ => PMF.pure (H.idxPair c :: L.map H.idxPair))
      (fun _ => (hr2.map fun es => H.idxPair c :: es).congr (fun _ => rfl) (by rw [PMF.pure_map]))).congr (fun _ => rfl) ?_⟩
    · obtain ⟨c1, c2⟩ := c
      unfold HTree.lookPairsI
      refine (obind (show rd H.points c1 = _ from ea) _).trans ?_
      refine (obind (show rd H.points c2 = _ from eb) _).trans ?_
      refine (obind (hdr _) _).trans ?_
      refine (obind (hr1 _) _).trans ?_
      rw [e]
    · rw [PMF.pure_bind]; rfl

theorem hlookTypeI_law (id : IdealRng rng μ) (ur : UnitRng rng) (b : HBuiltX ndebug radii angles T R H) {t : Task} {ra rb : ℕ × ℕ}
    (hr : HRangesOK H (htgt R) ⌈R⌉.toNat t ra rb) : LawO μ (HTree.lookTypeI H rng t) (flips (hconst H 1 (pairListI t ra rb))) := by
  by_cases hc : ra.1 = ra.2 ∨ rb.1 = rb.2
  · have : pairListI t ra rb = [] := by
      rw [List.eq_nil_iff_forall_not_mem]
      rintro ⟨p, q⟩ hm
      have := hr.mem_pairListI.1 hm
      omega
    rw [this]
    refine ⟨fun g => ([], g), fun g => ?_, Law.pure _⟩
    unfold HTree.lookTypeI
    refine (obind hr.eq _).trans ?_
    simp [hc]
  · obtain ⟨r, g1, g2⟩ := hlookPairsI_law id ur b (pairListI t ra rb) (by
      rintro ⟨p, q⟩ hm
      rw [hr.mem_pairListI] at hm
      have := hr.nA; have := hr.nB
      rw [b.ok.length_points]; exact ⟨by omega, by omega⟩)
    refine ⟨r, fun g => ?_, g2⟩
    unfold HTree.lookTypeI
    refine (obind hr.eq _).trans ?_
    simp only [hc, if_false]
    refine (obind hr.pairsI_eq _).trans ?_
    exact g1 g

theorem hloopLook_law (id : IdealRng rng μ) (ur : UnitRng rng) {ra rb : ℕ × ℕ} (hA : ra.2 ≤ H.points.length) (hB : rb.2 ≤ H.points.length)
    (hn : H.points.length < 2147483648) {bd : ℝ} (h0 : 0 < bd) (h1 : bd ≤ 1) {f : DistFilter XR} (hf : f = DistFilter.make (XR.fin bd) (XR.fin R) (XR.fin T)) :
    ∀ (fuel r : ℕ), (ra.2 - ra.1) * (rb.2 - rb.1) + 1 ≤ fuel + r → 1 ≤ fuel →
    LawO μ (HTree.loopLook H rng f ra.1 rb.1 (ra.2 - ra.1) (rb.2 - rb.1) fuel r) (skipFrom bd h0 h1 0 ((hconst H bd (pairListII ra rb)).drop r)) := by
  have hprobm := id.prob
  have hmp : f.maxProb = XR.fin bd := by rw [hf]; rfl
  set N := (ra.2 - ra.1) * (rb.2 - rb.1) with hN
  have hlen : (hconst H bd (pairListII ra rb)).length = N := by simp [hconst, pairListII, hN]
  have hNlt : N < 4611686018427387904 := by
    have h1 : ra.2 - ra.1 ≤ 2147483647 := by omega
    have h2 : rb.2 - rb.1 ≤ 2147483647 := by omega
    have := Nat.mul_le_mul h1 h2
    omega
  intro fuel
  induction fuel with
  | zero => intro r _ h; omega
  | succ fuel ih =>
    intro r hfu _
    by_cases hr : r < N
    · set c := decodeII ra rb r with hc
      have hcm : c ∈ pairListII ra rb := List.mem_map.2 ⟨r, List.mem_range.2 hr, rfl⟩
      obtain ⟨m1, m2⟩ := mem_pairListII.1 (show (c.1, c.2) ∈ pairListII ra rb from hcm)
      have hc1 : c.1 < H.points.length := by omega
      have hc2 : c.2 < H.points.length := by omega
      have ea : H.points[c.1]? = some H.points[c.1] := List.getElem?_eq_getElem hc1
      have eb : H.points[c.2]? = some H.points[c.2] := List.getElem?_eq_getElem hc2
      have e : H.idxPair c = (H.points[c.1].id, H.points[c.2].id) := by
        unfold HTree.idxPair; rw [HTree.idx_eq ea, HTree.idx_eq eb]
      obtain ⟨u, hu, hue, humap⟩ := id.uniformTo bd h0
      obtain ⟨k, hk, hke, hkmap⟩ := id.geo bd h0 h1
      have hcoin : coin (bd / bd) = PMF.pure true := coin_eq_pure (by rw [div_self h0.ne', unit_eq] <;> norm_num)
      have lawU : Law μ (fun g => (true, (u g).2)) (coin (bd / bd)) :=
        ((Law.uniform0b h0 hu humap bd).map fun _ => true).congr (fun _ => rfl) (by rw [hcoin]; exact (PMF.map_const _ _).symm)
      have lawK := Law.ofDiscrete hk hkmap
      have hrest : ∀ j : ℕ, LawO μ (HTree.loopLook H rng f ra.1 rb.1 (ra.2 - ra.1) (rb.2 - rb.1) fuel ((r + 1 + min j 9223372036854775807) % 18446744073709551616))
          (skipFrom bd h0 h1 j ((hconst H bd (pairListII ra rb)).drop (r + 1))) := by
        intro j
        have hmod : (r + 1 + min j 9223372036854775807) % 18446744073709551616 = r + 1 + min j 9223372036854775807 :=
          Nat.mod_eq_of_lt (by have := Nat.min_le_right j 9223372036854775807; omega)
        rw [hmod, skipFrom_drop, List.drop_drop]
        have hd : (hconst H bd (pairListII ra rb)).drop (r + 1 + j) = (hconst H bd (pairListII ra rb)).drop (r + 1 + min j 9223372036854775807) := by
          rcases le_total j 9223372036854775807 with h | h
          · rw [min_eq_left h]
          · rw [min_eq_right h, List.drop_eq_nil_of_le (by omega), List.drop_eq_nil_of_le (by omega)]
        rw [hd]
        exact ih _ (by omega) (by omega)
      choose rest hrest1 hrest2 using hrest
      have lawTail : ∀ d : Bool, Law μ (fun g => (if d then H.idxPair c :: (rest (k g).1 (k g).2).1 else (rest (k g).1 (k g).2).1, (rest (k g).1 (k g).2).2))
          (((geoPMF bd h0 h1).bind fun j => skipFrom bd h0 h1 j ((hconst H bd (pairListII ra rb)).drop (r + 1))).map
            fun es => if d then H.idxPair c :: es else es) :=
        fun d => (lawK.bind (run2 := rest) hrest2).map fun es => if d then H.idxPair c :: es else es
      refine ⟨_, ?_, (lawU.bind lawTail).congr (fun _ => rfl) ?_⟩
      · intro g
        obtain ⟨z, hz, hz0, hz1⟩ := ur.uniformTo bd g h0
        rw [hue] at hz
        simp only [XR.fin.injEq] at hz
        subst hz
        obtain ⟨d, hd⟩ := decideProb_defined (H := H) (u := H.points[c.1]) (v := H.points[c.2]) hf h0 h1 hz0 hz1
        unfold HTree.loopLook
        simp only [← hN, hr, if_true]
        refine (obind (show rd H.points (ra.1 + r % (ra.2 - ra.1)) = _ from ea) _).trans ?_
        refine (obind (show rd H.points (rb.1 + r / (ra.2 - ra.1)) = _ from eb) _).trans ?_
        simp only [hmp, hue, hke]
        refine (obind hd _).trans ?_
        refine (obind (hrest1 _ _) _).trans ?_
        rw [e]
      · have hdrop : (hconst H bd (pairListII ra rb)).drop r = (H.idxPair c, bd) :: (hconst H bd (pairListII ra rb)).drop (r + 1) := by
          rw [List.drop_eq_getElem_cons (by omega)]
          congr 1
          simp [hconst, pairListII, hc]
        rw [hdrop, skipFrom]
    · rw [List.drop_eq_nil_of_le (by omega), skipFrom]
      refine ⟨fun g => ([], g), fun g => ?_, Law.pure _⟩
      unfold HTree.loopLook
      simp [← hN, hr]

theorem hskipLook_law (id : IdealRng rng μ) (ur : UnitRng rng) {ra rb : ℕ × ℕ} (hA : ra.2 ≤ H.points.length) (hB : rb.2 ≤ H.points.length)
    (hn : H.points.length < 2147483648) {bd : ℝ} (h0 : 0 < bd) (h1 : bd ≤ 1) {f : DistFilter XR} (hf : f = DistFilter.make (XR.fin bd) (XR.fin R) (XR.fin T)) :
    LawO μ (fun g => HTree.loopLook H rng f ra.1 rb.1 (ra.2 - ra.1) (rb.2 - rb.1) ((ra.2 - ra.1) * (rb.2 - rb.1) + 1) (rng.geo (XR.fin bd) g).1
      (rng.geo (XR.fin bd) g).2) (flips (hconst H bd (pairListII ra rb))) := by
  have hprobm := id.prob
  rw [← skip_eq_flips h0 h1 _ (by
    intro e he
    obtain ⟨c, hc, rfl⟩ := List.mem_map.1 he
    exact ⟨h0.le, le_rfl⟩)]
  obtain ⟨k, hk, hke, hkmap⟩ := id.geo bd h0 h1
  have lawK := Law.ofDiscrete hk hkmap
  have hloop : ∀ j : ℕ, LawO μ (HTree.loopLook H rng f ra.1 rb.1 (ra.2 - ra.1) (rb.2 - rb.1) ((ra.2 - ra.1) * (rb.2 - rb.1) + 1) (min j 9223372036854775807))
      (skipFrom bd h0 h1 j (hconst H bd (pairListII ra rb))) := by
    intro j
    have hlen : (hconst H bd (pairListII ra rb)).length = (ra.2 - ra.1) * (rb.2 - rb.1) := by simp [hconst, pairListII]
    have hNlt : (ra.2 - ra.1) * (rb.2 - rb.1) < 4611686018427387904 := by
      have h1 : ra.2 - ra.1 ≤ 2147483647 := by omega
      have h2 : rb.2 - rb.1 ≤ 2147483647 := by omega
      have := Nat.mul_le_mul h1 h2
      omega
    rw [skipFrom_drop]
    have hd : (hconst H bd (pairListII ra rb)).drop j = (hconst H bd (pairListII ra rb)).drop (min j 9223372036854775807) := by
      rcases le_total j 9223372036854775807 with h | h
      · rw [min_eq_left h]
      · rw [min_eq_right h, List.drop_eq_nil_of_le (by omega), List.drop_eq_nil_of_le (by omega)]
    rw [hd]
    exact hloopLook_law id ur hA hB hn h0 h1 hf _ _ (by omega) (by omega)
  choose rest hrest1 hrest2 using hloop
  refine ⟨_, fun g => ?_, lawK.bind hrest2⟩
  simp only [hke]
  exact hrest1 _ _

theorem hlookTask_law (id : IdealRng rng μ) (ur : UnitRng rng) (b : HBuiltX ndebug radii angles T R H) (hin : HypInput radii angles T R)
    {t : Task} (hg : HGood H R t) : LawO μ (HTree.lookTask H rng t) (flips (hlookCoins H R T t)) := by
  have ok := b.ok
  have hprobm := id.prob
  obtain ⟨ht, hbw⟩ := hg
  obtain ⟨ra, rb, hr⟩ := ok.ranges_ok ht
  unfold hlookCoins HTree.lookTask
  rw [hr.eq]
  simp only
  by_cases h2 : t.two = true
  swap
  · simp only [h2, Bool.false_eq_true, if_false]
    exact hlookTypeI_law id ur b hr
  simp only [h2, if_true]
  by_cases hz : H.tZero = true
  · simp only [hz, if_true]
    rw [flips_hconst_zero]
    refine ⟨fun g => ([], g), fun g => ?_, Law.pure _⟩
    unfold HTree.lookTypeII
    refine (obind hr.sizes _).trans ?_
    simp [hz]
  have hz : H.tZero = false := by simpa using hz
  have hT0 : 0 < T := by
    rw [b.tZero_iff, decide_eq_false_iff_not] at hz
    exact lt_of_le_of_ne hin.temp (Ne.symm hz)
  have hf := b.filterFor_eq hT0 ht h2 (hbw h2)
  have h0 := hProb_pos (classDist R t) R T
  have h1 := (hProb_lt_one (classDist R t) R T).le
  have hmp : (DistFilter.make (XR.fin (hypProb (classDist R t) R T)) (XR.fin R) (XR.fin T)).maxProb = XR.fin (hypProb (classDist R t) R T) := rfl
  set bd := hypProb (classDist R t) R T with hbd
  have hnodes : H.points.length < 2147483648 := by rw [ok.length_points]; exact ok.small
  have hA : ra.2 ≤ H.points.length := by rw [ok.length_points]; exact hr.nA
  have hB : rb.2 ≤ H.points.length := by rw [ok.length_points]; exact hr.nB
  simp only [hz, Bool.false_eq_true, if_false]
  by_cases hemp : (ra.2 - ra.1 == 0 || rb.2 - rb.1 == 0) = true
  · have hemp' : ra.2 - ra.1 = 0 ∨ rb.2 - rb.1 = 0 := by simpa using hemp
    have e1 : pairListI t ra rb = [] := by
      rw [List.eq_nil_iff_forall_not_mem]
      rintro ⟨p, q⟩ hm
      have := hr.mem_pairListI.1 hm
      omega
    have e2 : pairListII ra rb = [] := by
      rw [List.eq_nil_iff_forall_not_mem]
      rintro ⟨p, q⟩ hm
      have := mem_pairListII.1 hm
      omega
    rw [e1, e2]
    simp only [hconst, List.map_nil, ite_self]
    refine ⟨fun g => ([], g), fun g => ?_, Law.pure _⟩
    unfold HTree.lookTypeII
    refine (obind hr.sizes _).trans ?_
    rw [if_pos (by simp only [hz, Bool.false_or]; exact hemp)]
  have hne : (H.tZero || ra.2 - ra.1 == 0 || rb.2 - rb.1 == 0) = false := by
    rw [hz, Bool.false_or]; simpa using hemp
  by_cases h5 : (ofRat (1 / 5) <. XR.fin bd) = true
  · simp only [h5, if_true]
    obtain ⟨r, g1, g2⟩ := hlookTypeI_law id ur b hr
    refine ⟨r, fun g => ?_, g2⟩
    unfold HTree.lookTypeII
    refine (obind hr.sizes _).trans ?_
    simp only [hne, Bool.false_eq_true, if_false]
    refine (obind hf _).trans ?_
    simp only [hmp, h5, if_true]
    exact g1 g
  by_cases h6 : ((ofNat ((ra.2 - ra.1) * (rb.2 - rb.1)) *. XR.fin bd) <. ofRat (1 / 1000000)) = true
  · simp only [h5, h6, if_true, Bool.false_eq_true, if_false]
    rw [flips_hconst_zero]
    refine ⟨fun g => ([], g), fun g => ?_, Law.pure _⟩
    unfold HTree.lookTypeII
    refine (obind hr.sizes _).trans ?_
    simp only [hne, Bool.false_eq_true, if_false]
    refine (obind hf _).trans ?_
    simp only [hmp, h5, h6, if_true, Bool.false_eq_true, if_false]
  · simp only [h5, h6, Bool.false_eq_true, if_false]
    obtain ⟨r, g1, g2⟩ := hskipLook_law (H := H) (R := R) (T := T) id ur hA hB hnodes h0 h1 rfl
    refine ⟨r, fun g => ?_, g2⟩
    unfold HTree.lookTypeII
    refine (obind hr.sizes _).trans ?_
    simp only [hne, Bool.false_eq_true, if_false]
    refine (obind hf _).trans ?_
    simp only [hmp, h5, h6, Bool.false_eq_true, if_false]
    refine (obind hr.starts _).trans ?_
    exact g1 g

/-- the expected number of pairs that a sequence of sampling calls looks at, whatever generator (with the ideal distribution) it starts with -/
theorem hlookTasks_expected (id : IdealRng rng μ) {L : Task → List ((ℕ × ℕ) × ℝ)} : ∀ (ts : List Task),
    (∀ t ∈ ts, LawO μ (HTree.lookTask H rng t) (flips (L t))) → ∃ r : rng.G → List (ℕ × ℕ) × rng.G, (∀ g, HTree.lookTasks H rng ts g = some (r g)) ∧
      Law μ r (flips (ts.flatMap L)) ∧ ∫⁻ g, ((r g).1.length : ℝ≥0∞) ∂μ = ((ts.flatMap L).map fun c => ENNReal.ofReal (unit c.2)).sum := by
  have hprobm := id.prob
  intro ts hts
  have key : ∃ r : rng.G → List (ℕ × ℕ) × rng.G, (∀ g, HTree.lookTasks H rng ts g = some (r g)) ∧ Law μ r (flips (ts.flatMap L)) := by
    induction ts with
    | nil => exact ⟨fun g => ([], g), fun g => rfl, Law.pure _⟩
    | cons t ts ih =>
      obtain ⟨r1, h1, h2⟩ := hts t (by simp)
      obtain ⟨r2, h3, h4⟩ := ih (fun t ht => hts t (by simp [ht]))
      refine ⟨_, fun g => ?_, (h2.bind (run2 := fun es g => (es ++ (r2 g).1, (r2 g).2))
        (Q := fun es => (flips (ts.flatMap L)).map fun fs => es ++ fs) (fun es => h4.map fun fs => es ++ fs)).congr (fun _ => rfl) ?_⟩
      · unfold HTree.lookTasks
        refine (obind (h1 g) _).trans ?_
        exact (obind (h3 _) _).trans rfl
      · rw [List.flatMap_cons, flips_append]
  obtain ⟨r, h1, h2⟩ := key
  refine ⟨r, h1, h2, ?_⟩
  have := h2.int (fun l _ => (l.length : ℝ≥0∞)) (fun _ => measurable_const)
  simp only [lintegral_const, measure_univ, mul_one] at this
  rw [this, flips_length]

end
end Girgs
