import Verif.Proofs.GraphLaw
import Verif.Proofs.HFilterFor
import Verif.Spec.HypLaw
/-!
Hyperbolic sampler: the distribution of what the sampling calls emit, with ideal random numbers.
-/
namespace Girgs
open MeasureTheory Spec CFloat Angle
open Real (cosh)
open scoped ENNReal

variable {ndebug : Bool} {radii angles : List ℝ} {T R : ℝ} {H : HTree XR}

/-- pairs of positions with the documented probabilities -/
noncomputable def hcoins (H : HTree XR) (radii angles : List ℝ) (R T : ℝ) (L : List (ℕ × ℕ)) : List ((ℕ × ℕ) × ℝ) :=
  L.map fun c => (H.idxPair c, hypPairProb radii angles R T (H.idx c.1) (H.idx c.2))

theorem LawO.bind {G : Type} [MeasurableSpace G] {μ : Measure G} {β γ : Type} [MeasurableSpace β] [DiscreteMeasurableSpace β] [Countable β]
    [MeasurableSpace γ] [DiscreteMeasurableSpace γ] [Countable γ] {run : G → Option (β × G)} {P : PMF β} {run2 : β → G → Option (γ × G)} {Q : β → PMF γ}
    (h : LawO μ run P) (h2 : ∀ b, LawO μ (run2 b) (Q b)) : LawO μ (fun g => run g >>= fun x => run2 x.1 x.2) (P.bind Q) := by
  obtain ⟨r, e, hr⟩ := h
  choose r2 e2 hr2 using h2
  refine ⟨_, fun g => ?_, hr.bind hr2⟩
  refine (obind (e g) _).trans ?_
  exact e2 _ _

/-- the points of a pair, and their distance as computed -/
theorem HBuiltX.pair_data (b : HBuiltX ndebug radii angles T R H) (hin : HypInput radii angles T R) {p q : ℕ} {x y : HPoint XR}
    (hx : H.points[p]? = some x) (hy : H.points[q]? = some y) : ∃ d, 0 ≤ d ∧ x.distCosh y = XR.fin (cosh d) ∧
      hypPairProb radii angles R T (H.idx p) (H.idx q) = hypProb d R T := by
  obtain ⟨r, a, h1, h2, h3, _, _, _, h5, _⟩ := b.point_data hin (List.mem_of_getElem? hx)
  obtain ⟨s, c, k1, k2, k3, _, _, _, k5, _⟩ := b.point_data hin (List.mem_of_getElem? hy)
  refine ⟨hypDist r a s c, hypDist_nonneg _ _ _ _ h3 k3, ?_, ?_⟩
  · rw [h5, k5, distCosh_XR h3 k3, cosh_hypDist h3 k3, max_eq_right (arcosh_hc h3 k3), hc_eq]
  · unfold hypPairProb
    rw [HTree.idx_eq hx, HTree.idx_eq hy, h1, h2, k1, k2]

section
variable {rng : Tree.Rng XR} [MeasurableSpace rng.G] {μ : Measure rng.G}

/-- decisions with random numbers of `[0,1)` -/
theorem hdecideI_law (id : IdealRng rng μ) (ur : UnitRng rng) (b : HBuiltX ndebug radii angles T R H) (hin : HypInput radii angles T R)
    (hT : 1 / 4503599627370496 < T) (hfil : 2 * T * Real.log 99 ≤ R) {p q : ℕ} {x y : HPoint XR} (hx : H.points[p]? = some x)
    (hy : H.points[q]? = some y) :
    LawO μ (HTree.decideI H rng x y) (coin (hypPairProb radii angles R T (H.idx p) (H.idx q))) := by
  have := id.prob
  obtain ⟨d, hd, hdc, hpr⟩ := b.pair_data hin hx hy
  obtain ⟨u, hu, he, hmap⟩ := id.uniform
  have hT0 : 0 < T := lt_trans (by norm_num) hT
  have hm : H.inThresholdMode = false := by rw [b.threshold_iff, decide_eq_false_iff_not]; linarith
  have hf : H.filterI = DistFilter.make (XR.fin 1) (XR.fin R) (XR.fin T) := by rw [b.filterI_eq, XR.ofRat_eq, Rat.cast_one]
  rw [hpr]
  refine ⟨_, fun g => ?_, Law.uniform01 hu hmap (hypProb d R T)⟩
  obtain ⟨z, hz, h0, h1⟩ := ur.uniform g
  rw [he] at hz
  simp only [XR.fin.injEq] at hz
  subst hz
  unfold HTree.decideI
  rw [if_neg (by simp [hm])]
  simp only [he]
  refine (obind (decideProb_XR b.R_eq b.T_eq hf hdc hT0 one_pos le_rfl h0 h1 hd (invProb_nonneg_one.2 hfil)) _).trans ?_
  rfl

theorem hrunPairsI_law (id : IdealRng rng μ) (ur : UnitRng rng) (b : HBuiltX ndebug radii angles T R H) (hin : HypInput radii angles T R)
    (hT : 1 / 4503599627370496 < T) (hfil : 2 * T * Real.log 99 ≤ R) : ∀ (L : List (ℕ × ℕ)),
    (∀ c ∈ L, c.1 < H.points.length ∧ c.2 < H.points.length) →
    LawO μ (HTree.runPairsI H rng L) (flips (hcoins H radii angles R T L)) := by
  intro L
  induction L with
  | nil => intro _; exact ⟨fun g => ([], g), fun g => rfl, Law.pure _⟩
  | cons c L ih =>
    intro hL
    obtain ⟨i, j⟩ := c
    obtain ⟨ha, hb⟩ := hL (i, j) (by simp)
    obtain ⟨r, hr, hlaw⟩ := ih (fun c hc => hL c (by simp [hc]))
    have ea : H.points[i]? = some H.points[i] := List.getElem?_eq_getElem ha
    have eb : H.points[j]? = some H.points[j] := List.getElem?_eq_getElem hb
    have e : H.idxPair (i, j) = (H.points[i].id, H.points[j].id) := by
      unfold HTree.idxPair; rw [HTree.idx_eq ea, HTree.idx_eq eb]
    obtain ⟨dr, hdr, hdl⟩ := hdecideI_law id ur b hin hT hfil ea eb
    have h1 := hdl.bind
      (run2 := fun d g => (if d then (H.points[i].id, H.points[j].id) :: (r g).1 else (r g).1, (r g).2))
      (Q := fun d => (flips (hcoins H radii angles R T L)).map fun es => if d then (H.points[i].id, H.points[j].id) :: es else es)
      (fun d => hlaw.map fun es => if d then (H.points[i].id, H.points[j].id) :: es else es)
    refine ⟨_, ?_, h1.congr (fun _ => rfl) ?_⟩
    · intro g
      unfold HTree.runPairsI
      refine (obind ea _).trans ?_
      refine (obind eb _).trans ?_
      refine (obind (hdr _) _).trans ?_
      refine (obind (hr _) _).trans ?_
      rfl
    · rw [hcoins, List.map_cons, flips, e]
      rfl

theorem hsampleTypeI_law (id : IdealRng rng μ) (ur : UnitRng rng) (b : HBuiltX ndebug radii angles T R H) (hin : HypInput radii angles T R)
    (hT : 1 / 4503599627370496 < T) (hfil : 2 * T * Real.log 99 ≤ R) {t : Task} {ra rb : ℕ × ℕ}
    (hr : HRangesOK H (htgt R) ⌈R⌉.toNat t ra rb) :
    LawO μ (HTree.sampleTypeI H rng t) (flips (hcoins H radii angles R T (pairListI t ra rb))) := by
  by_cases hc : ra.1 = ra.2 ∨ rb.1 = rb.2
  · have : pairListI t ra rb = [] := by
      rw [List.eq_nil_iff_forall_not_mem]
      rintro ⟨p, q⟩ hm
      have := hr.mem_pairListI.1 hm
      omega
    rw [this]
    refine ⟨fun g => ([], g), fun g => ?_, Law.pure _⟩
    unfold HTree.sampleTypeI
    refine (obind hr.eq _).trans ?_
    simp [hc]
  · obtain ⟨r, h1, h2⟩ := hrunPairsI_law id ur b hin hT hfil (pairListI t ra rb) (by
      rintro ⟨p, q⟩ hm
      rw [hr.mem_pairListI] at hm
      have := hr.nA; have := hr.nB
      rw [b.ok.length_points]; exact ⟨by omega, by omega⟩)
    refine ⟨r, fun g => ?_, h2⟩
    unfold HTree.sampleTypeI
    refine (obind hr.eq _).trans ?_
    simp only [hc, if_false]
    rw [hr.pairsI_eq]
    exact h1 g

theorem hloopII_law (id : IdealRng rng μ) {ra rb : ℕ × ℕ} (hA : ra.2 ≤ H.points.length) (hB : rb.2 ≤ H.points.length)
    (hn : H.points.length < 2147483648) {bd : ℝ} (h0 : 0 < bd) (h1 : bd ≤ 1) {f : DistFilter XR} (hf : f.maxProb = XR.fin bd)
    (ur : UnitRng rng)
    (hdec : ∀ c ∈ pairListII ra rb, ∀ u v, H.points[c.1]? = some u → H.points[c.2]? = some v → ∀ x, 0 ≤ x → x < bd →
      HTree.decideProb H f u v (XR.fin x) = some (decide (x < hypPairProb radii angles R T (H.idx c.1) (H.idx c.2)))) :
    ∀ (fuel r : ℕ), (ra.2 - ra.1) * (rb.2 - rb.1) + 1 ≤ fuel + r → 1 ≤ fuel →
    LawO μ (HTree.loopII H rng f ra.1 rb.1 (ra.2 - ra.1) (rb.2 - rb.1) fuel r)
      (skipFrom bd h0 h1 0 ((hcoins H radii angles R T (pairListII ra rb)).drop r)) := by
  have hprobm := id.prob
  set N := (ra.2 - ra.1) * (rb.2 - rb.1) with hN
  have hlen : (hcoins H radii angles R T (pairListII ra rb)).length = N := by simp [hcoins, pairListII, hN]
  have hNlt : N < 4611686018427387904 := by
    have h1 : ra.2 - ra.1 ≤ 2147483647 := by omega
    have h2 : rb.2 - rb.1 ≤ 2147483647 := by omega
    have := Nat.mul_le_mul h1 h2
    omega
  intro fuel
  induction fuel with
  | zero => intro r _ h; omega
  | succ fuel ih =>
    intro r hfu _
    by_cases hr : r < N
    · set c := decodeII ra rb r with hc
      have hcm : c ∈ pairListII ra rb := List.mem_map.2 ⟨r, List.mem_range.2 hr, rfl⟩
      obtain ⟨m1, m2⟩ := mem_pairListII.1 (show (c.1, c.2) ∈ pairListII ra rb from hcm)
      have hc1 : c.1 < H.points.length := by omega
      have hc2 : c.2 < H.points.length := by omega
      have ea : H.points[c.1]? = some H.points[c.1] := List.getElem?_eq_getElem hc1
      have eb : H.points[c.2]? = some H.points[c.2] := List.getElem?_eq_getElem hc2
      have hp := hdec c hcm _ _ ea eb
      have e : H.idxPair c = (H.points[c.1].id, H.points[c.2].id) := by
        unfold HTree.idxPair; rw [HTree.idx_eq ea, HTree.idx_eq eb]
      obtain ⟨u, hu, hue, humap⟩ := id.uniformTo bd h0
      obtain ⟨k, hk, hke, hkmap⟩ := id.geo bd h0 h1
      have lawU := Law.uniform0b h0 hu humap (hypPairProb radii angles R T (H.idx c.1) (H.idx c.2))
      have lawK := Law.ofDiscrete hk hkmap
      have hrest : ∀ j : ℕ, LawO μ (HTree.loopII H rng f ra.1 rb.1 (ra.2 - ra.1) (rb.2 - rb.1) fuel ((r + 1 + min j 9223372036854775807) % 18446744073709551616))
          (skipFrom bd h0 h1 j ((hcoins H radii angles R T (pairListII ra rb)).drop (r + 1))) := by
        intro j
        have hmod : (r + 1 + min j 9223372036854775807) % 18446744073709551616 = r + 1 + min j 9223372036854775807 :=
          Nat.mod_eq_of_lt (by have := Nat.min_le_right j 9223372036854775807; omega)
        rw [hmod, skipFrom_drop, List.drop_drop]
        have hd : (hcoins H radii angles R T (pairListII ra rb)).drop (r + 1 + j) =
            (hcoins H radii angles R T (pairListII ra rb)).drop (r + 1 + min j 9223372036854775807) := by
          rcases le_total j 9223372036854775807 with h | h
          · rw [min_eq_left h]
          · rw [min_eq_right h, List.drop_eq_nil_of_le (by omega), List.drop_eq_nil_of_le (by omega)]
        rw [hd]
        exact ih _ (by omega) (by omega)
      choose rest hrest1 hrest2 using hrest
      have lawTail : ∀ d : Bool, Law μ (fun g => (if d then H.idxPair c :: (rest (k g).1 (k g).2).1 else (rest (k g).1 (k g).2).1, (rest (k g).1 (k g).2).2))
          (((geoPMF bd h0 h1).bind fun j => skipFrom bd h0 h1 j ((hcoins H radii angles R T (pairListII ra rb)).drop (r + 1))).map
            fun es => if d then H.idxPair c :: es else es) :=
        fun d => (lawK.bind (run2 := rest) hrest2).map fun es => if d then H.idxPair c :: es else es
      refine ⟨_, ?_, (lawU.bind lawTail).congr (fun _ => rfl) ?_⟩
      · intro g
        obtain ⟨z, hz, hz0, hz1⟩ := ur.uniformTo bd g h0
        rw [hue] at hz
        simp only [XR.fin.injEq] at hz
        subst hz
        unfold HTree.loopII
        simp only [← hN, hr, if_true]
        refine (obind (show rd H.points (ra.1 + r % (ra.2 - ra.1)) = _ from ea) _).trans ?_
        refine (obind (show rd H.points (rb.1 + r / (ra.2 - ra.1)) = _ from eb) _).trans ?_
        simp only [hf, hue, hke]
        refine (obind (hp _ hz0 hz1) _).trans ?_
        refine (obind (hrest1 _ _) _).trans ?_
        rw [e]
      · have hdrop : (hcoins H radii angles R T (pairListII ra rb)).drop r =
            (H.idxPair c, hypPairProb radii angles R T (H.idx c.1) (H.idx c.2)) :: (hcoins H radii angles R T (pairListII ra rb)).drop (r + 1) := by
          rw [List.drop_eq_getElem_cons (by omega)]
          congr 1
          simp [hcoins, pairListII, hc]
        rw [hdrop, skipFrom]
    · rw [List.drop_eq_nil_of_le (by omega), skipFrom]
      refine ⟨fun g => ([], g), fun g => ?_, Law.pure _⟩
      unfold HTree.loopII
      simp [← hN, hr]

/-- the skipping loop with its first jump -/
theorem hskip_law (id : IdealRng rng μ) {ra rb : ℕ × ℕ} (hA : ra.2 ≤ H.points.length) (hB : rb.2 ≤ H.points.length)
    (hn : H.points.length < 2147483648) {bd : ℝ} (h0 : 0 < bd) (h1 : bd ≤ 1) {f : DistFilter XR} (hf : f.maxProb = XR.fin bd)
    (ur : UnitRng rng)
    (hdec : ∀ c ∈ pairListII ra rb, ∀ u v, H.points[c.1]? = some u → H.points[c.2]? = some v → ∀ x, 0 ≤ x → x < bd →
      HTree.decideProb H f u v (XR.fin x) = some (decide (x < hypPairProb radii angles R T (H.idx c.1) (H.idx c.2))))
    (hle : ∀ c ∈ pairListII ra rb, 0 ≤ hypPairProb radii angles R T (H.idx c.1) (H.idx c.2) ∧
      hypPairProb radii angles R T (H.idx c.1) (H.idx c.2) ≤ bd) :
    LawO μ (fun g => HTree.loopII H rng f ra.1 rb.1 (ra.2 - ra.1) (rb.2 - rb.1) ((ra.2 - ra.1) * (rb.2 - rb.1) + 1) (rng.geo (XR.fin bd) g).1
      (rng.geo (XR.fin bd) g).2) (flips (hcoins H radii angles R T (pairListII ra rb))) := by
  have hprobm := id.prob
  rw [← skip_eq_flips h0 h1 _ (by
    intro e he
    obtain ⟨c, hc, rfl⟩ := List.mem_map.1 he
    exact hle c hc)]
  obtain ⟨k, hk, hke, hkmap⟩ := id.geo bd h0 h1
  have lawK := Law.ofDiscrete hk hkmap
  have hloop : ∀ j : ℕ, LawO μ (HTree.loopII H rng f ra.1 rb.1 (ra.2 - ra.1) (rb.2 - rb.1) ((ra.2 - ra.1) * (rb.2 - rb.1) + 1) (min j 9223372036854775807))
      (skipFrom bd h0 h1 j (hcoins H radii angles R T (pairListII ra rb))) := by
    intro j
    have hlen : (hcoins H radii angles R T (pairListII ra rb)).length = (ra.2 - ra.1) * (rb.2 - rb.1) := by simp [hcoins, pairListII]
    have hNlt : (ra.2 - ra.1) * (rb.2 - rb.1) < 4611686018427387904 := by
      have h1 : ra.2 - ra.1 ≤ 2147483647 := by omega
      have h2 : rb.2 - rb.1 ≤ 2147483647 := by omega
      have := Nat.mul_le_mul h1 h2
      omega
    rw [skipFrom_drop]
    have hd : (hcoins H radii angles R T (pairListII ra rb)).drop j = (hcoins H radii angles R T (pairListII ra rb)).drop (min j 9223372036854775807) := by
      rcases le_total j 9223372036854775807 with h | h
      · rw [min_eq_left h]
      · rw [min_eq_right h, List.drop_eq_nil_of_le (by omega), List.drop_eq_nil_of_le (by omega)]
    rw [hd]
    exact hloopII_law id hA hB hn h0 h1 hf ur hdec _ _ (by omega) (by omega)
  choose rest hrest1 hrest2 using hloop
  refine ⟨_, fun g => ?_, lawK.bind hrest2⟩
  simp only [hke]
  exact hrest1 _ _

end
end Girgs
