import Verif.Proofs.HWorkClose
import Verif.Proofs.HSmallDisk
import Verif.Proofs.WorkIntegral
import Verif.Spec.HyperWork
/-
The expected number of pairs that the hyperbolic sampler looks at, over the random numbers and the angles.
-/
open Real
namespace Girgs
open Spec CFloat MeasureTheory Angle
open scoped ENNReal

section
variable {ndebug : Bool} {radii angles : List ℝ} {T R : ℝ} {H : HTree XR}

theorem HBuiltX.hlookCoins_fst (b : HBuiltX ndebug radii angles T R H) {t : Task} (ht : HTaskOK H (hpair R) t) {cs : List (ℕ × ℕ)}
    (hcs : H.candidates t = some cs) : ((hlookCoins H R T t).map Prod.fst).Perm (cs.map H.idxPair) := by
  obtain ⟨ra, rb, hr⟩ := b.ok.ranges_ok ht
  rw [hr.candidates_eq, Option.some.injEq] at hcs
  subst hcs
  have hc : ∀ (q : ℝ) (L : List (ℕ × ℕ)), (hconst H q L).map Prod.fst = L.map H.idxPair := by
    intro q L; unfold hconst; rw [List.map_map]; rfl
  unfold hlookCoins candList
  rw [hr.eq]
  simp only
  by_cases h2 : t.two = true
  · simp only [h2, if_true]
    split
    · rw [hc]
    · split
      · rw [hc]; exact (hr.pairLists_perm (ht.ne h2)).map _
      · split
        · rw [hc]
        · rw [hc]
  · simp only [h2, Bool.false_eq_true, if_false]
    rw [hc]

theorem HBuiltX.hlookCoins_all (b : HBuiltX ndebug radii angles T R H) : ∀ (ts : List Task), (∀ t ∈ ts, HTaskOK H (hpair R) t) →
    ∀ cs, H.allCandidates ts = some cs → ((ts.flatMap (hlookCoins H R T)).map Prod.fst).Perm (cs.map H.idxPair) := by
  intro ts
  induction ts with
  | nil =>
    intro _ cs h
    simp only [HTree.allCandidates, Tree.concatM, Option.some.injEq] at h
    subst h; simp
  | cons t ts ih =>
    intro hok cs h
    have ht := hok t (by simp)
    obtain ⟨ra, rb, hr⟩ := b.ok.ranges_ok ht
    obtain ⟨cs', h1, _⟩ := b.ok.allCandidates_count ts (fun t ht => hok t (by simp [ht]))
    have h2 := ih (fun t ht => hok t (by simp [ht])) cs' h1
    have h3 := b.hlookCoins_fst ht hr.candidates_eq
    unfold HTree.allCandidates Tree.concatM at h
    rw [obind hr.candidates_eq] at h
    rw [obind (show Tree.concatM ts H.candidates = some cs' from h1)] at h
    simp only [Option.some.injEq] at h
    subst h
    rw [List.flatMap_cons, List.map_append, List.map_append]
    exact h3.append h2

/-- no pair twice -/
theorem HBuiltX.hlook_simple (b : HBuiltX ndebug radii angles T R H) {ts : List Task}
    (hts : ts.Subperm (hvisit H.layers H.levels (hpair R) true H.levels 0 0 0)) : IsSimpleGraph H.n ((ts.flatMap (hlookCoins H R T)).map Prod.fst) := by
  have hok : ∀ t ∈ ts, HTaskOK H (hpair R) t := fun t ht => hvisit_ok _ _ _ _ onLv_zero onLv_zero t (hts.subset ht)
  obtain ⟨cs, h1, _⟩ := b.ok.allCandidates_count ts hok
  exact b.ok.simple hts h1 (b.hlookCoins_all ts hok cs h1).subperm

/-- a pair of a call -/
theorem HBuiltX.mem_hlookCoins (b : HBuiltX ndebug radii angles T R H) {t : Task} (ht : HTaskOK H (hpair R) t) {c : (ℕ × ℕ) × ℝ}
    (hc : c ∈ hlookCoins H R T t) :
    (∃ p q, HHit H (htgt R) ⌈R⌉.toNat t p q ∧ c.1 = (H.idx p, H.idx q)) ∧
    (t.two = true → c.2 = 0 ∨ H.tZero = false ∧ (1 / 5 < hypProb (classDist R t) R T ∨ c.2 = hypProb (classDist R t) R T)) := by
  obtain ⟨ra, rb, hr⟩ := b.ok.ranges_ok ht
  have key : ∀ (q : ℝ) (L : List (ℕ × ℕ)), (∀ p ∈ L, p ∈ pairListI t ra rb) → c ∈ hconst H q L →
      (∃ p q, HHit H (htgt R) ⌈R⌉.toNat t p q ∧ c.1 = (H.idx p, H.idx q)) ∧ c.2 = q := by
    intro q L hL hc
    unfold hconst at hc
    rw [List.mem_map] at hc
    obtain ⟨⟨i, j⟩, hij, rfl⟩ := hc
    have hm := hr.mem_pairListI.1 (hL _ hij)
    have hp : i < H.points.length := by rw [b.ok.length_points]; have := hr.nA; omega
    have hq : j < H.points.length := by rw [b.ok.length_points]; have := hr.nB; omega
    have ep : H.points[i]? = some H.points[i] := List.getElem?_eq_getElem hp
    have eq : H.points[j]? = some H.points[j] := List.getElem?_eq_getElem hq
    exact ⟨⟨i, j, ⟨_, _, ep, eq, (hr.memA _ _ ep).1 ⟨by omega, by omega⟩, (hr.memB _ _ eq).1 ⟨by omega, by omega⟩, by omega⟩, rfl⟩, rfl⟩
  unfold hlookCoins at hc
  rw [hr.eq] at hc
  simp only at hc
  by_cases h2 : t.two = true
  · simp only [h2, if_true] at hc
    have hII : ∀ p ∈ pairListII ra rb, p ∈ pairListI t ra rb := fun p hp => (hr.pairLists_perm (ht.ne h2)).mem_iff.2 hp
    split at hc
    · obtain ⟨h3, h4⟩ := key _ _ hII hc
      exact ⟨h3, fun _ => Or.inl h4⟩
    · rename_i hz
      have hz : H.tZero = false := by simpa using hz
      split at hc
      · rename_i h5
        obtain ⟨h3, h4⟩ := key _ _ (fun _ h => h) hc
        refine ⟨h3, fun _ => Or.inr ⟨hz, Or.inl ?_⟩⟩
        rw [XR.ofRat_eq] at h5
        rw [XR.lt_fin] at h5
        simpa using h5
      · split at hc
        · obtain ⟨h3, h4⟩ := key _ _ hII hc
          exact ⟨h3, fun _ => Or.inl h4⟩
        · obtain ⟨h3, h4⟩ := key _ _ hII hc
          exact ⟨h3, fun _ => Or.inr ⟨hz, Or.inr h4⟩⟩
  · simp only [h2, Bool.false_eq_true, if_false] at hc
    exact ⟨(key _ _ (fun _ h => h) hc).1, fun h => absurd h h2⟩

end

/-! ### bounds that do not depend on the tree -/

/-- a function of the radii and angles of two points -/
noncomputable def hypPair {n : ℕ} (radii : List ℝ) (R : ℝ) (X : Fin n → Fin 1 → ℝ) (f : ℝ → ℝ → ℝ) (u v : ℕ) : ℝ≥0∞ :=
  if h : u < n ∧ v < n then ENNReal.ofReal (f (9 * Real.exp ((R - radii.getD u 0 - radii.getD v 0) / 2)) (torusDist (X ⟨u, h.1⟩) (X ⟨v, h.2⟩))) else 0

theorem hypPair_symm {n : ℕ} (radii : List ℝ) (R : ℝ) (X : Fin n → Fin 1 → ℝ) (f : ℝ → ℝ → ℝ) (u v : ℕ) :
    hypPair radii R X f u v = hypPair radii R X f v u := by
  unfold hypPair
  by_cases h : u < n ∧ v < n
  · rw [dif_pos h, dif_pos ⟨h.2, h.1⟩, torusDist_comm, sub_right_comm]
  · rw [dif_neg h, dif_neg (fun h' => h ⟨h'.2, h'.1⟩)]

theorem torusDist_fin1 {p q : Fin 1 → ℝ} (hp : ∀ d, p d ∈ Set.Ico (0 : ℝ) 1) (hq : ∀ d, q d ∈ Set.Ico (0 : ℝ) 1) :
    torusDist p q = circleDist (p 0) (q 0) := by
  refine le_antisymm ?_ (circleDist_le_torusDist p q 0)
  rw [torusDist_le_iff]
  refine ⟨circleDist_nonneg ?_, fun d => by rw [Subsingleton.elim d 0]⟩
  rw [abs_le]
  constructor <;> linarith [(hp 0).1, (hp 0).2, (hq 0).1, (hq 0).2]

section
variable {n : ℕ} {ndebug : Bool} {radii : List ℝ} {X : Fin n → Fin 1 → ℝ} {T R : ℝ} {H : HTree XR}

theorem hypPair_eq (f : ℝ → ℝ → ℝ) {i j : ℕ} {r s : ℝ} (hi : i < n) (hj : j < n) (hr : radii[i]? = some r) (hs : radii[j]? = some s) :
    hypPair radii R X f i j = ENNReal.ofReal (f (9 * Real.exp ((R - r - s) / 2)) (torusDist (X ⟨i, hi⟩) (X ⟨j, hj⟩))) := by
  unfold hypPair
  rw [dif_pos ⟨hi, hj⟩, List.getD_eq_getElem?_getD, List.getD_eq_getElem?_getD, hr, hs]
  rfl

theorem circleAngles_get {i : ℕ} {a : ℝ} (h : (circleAngles X)[i]? = some a) : ∃ hi : i < n, a = 2 * π * X ⟨i, hi⟩ 0 := by
  unfold circleAngles at h
  rw [List.getElem?_eq_some_iff] at h
  obtain ⟨hi, h⟩ := h
  rw [List.length_ofFn] at hi
  rw [List.getElem_ofFn] at h
  exact ⟨hi, h.symm⟩

/-- what is known about the two points of a call -/
theorem HBuiltX.hit_circle (b : HBuiltX ndebug radii (circleAngles X) T R H) (hin : HypInput radii (circleAngles X) T R)
    (hX : ∀ u d, X u d ∈ Set.Ico (0 : ℝ) 1) {t : Task} {p q : ℕ} (hh : HHit H (htgt R) ⌈R⌉.toNat t p q) :
    ∃ (hi : H.idx p < n) (hj : H.idx q < n) (r s : ℝ), radii[H.idx p]? = some r ∧ radii[H.idx q]? = some s ∧ r ≤ R - t.i ∧ s ≤ R - t.j ∧ r ≤ R ∧ s ≤ R ∧
      InArc t.level t.cellA (2 * π * X ⟨H.idx p, hi⟩ 0) ∧ InArc t.level t.cellB (2 * π * X ⟨H.idx q, hj⟩ 0) ∧
      torusDist (X ⟨H.idx p, hi⟩) (X ⟨H.idx q, hj⟩) = circleDist (X ⟨H.idx p, hi⟩ 0) (X ⟨H.idx q, hj⟩ 0) := by
  obtain ⟨x, y, ep, eq, h1, h2, _⟩ := hh
  obtain ⟨r, a, hr, ha, _, hrR, _, _, _, hd⟩ := b.point_data hin (List.mem_of_getElem? ep)
  obtain ⟨s, c, hs, hc, _, hsR, _, _, _, hd'⟩ := b.point_data hin (List.mem_of_getElem? eq)
  obtain ⟨_, h3, h4⟩ := hd _ _ _ h1
  obtain ⟨_, h5, h6⟩ := hd' _ _ _ h2
  obtain ⟨hi, rfl⟩ := circleAngles_get ha
  obtain ⟨hj, rfl⟩ := circleAngles_get hc
  have e1 := HTree.idx_eq ep
  have e2 := HTree.idx_eq eq
  simp only [e1, e2]
  exact ⟨hi, hj, r, s, hr, hs, h3, h5, hrR, hsR, h4, h6, torusDist_fin1 (hX _) (hX _)⟩

/-- the two points of a type I call are close -/
theorem HBuiltX.hclose_I (b : HBuiltX ndebug radii (circleAngles X) T R H) (hin : HypInput radii (circleAngles X) T R)
    (hX : ∀ u d, X u d ∈ Set.Ico (0 : ℝ) 1) {t : Task} (ht : t ∈ hvisit H.layers H.levels (hpair R) true H.levels 0 0 0) (h1 : t.two = false) {p q : ℕ}
    (hh : HHit H (htgt R) ⌈R⌉.toNat t p q) : ∃ (hi : H.idx p < n) (hj : H.idx q < n) (r s : ℝ), radii[H.idx p]? = some r ∧ radii[H.idx q]? = some s ∧
      torusDist (X ⟨H.idx p, hi⟩) (X ⟨H.idx q, hj⟩) < 9 * Real.exp ((R - r - s) / 2) := by
  have hok := (hgood_root (R := R) ht).1
  obtain ⟨hi, hj, r, s, hr, hs, h3, h4, h5, h6, h7, h8, e⟩ := b.hit_circle hin hX hh
  refine ⟨hi, hj, r, s, hr, hs, ?_⟩
  rw [e]
  have hlev := hvisit_level _ _ _ _ t h1 ht
  have h9 := h7.close hok.hA hok.hB h8
  rw [betweenN_touch hok.hA hok.hB (hok.one h1), Nat.cast_zero, zero_add, hlev] at h9
  have hl := b.ok.layers_le
  exact pair_close hin.R_pos.le (lt_of_lt_of_le hok.hi hl) (lt_of_lt_of_le hok.hj hl) h3 h4 h5 h6 (circleDist_le_half _ _) h9

/-- the probability of a look -/
theorem HBuiltX.hlook_prob (b : HBuiltX ndebug radii (circleAngles X) T R H) (hin : HypInput radii (circleAngles X) T R) (hT : 0 < T)
    (hX : ∀ u d, X u d ∈ Set.Ico (0 : ℝ) 1) {t : Task} (ht : t ∈ hvisit H.layers H.levels (hpair R) true H.levels 0 0 0) {c : (ℕ × ℕ) × ℝ}
    (hc : c ∈ hlookCoins H R T t) : ENNReal.ofReal (unit c.2) ≤ 5 * hypPair radii R X (Scaling.connProb 1 (1 / T)) c.1.1 c.1.2 := by
  have hok := (hgood_root (R := R) ht).1
  obtain ⟨⟨p, q, hh, e⟩, h2⟩ := b.mem_hlookCoins hok hc
  rw [show (5 : ℝ≥0∞) = ENNReal.ofReal 5 by simp]
  rw [e]
  simp only
  cases htwo : t.two
  · obtain ⟨hi, hj, r, s, hr, hs, hclose⟩ := b.hclose_I hin hX ht htwo hh
    rw [hypPair_eq _ hi hj hr hs, ← ENNReal.ofReal_mul (by norm_num)]
    refine ENNReal.ofReal_le_ofReal ?_
    have h4 : Scaling.connProb 1 (1 / T) (9 * Real.exp ((R - r - s) / 2)) (torusDist (X ⟨H.idx p, hi⟩) (X ⟨H.idx q, hj⟩)) = 1 := by
      unfold Scaling.connProb
      split
      · rfl
      · rename_i hne
        rw [pow_one]
        have hpos := lt_of_le_of_ne (Scaling.torusDist_nonneg (X ⟨H.idx p, hi⟩) (X ⟨H.idx q, hj⟩)) (Ne.symm hne)
        refine min_eq_left (Real.one_le_rpow ?_ (by positivity))
        rw [le_div_iff₀ hpos, one_mul]; exact hclose.le
    rw [h4]
    have := unit_le_one c.2
    linarith
  · obtain ⟨hi, hj, r, s, hr, hs, h3, h4, h5, h6, h7, h8, e⟩ := b.hit_circle hin hX hh
    rw [hypPair_eq _ hi hj hr hs, ← ENNReal.ofReal_mul (by norm_num)]
    refine ENNReal.ofReal_le_ofReal ?_
    rw [e]
    have h0 : 0 ≤ circleDist (X ⟨H.idx p, hi⟩ 0) (X ⟨H.idx q, hj⟩ 0) := by rw [← e]; exact Scaling.torusDist_nonneg _ _
    have hb1 : 1 ≤ betweenN t.level t.cellA t.cellB := by
      have h3 := onLv_diff hok.hA hok.hB
      have h4 := hok.two htwo
      unfold touchN at h4
      rw [decide_eq_false_iff_not] at h4
      unfold betweenN
      generalize 2 ^ t.level = N at *
      omega
    have hcl := class_close hT h3 h4 h5 h6 h0 (circleDist_le_half _ _) hb1 betweenN_half (h7.close hok.hA hok.hB h8)
    rw [show arcosh (max 1 (Girgs.hc (R - t.i - 1) (R - t.j - 1) (betweenN t.level t.cellA t.cellB * (2 * π / 2 ^ t.level)))) = classDist R t from rfl] at hcl
    have hmem := Scaling.connProb_mem (D := 1) (1 / T) (9 * Real.exp ((R - r - s) / 2)) _ (by positivity) h0
    rcases h2 htwo with h5 | ⟨_, h5 | h5⟩
    · rw [h5, unit_eq le_rfl (by norm_num)]; linarith [hmem.1]
    · have := unit_le_one c.2; linarith
    · rw [h5, unit_eq (hProb_pos _ _ _).le (hProb_lt_one _ _ _).le]; linarith [hmem.1]

/-- the probability of a look without temperature -/
theorem HBuiltX.hlook_threshold (b : HBuiltX ndebug radii (circleAngles X) 0 R H) (hin : HypInput radii (circleAngles X) 0 R)
    (hX : ∀ u d, X u d ∈ Set.Ico (0 : ℝ) 1) {t : Task} (ht : t ∈ hvisit H.layers H.levels (hpair R) true H.levels 0 0 0) {c : (ℕ × ℕ) × ℝ}
    (hc : c ∈ hlookCoins H R 0 t) : ENNReal.ofReal (unit c.2) ≤ 1 * hypPair radii R X (fun t r => if r ^ 1 < t then 1 else 0) c.1.1 c.1.2 := by
  have hok := (hgood_root (R := R) ht).1
  have hz : H.tZero = true := by rw [b.tZero_iff]; simp
  obtain ⟨⟨p, q, hh, e⟩, h2⟩ := b.mem_hlookCoins hok hc
  cases htwo : t.two
  · obtain ⟨hi, hj, r, s, hr, hs, hclose⟩ := b.hclose_I hin hX ht htwo hh
    rw [e, one_mul]
    simp only
    rw [hypPair_eq _ hi hj hr hs, if_pos (by rw [pow_one]; exact hclose)]
    exact ENNReal.ofReal_le_ofReal (unit_le_one _)
  · rcases h2 htwo with h5 | ⟨h5, _⟩
    · rw [h5, unit_eq le_rfl (by norm_num)]; simp
    · rw [hz] at h5; cases h5

theorem HBuiltX.hlook_sum (b : HBuiltX ndebug radii (circleAngles X) T R H) {ts : List Task}
    (hts : ts.Subperm (hvisit H.layers H.levels (hpair R) true H.levels 0 0 0)) {K : ℝ≥0∞} {f : ℝ → ℝ → ℝ} (hn : H.n = n)
    (hf : ∀ t ∈ ts, ∀ c ∈ hlookCoins H R T t, ENNReal.ofReal (unit c.2) ≤ K * hypPair radii R X f c.1.1 c.1.2) :
    ((ts.flatMap (hlookCoins H R T)).map fun c => ENNReal.ofReal (unit c.2)).sum ≤
      K * ∑ v ∈ Finset.range n, ∑ u ∈ Finset.range v, hypPair radii R X f u v := by
  have h1 := sum_simple_le (b.hlook_simple hts) (fun u v => K * hypPair radii R X f u v) (fun u v => by simp only [hypPair_symm])
  rw [hn] at h1
  simp_rw [Finset.mul_sum]
  refine le_trans ?_ h1
  rw [List.map_map]
  refine List.sum_le_sum ?_
  intro c hc
  rw [List.mem_flatMap] at hc
  obtain ⟨t, ht, hc⟩ := hc
  exact hf t ht c hc

/-! ### integrals -/

theorem measurable_hypPair {f : ℝ → ℝ → ℝ} (hf : ∀ t, Measurable (f t)) (u v : ℕ) :
    Measurable fun X : Fin n → Fin 1 → ℝ => hypPair radii R X f u v := by
  unfold hypPair
  by_cases h : u < n ∧ v < n
  · simp only [h, and_self, dite_true]
    have h1 : Measurable fun X : Fin n → Fin 1 → ℝ => torusDist (X ⟨u, h.1⟩) (X ⟨v, h.2⟩) :=
      Scaling.torusDist_measurable.comp (g := fun z : (Fin 1 → ℝ) × (Fin 1 → ℝ) => torusDist z.1 z.2)
        (f := fun X : Fin n → Fin 1 → ℝ => (X ⟨u, h.1⟩, X ⟨v, h.2⟩))
        ((measurable_pi_apply (⟨u, h.1⟩ : Fin n)).prodMk (measurable_pi_apply (⟨v, h.2⟩ : Fin n)))
    exact ENNReal.measurable_ofReal.comp ((hf _).comp h1)
  · simp only [h, dite_false]
    exact measurable_const

theorem hypPairSum_nonneg : 0 ≤ hypPairSum radii R := Finset.sum_nonneg fun _ _ => Finset.sum_nonneg fun _ _ => (Real.exp_pos _).le

theorem lintegral_hypPairs_le (hn : n = radii.length) {f : ℝ → ℝ → ℝ} (hf : ∀ t, Measurable (f t)) {c : ℝ} (hc : 0 ≤ c)
    (hk : ∀ t, 0 < t → ∀ u v : Fin n, u ≠ v → ∫⁻ X, ENNReal.ofReal (f t (torusDist (X u) (X v))) ∂uniformPositions n 1 ≤ ENNReal.ofReal (c * (2 * t))) :
    ∫⁻ X : Fin n → Fin 1 → ℝ, ∑ v ∈ Finset.range n, ∑ u ∈ Finset.range v, hypPair radii R X f u v ∂uniformPositions n 1 ≤
      ENNReal.ofReal (18 * c * hypPairSum radii R) := by
  rw [lintegral_finset_sum _ fun v _ => Finset.measurable_sum _ fun u _ => measurable_hypPair hf u v]
  simp_rw [lintegral_finset_sum _ fun u _ => measurable_hypPair hf u _]
  have hterm : ∀ v ∈ Finset.range n, ∀ u ∈ Finset.range v, ∫⁻ X : Fin n → Fin 1 → ℝ, hypPair radii R X f u v ∂uniformPositions n 1 ≤
      ENNReal.ofReal (18 * c * Real.exp ((R - radii.getD u 0 - radii.getD v 0) / 2)) := by
    intro v hv u hu
    rw [Finset.mem_range] at hu hv
    have hun : u < n := by omega
    have e : ∀ X : Fin n → Fin 1 → ℝ, hypPair radii R X f u v =
        ENNReal.ofReal (f (9 * Real.exp ((R - radii.getD u 0 - radii.getD v 0) / 2)) (torusDist (X ⟨u, hun⟩) (X ⟨v, hv⟩))) := by
      intro X; unfold hypPair; rw [dif_pos ⟨hun, hv⟩]
    simp_rw [e]
    refine (hk _ (by positivity) _ _ ?_).trans (ENNReal.ofReal_le_ofReal (le_of_eq (by ring)))
    intro h
    rw [Fin.mk.injEq] at h
    omega
  refine le_trans (Finset.sum_le_sum fun v hv => Finset.sum_le_sum fun u hu => hterm v hv u hu) ?_
  have hnn : ∀ u v : ℕ, 0 ≤ 18 * c * Real.exp ((R - radii.getD u 0 - radii.getD v 0) / 2) := fun u v => by positivity
  have hcongr : ∀ v ∈ Finset.range n, ∑ u ∈ Finset.range v, ENNReal.ofReal (18 * c * Real.exp ((R - radii.getD u 0 - radii.getD v 0) / 2)) =
      ENNReal.ofReal (∑ u ∈ Finset.range v, 18 * c * Real.exp ((R - radii.getD u 0 - radii.getD v 0) / 2)) := fun v _ =>
    (ENNReal.ofReal_sum_of_nonneg fun u _ => hnn u v).symm
  rw [Finset.sum_congr rfl hcongr, ← ENNReal.ofReal_sum_of_nonneg fun v _ => Finset.sum_nonneg fun u _ => hnn u v]
  refine ENNReal.ofReal_le_ofReal (le_of_eq ?_)
  unfold hypPairSum
  rw [← hn]
  simp_rw [Finset.mul_sum]

theorem lintegral_hconn (hn : n = radii.length) (hT : 0 < T) (hT1 : T < 1) :
    ∫⁻ X : Fin n → Fin 1 → ℝ, ∑ v ∈ Finset.range n, ∑ u ∈ Finset.range v, hypPair radii R X (Scaling.connProb 1 (1 / T)) u v ∂uniformPositions n 1 ≤
      ENNReal.ofReal (18 * (1 / (1 - T)) * hypPairSum radii R) := by
  have h1 : 0 < 1 - T := by linarith
  have ha : 1 < 1 / T := by rw [lt_div_iff₀ hT]; linarith
  refine lintegral_hypPairs_le hn (fun t => Scaling.connProb_measurable 1 (1 / T) t) (by positivity) ?_
  intro t ht u v huv
  rw [lintegral_pair (f := Scaling.connProb 1 (1 / T) t) (Scaling.connProb_measurable 1 (1 / T) t)
    (fun r hr => (Scaling.connProb_mem (1 / T) t r ht hr).1)
    (fun r hr => (Scaling.connProb_mem (1 / T) t r ht hr).2) (fun q hq => Scaling.conn_expect le_rfl hq (by linarith) (by linarith) ht) huv]
  refine ENNReal.ofReal_le_ofReal ((probAlpha_le ha (by positivity)).trans (le_of_eq ?_))
  have h2 : 1 / T - 1 ≠ 0 := by linarith
  field_simp

theorem lintegral_hthreshold (hn : n = radii.length) :
    ∫⁻ X : Fin n → Fin 1 → ℝ, ∑ v ∈ Finset.range n, ∑ u ∈ Finset.range v, hypPair radii R X (fun t r => if r ^ 1 < t then 1 else 0) u v ∂uniformPositions n 1 ≤
      ENNReal.ofReal (18 * 1 * hypPairSum radii R) := by
  have hm : ∀ t : ℝ, Measurable fun r : ℝ => if r ^ 1 < t then (1 : ℝ) else 0 := fun t =>
    Measurable.ite (measurableSet_lt (by fun_prop) measurable_const) measurable_const measurable_const
  refine lintegral_hypPairs_le hn hm zero_le_one ?_
  intro t ht u v huv
  rw [lintegral_pair (f := fun r => if r ^ 1 < t then 1 else 0) (hm t) (fun r _ => by split <;> norm_num)
    (fun r _ => by split <;> norm_num) (k := Scaling.probThreshold (2 ^ 1 * t)) ?_ huv]
  · refine ENNReal.ofReal_le_ofReal ?_
    rw [one_mul, pow_one]; exact min_le_right _ _
  · intro q hq
    rw [← Scaling.threshold_expect le_rfl hq ht]
    rfl

end
end Girgs
