import Verif.Proofs.HThreshold
/-!
Disk radii the hyperbolic sampler does not support: `1 < R < 4/3` and `R ≤ 1/2`.
-/
namespace Girgs
open Angle Spec HBuild
open Real

section
variable {F : Type} [CFloat F] {H : HTree F} {tgt : Nat → Nat} {pbl : Nat → Nat → Nat} {nl : Nat}

/-- type I calls are made on the comparison level -/
theorem hvisit_level {layers levels : Nat} {full : Bool} : ∀ (k A B l : Nat) (t : Task), t.two = false →
    t ∈ hvisit layers levels pbl full k A B l → t.level = pbl t.i t.j := by
  intro k
  induction k with
  | zero => intro A B l t _ ht; simp [hvisit] at ht
  | succ k ih =>
    intro A B l t h2 ht
    rw [hvisit_succ] at ht
    split at ht
    · split at ht
      · have := (mem_htasksII.1 ht).1
        rw [this] at h2; cases h2
      · simp at ht
    · rw [List.mem_append] at ht
      rcases ht with ht | ht
      · obtain ⟨_, _, _, h3, _, _, h4, _⟩ := mem_htasksI.1 ht
        rw [h3, h4]
      · split at ht
        · simp at ht
        · obtain ⟨p, _, ht⟩ := List.mem_flatMap.1 ht
          exact ih _ _ _ t h2 ht

/-- at temperature 0 every edge comes from a type I call -/
theorem HTreeOK.edge_typeI (ok : HTreeOK H tgt pbl nl) (fo : HFiltersOK H pbl) {env : HEnv} {fpl : Nat} (st : HStartOK F env fpl)
    {rng : Tree.Rng F} (hgeo : GeoBounded rng) (gens : Nat → rng.G) (hthr : H.inThresholdMode = true) (hzero : H.tZero = true)
    {calls : List (List (Nat × Nat))} (hg : HTree.Generate env H rng gens calls) {out : List (Nat × Nat)} (hout : out.Perm calls.flatten)
    {e : Nat × Nat} (he : e ∈ out) : ∃ t p q, HTaskOK H pbl t ∧ t.two = false ∧ t.level = pbl t.i t.j ∧ e = (H.idx p, H.idx q) ∧
      ∃ x y, H.points[p]? = some x ∧ H.points[q]? = some y ∧ HIn tgt nl x t.i t.level t.cellA ∧ HIn tgt nl y t.j t.level t.cellB := by
  have hdec : HDecided H fun p q => match H.points[p]?, H.points[q]? with
      | some x, some y => x.isDistanceBelowR y H.coshR
      | _, _ => false := ⟨hthr, hzero, fun p q x y hx hy => by rw [hx, hy]⟩
  have hd : HDraws H rng := ⟨fun h => (by rw [hthr] at h; cases h), fun h => (by rw [hzero] at h; cases h)⟩
  have h1 : 1 ≤ fpl := le_trans (by norm_num) st.two
  have hperm := hout.trans (ok.generate_perm hgeo hd fo st gens hg)
  rw [hperm.mem_iff, List.mem_flatMap] at he
  obtain ⟨k, hk, he⟩ := he
  rw [List.mem_range] at hk
  have hu : (hUnits env H pbl fpl).getD k [] ∈ hUnits env H pbl fpl := by
    rw [List.getD_eq_getElem?_getD, List.getElem?_eq_getElem hk]; exact List.getElem_mem hk
  unfold unitEdges at he
  rw [hrunTasks_dec ok hdec _ (fun t ht => ok.units_ok env h1 _ hu t ht)] at he
  obtain ⟨t, ht, he⟩ := List.mem_flatMap.1 he
  have hto := ok.units_ok env h1 _ hu t ht
  obtain ⟨ra, rb, hr⟩ := ok.ranges_ok hto
  unfold hemit at he
  split at he
  · simp at he
  · rename_i h2
    rw [hr.eq] at he
    obtain ⟨⟨p, q⟩, hm, rfl⟩ := List.mem_map.1 he
    obtain ⟨hm, _⟩ := List.mem_filter.1 hm
    rw [hr.mem_pairListI] at hm
    have := hr.nA; have := hr.nB
    have hp : p < H.points.length := by rw [ok.length_points]; omega
    have hq : q < H.points.length := by rw [ok.length_points]; omega
    have h2' : t.two = false := by simpa using h2
    have hlev := hvisit_level _ _ _ _ t h2' ((ok.units_subperm env h1).subset (List.mem_flatten.2 ⟨_, hu, ht⟩))
    exact ⟨t, p, q, hto, h2', hlev, rfl, _, _, List.getElem?_eq_getElem hp, List.getElem?_eq_getElem hq,
      (hr.memA _ _ (List.getElem?_eq_getElem hp)).1 hm.1, (hr.memB _ _ (List.getElem?_eq_getElem hq)).1 hm.2.1⟩
end

/-- cells of opposite quarters do not touch -/
theorem quarters_apart {l A B : ℕ} (hl : 2 ≤ l) {a b : ℝ} (hA : OnLv l A) (hB : OnLv l B) (ha : InArc l A a) (hb : InArc l B b)
    (ha2 : a < π / 2) (hb1 : π ≤ b) (hb2 : b < 3 * π / 2) : touchN l A B = false := by
  obtain ⟨m, hm⟩ : ∃ m : ℕ, (2 : ℕ) ^ l = 4 * m := ⟨2 ^ (l - 2), by
    rw [show (4 : ℕ) = 2 ^ 2 by norm_num, ← pow_add]; congr 1; omega⟩
  have hmr : (2 : ℝ) ^ l = 4 * m := by exact_mod_cast hm
  rw [onLv_iff] at hA hB
  have hm0 : 0 < m := by have : 0 < 2 ^ l := by positivity
                         omega
  have hmr0 : (0 : ℝ) < m := by exact_mod_cast hm0
  have hpi := pi_pos
  obtain ⟨a1, a2⟩ := ha
  obtain ⟨b1, b2⟩ := hb
  rw [hmr] at a1 b1 b2
  have ew : 2 * π / (4 * (m : ℝ)) * m = π / 2 := by field_simp; ring
  have hw : 0 < 2 * π / (4 * (m : ℝ)) := by positivity
  generalize 2 * π / (4 * (m : ℝ)) = w at *
  have k1 : (A : ℝ) + 1 - 4 * m < m := by
    by_contra hc
    have := mul_le_mul_of_nonneg_right (not_lt.1 hc) hw.le
    linarith
  have k2 : 2 * (m : ℝ) < (B : ℝ) + 2 - 4 * m := by
    by_contra hc
    have := mul_le_mul_of_nonneg_right (not_lt.1 hc) hw.le
    linarith
  have k3 : (B : ℝ) + 1 - 4 * m < 3 * m := by
    by_contra hc
    have := mul_le_mul_of_nonneg_right (not_lt.1 hc) hw.le
    linarith
  have k1' : A + 1 < 5 * m := by
    have : (A : ℝ) + 1 < 5 * m := by linarith
    exact_mod_cast this
  have k2' : 6 * m < B + 2 := by
    have : 6 * (m : ℝ) < B + 2 := by linarith
    exact_mod_cast this
  have k3' : B + 1 < 7 * m := by
    have : (B : ℝ) + 1 < 7 * m := by linarith
    exact_mod_cast this
  unfold touchN
  rw [decide_eq_false_iff_not, hm]
  omega

theorem touchN_symm (l A B : ℕ) : touchN l A B = touchN l B A := by
  unfold touchN; rw [max_comm, min_comm]

theorem hc_self (r φ : ℝ) : hc r r φ = 1 + (1 - cos φ) * sinh r ^ 2 := by
  unfold hc; rw [sub_self, cosh_zero]; ring

theorem cosh_ge (x : ℝ) (hx : 0 ≤ x) : 1 + x ^ 2 / 2 ≤ cosh x := by
  have e : cosh x = 1 + 2 * sinh (x / 2) ^ 2 := by
    have h := cosh_two_mul (x / 2)
    have h2 := cosh_sq (x / 2)
    rw [show 2 * (x / 2) = x by ring] at h
    linarith
  have h : x / 2 ≤ sinh (x / 2) := self_le_sinh_iff.2 (by linarith)
  rw [e]
  nlinarith

/-- radius at most 1/2: the target level is between 2 and 30 -/
theorem small_level {R : ℝ} (h1 : 1 / 100000000 ≤ R) (h2 : R ≤ 1 / 2) :
    (∃ L : ℕ, hc (R - 1) (R - 1) (π / 2 ^ L) ≤ cosh R) ∧ 2 ≤ hpbl (R - 1) (R - 1) R ∧ hpbl (R - 1) (R - 1) R ≤ 30 := by
  have hpi := pi_pos
  have h30 : hc (R - 1) (R - 1) (π / 2 ^ 30) ≤ cosh R := by
    rw [hc_self]
    have e1 := one_sub_sq_div_two_le_cos (x := π / 2 ^ 30)
    have e2 := cosh_ge R (by linarith)
    have e3 : sinh (R - 1) ^ 2 ≤ 2 := by
      rw [show R - 1 = -(1 - R) by ring, sinh_neg, neg_sq]
      have h0 : 0 ≤ sinh (1 - R) := sinh_nonneg_iff.2 (by linarith)
      have h3 : sinh (1 - R) ≤ sinh 1 := sinh_le_sinh.2 (by linarith)
      have h4 : sinh 1 ≤ 1.4 := by
        rw [sinh_eq]
        have := exp_one_lt_d9
        have h5 := exp_pos (-1 : ℝ)
        linarith
      nlinarith
    have e4 : (π / 2 ^ 30) ^ 2 ≤ R ^ 2 / 2 := by
      have h5 : π / 2 ^ 30 ≤ 3 / 1000000000 := by
        rw [div_le_iff₀ (by positivity)]
        have := pi_lt_d2
        norm_num at this ⊢
        linarith
      have h6 : 0 ≤ π / 2 ^ 30 := by positivity
      generalize π / 2 ^ 30 = z at *
      nlinarith
    have e5 : 0 ≤ sinh (R - 1) ^ 2 := sq_nonneg _
    have e6 := sq_nonneg (π / 2 ^ 30)
    generalize (π / 2 ^ 30) = z at *
    have e7 : 1 - cos z ≤ z ^ 2 / 2 := by linarith
    have e8 : 0 ≤ 1 - cos z := by linarith [cos_le_one z]
    nlinarith
  have hex : ∃ L : ℕ, hc (R - 1) (R - 1) (π / 2 ^ L) ≤ cosh R := ⟨30, h30⟩
  refine ⟨hex, ?_, ?_⟩
  · refine le_hpbl hex ?_
    have hs : cosh R < 1 + sinh (R - 1) ^ 2 := by
      have e1 := cosh_sq (R - 1)
      have e2 : cosh R ≤ cosh (R - 1) := by
        rw [cosh_le_cosh, abs_of_pos (by linarith), abs_of_neg (by linarith)]; linarith
      have e3 : 1 < cosh R := one_lt_cosh.2 (by linarith)
      nlinarith
    intro k hk
    rw [hc_self]
    have e5 : 0 ≤ sinh (R - 1) ^ 2 := sq_nonneg _
    interval_cases k
    · rw [pow_zero, div_one, cos_pi]; linarith
    · rw [pow_one, cos_pi_div_two]; linarith
  · by_contra hc
    have := (hpbl_spec hex).2 30 (by omega)
    linarith

theorem ceil_one {R : ℝ} (h1 : 0 < R) (h2 : R ≤ 1) : ⌈R⌉ = 1 := by
  rw [Int.ceil_eq_iff]
  norm_num
  exact ⟨h1, h2⟩

/-- the construction with radius at most 1/2 -/
theorem small_inputOK {radii angles : List ℝ} {R : ℝ} (h1 : 1 / 100000000 ≤ R) (h2 : R ≤ 1 / 2) (hlen : angles.length = radii.length)
    (hpos : 1 ≤ radii.length) (hsm : radii.length < 2147483648) (hrad : ∀ r ∈ radii, 0 < r ∧ r ≤ R) (hang : ∀ a ∈ angles, 0 ≤ a ∧ a < 2 * π) :
    HInputOK (XR.fin R) (xw radii) (xw angles) ⌈R⌉.toNat (htgt R) (hpair R) := by
  obtain ⟨hex, hge, hle⟩ := small_level h1 h2
  have hc1 := ceil_one (R := R) (by linarith) (by linarith)
  have hn : ⌈R⌉.toNat = 1 := by rw [hc1]; rfl
  have ht0 : htgt R 0 = hpbl (R - 1) (R - 1) R := by unfold htgt; simp
  have hp0 : hpair R 0 0 = hpbl (R - 1) (R - 1) R := by unfold hpair; simp
  have hR0 : 0 ≤ R := by linarith
  refine ⟨?_, ?_, ?_, ?_, by omega, by omega, ?_, ?_, ?_, ?_, ?_, ?_, ?_, ?_⟩
  · simp [xw, hlen]
  · simpa [xw] using hpos
  · simpa [xw] using hsm
  · unfold numLayers
    rw [XR.ofRat_eq, XR.div_fin _ _ (by norm_num)]
    push_cast
    rw [div_one, XR.ceil_fin, hc1, XR.toU32_fin _ (by norm_num) (by norm_num), Int.floor_intCast]
  · intro l hl
    obtain rfl : l = 0 := by omega
    rw [radMin_XR, XR.ofRat_eq, XR.sub_fin, ht0]
    push_cast
    rw [sub_zero]
    exact pbl_XR hR0 hex
  · intro i j hi hj
    obtain rfl : i = 0 := by omega
    obtain rfl : j = 0 := by omega
    rw [radMin_XR, hp0]
    push_cast
    rw [sub_zero]
    exact pbl_XR hR0 hex
  · intro i j; exact hpbl_symm _ _ _
  · intro i j hi hj
    obtain rfl : i = 0 := by omega
    obtain rfl : j = 0 := by omega
    omega
  · intro i j hi hj
    obtain rfl : i = 0 := by omega
    obtain rfl : j = 0 := by omega
    omega
  · rw [hn]
    unfold hTotal
    rw [Finset.sum_range_one, ht0]
    exact lt_of_le_of_lt (Nat.pow_le_pow_right (by norm_num) hle) (by norm_num)
  · intro r hr
    obtain ⟨r, hr', rfl⟩ := List.mem_map.1 hr
    obtain ⟨e1, e2, _⟩ := radiusToLayer_XR (hrad r hr').1 (hrad r hr').2 (by linarith)
    exact ⟨_, e2, e1⟩
  · intro a ha k hk
    obtain rfl : k = 0 := by omega
    obtain ⟨a, ha', rfl⟩ := List.mem_map.1 ha
    obtain ⟨e1, e2⟩ := cellForPoint_XR (hang a ha').1 (hang a ha').2 (t := htgt R 0) (by omega)
    exact ⟨_, e2, e1⟩

end Girgs

namespace Girgs
open Angle Spec HBuild CFloat
open Real

theorem mapM_elim {α β : Type} {f : α → Option β} : ∀ {L : List α} {ys : List β}, L.mapM f = some ys →
    (∀ y ∈ ys, ∃ x ∈ L, f x = some y) ∧ ∀ x ∈ L, ∃ y ∈ ys, f x = some y := by
  intro L
  induction L with
  | nil =>
    intro ys h
    rw [List.mapM_nil] at h
    obtain rfl := Option.some.inj h
    simp
  | cons a L ih =>
    intro ys h
    rw [List.mapM_cons] at h
    simp only [Option.bind_eq_bind, Option.bind_eq_some_iff, Option.pure_def, Option.some.injEq] at h
    obtain ⟨b, hb, bs, hbs, rfl⟩ := h
    obtain ⟨i1, i2⟩ := ih hbs
    constructor
    · intro y hy
      rcases List.mem_cons.1 hy with rfl | hy
      · exact ⟨a, by simp, hb⟩
      · obtain ⟨x, hx, e⟩ := i1 y hy
        exact ⟨x, by simp [hx], e⟩
    · intro x hx
      rcases List.mem_cons.1 hx with rfl | hx
      · exact ⟨b, by simp, hb⟩
      · obtain ⟨y, hy, e⟩ := i2 x hx
        exact ⟨y, by simp [hy], e⟩

theorem mapM_length' {α β : Type} {f : α → Option β} : ∀ {L : List α} {ys : List β}, L.mapM f = some ys → ys.length = L.length := by
  intro L
  induction L with
  | nil =>
    intro ys h
    rw [List.mapM_nil] at h
    obtain rfl := Option.some.inj h
    rfl
  | cons a L ih =>
    intro ys h
    rw [List.mapM_cons] at h
    simp only [Option.bind_eq_bind, Option.bind_eq_some_iff, Option.pure_def, Option.some.injEq] at h
    obtain ⟨b, hb, bs, hbs, rfl⟩ := h
    rw [List.length_cons, List.length_cons, ih hbs]

theorem foldlM_length {α β : Type} {f : List β → α → Option (List β)} (hf : ∀ a l l', f l a = some l' → l'.length = l.length) :
    ∀ {L : List α} {b b' : List β}, L.foldlM f b = some b' → b'.length = b.length := by
  intro L
  induction L with
  | nil =>
    intro b b' h
    rw [List.foldlM_nil] at h
    obtain rfl := Option.some.inj h
    rfl
  | cons a L ih =>
    intro b b' h
    rw [List.foldlM_cons] at h
    simp only [Option.bind_eq_bind, Option.bind_eq_some_iff] at h
    obtain ⟨c, hc, h⟩ := h
    rw [ih h, hf _ _ _ hc]

/-- levels of a disk with `1 < R < 4/3` -/
theorem middle_levels {R : ℝ} (h1 : 1 < R) (h2 : R < 4 / 3) :
    RadiusLayer.partitioningBaseLevel (radMin (XR.fin R) 0) (XR.fin R -. ofRat 1) (XR.fin R) = some 0 ∧
    RadiusLayer.partitioningBaseLevel (radMin (XR.fin R) 1) (XR.fin R -. ofRat 1) (XR.fin R) = some 0 ∧
    ∀ k, RadiusLayer.partitioningBaseLevel (radMin (XR.fin R) 1) (radMin (XR.fin R) 1) (XR.fin R) = some k → k ≠ 0 := by
  have hR : 0 ≤ R := by linarith
  have hpi : ∀ r s : ℝ, hc r s (π / 2 ^ 0) = cosh (r + s) := by
    intro r s
    rw [pow_zero, div_one, hc_eq', cos_pi, cosh_add]; ring
  rw [radMin_XR, radMin_XR, XR.ofRat_eq, XR.sub_fin]
  push_cast
  refine ⟨?_, ?_, ?_⟩
  · rw [pbl_XR_iff hR, hpi]
    refine ⟨?_, fun k hk => by omega⟩
    rw [cosh_le_cosh, abs_of_pos (by linarith), abs_of_pos (by linarith)]; linarith
  · rw [pbl_XR_iff hR, hpi]
    refine ⟨?_, fun k hk => by omega⟩
    rw [cosh_le_cosh, abs_le, abs_of_pos (by linarith : 0 < R)]
    constructor <;> linarith
  · intro k hk hk0
    subst hk0
    rw [pbl_XR_iff hR, hpi, cosh_le_cosh, abs_of_neg (by linarith), abs_of_pos (by linarith)] at hk
    linarith [hk.1]

/-- `1 < R < 4/3` and a point of radius at most `R - 1`: no execution of the constructor is defined -/
theorem middle_undefined {radii angles : List ℝ} {R : ℝ} (h1 : 1 < R) (h2 : R < 4 / 3) (hlen : angles.length = radii.length)
    (hsm : radii.length < 2147483648) (hrad : ∀ r ∈ radii, 0 < r ∧ r ≤ R) (hang : ∀ a ∈ angles, 0 ≤ a ∧ a < 2 * π)
    (hex : ∃ r ∈ radii, r ≤ R - 1) (ndebug : Bool) (T : XR) (H : HTree XR) :
    ¬ HConstructed ndebug (xw radii) (xw angles) T (XR.fin R) H := by
  rintro ⟨points, first, rls, r0, lp, fil, hpart, hr0, hlp, hfil, rfl⟩
  obtain ⟨nl, lol, fc, M, points0, e1, e2, e3, _, e4, omp, t, B0, threads, ht1, ht, hB, hrun, hth1, hth2, hidx, c0, layers, hc0, hpr, hrl⟩ := hpart
  obtain ⟨l0, l1, l11⟩ := middle_levels h1 h2
  have hceil : ⌈R⌉ = 2 := by
    rw [Int.ceil_eq_iff]; norm_num; exact ⟨by linarith, by linarith⟩
  have hn : nl = 2 := by
    have : numLayers (XR.fin R) = some 2 := by
      unfold numLayers
      rw [XR.ofRat_eq, XR.div_fin _ _ (by norm_num)]
      push_cast
      rw [div_one, XR.ceil_fin, hceil, XR.toU32_fin _ (by norm_num) (by norm_num), Int.floor_intCast]
      rfl
    rw [this] at e1; exact (Option.some.inj e1).symm
  subst hn
  have hlol : lol = [0, 0] := by
    have : levelOfLayer (XR.fin R) 2 = some [0, 0] := by
      unfold levelOfLayer
      have : (List.range 2) = [0, 1] := rfl
      rw [this, List.mapM_cons, List.mapM_cons, List.mapM_nil, l0, l1]; rfl
    rw [this] at e2; exact (Option.some.inj e2).symm
  subst hlol
  obtain ⟨rfl, rfl⟩ : fc = [1, 0] ∧ M = 2 := by
    have : firstCells [0, 0] = some ([1, 0], 2) := by rfl
    rw [this, Option.some.injEq, Prod.mk.injEq] at e3
    exact ⟨e3.1.symm, e3.2.symm⟩
  -- the cells of the points
  have hcls : ∀ i r a, radii[i]? = some r → angles[i]? = some a →
      classifyOne (XR.fin R) [0, 0] [1, 0] i (XR.fin r) (XR.fin a) = some (HPoint.make i (XR.fin r) (XR.fin a) (if r ≤ R - 1 then 0 else 1)) := by
    intro i r a hr ha
    obtain ⟨hr1, hr2⟩ := hrad r (List.mem_of_getElem? hr)
    obtain ⟨ha1, ha2⟩ := hang a (List.mem_of_getElem? ha)
    obtain ⟨k1, k2, k3, k4⟩ := radiusToLayer_XR hr1 hr2 (by linarith)
    obtain ⟨c1, c2⟩ := cellForPoint_XR ha1 ha2 (t := 0) (by norm_num)
    have c3 : ⌊a / (2 * π) * 2 ^ 0⌋.toNat = 0 := by
      simp only [pow_zero, mul_one] at c2 ⊢; omega
    rw [c3] at c1
    unfold classifyOne
    refine (obind k1 _).trans ?_
    rw [hceil] at k2
    have k2' : ⌊R - r⌋.toNat = 0 ∨ ⌊R - r⌋.toNat = 1 := by
      have : (2 : ℤ).toNat = 2 := rfl
      omega
    rcases k2' with h | h
    · rw [h] at k3 ⊢
      push_cast at k3
      rw [if_neg (by linarith)]
      refine (obind (show rd [0, 0] 0 = some 0 from rfl) _).trans ?_
      refine (obind (show rd [1, 0] 0 = some 1 from rfl) _).trans ?_
      exact (obind c1 _).trans rfl
    · rw [h] at k4 ⊢
      push_cast at k4
      rw [if_pos (by linarith)]
      refine (obind (show rd [0, 0] 1 = some 0 from rfl) _).trans ?_
      refine (obind (show rd [1, 0] 1 = some 0 from rfl) _).trans ?_
      exact (obind c1 _).trans rfl
  have hbody : ∀ i, i < radii.length → ∃ r a, radii[i]? = some r ∧ angles[i]? = some a ∧ (do
      let r ← rd (xw radii) i
      let a ← rd (xw angles) i
      classifyOne (XR.fin R) [0, 0] [1, 0] i r a) = some (HPoint.make i (XR.fin r) (XR.fin a) (if r ≤ R - 1 then 0 else 1)) := by
    intro i hi
    have hr : radii[i]? = some radii[i] := List.getElem?_eq_getElem hi
    have ha : angles[i]? = some (angles[i]'(by omega)) := List.getElem?_eq_getElem (by omega)
    refine ⟨_, _, hr, ha, ?_⟩
    refine (obind (show rd (xw radii) i = some (XR.fin radii[i]) by unfold rd xw; rw [List.getElem?_map, hr]; rfl) _).trans ?_
    refine (obind (show rd (xw angles) i = some (XR.fin (angles[i]'(by omega))) by unfold rd xw; rw [List.getElem?_map, ha]; rfl) _).trans ?_
    exact hcls i _ _ hr ha
  have hxl : (xw radii).length = radii.length := by simp [xw]
  unfold classify at e4
  rw [hxl] at e4
  obtain ⟨m1, m2⟩ := mapM_elim e4
  have hlt : ∀ x ∈ points0, x.cellId ≤ 1 := by
    intro x hx
    obtain ⟨i, hi, e⟩ := m1 x hx
    obtain ⟨r, a, _, _, e'⟩ := hbody i (List.mem_range.1 hi)
    rw [e'] at e
    obtain rfl := Option.some.inj e
    show (if r ≤ R - 1 then 0 else 1) ≤ 1
    split <;> omega
  have hzero : ∃ x ∈ points0, x.cellId = 0 := by
    obtain ⟨r, hr, hle⟩ := hex
    obtain ⟨i, hi, rfl⟩ := List.getElem_of_mem hr
    obtain ⟨x, hx, e⟩ := m2 i (List.mem_range.2 hi)
    obtain ⟨r', a, hr', _, e'⟩ := hbody i hi
    rw [e'] at e
    obtain rfl := Option.some.inj e
    refine ⟨_, hx, ?_⟩
    rw [List.getElem?_eq_getElem hi, Option.some.injEq] at hr'
    show (if r' ≤ R - 1 then 0 else 1) = 0
    rw [if_pos (by rw [← hr']; exact hle)]
  have hlen0 : points0.length = radii.length := by
    have := mapM_length' e4
    simpa using this
  have hu1 : u32 (2 + 1) = 3 := rfl
  rw [hu1] at hrun
  rw [hxl] at ht hB
  have hs : StablySorted HPoint.cellId points0 points := by
    refine IntSort.run_sorted ht1 (Props.threads_ok (by rw [hlen0]; exact ht) (by rw [hlen0]; omega)) (by rw [hlen0]; exact hB) (Or.inl ?_) hrun
    exact Props.C10_keys_below_max _ _ _ (by omega) (fun x hx => by have := hlt x hx; omega)
  have hp := hs.perm
  have hc00 : c0 = 0 := by
    obtain ⟨x, hx, hx0⟩ := hzero
    have hx := hp.mem_iff.2 hx
    cases points with
    | nil => simp at hx
    | cons y ys =>
      simp only [List.map_cons, List.getElem?_cons_zero, Option.some.injEq] at hc0
      subst hc0
      rcases List.mem_cons.1 hx with rfl | hx
      · exact hx0
      · have := (List.pairwise_cons.1 hs.ordered).1 x hx
        omega
  subst hc00
  have hl2 : layers = 2 := by
    have : prune [1, 0] 0 (2 + 1) 1 = some 2 := by rfl
    rw [this] at hpr; exact (Option.some.inj hpr).symm
  subst hl2
  have hrl2 : rls = [⟨radMin (XR.fin R) 0, radMax (XR.fin R) 0, 0, 1⟩, ⟨radMin (XR.fin R) 1, radMax (XR.fin R) 1, 0, 0⟩] := by
    have : radiusLayers (XR.fin R) [0, 0] [1, 0] 2 =
        some [⟨radMin (XR.fin R) 0, radMax (XR.fin R) 0, 0, 1⟩, ⟨radMin (XR.fin R) 1, radMax (XR.fin R) 1, 0, 0⟩] := by rfl
    rw [this] at hrl; exact (Option.some.inj hrl).symm
  subst hrl2
  obtain rfl := Option.some.inj hr0
  -- the last pair of layers
  have hlp' : ∃ lp1 : List (List (ℕ × ℕ)), lp1.length = 1 ∧ (do
      let k ← RadiusLayer.partitioningBaseLevel (radMin (XR.fin R) 1) (radMin (XR.fin R) 1) (XR.fin R)
      let row ← rd lp1 k
      wr lp1 k (row ++ [(1, 1)])) = some lp := by
    unfold layerPairTable at hlp
    have eL : ((List.range 2).flatMap fun i => (List.range 2).map fun j => (i, j)) = [(0, 0), (0, 1), (1, 0)] ++ [(1, 1)] := rfl
    have e2 : ∀ a b : RadiusLayer XR, [a, b].length = 2 := fun _ _ => rfl
    rw [e2, eL, List.foldlM_append] at hlp
    simp only [Option.bind_eq_bind] at hlp
    rw [Option.bind_eq_some_iff] at hlp
    obtain ⟨lp1, h3, h4⟩ := hlp
    refine ⟨lp1, ?_, ?_⟩
    · have := foldlM_length (fun a l l' h => ?_) h3
      · rw [this]; rfl
      · simp only [Option.bind_eq_some_iff] at h
        obtain ⟨_, _, _, _, k, _, row, _, hw⟩ := h
        unfold wr at hw
        split at hw
        · obtain rfl := Option.some.inj hw
          rw [List.length_set]
        · cases hw
    · rw [List.foldlM_cons] at h4
      simp only [List.foldlM_nil, Option.pure_def, Option.bind_eq_bind] at h4
      rw [Option.bind_eq_some_iff] at h4
      obtain ⟨_, h5, h6⟩ := h4
      obtain rfl := Option.some.inj h6
      exact h5
  obtain ⟨lp1, hl1, h⟩ := hlp'
  simp only [Option.bind_eq_bind, Option.bind_eq_some_iff] at h
  obtain ⟨k, hk, row, hrow, _⟩ := h
  have := l11 k hk
  have hk1 := (List.getElem?_eq_some_iff.1 hrow).1
  omega

end Girgs
