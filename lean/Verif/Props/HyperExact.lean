import Verif.Proofs.HFilterFor
import Verif.Props.HyperEdges
/-
C45, C46, C47: exact decisions of the hyperbolic sampler.
-/
namespace Girgs.Props
open Angle Spec
open Real

variable {ndebug : Bool} {radii angles : List ℝ} {T R : ℝ} {H : HTree XR}

/-! ### C45 -/

/-- C45.  For `T = 0`, whatever the random numbers, the number of threads, the schedule and the build type: every execution of
`hypergirgs::generateEdges` that returns, returns exactly the threshold graph: `u` and `v` are connected iff their hyperbolic distance is less
than `R`, every edge is listed once. -/
theorem C45_threshold_exact (hin : HypInput radii angles 0 R) (env : HEnv) (rng : Tree.Rng XR) (hgeo : GeoBounded rng) (gens : ℕ → rng.G)
    (out : List (ℕ × ℕ)) (h : HGenerateEdges env rng gens (xw radii) (xw angles) (XR.fin 0) (XR.fin R) out) :
    IsGraphOf radii.length (HypRule radii angles R) out := by
  classical
  obtain ⟨H, hH, calls, hc, ho⟩ := h
  have b := hH.builtX hin
  have q1 := EdgeBuffer.IsMerge.perm (ho.isMerge (by unfold blockSize; omega))
  have := b.ok.graph_of_rule b.fo (hstartOK_XR env) hgeo gens (rel := HypRule radii angles R) (fun _ _ h => hypRule_symm h)
    (by convert b.decided hin) (fun t ht h2 p q hh => b.hit_not_rule hin ht h2 hh) hc q1
  rw [b.n_eq, xw, List.length_map] at this
  exact this

/-- C45 at work: of the four example points in the disk of radius 6, the first two are connected, the last two are not -/
theorem exampleHrgRun : ∃ out, HGenerateEdges (exampleHEnv true 1 (by norm_num) (by norm_num)) exampleRng (fun _ => ()) (xw [1, 2, 9 / 2, 5])
    (xw [0, 1, 3 / 2, 4]) (XR.fin 0) (XR.fin 6) out ∧ ((0, 1) ∈ out ∨ (1, 0) ∈ out) ∧ (2, 3) ∉ out ∧ (3, 2) ∉ out := by
  obtain ⟨out, h⟩ := (C44_returns_iff (exampleHyp (T := 0) le_rfl) (exampleHEnv true 1 (by norm_num) (by norm_num)) exampleRng
    exampleRng_unit (fun _ => ())).2 (Or.inl rfl)
  obtain ⟨_, _, h3⟩ := C45_threshold_exact (exampleHyp le_rfl) _ _ exampleRng_geo _ out h
  refine ⟨out, h, (h3 0 1 (by norm_num) (by norm_num) (by norm_num)).2 ⟨1, 2, 0, 1, rfl, rfl, rfl, rfl, ?_⟩, ?_⟩
  · rw [hypDist_lt_iff (by norm_num) (by norm_num) (by norm_num), hc_eq']
    have hc1 : -1 ≤ cos (0 - 1) := neg_one_le_cos _
    have h1 : cosh (1 : ℝ) * cosh 2 - sinh 1 * sinh 2 * cos (0 - 1) ≤ cosh (1 + 2) := by
      rw [cosh_add]
      have : 0 < sinh (1 : ℝ) * sinh 2 := mul_pos (sinh_pos_iff.2 (by norm_num)) (sinh_pos_iff.2 (by norm_num))
      nlinarith
    refine lt_of_le_of_lt h1 (cosh_lt_cosh.2 ?_)
    rw [abs_of_pos (by norm_num), abs_of_pos (by norm_num)]
    norm_num
  · have : ¬ HypRule [1, 2, 9 / 2, 5] [0, 1, 3 / 2, 4] 6 2 3 := by
      rintro ⟨r, s, a, c, h1, h2, h3, h4, h5⟩
      simp only [List.getElem?_cons_zero, List.getElem?_cons_succ, Option.some.injEq] at h1 h2 h3 h4
      subst h1 h2 h3 h4
      rw [hypDist_lt_iff (by norm_num) (by norm_num) (by norm_num), hc_eq'] at h5
      have hcn : cos ((3 : ℝ) / 2 - 4) ≤ 0 := by
        rw [← cos_neg]
        refine cos_nonpos_of_pi_div_two_le_of_le (x := -(3 / 2 - 4 : ℝ)) ?_ ?_
        · have := pi_le_four; linarith
        · have := pi_gt_three; linarith
      have hs : 0 < sinh ((9 : ℝ) / 2) * sinh 5 := mul_pos (sinh_pos_iff.2 (by norm_num)) (sinh_pos_iff.2 (by norm_num))
      have h6 : cosh ((9 : ℝ) / 2) * cosh 5 < cosh 6 := by nlinarith
      have h7 : cosh (6 : ℝ) = cosh 5 * cosh 1 + sinh 5 * sinh 1 := by rw [← cosh_add]; norm_num
      have h8 : sinh (5 : ℝ) < cosh 5 := sinh_lt_cosh 5
      have h9 : sinh (1 : ℝ) < cosh 1 := sinh_lt_cosh 1
      have h10 : 0 < sinh (1 : ℝ) := sinh_pos_iff.2 (by norm_num)
      have h11 : cosh (6 : ℝ) < cosh 5 * (2 * cosh 1) := by
        rw [h7]
        have : sinh (5 : ℝ) * sinh 1 < cosh 5 * cosh 1 := mul_lt_mul'' h8 h9 (sinh_pos_iff.2 (by norm_num)).le h10.le
        linarith
      have h12 : cosh ((9 : ℝ) / 2) < 2 * cosh 1 := by
        have : 0 < cosh (5 : ℝ) := cosh_pos 5
        nlinarith
      have h13 : cosh ((9 : ℝ) / 2) = cosh (7 / 2) * cosh 1 + sinh (7 / 2) * sinh 1 := by rw [← cosh_add]; norm_num
      have h14 : (7 / 2 : ℝ) ≤ sinh (7 / 2) := self_le_sinh_iff.2 (by norm_num)
      have h15 := sinh_lt_cosh (7 / 2 : ℝ)
      have h16 : 0 < cosh (1 : ℝ) := cosh_pos 1
      nlinarith
    rw [← h3 2 3 (by norm_num) (by norm_num) (by norm_num)] at this
    tauto

/-! ### C46 -/

/-- C46 (type I filter).  The decisions made with the look-up table of the type I calls agree, for all points and all random numbers in
[0,1), with the formula `rnd * (1 + exp((d-R)/(2T))) < 1`, if and only if `2 T ln 99 ≤ R`. -/
theorem C46_exact_iff (hin : HypInput radii angles T R) (hT : 0 < T) (hc : HConstructed ndebug (xw radii) (xw angles) (XR.fin T) (XR.fin R) H) :
    (∀ (r a s b x : ℝ) (id id' c c' : ℕ), 0 < r → 0 < s → 0 ≤ x → x < 1 →
      H.decideProb H.filterI (HPoint.make id (XR.fin r) (XR.fin a) c) (HPoint.make id' (XR.fin s) (XR.fin b) c') (XR.fin x) =
        some (decide (x * (1 + Real.exp ((hypDist r a s b - R) / (2 * T))) < 1))) ↔ 2 * T * log 99 ≤ R := by
  have bt := hc.builtX hin
  have hf : H.filterI = DistFilter.make (XR.fin 1) (XR.fin R) (XR.fin T) := by rw [bt.filterI_eq, XR.ofRat_eq, Rat.cast_one]
  have key : ∀ d x : ℝ, (x * (1 + Real.exp ((d - R) / (2 * T))) < 1) ↔ x < hypProb d R T := by
    intro d x
    unfold hypProb
    rw [lt_div_iff₀ (by positivity)]
  have hdc : ∀ (r a s b : ℝ) (id id' c c' : ℕ), 0 < r → 0 < s →
      (HPoint.make id (XR.fin r) (XR.fin a) c).distCosh (HPoint.make id' (XR.fin s) (XR.fin b) c') = XR.fin (cosh (hypDist r a s b)) := by
    intro r a s b id id' c c' hr hs
    rw [distCosh_XR hr hs, cosh_hypDist hr hs, max_eq_right (arcosh_hc hr hs), hc_eq]
  constructor
  · intro h
    by_contra hlt
    push_neg at hlt
    have h1 := h 1 0 1 0 (99 / 100) 0 0 0 0 one_pos one_pos (by norm_num) (by norm_num)
    have hd0 : hypDist 1 0 1 0 = 0 := by
      unfold hypDist hypCosh
      have := cosh_sq (1 : ℝ)
      rw [sub_zero, cos_zero, show cosh (1 : ℝ) * cosh 1 - sinh 1 * sinh 1 * 1 = 1 by nlinarith]
      have := arcosh_cosh (x := 0) le_rfl
      rwa [cosh_zero] at this
    have hR := HypInput.R_pos hin
    rw [hd0] at h1
    have e2 : decide ((99 / 100 : ℝ) * (1 + Real.exp ((0 - R) / (2 * T))) < 1) = false := by
      rw [decide_eq_false_iff_not, not_lt]
      have : (1 / 99 : ℝ) ≤ Real.exp ((0 - R) / (2 * T)) := by
        rw [← log_le_iff_le_exp (by norm_num), one_div, log_inv, le_div_iff₀ (by positivity)]
        linarith
      linarith
    rw [e2] at h1
    have hlook := lookup_XR (p := 1) (R := R) (T := T) (x := 99 / 100) one_pos le_rfl (by norm_num) (by norm_num)
    rw [show (100 / 1 * (99 / 100) : ℝ) = ((99 : ℤ) : ℝ) by norm_num, Int.floor_intCast, Int.ceil_intCast] at hlook
    have e99 : stageX 1 R T (99 : ℤ).toNat = XR.fin (cosh (invProb (99 / 100 * 1) R T)) := by
      rw [show (99 : ℤ).toNat = 99 from rfl]
      unfold stageX
      norm_num
    rw [e99] at hlook
    unfold HTree.decideProb at h1
    rw [hf] at h1
    have hgt : 1 < cosh (invProb (99 / 100 * 1) R T) := by
      rw [one_lt_cosh]
      have := mt (invProb_nonneg_one (R := R) (T := T)).1 (not_le.2 hlt)
      push_neg at this
      exact this.ne
    rw [hdc 1 0 1 0 0 0 0 0 one_pos one_pos, hd0, cosh_zero] at h1
    simp only [hlook.1, hlook.2, Option.bind_eq_bind, Option.bind_some] at h1
    have l1 : (XR.fin (cosh (invProb (99 / 100 * 1) R T)) <. XR.fin 1) = false := by
      have := XR.lt_fin (cosh (invProb (99 / 100 * 1) R T)) 1
      rw [this, decide_eq_false_iff_not]; linarith
    have l2 : (XR.fin 1 <. XR.fin (cosh (invProb (99 / 100 * 1) R T))) = true := by
      have := XR.lt_fin 1 (cosh (invProb (99 / 100 * 1) R T))
      rw [this, decide_eq_true_eq]; exact hgt
    rw [l1, l2] at h1
    simp at h1
  · intro hle r a s b x id id' c c' hr hs hx0 hx1
    rw [decideProb_XR bt.R_eq bt.T_eq hf (hdc r a s b id id' c c' hr hs) hT one_pos le_rfl hx0 hx1 (hypDist_nonneg _ _ _ _ hr hs)
      (invProb_nonneg_one.2 hle)]
    simp only [key]

/-- C46 (type II filters).  For every type II call of the recursion that skips (its bound `f.maxProb` is at most 0.2), the decisions made with
its look-up table agree, for all points and all random numbers below the bound, with the formula `rnd * (1 + exp((d-R)/(2T))) < 1`. -/
theorem C46_type_two (hin : HypInput radii angles T R) (hT : 0 < T) (hc : HConstructed ndebug (xw radii) (xw angles) (XR.fin T) (XR.fin R) H)
    {ts : List Task} (hts : HTree.visitCellPair H H.levels 0 0 0 = some ts) (t : Task) (ht : t ∈ ts) (h2 : t.two = true) :
    ∃ (f : DistFilter XR) (p : ℝ), H.filterFor t = some f ∧ f.maxProb = XR.fin p ∧ (p ≤ 1 / 5 →
      ∀ (r a s b x : ℝ) (id id' c c' : ℕ), 0 < r → 0 < s → 0 ≤ x → x < p →
        H.decideProb f (HPoint.make id (XR.fin r) (XR.fin a) c) (HPoint.make id' (XR.fin s) (XR.fin b) c') (XR.fin x) =
          some (decide (x * (1 + Real.exp ((hypDist r a s b - R) / (2 * T))) < 1))) := by
  have bt := hc.builtX hin
  rw [bt.ok.root_eq, Option.some.injEq] at hts
  subst hts
  have htok := hvisit_ok (H := H) _ _ _ _ onLv_zero onLv_zero t ht
  have hb2 := hvisit_root_between ht h2
  refine ⟨_, _, bt.filterFor_eq hT htok h2 hb2, rfl, ?_⟩
  intro hp r a s b x id id' c c' hr hs hx0 hx1
  have key : ∀ d x : ℝ, (x * (1 + Real.exp ((d - R) / (2 * T))) < 1) ↔ x < hypProb d R T := by
    intro d x
    unfold hypProb
    rw [lt_div_iff₀ (by positivity)]
  have hdc : (HPoint.make id (XR.fin r) (XR.fin a) c).distCosh (HPoint.make id' (XR.fin s) (XR.fin b) c') = XR.fin (cosh (hypDist r a s b)) := by
    rw [distCosh_XR hr hs, cosh_hypDist hr hs, max_eq_right (arcosh_hc hr hs), hc_eq]
  rw [decideProb_XR bt.R_eq bt.T_eq rfl hdc hT (hProb_pos _ _ _) (hProb_lt_one _ _ _).le hx0 hx1 (hypDist_nonneg _ _ _ _ hr hs)
    (invProb_nonneg_small (HypInput.R_pos hin).le hin.temp (hProb_pos _ _ _) hp)]
  simp only [key]

/-- C46 at work: the example satisfies `2 T ln 99 ≤ R` with `T = 1/2`, `R = 6`, and violates it with `T = 1` -/
example : 2 * (1 / 2) * log 99 ≤ 6 ∧ ¬ (2 * 1 * log 99 ≤ 6) := by
  have h1 : log 99 ≤ 6 := by
    rw [log_le_iff_le_exp (by norm_num), show (6 : ℝ) = ((6 : ℕ) : ℝ) * 1 by norm_num, exp_nat_mul]
    calc (99 : ℝ) ≤ 2.7 ^ 6 := by norm_num
      _ ≤ Real.exp 1 ^ 6 := pow_le_pow_left₀ (by norm_num) (by have := exp_one_gt_d9; linarith) 6
  have h2 : 3 < log 99 := by
    rw [lt_log_iff_exp_lt (by norm_num), show (3 : ℝ) = ((3 : ℕ) : ℝ) * 1 by norm_num, exp_nat_mul]
    calc Real.exp 1 ^ 3 ≤ 2.8 ^ 3 := pow_le_pow_left₀ (exp_pos 1).le (by have := exp_one_lt_d9; linarith) 3
      _ < 99 := by norm_num
  constructor <;> linarith

/-! ### C47 -/

/-- C47.  For `T > 0` and every type II call `t` of the recursion: one or two cells lie between its cells; the filter look-up is defined and
yields a bound `p` with `0 < p < 1/2`; and for every pair of points it draws from, with distance `d`, the true connection probability
`1/(1+exp((d-R)/(2T)))` is at most `p`. -/
theorem C47_bound_dominates (hin : HypInput radii angles T R) (hT : 0 < T)
    (hc : HConstructed ndebug (xw radii) (xw angles) (XR.fin T) (XR.fin R) H)
    {ts : List Task} (hts : HTree.visitCellPair H H.levels 0 0 0 = some ts) (t : Task) (ht : t ∈ ts) (h2 : t.two = true) :
    (∃ k, cellsBetween t.cellA t.cellB t.level = some k ∧ (k = 1 ∨ k = 2)) ∧
    ∃ (f : DistFilter XR) (p : ℝ), H.filterFor t = some f ∧ f.maxProb = XR.fin p ∧ 0 < p ∧
      ∀ cs, H.candidates t = some cs → ∀ c ∈ cs, p < 1 / 2 ∧ ∃ x y r a s b, H.points[c.1]? = some x ∧ H.points[c.2]? = some y ∧
        radii[x.id]? = some r ∧ angles[x.id]? = some a ∧ radii[y.id]? = some s ∧ angles[y.id]? = some b ∧
        R < hypDist r a s b ∧ hypProb (hypDist r a s b) R T ≤ p := by
  have bt := hc.builtX hin
  rw [bt.ok.root_eq, Option.some.injEq] at hts
  subst hts
  have htok := hvisit_ok (H := H) _ _ _ _ onLv_zero onLv_zero t ht
  have hb2 := hvisit_root_between ht h2
  have hb1 := betweenN_pos htok.hA htok.hB (htok.two h2)
  have hl30 : t.level ≤ 30 := by
    have := htok.hl; have := bt.ok.pbl_top t.i t.j htok.hi htok.hj; have := bt.ok.levels_le; have := bt.ok.levels_eq; omega
  refine ⟨⟨_, cellsBetween_eq (by omega) htok.hA htok.hB, by omega⟩, _, _, bt.filterFor_eq hT htok h2 hb2, rfl, hProb_pos _ _ _, ?_⟩
  intro cs hcs c hcm
  obtain ⟨ra, rb, hr⟩ := bt.ok.ranges_ok htok
  rw [hr.candidates_eq, Option.some.injEq] at hcs
  subst hcs
  obtain ⟨p, q⟩ := c
  have hh : HHit H (htgt R) ⌈R⌉.toNat t p q := by
    by_contra hn
    have := bt.ok.count_candList htok hr p q
    rw [if_neg hn, List.count_eq_zero] at this
    exact this hcm
  obtain ⟨r, a, s, b, k1, k2, k3, k4, k5, k6, k7, k8⟩ := bt.classDist_le hin htok h2 hh
  obtain ⟨x, y, hx, hy, _⟩ := hh
  rw [HTree.idx_eq hx] at k1 k3
  rw [HTree.idx_eq hy] at k2 k4
  refine ⟨?_, x, y, r, a, s, b, hx, hy, k1, k3, k2, k4, lt_of_lt_of_le k7 k8, hProb_anti hT k8⟩
  unfold hypProb
  have : 1 < Real.exp ((classDist R t - R) / (2 * T)) := by
    rw [one_lt_exp_iff]
    exact div_pos (by linarith) (by positivity)
  rw [div_lt_div_iff₀ (by positivity) (by norm_num)]
  linarith

end Girgs.Props
