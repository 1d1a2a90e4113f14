import Verif.Proofs.HThresholdDec
import Verif.Proofs.HRoundedBelow
import Verif.Proofs.HRoundedFar
import Verif.Props.HRounding
/-
C80: the threshold graph of hypergirgs up to rounding errors.
-/
namespace Girgs.Props
open Spec CFloat HBuild Angle

variable {F : Type} [CFloat F] {u lam eps p : ℝ} {A : Rounded F u lam} {radii angles : List F} {Tf Rf : F} {r a : List ℝ} {R : ℝ}

theorem hypCosh_comm (r a s b : ℝ) : hypCosh r a s b = hypCosh s b r a := by
  rw [← hc_eq, ← hc_eq, hc_symm, ← hc_neg, neg_sub]

theorem surelyClose_symm {κ : ℝ} {i j : ℕ} (h : HypSurelyClose κ r a R i j) : HypSurelyClose κ r a R j i := by
  obtain ⟨x, y, c, d, h1, h2, h3, h4, h5⟩ := h
  exact ⟨y, x, d, c, h2, h1, h4, h3, by rw [hypCosh_comm, mul_comm (Real.cosh y)]; exact h5⟩

theorem surelyFar_symm {κ : ℝ} {i j : ℕ} (h : HypSurelyFar κ r a R i j) : HypSurelyFar κ r a R j i := by
  obtain ⟨x, y, c, d, h1, h2, h3, h4, h5⟩ := h
  exact ⟨y, x, d, c, h2, h1, h4, h3, by rw [hypCosh_comm, mul_comm (Real.cosh y)]; exact h5⟩

theorem threshold_mode (I : RInput A eps p radii angles Tf Rf r a 0 R) {H : HTree F} (hT : H.T = Tf) : H.inThresholdMode = true ∧ H.tZero = true := by
  constructor
  · unfold HTree.inThresholdMode fle
    rw [hT, Bool.or_eq_true]
    left
    have h2 : ((1 / 4503599627370496 : ℚ) : ℝ) = 2 ^ (-52 : ℤ) := by norm_num
    have v := A.ofRat (1 / 4503599627370496) (by
      rw [h2, abs_of_pos (by positivity)]
      exact two_pow_1023 (k := 0) (by norm_num) (by rw [pow_zero]; exact zpow_le_one_of_nonpos₀ (by norm_num) (by norm_num)))
    rw [h2, A.pow2 _ (by norm_num) (by norm_num)] at v
    exact (A.lt _ _ _ _ I.vT v).2 (by positivity)
  · unfold HTree.tZero
    rw [hT]
    exact (I.elem.eq _ _ _ _ I.vT A.val_zero).2 rfl

/-- C80.  `hypergirgs::generateEdges` with temperature 0 in floating point arithmetic with relative rounding errors up to `2^-52` (`2^-50` for the
elementary functions), for supported input, every build, thread count, schedule and source of random numbers: every returned list is a simple graph
in which the nodes that satisfy the distance rule with a margin of `2^-40` are adjacent, and the nodes that violate it with a margin of `2^-46`
are not. -/
theorem C80_rounded_threshold (I : RInput A eps p radii angles Tf Rf r a 0 R) (hs : SymmetricLevels Rf ⌈R⌉.toNat)
    (hmin : ∀ x ∈ r, 1 / 2 ^ 100 ≤ x) (env : HEnv) (rng : Tree.Rng F) (hgeo : GeoBounded rng) (gens : ℕ → rng.G) (out : List (ℕ × ℕ))
    (h : HGenerateEdges env rng gens radii angles Tf Rf out) :
    IsSimpleGraph r.length out ∧
    (∀ i j, i ≠ j → HypSurelyClose (1 / 2 ^ 40) r a R i j → (i, j) ∈ out ∨ (j, i) ∈ out) ∧
    (∀ i j, HypSurelyFar (1 / 2 ^ 46) r a R i j → (i, j) ∉ out ∧ (j, i) ∉ out) := by
  have D := I.disk
  obtain ⟨H, hH, calls, hg, ho⟩ := h
  have b := hH.built (I.inputOK hs)
  have hperm := EdgeBuffer.IsMerge.perm (ho.isMerge (by unfold blockSize; omega))
  obtain ⟨fpl, st⟩ := hstartOK_R A env
  obtain ⟨ht1, ht2⟩ := threshold_mode I b.T_eq
  have hdec := hdecided_below ht1 ht2
  have hd : HDraws H rng := ⟨fun h => (by rw [hdec.thr] at h; cases h), fun h => (by rw [hdec.zero] at h; cases h)⟩
  have hsim := perm_simple (hperm.trans (b.ok.generate_perm hgeo hd b.fo st gens hg)) (b.ok.units_simple hgeo hd b.fo st gens)
  have hn : H.n = r.length := by rw [b.n_eq, I.radii.length_eq]
  rw [hn] at hsim
  obtain ⟨hsound, hcompl⟩ := b.ok.graph_of_dec b.fo st hgeo gens hdec hg hperm
  have hp4 := D.p_pos
  -- the test for two points
  have htest : ∀ q q' x y, H.points[q]? = some x → H.points[q']? = some y →
      (HypSurelyClose (1 / 2 ^ 46) r a R (H.idx q) (H.idx q') → belowDec H q q' = true) ∧
      (HypSurelyFar (1 / 2 ^ 46) r a R (H.idx q) (H.idx q') → belowDec H q q' = false) := by
    intro q q' x y hx hy
    obtain ⟨rf, af, r0, a0, vr, va, hr, ha, e, _⟩ := I.point_data b (List.mem_of_getElem? hx)
    obtain ⟨sf, bf, s0, b0, vs, vb, hs, hb, e', _⟩ := I.point_data b (List.mem_of_getElem? hy)
    have hr0 := I.hyp.radius r0 (List.mem_of_getElem? hr)
    have hs0 := I.hyp.radius s0 (List.mem_of_getElem? hs)
    have ha0 := I.hyp.angle a0 (List.mem_of_getElem? ha)
    have hb0 := I.hyp.angle b0 (List.mem_of_getElem? hb)
    have h34 := D.le34
    have hRp := D.pos
    have h44 : (1 : ℝ) / 2 ^ 44 ≤ 0.5 := by norm_num
    have hv := below_val I.elem I.hu I.he vr vs va vb I.vR (hmin _ (List.mem_of_getElem? hr)) (by linarith) (hmin _ (List.mem_of_getElem? hs))
      (by linarith) (by rw [abs_of_nonneg ha0.1]; linarith) (by rw [abs_of_nonneg hb0.1]; linarith) (by rw [abs_of_pos hRp]; exact h34)
      x.id y.id x.cellId y.cellId
    rw [← e, ← e', ← b.coshR_eq] at hv
    have hbd : belowDec H q q' = x.isDistanceBelowR y H.coshR := by unfold belowDec; rw [hx, hy]
    rw [hbd, HTree.idx_eq hx, HTree.idx_eq hy]
    constructor
    · rintro ⟨r', s', a', b', e1, e2, e3, e4, h5⟩
      rw [hr, Option.some.injEq] at e1; rw [hs, Option.some.injEq] at e2
      rw [ha, Option.some.injEq] at e3; rw [hb, Option.some.injEq] at e4
      subst e1 e2 e3 e4
      exact hv.1 h5
    · rintro ⟨r', s', a', b', e1, e2, e3, e4, h5⟩
      rw [hr, Option.some.injEq] at e1; rw [hs, Option.some.injEq] at e2
      rw [ha, Option.some.injEq] at e3; rw [hb, Option.some.injEq] at e4
      subst e1 e2 e3 e4
      exact hv.2 h5
  -- type II calls
  have htwo : ∀ t, HTaskOK H (rpair Rf ⌈R⌉.toNat) t → t.two = true → ∀ q q', HHit H (rtgt Rf) ⌈R⌉.toNat t q q' →
      ¬ HypSurelyClose (1 / 2 ^ 40) r a R (H.idx q) (H.idx q') := by
    rintro t ht h2 q q' ⟨x, y, hx, hy, hX, hY, _⟩ ⟨r', s', a', b', e1, e2, e3, e4, h5⟩
    obtain ⟨rf, af, r0, a0, vr, va, hr, ha, _, hx1⟩ := I.point_data b (List.mem_of_getElem? hx)
    obtain ⟨sf, bf, s0, b0, vs, vb, hs, hb, _, hy1⟩ := I.point_data b (List.mem_of_getElem? hy)
    rw [HTree.idx_eq hx] at e1 e3
    rw [HTree.idx_eq hy] at e2 e4
    rw [hr, Option.some.injEq] at e1; rw [hs, Option.some.injEq] at e2
    rw [ha, Option.some.injEq] at e3; rw [hb, Option.some.injEq] at e4
    subst e1 e2 e3 e4
    obtain ⟨p1, p2, a', p3, p4⟩ := hx1 _ _ _ hX
    obtain ⟨q1, q2, b', q3, q4⟩ := hy1 _ _ _ hY
    have hi := lt_of_lt_of_le ht.hi b.layers_le
    have hj := lt_of_lt_of_le ht.hj b.layers_le
    have hl : t.level ≤ rpbl Rf t.i t.j := by
      have := ht.hl
      unfold rpair at this
      rwa [if_pos ⟨hi, hj⟩] at this
    have := D.far hi hj ht.hA ht.hB (ht.two h2) hl p1 q1 (I.hyp.radius r0 (List.mem_of_getElem? hr)).2
      (I.hyp.radius s0 (List.mem_of_getElem? hs)).2 p2 q2 p3 q3 p4 q4
    linarith
  have hlen : ∀ {i : ℕ} {x : ℝ}, r[i]? = some x → i < H.n := by
    intro i x hx
    rw [hn]
    by_contra hc
    rw [List.getElem?_eq_none (by omega)] at hx
    cases hx
  have weaken : ∀ i j, HypSurelyClose (1 / 2 ^ 40) r a R i j → HypSurelyClose (1 / 2 ^ 46) r a R i j := by
    rintro i j ⟨x, y, c, d, h1, h2, h3, h4, h5⟩
    refine ⟨x, y, c, d, h1, h2, h3, h4, lt_of_le_of_lt ?_ h5⟩
    have : (0 : ℝ) ≤ Real.cosh x * Real.cosh y + Real.cosh R := by
      have := Real.cosh_pos x; have := Real.cosh_pos y; have := Real.cosh_pos R; positivity
    have := mul_le_mul_of_nonneg_right (show (1 : ℝ) / 2 ^ 46 ≤ 1 / 2 ^ 40 by norm_num) this
    linarith
  refine ⟨hsim, ?_, ?_⟩
  · intro i j hij hcl
    obtain ⟨x, y, _, _, h1, h2, _⟩ := id hcl
    obtain ⟨q, hq, rfl⟩ := b.ok.idx_surj (hlen h1)
    obtain ⟨q', hq', rfl⟩ := b.ok.idx_surj (hlen h2)
    have hp := hq; have hp' := hq'
    rw [← b.ok.length_points] at hp hp'
    have hx := List.getElem?_eq_getElem hp
    have hy := List.getElem?_eq_getElem hp'
    refine hcompl q q' hq hq' (fun h => hij (by rw [h])) ((htest _ _ _ _ hx hy).1 (weaken _ _ hcl))
      ((htest _ _ _ _ hy hx).1 (weaken _ _ (surelyClose_symm hcl))) ?_
    intro t ht h2
    exact ⟨fun hh => htwo t ht h2 _ _ hh hcl, fun hh => htwo t ht h2 _ _ hh (surelyClose_symm hcl)⟩
  · intro i j hf
    obtain ⟨x, y, _, _, h1, h2, _⟩ := id hf
    obtain ⟨q, hq, rfl⟩ := b.ok.idx_surj (hlen h1)
    obtain ⟨q', hq', rfl⟩ := b.ok.idx_surj (hlen h2)
    have hp := hq; have hp' := hq'
    rw [← b.ok.length_points] at hp hp'
    have hx := List.getElem?_eq_getElem hp
    have hy := List.getElem?_eq_getElem hp'
    constructor
    · intro hm
      have := hsound q q' hq hq' hm
      rw [(htest _ _ _ _ hx hy).2 hf] at this
      cases this
    · intro hm
      have := hsound q' q hq' hq hm
      rw [(htest _ _ _ _ hy hx).2 (surelyFar_symm hf)] at this
      cases this

/-- C80 (no close calls).  If no pair of nodes is within the margins, the result is exactly the threshold graph: rounding has no effect. -/
theorem C80_rounded_exact (I : RInput A eps p radii angles Tf Rf r a 0 R) (hs : SymmetricLevels Rf ⌈R⌉.toNat)
    (hmin : ∀ x ∈ r, 1 / 2 ^ 100 ≤ x)
    (hclear : ∀ i j, i < r.length → j < r.length → i ≠ j → HypSurelyClose (1 / 2 ^ 40) r a R i j ∨ HypSurelyFar (1 / 2 ^ 46) r a R i j)
    (env : HEnv) (rng : Tree.Rng F) (hgeo : GeoBounded rng) (gens : ℕ → rng.G) (out : List (ℕ × ℕ))
    (h : HGenerateEdges env rng gens radii angles Tf Rf out) : IsGraphOf r.length (HypRule r a R) out := by
  obtain ⟨h1, h2, h3⟩ := C80_rounded_threshold I hs hmin env rng hgeo gens out h
  have pos : ∀ {i : ℕ} {x : ℝ}, r[i]? = some x → 0 < x := fun hx =>
    lt_of_lt_of_le (by positivity) (hmin _ (List.mem_of_getElem? hx))
  have hm : ∀ x y : ℝ, (0 : ℝ) < Real.cosh x * Real.cosh y + Real.cosh R := by
    intro x y
    have := Real.cosh_pos x; have := Real.cosh_pos y; have := Real.cosh_pos R; positivity
  refine ⟨h1.1, h1.2, ?_⟩
  intro i j hi hj hij
  rcases hclear i j hi hj hij with hc | hf
  · refine ⟨fun _ => ?_, fun _ => h2 i j hij hc⟩
    obtain ⟨x, y, c, d, e1, e2, e3, e4, h5⟩ := hc
    refine ⟨x, y, c, d, e1, e2, e3, e4, ?_⟩
    rw [hypDist_lt_iff (pos e1) (pos e2) I.hyp.disk_pos, hc_eq]
    have := mul_pos (show (0 : ℝ) < 1 / 2 ^ 40 by positivity) (hm x y)
    linarith
  · refine ⟨fun ho => ?_, fun hr => ?_⟩
    · have := h3 i j hf
      exact absurd ho (by tauto)
    · exfalso
      obtain ⟨x, y, c, d, e1, e2, e3, e4, h5⟩ := hf
      obtain ⟨x', y', c', d', f1, f2, f3, f4, h6⟩ := hr
      rw [e1, Option.some.injEq] at f1; rw [e2, Option.some.injEq] at f2
      rw [e3, Option.some.injEq] at f3; rw [e4, Option.some.injEq] at f4
      subst f1 f2 f3 f4
      rw [hypDist_lt_iff (pos e1) (pos e2) I.hyp.disk_pos, hc_eq] at h6
      have := mul_pos (show (0 : ℝ) < 1 / 2 ^ 46 by positivity) (hm x y)
      linarith

/-- C80 for type double: radii `r`, angles `a` and disk radius `R` of type double, where no comparison level is a close call. -/
theorem C80_double {r a : List ℝ} {R : ℝ} (h : RoundableHyp (2 ^ (-53 : ℤ)) (B64.rnd Real.pi) r a 0 R) (hcl : ClearLevels R ⌈R⌉.toNat)
    (hr : ∀ v ∈ r, B64.IsDouble v) (ha : ∀ v ∈ a, B64.IsDouble v) (hR : B64.IsDouble R) (env : HEnv) (rng : Tree.Rng B64)
    (hgeo : GeoBounded rng) (gens : ℕ → rng.G) (out : List (ℕ × ℕ))
    (hout : HGenerateEdges env rng gens (dw r) (dw a) (B64.round (XR.fin 0)) (B64.round (XR.fin R)) out) :
    IsSimpleGraph r.length out ∧
    (∀ i j, i ≠ j → HypSurelyClose (1 / 2 ^ 40) r a R i j → (i, j) ∈ out ∨ (j, i) ∈ out) ∧
    (∀ i j, HypSurelyFar (1 / 2 ^ 46) r a R i j → (i, j) ∉ out ∧ (j, i) ∉ out) := by
  have I := rinput_double h hr ha (isDouble_quarter 0 0 (by norm_num) (by norm_num)) hR
  refine C80_rounded_threshold I (C79_levels I hcl).1 ?_ env rng hgeo gens out hout
  intro x hx
  have h1 := (h.radius x hx).1
  have h2 := I.disk.ge
  refine le_trans ?_ h1.le
  have := mul_le_mul_of_nonneg_left h2 (show (0 : ℝ) ≤ 2 ^ (-53 : ℤ) by positivity)
  refine le_trans ?_ this
  norm_num

/-! ### an example -/

/-- three points in a disk of radius 5/2, temperature 0 -/
theorem exampleHypZ : RoundableHyp (2 ^ (-53 : ℤ)) (B64.rnd Real.pi) [1, 2, 5 / 2] [0, 1, 7 / 2] 0 (5 / 2) :=
  { exampleHypD with temp := Or.inl rfl }

theorem exampleHypClose : HypSurelyClose (1 / 2 ^ 40) [1, 2, 5 / 2] [0, 1, 7 / 2] (5 / 2) 0 1 := by
  refine ⟨1, 2, 0, 1, rfl, rfl, rfl, rfl, ?_⟩
  have c3 := cosh_three
  have c25 := cosh_five_half
  have c1 : Real.cosh 1 ≤ Real.cosh 3 := Real.cosh_le_cosh.2 (by rw [abs_of_pos, abs_of_pos] <;> norm_num)
  have c1' : Real.cosh 1 ≤ 1.6 := by
    have h1 := Real.exp_one_lt_d9
    have h2 := Real.exp_one_gt_d9
    have h3 : Real.exp (-1) ≤ 0.4 := by
      rw [Real.exp_neg, inv_le_comm₀ (Real.exp_pos _) (by norm_num)]
      norm_num at h2 ⊢
      linarith
    rw [Real.cosh_eq]; norm_num at h1 h3 ⊢; linarith
  have hcos : 1 / 2 ≤ Real.cos (0 - 1) := by
    rw [zero_sub, Real.cos_neg]
    have := Real.one_sub_sq_div_two_le_cos (x := 1)
    norm_num at this ⊢
    linarith
  have e3 : Real.cosh 3 = Real.cosh 1 * Real.cosh 2 + Real.sinh 1 * Real.sinh 2 := by rw [← Real.cosh_add]; norm_num
  have e1 : Real.cosh 1 = Real.cosh 2 * Real.cosh 1 - Real.sinh 2 * Real.sinh 1 := by rw [← Real.cosh_sub]; norm_num
  have hs : 0 < Real.sinh 1 * Real.sinh 2 := mul_pos (Real.sinh_pos_iff.2 (by norm_num)) (Real.sinh_pos_iff.2 (by norm_num))
  have h4 := mul_le_mul_of_nonneg_left hcos hs.le
  unfold hypCosh
  generalize Real.cosh (5 / 2) = c at *
  generalize Real.cos (0 - 1) = w at *
  have e1' : Real.cosh 1 = Real.cosh 1 * Real.cosh 2 - Real.sinh 1 * Real.sinh 2 := by linarith
  generalize Real.cosh 1 * Real.cosh 2 = X at *
  generalize Real.sinh 1 * Real.sinh 2 = Y at *
  generalize Y * w = V at *
  norm_num at c3 c25 c1' ⊢
  linarith

theorem exampleHypFar : HypSurelyFar (1 / 2 ^ 46) [1, 2, 5 / 2] [0, 1, 7 / 2] (5 / 2) 1 2 := by
  refine ⟨2, 5 / 2, 1, 7 / 2, rfl, rfl, rfl, rfl, ?_⟩
  have c25 := Real.one_le_cosh (5 / 2)
  have c2 := cosh_quad 2
  have hcos : Real.cos (1 - 7 / 2) ≤ 0 := by
    rw [← Real.cos_neg]
    refine Real.cos_nonpos_of_pi_div_two_le_of_le (x := -(1 - 7 / 2 : ℝ)) ?_ ?_
    · have := Real.pi_le_four; linarith
    · have := Real.pi_gt_three; linarith
  have hs : 0 < Real.sinh 2 * Real.sinh (5 / 2) := mul_pos (Real.sinh_pos_iff.2 (by norm_num)) (Real.sinh_pos_iff.2 (by norm_num))
  have h4 := mul_nonpos_of_nonneg_of_nonpos hs.le hcos
  have h5 : 3 * Real.cosh (5 / 2) ≤ Real.cosh 2 * Real.cosh (5 / 2) := mul_le_mul_of_nonneg_right (by norm_num at c2; linarith) (by linarith)
  unfold hypCosh
  generalize Real.sinh 2 * Real.sinh (5 / 2) * Real.cos (1 - 7 / 2) = z at *
  generalize Real.cosh 2 * Real.cosh (5 / 2) = X at *
  norm_num
  linarith

/-- C80 at work: with one thread and type double the call returns; the first two points are adjacent, the last two are not -/
example : ∃ out, HGenerateEdges (exampleHEnv true 1 (by norm_num) (by norm_num)) exampleRngH (fun _ => ()) (dw [1, 2, 5 / 2])
    (dw [0, 1, 7 / 2]) (B64.round (XR.fin 0)) (B64.round (XR.fin (5 / 2))) out ∧ ((0, 1) ∈ out ∨ (1, 0) ∈ out) ∧ (1, 2) ∉ out ∧ (2, 1) ∉ out := by
  have hr : ∀ v ∈ ([1, 2, 5 / 2] : List ℝ), B64.IsDouble v := by
    intro v hv
    simp only [List.mem_cons, List.not_mem_nil, or_false] at hv
    rcases hv with rfl | rfl | rfl
    · exact isDouble_quarter _ 4 (by norm_num) (by norm_num)
    · exact isDouble_quarter _ 8 (by norm_num) (by norm_num)
    · exact isDouble_quarter _ 10 (by norm_num) (by norm_num)
  have ha : ∀ v ∈ ([0, 1, 7 / 2] : List ℝ), B64.IsDouble v := by
    intro v hv
    simp only [List.mem_cons, List.not_mem_nil, or_false] at hv
    rcases hv with rfl | rfl | rfl
    · exact isDouble_quarter _ 0 (by norm_num) (by norm_num)
    · exact isDouble_quarter _ 4 (by norm_num) (by norm_num)
    · exact isDouble_quarter _ 14 (by norm_num) (by norm_num)
  have hR := isDouble_quarter (5 / 2) 10 (by norm_num) (by norm_num)
  obtain ⟨h1, _, _⟩ := C79_double exampleHypZ exampleClear hr ha (isDouble_quarter 0 0 (by norm_num) (by norm_num)) hR
    (exampleHEnv true 1 (by norm_num) (by norm_num)) exampleRngH exampleRngH_rounded (fun _ => ())
  obtain ⟨out, h⟩ := h1.2 (Or.inl rfl)
  obtain ⟨_, h2, h3⟩ := C80_double exampleHypZ exampleClear hr ha hR _ _ exampleRngH_rounded.geo _ out h
  exact ⟨out, h, h2 0 1 (by norm_num) exampleHypClose, h3 1 2 exampleHypFar⟩

end Girgs.Props
