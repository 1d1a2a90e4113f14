import Verif.Proofs.RoundedAccept
import Verif.Props.Rounding
/-
C107: the threshold graph is contained in every graph with finite `alpha`, in floating point arithmetic.
-/
namespace Girgs.Props
open Spec Build Tree CFloat

/-- C107.  Floating point arithmetic with rounding errors, `alpha` positive or infinite, random numbers below 1: whatever the random numbers,
the build, the number of threads and the schedule are, every execution of `girgs::generateEdges` returns a simple graph that contains every
pair of nodes which satisfies the rule `dist^D < w_u*w_v/W` with the margin of `SurelyClose`. -/
theorem C107_contains {F : Type} [CFloat F] {u lam : ℝ} (A : Rounded F u lam) (hu : u ≤ 1 / 2 ^ 34) (hlam : lam ≤ 1 / 4)
    (above : RoundedAbove A) {D : Nat} {weights : List F} {positions : List (Fin D → F)} {w : List ℝ} {x : List (Fin D → ℝ)}
    (s : RoundableInput D w x) (hh : A.Holds weights positions w x) (alpha : F)
    (halpha : CFloat.eq alpha CFloat.inf = true ∨ ∃ a, A.val alpha = some a ∧ 0 < a) (env : Env) (rng : Rng F) (hgeo : GeoBounded rng)
    (hrng : A.UnitRng rng) (gens : Nat → rng.G) (out : List (Nat × Nat)) (notice : Notice)
    (hg : GenerateEdges env rng gens weights (positions.map List.ofFn) alpha out notice) :
    IsSimpleGraph w.length out ∧
    ∀ i j, i ≠ j → SurelyClose u lam w x i j → (i, j) ∈ out ∨ (j, i) ∈ out := by
  have hsimple := (C66_rounded_simple_graph A hu hlam s hh alpha env rng hgeo gens).2.2 out notice hg
  obtain ⟨h, m, S, hx⟩ := headerR_exists A hu hlam s hh
  have ok := hx.inputOK s hh
  have hpts := asPoints_ofFn positions
  obtain ⟨T, hT, calls, h1, h2⟩ : TreeRun env rng gens weights positions alpha out := by
    cases positions with
    | nil => have := ok.len; have := ok.pos; simp at *; omega
    | cons p ps =>
      rw [List.map_cons] at hg hpts
      obtain ⟨⟨y, e, hr⟩, _⟩ := (generateEdges_dispatch s.D1 s.D5 env rng gens weights (by simp) alpha out notice).1 hg
      rw [hpts, Option.some.injEq] at e
      subst e
      exact hr
  have b := hT.builtR s hh hx
  obtain ⟨calls', h4, _, h5⟩ := b.ok.callbacks env (startOK_R A s.D1 s.D5 env) rng hgeo gens
  rw [h1, Option.some.injEq] at h4
  subst h4
  have hperm := EdgeBuffer.IsMerge.perm (h2.isMerge (by unfold blockSize; omega))
  refine ⟨hsimple.1, ?_⟩
  have hacc : AcceptsI T rng fun p q => SurelyClose u lam w x (T.idx p) (T.idx q) := by
    intro p q y z hp hq hc g
    rw [Tree.idx_eq hp, Tree.idx_eq hq] at hc
    exact b.accepts s hu above halpha hrng (List.mem_of_getElem? hp) (List.mem_of_getElem? hq) hc g
  intro i j hij hclose
  have pos : ∀ i, i < w.length → ∃ p, p < T.n ∧ T.idx p = i := by
    intro v hv
    have : v ∈ T.nodes.map Node.index := b.ok.index_perm.mem_iff.2 (List.mem_range.2 (by rw [b.n_eq]; exact hv))
    obtain ⟨y, hy, rfl⟩ := List.mem_map.1 this
    obtain ⟨p, hp⟩ := List.mem_iff_getElem?.1 hy
    refine ⟨p, ?_, Tree.idx_eq hp⟩
    rw [← b.ok.length_nodes]
    exact (List.getElem?_eq_some_iff.1 hp).1
  have hlt : i < w.length ∧ j < w.length := by
    obtain ⟨_, _, _, _, g1, g2, _⟩ := hclose
    exact ⟨(List.getElem?_eq_some_iff.1 g1).1, (List.getElem?_eq_some_iff.1 g2).1⟩
  obtain ⟨p, hp, rfl⟩ := pos i hlt.1
  obtain ⟨q, hq, rfl⟩ := pos j hlt.2
  have hpq : p ≠ q := fun h => hij (by rw [h])
  rw [hperm.mem_iff, hperm.mem_iff]
  rcases h5.accepts b.ok hacc p q hp hq hpq with ⟨t, ht, htwo, hhit | hhit⟩ | hdone
  · exact absurd hclose (b.hit s hu ht htwo hhit)
  · exact absurd (SurelyClose.symm hclose) (b.hit s hu ht htwo hhit)
  · exact hdone hclose (SurelyClose.symm hclose)

/-- C107 for type `double` (IEEE binary64, round to nearest, correctly rounded `pow`): for weights and positions that are doubles, every pair
with `(dist + 2^-52)^D < (1 - e)*w_u*w_v/W`, where `e = (n + D + 4)*2^-53 + 3*2^-43`, is an edge, for every positive (or infinite) `alpha`. -/
theorem C107_double {D : Nat} {w : List ℝ} {x : List (Fin D → ℝ)} (s : RoundableInput D w x) (hw : ∀ v ∈ w, B64.IsDouble v)
    (hx : ∀ p ∈ x, ∀ d, B64.IsDouble (p d)) (alpha : B64) (halpha : alpha.ext = XR.pinf ∨ ∃ a : ℝ, alpha.ext = XR.fin a ∧ 0 < a) (env : Env)
    (rng : Rng B64) (hgeo : GeoBounded rng) (hrng : ∀ g, ∃ r : ℝ, (rng.uniform g).1.ext = XR.fin r ∧ r < 1)
    (gens : Nat → rng.G) (out : List (Nat × Nat)) (notice : Notice)
    (hg : GenerateEdges env rng gens (dw w) ((dp x).map List.ofFn) alpha out notice) :
    IsSimpleGraph w.length out ∧
    ∀ i j a b p q, i ≠ j → w[i]? = some a → w[j]? = some b → x[i]? = some p → x[j]? = some q → ∀ e : ℝ,
      e = (w.length + D + 4) / 2 ^ 53 + 3 / 2 ^ 43 →
      (torusDist p q + 1 / 2 ^ 52) ^ D < (1 - e) * (a * b / w.sum) → (i, j) ∈ out ∨ (j, i) ∈ out := by
  have hu : (2 : ℝ) ^ (-53 : ℤ) ≤ 1 / 2 ^ 34 := by norm_num
  have hl : (2 : ℝ) ^ (-43 : ℤ) ≤ 1 / 4 := by norm_num
  obtain ⟨h1, h2⟩ := C107_contains B64.rounded hu hl B64.above s (dw_holds hw hx) alpha (by
      rcases halpha with h | ⟨a, h, ha⟩
      · exact Or.inl (B64.eq_inf_iff.2 h)
      · exact Or.inr ⟨a, B64.val_iff.2 h, ha⟩) env rng hgeo (fun g => by
      obtain ⟨r, h, hr⟩ := hrng g
      exact ⟨r, B64.val_iff.2 h, hr⟩) gens out notice hg
  refine ⟨h1, ?_⟩
  rintro i j a b p q hij ha hb hp hq e rfl hc
  have hm := margin_bound (u := (2 : ℝ) ^ (-53 : ℤ)) (lam := (2 : ℝ) ^ (-43 : ℤ)) (by norm_num) (by positivity) (by positivity) w.length D
  have e1 : 1 - (((w.length : ℝ) + D + 4) / 2 ^ 53 + 3 / 2 ^ 43) = 1 - (w.length + D + 4) * (2 : ℝ) ^ (-53 : ℤ) - 3 * (2 : ℝ) ^ (-43 : ℤ) := by
    rw [zpow_neg, zpow_neg]
    norm_num
    ring
  rw [e1] at hc
  have e2 : (2 : ℝ) * 2 ^ (-53 : ℤ) = 1 / 2 ^ 52 := by norm_num
  have hap := s.wpos a (List.mem_of_getElem? ha)
  have hbp := s.wpos b (List.mem_of_getElem? hb)
  have hW0 : 0 < w.sum := lt_of_lt_of_le hap (sum_ge_mem s.wpos (List.mem_of_getElem? ha))
  refine h2 i j hij ⟨a, b, p, q, ha, hb, hp, hq, ?_⟩
  rw [e2]
  exact lt_of_lt_of_le hc (mul_le_mul_of_nonneg_right hm (by positivity))

/-- C107 without rounding errors: the graph contains every pair with `dist^D < w_u*w_v/W`. -/
theorem C107_exact {D : Nat} {w : List ℝ} {x : List (Fin D → ℝ)} (s : RoundableInput D w x) {a : ℝ} (ha : 0 < a) (env : Env)
    (rng : Rng XR) (hgeo : GeoBounded rng) (hrng : ∀ g, ∃ r : ℝ, (rng.uniform g).1 = XR.fin r ∧ r < 1)
    (gens : Nat → rng.G) (out : List (Nat × Nat)) (notice : Notice)
    (hg : GenerateEdges env rng gens (xw w) ((xp x).map List.ofFn) (XR.fin a) out notice) :
    IsSimpleGraph w.length out ∧ ∀ i j, i ≠ j → ThresholdRule w x i j → (i, j) ∈ out ∨ (j, i) ∈ out := by
  have hh : XR.rounded.Holds (xw w) (xp x) w x := by
    constructor
    · unfold xw
      rw [List.forall₂_map_left_iff, List.forall₂_same]
      exact fun v _ => rfl
    · unfold xp
      rw [List.forall₂_map_left_iff, List.forall₂_same]
      exact fun p _ d => rfl
  obtain ⟨h1, h2⟩ := C107_contains XR.rounded (by norm_num) (by norm_num) XR.above s hh (XR.fin a) (Or.inr ⟨a, rfl, ha⟩) env rng hgeo
    (fun g => by obtain ⟨r, h, hr⟩ := hrng g; exact ⟨r, by rw [h]; rfl, hr⟩) gens out notice hg
  refine ⟨h1, fun i j hij ht => ?_⟩
  have ht' := ht
  obtain ⟨a, b, p, q, g1, g2, g3, g4, _⟩ := ht'
  exact h2 i j hij ((surely_exact g1 g2 g3 g4).1.2 ht)

/-- C107 at work: of the nodes with weights 1, 1, 5 at (0,0), (1/2,1/4), (7/8,3/8) the first and the third are connected for every
positive finite `alpha`, whatever the random numbers are (distance 3/8, 9/64 < 5/7). -/
example (alpha : B64) {a : ℝ} (ha : alpha.ext = XR.fin a) (ha0 : 0 < a) : ∃ out notice,
    GenerateEdges (exampleEnv true) exampleRngD (fun _ => ()) (dw [1, 1, 5])
    ((dp [![0, 0], ![1 / 2, 1 / 4], ![7 / 8, 3 / 8]]).map List.ofFn) alpha out notice ∧ ((0, 2) ∈ out ∨ (2, 0) ∈ out) := by
  have big : ∀ x : ℝ, |x| ≤ 8 → |x| < 2 ^ 1024 := fun x hx =>
    lt_of_le_of_lt hx (lt_of_lt_of_le (show (8 : ℝ) < 2 ^ 4 by norm_num) (pow_le_pow_right₀ (by norm_num) (by norm_num)))
  have dbl : ∀ (x : ℝ) (z : ℤ), |z| ≤ 16 → x * 8 = z → |x| ≤ 8 → B64.IsDouble x := by
    intro x z hz he hx
    have e : x = z * 2 ^ (-3 : ℤ) := by rw [← he]; norm_num; ring
    have := B64.rnd_rep (N := z) (k := -3) (le_trans hz (by norm_num)) (by norm_num)
    rw [← e] at this
    exact ⟨this, big x hx⟩
  have hwD : ∀ v ∈ ([1, 1, 5] : List ℝ), B64.IsDouble v := by
    intro v hv
    have h1 : B64.IsDouble 1 := ⟨by simpa using B64.rnd_int (z := 1) (by norm_num), big 1 (by norm_num)⟩
    have h5 : B64.IsDouble 5 := ⟨by simpa using B64.rnd_int (z := 5) (by norm_num), big 5 (by norm_num)⟩
    simp only [List.mem_cons, List.not_mem_nil, or_false] at hv
    rcases hv with rfl | rfl | rfl
    · exact h1
    · exact h1
    · exact h5
  have hxD : ∀ p ∈ ([![0, 0], ![1 / 2, 1 / 4], ![7 / 8, 3 / 8]] : List (Fin 2 → ℝ)), ∀ d, B64.IsDouble (p d) := by
    intro p hp d
    simp only [List.mem_cons, List.not_mem_nil, or_false] at hp
    rcases hp with rfl | rfl | rfl <;> fin_cases d
    · exact dbl _ 0 (by norm_num) (by norm_num) (by norm_num)
    · exact dbl _ 0 (by norm_num) (by norm_num) (by norm_num)
    · exact dbl _ 4 (by norm_num) (by norm_num) (by norm_num [abs_of_pos])
    · exact dbl _ 2 (by norm_num) (by norm_num) (by norm_num [abs_of_pos])
    · exact dbl _ 7 (by norm_num) (by norm_num) (by norm_num [abs_of_pos])
    · exact dbl _ 3 (by norm_num) (by norm_num) (by norm_num [abs_of_pos])
  have hgeo : GeoBounded exampleRngD := fun _ _ => by show 0 < _; norm_num
  have hhalf : (B64.round (XR.fin (1 / 2))).ext = XR.fin (1 / 2) := by
    have : B64.IsDouble (1 / 2) := dbl _ 4 (by norm_num) (by norm_num) (by norm_num [abs_of_pos])
    exact B64.val_iff.1 (B64.round_double this)
  obtain ⟨⟨out, notice, h⟩, _⟩ := C66_rounded_simple_graph B64.rounded (by norm_num) (by norm_num) exampleInputD (dw_holds hwD hxD)
    alpha (exampleEnv true) exampleRngD hgeo (fun _ => ())
  obtain ⟨_, h3⟩ := C107_double exampleInputD hwD hxD alpha (Or.inr ⟨a, ha, ha0⟩) _ _ hgeo
    (fun _ => ⟨1 / 2, hhalf, by norm_num⟩) _ out notice h
  have d02 : torusDist ![(0 : ℝ), 0] ![7 / 8, 3 / 8] = 3 / 8 := by
    norm_num [torusDist, circleDist, List.finRange_succ, List.finRange_zero]
  refine ⟨out, notice, h, h3 0 2 1 5 _ _ (by norm_num) rfl rfl rfl rfl _ rfl ?_⟩
  rw [d02]; norm_num

end Girgs.Props
