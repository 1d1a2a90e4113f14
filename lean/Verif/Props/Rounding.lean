import Verif.Proofs.RoundedThreshold
import Verif.Proofs.B64Rounded
import Verif.Props.Exact
/-
C66, C67: `girgs::generateEdges` in floating point arithmetic with rounding.
-/
namespace Girgs.Props
open Spec Build Tree CFloat

/-! ### C66 -/

/-- C66.  Floating point arithmetic with rounding errors (relative error at most `u ≤ 2^-34`, `std::log2` with an error of at most
`lam ≤ 1/4`): for input whose values satisfy `RoundableInput`, every `alpha`, random number source, thread count and build,
`girgs::generateEdges` has an execution that returns, nothing it executes is undefined, and every execution returns a simple graph on
the nodes `0..n-1` and prints nothing. -/
theorem C66_rounded_simple_graph {F : Type} [CFloat F] {u lam : ℝ} (A : Rounded F u lam) (hu : u ≤ 1 / 2 ^ 34) (hlam : lam ≤ 1 / 4)
    {D : Nat} {weights : List F} {positions : List (Fin D → F)} {w : List ℝ} {x : List (Fin D → ℝ)} (s : RoundableInput D w x)
    (hh : A.Holds weights positions w x) (alpha : F) (env : Env) (rng : Rng F) (hgeo : GeoBounded rng) (gens : Nat → rng.G) :
    (∃ out notice, GenerateEdges env rng gens weights (positions.map List.ofFn) alpha out notice) ∧
    (∀ T, Constructed env.ndebug weights positions alpha T → ∃ calls, treeCallbacks env T rng gens = some calls) ∧
    ∀ out notice, GenerateEdges env rng gens weights (positions.map List.ofFn) alpha out notice →
      IsSimpleGraph w.length out ∧ notice = .none := by
  obtain ⟨h, m, S, hx⟩ := headerR_exists A hu hlam s hh
  have ok := hx.inputOK s hh
  have hst := startOK_R A s.D1 s.D5 env
  have hpts := asPoints_ofFn positions
  have hl1 := hh.weights.length_eq
  refine ⟨?_, ?_, ?_⟩
  · obtain ⟨T, hT⟩ := constructed_exists env.ndebug alpha hx.eq ok env.threads env.threads_pos (by have := env.threads_le; omega)
    obtain ⟨calls, h1, _, _⟩ := (hT.builtFrom hx.eq ok).ok.callbacks env hst rng hgeo gens
    obtain ⟨out, h2⟩ := EdgeBuffer.run_exists (block := blockSize) (by unfold blockSize; omega) calls
    cases positions with
    | nil => have := ok.len; have := ok.pos; simp at *; omega
    | cons p ps =>
      rw [List.map_cons] at hpts ⊢
      exact ⟨out, .none, (generateEdges_dispatch s.D1 s.D5 env rng gens weights (by simp) alpha out .none).2
        ⟨⟨_, hpts, T, hT, calls, h1, h2⟩, rfl⟩⟩
  · intro T hT
    obtain ⟨calls, h1, _, _⟩ := (hT.builtFrom hx.eq ok).ok.callbacks env hst rng hgeo gens
    exact ⟨calls, h1⟩
  · intro out notice hg
    refine ⟨by rw [← hl1]; exact C17_any_float hx.eq ok alpha env hst rng hgeo gens out notice hg, ?_⟩
    cases positions with
    | nil => have := ok.len; have := ok.pos; simp at *; omega
    | cons p ps =>
      rw [List.map_cons] at hg
      exact ((generateEdges_dispatch s.D1 s.D5 env rng gens weights (by simp) alpha out notice).1 hg).2

/-- C66 (pairs).  With rounding, too, the sampling calls of the recursion examine every unordered pair of distinct nodes exactly
once (release builds with `alpha = infinity` leave out calls, see C67). -/
theorem C66_rounded_coverage {F : Type} [CFloat F] {u lam : ℝ} (A : Rounded F u lam) (hu : u ≤ 1 / 2 ^ 34) (hlam : lam ≤ 1 / 4)
    {D : Nat} {weights : List F} {positions : List (Fin D → F)} {w : List ℝ} {x : List (Fin D → ℝ)} (s : RoundableInput D w x)
    (hh : A.Holds weights positions w x) {ndebug : Bool} {alpha : F} {T : Tree F D} (hc : Constructed ndebug weights positions alpha T)
    (hm : ¬ (ndebug = true ∧ CFloat.eq alpha CFloat.inf = true)) :
    ∃ ts cs, visitCellPair T T.levels 0 0 0 = some ts ∧ T.allCandidates ts = some cs ∧ EachPairOnce w.length (cs.map T.idxPair) := by
  obtain ⟨h, m, S, hx⟩ := headerR_exists A hu hlam s hh
  rw [← hh.weights.length_eq]
  exact C15_any_float hx.eq (hx.inputOK s hh) hc hm

/-! ### C67 -/

theorem SurelyClose.symm {u lam : ℝ} {D : Nat} {w : List ℝ} {x : List (Fin D → ℝ)} {i j : Nat} (h : SurelyClose u lam w x i j) :
    SurelyClose u lam w x j i := by
  obtain ⟨a, b, p, q, h1, h2, h3, h4, h5⟩ := h
  exact ⟨b, a, q, p, h2, h1, h4, h3, by rw [torusDist_comm, mul_comm b a]; exact h5⟩

/-- C67.  Threshold graphs with rounding errors: in a release build with `alpha = infinity`, whatever the random numbers, the number of
threads and the schedule, every execution of `girgs::generateEdges` returns a simple graph that contains every pair of nodes
which satisfies the rule `dist^D < w_u*w_v/W` with the margin of `SurelyClose`, and no pair which violates it with the margin of
`SurelyFar`. -/
theorem C67_rounded_threshold {F : Type} [CFloat F] {u lam : ℝ} (A : Rounded F u lam) (hu : u ≤ 1 / 2 ^ 34) (hlam : lam ≤ 1 / 4)
    {D : Nat} {weights : List F} {positions : List (Fin D → F)} {w : List ℝ} {x : List (Fin D → ℝ)} (s : RoundableInput D w x)
    (hh : A.Holds weights positions w x) (env : Env) (hnd : env.ndebug = true) (rng : Rng F) (hgeo : GeoBounded rng)
    (gens : Nat → rng.G) (out : List (Nat × Nat)) (notice : Notice)
    (hg : GenerateEdges env rng gens weights (positions.map List.ofFn) CFloat.inf out notice) :
    IsSimpleGraph w.length out ∧
    (∀ i j, i ≠ j → SurelyClose u lam w x i j → (i, j) ∈ out ∨ (j, i) ∈ out) ∧
    ∀ i j, (i, j) ∈ out → ¬ SurelyFar u lam w x i j := by
  have hsimple := (C66_rounded_simple_graph A hu hlam s hh CFloat.inf env rng hgeo gens).2.2 out notice hg
  obtain ⟨h, m, S, hx⟩ := headerR_exists A hu hlam s hh
  have ok := hx.inputOK s hh
  have hpts := asPoints_ofFn positions
  obtain ⟨T, hT, calls, h1, h2⟩ : TreeRun env rng gens weights positions CFloat.inf out := by
    cases positions with
    | nil => have := ok.len; have := ok.pos; simp at *; omega
    | cons p ps =>
      rw [List.map_cons] at hg hpts
      obtain ⟨⟨y, e, hr⟩, _⟩ := (generateEdges_dispatch s.D1 s.D5 env rng gens weights (by simp) CFloat.inf out notice).1 hg
      rw [hpts, Option.some.injEq] at e
      subst e
      exact hr
  have b := hT.builtR s hh hx
  obtain ⟨calls', h4, _, h5⟩ := b.ok.callbacks env (startOK_R A s.D1 s.D5 env) rng hgeo gens
  rw [h1, Option.some.injEq] at h4
  subst h4
  have hperm := EdgeBuffer.IsMerge.perm (h2.isMerge (by unfold blockSize; omega))
  have hth : T.isThreshold = true := by unfold Tree.isThreshold; rw [b.alpha_eq]; exact A.eq_inf
  let dec : Nat → Nat → Bool := fun p q => match T.nodes[p]?, T.nodes[q]? with
    | some y, some z => dTerm y z <. T.wTerm y z
    | _, _ => false
  have hdec : ∀ {p q : Nat} {y z : Node F D}, T.nodes[p]? = some y → T.nodes[q]? = some z → dec p q = (dTerm y z <. T.wTerm y z) := by
    intro p q y z hp hq
    show (match T.nodes[p]?, T.nodes[q]? with
      | some y, some z => dTerm y z <. T.wTerm y z
      | _, _ => false) = _
    rw [hp, hq]
  have hdI : DecidesI T rng dec := by
    intro p q y z hp hq g
    refine ⟨g, ?_⟩
    unfold decideI
    rw [if_pos hth, hdec hp hq]
  obtain ⟨r1, r2⟩ := h5.released b.ok hdI ⟨b.ndebug_eq.trans hnd, hth⟩
  have nodeAt : ∀ p, p < T.n → ∃ y, T.nodes[p]? = some y := fun p hp => by
    rw [← b.ok.length_nodes] at hp
    exact ⟨_, List.getElem?_eq_getElem hp⟩
  refine ⟨hsimple.1, ?_, ?_⟩
  · intro i j hij hclose
    have pos : ∀ i, i < w.length → ∃ p, p < T.n ∧ T.idx p = i := by
      intro u hu
      have : u ∈ T.nodes.map Node.index := b.ok.index_perm.mem_iff.2 (List.mem_range.2 (by rw [b.n_eq]; exact hu))
      obtain ⟨y, hy, rfl⟩ := List.mem_map.1 this
      obtain ⟨p, hp⟩ := List.mem_iff_getElem?.1 hy
      refine ⟨p, ?_, Tree.idx_eq hp⟩
      rw [← b.ok.length_nodes]
      exact (List.getElem?_eq_some_iff.1 hp).1
    have hlt : i < w.length ∧ j < w.length := by
      obtain ⟨_, _, _, _, g1, g2, _⟩ := hclose
      exact ⟨(List.getElem?_eq_some_iff.1 g1).1, (List.getElem?_eq_some_iff.1 g2).1⟩
    obtain ⟨p, hp, rfl⟩ := pos i hlt.1
    obtain ⟨q, hq, rfl⟩ := pos j hlt.2
    have hpq : p ≠ q := fun h => hij (by rw [h])
    obtain ⟨y, hy⟩ := nodeAt p hp
    obtain ⟨z, hz⟩ := nodeAt q hq
    rw [hperm.mem_iff, hperm.mem_iff]
    rcases r2 p q hp hq hpq with ⟨t, ht, htwo, hhit | hhit⟩ | hdone
    · exact absurd hclose (b.hit s hu ht htwo hhit)
    · exact absurd (SurelyClose.symm hclose) (b.hit s hu ht htwo hhit)
    · have hclose' := hclose
      have hclose2 := SurelyClose.symm hclose
      rw [Tree.idx_eq hy, Tree.idx_eq hz] at hclose' hclose2
      refine hdone ?_ ?_
      · rw [hdec hy hz]
        exact (b.rule s hu (List.mem_of_getElem? hy) (List.mem_of_getElem? hz)).2 hclose'
      · rw [hdec hz hy]
        exact (b.rule s hu (List.mem_of_getElem? hz) (List.mem_of_getElem? hy)).2 hclose2
  · intro i j hm
    obtain ⟨p, q, hp, hq, e, hd⟩ := r1 (i, j) (hperm.mem_iff.1 hm)
    obtain ⟨y, hy⟩ := nodeAt p hp
    obtain ⟨z, hz⟩ := nodeAt q hq
    rw [hdec hy hz] at hd
    rw [Tree.idx_eq hy, Tree.idx_eq hz, Prod.mk.injEq] at e
    rw [e.1, e.2]
    exact (b.rule s hu (List.mem_of_getElem? hy) (List.mem_of_getElem? hz)).1 hd

/-- the margin is `1` up to the sum of all rounding errors -/
theorem margin_bound {u lam : ℝ} (hu : u ≤ 1) (hu0 : 0 ≤ u) (hl : 0 ≤ lam) (n D : Nat) :
    1 - (n + D + 4) * u - 3 * lam ≤ margin u lam n D := by
  have h1 := one_add_mul_le_pow (a := -u) (by linarith) (n + D + 4)
  have h2 : 1 - 3 * lam ≤ (2 : ℝ) ^ (-(3 * lam)) := by
    have h3 := Real.add_one_le_exp (-(3 * lam) * Real.log 2)
    have h4 : Real.log 2 ≤ 1 := by have := Real.log_le_sub_one_of_pos (x := 2) (by norm_num); linarith
    rw [Real.rpow_def_of_pos (by norm_num), mul_comm (Real.log 2)]
    have h5 : 3 * lam * Real.log 2 ≤ 3 * lam * 1 := mul_le_mul_of_nonneg_left h4 (by linarith)
    linarith
  have h6 : (2 : ℝ) ^ (-(3 * lam)) ≤ 1 := two_rpow_le_one hl
  have h7 : 0 < (2 : ℝ) ^ (-(3 * lam)) := by positivity
  unfold margin
  generalize (2 : ℝ) ^ (-(3 * lam)) = L at *
  have e : (1 : ℝ) + ((n + D + 4 : ℕ) : ℝ) * -u = 1 - (n + D + 4) * u := by push_cast; ring
  rw [e, ← sub_eq_add_neg] at h1
  have hK : 0 ≤ ((n : ℝ) + D + 4) * u := by positivity
  have h8 := mul_le_mul_of_nonneg_right h1 h7.le
  have h9 : ((n : ℝ) + D + 4) * u * L ≤ (n + D + 4) * u * 1 := mul_le_mul_of_nonneg_left h6 hK
  linarith

/-- a list of doubles as an argument -/
noncomputable def dw (w : List ℝ) : List B64 := w.map fun v => B64.round (XR.fin v)

/-- a list of points with coordinates of type double as an argument -/
noncomputable def dp {D : Nat} (x : List (Fin D → ℝ)) : List (Fin D → B64) := x.map fun p d => B64.round (XR.fin (p d))

theorem dw_holds {D : Nat} {w : List ℝ} {x : List (Fin D → ℝ)} (hw : ∀ v ∈ w, B64.IsDouble v) (hx : ∀ p ∈ x, ∀ d, B64.IsDouble (p d)) :
    B64.rounded.Holds (dw w) (dp x) w x := by
  constructor
  · unfold dw
    induction w with
    | nil => exact List.Forall₂.nil
    | cons v w ih => exact List.Forall₂.cons (B64.round_double (hw v (by simp))) (ih fun v hv => hw v (by simp [hv]))
  · unfold dp
    induction x with
    | nil => exact List.Forall₂.nil
    | cons p x ih => exact List.Forall₂.cons (fun d => B64.round_double (hx p (by simp) d)) (ih fun p hp => hx p (by simp [hp]))

/-- C67 for type `double` (IEEE binary64, round to nearest): for weights and positions that are doubles, every pair with
`(dist + 2^-52)^D < (1 - e)*w_u*w_v/W` is an edge and no pair with `(1 - e)*(dist - 2^-52)^D ≥ w_u*w_v/W` is one, where
`e = (n + D + 4)*2^-53 + 3*2^-43`. -/
theorem C67_double {D : Nat} {w : List ℝ} {x : List (Fin D → ℝ)} (s : RoundableInput D w x) (hw : ∀ v ∈ w, B64.IsDouble v)
    (hx : ∀ p ∈ x, ∀ d, B64.IsDouble (p d)) (env : Env) (hnd : env.ndebug = true) (rng : Rng B64) (hgeo : GeoBounded rng)
    (gens : Nat → rng.G) (out : List (Nat × Nat)) (notice : Notice)
    (hg : GenerateEdges env rng gens (dw w) ((dp x).map List.ofFn) CFloat.inf out notice) :
    IsSimpleGraph w.length out ∧
    ∀ i j a b p q, i ≠ j → w[i]? = some a → w[j]? = some b → x[i]? = some p → x[j]? = some q → ∀ e : ℝ,
      e = (w.length + D + 4) / 2 ^ 53 + 3 / 2 ^ 43 →
      ((torusDist p q + 1 / 2 ^ 52) ^ D < (1 - e) * (a * b / w.sum) → (i, j) ∈ out ∨ (j, i) ∈ out) ∧
      (1 / 2 ^ 52 ≤ torusDist p q → a * b / w.sum ≤ (1 - e) * (torusDist p q - 1 / 2 ^ 52) ^ D → (i, j) ∉ out ∧ (j, i) ∉ out) := by
  have hu : (2 : ℝ) ^ (-53 : ℤ) ≤ 1 / 2 ^ 34 := by norm_num
  have hl : (2 : ℝ) ^ (-43 : ℤ) ≤ 1 / 4 := by norm_num
  obtain ⟨h1, h2, h3⟩ := C67_rounded_threshold B64.rounded hu hl s (dw_holds hw hx) env hnd rng hgeo gens out notice hg
  refine ⟨h1, ?_⟩
  rintro i j a b p q hij ha hb hp hq e rfl
  have hm := margin_bound (u := (2 : ℝ) ^ (-53 : ℤ)) (lam := (2 : ℝ) ^ (-43 : ℤ)) (by norm_num) (by positivity) (by positivity) w.length D
  have e1 : 1 - (((w.length : ℝ) + D + 4) / 2 ^ 53 + 3 / 2 ^ 43) = 1 - (w.length + D + 4) * (2 : ℝ) ^ (-53 : ℤ) - 3 * (2 : ℝ) ^ (-43 : ℤ) := by
    rw [zpow_neg, zpow_neg]
    norm_num
    ring
  rw [e1]
  have e2 : (2 : ℝ) * 2 ^ (-53 : ℤ) = 1 / 2 ^ 52 := by norm_num
  have hap := s.wpos a (List.mem_of_getElem? ha)
  have hbp := s.wpos b (List.mem_of_getElem? hb)
  have hW0 : 0 < w.sum := lt_of_lt_of_le hap (sum_ge_mem s.wpos (List.mem_of_getElem? ha))
  constructor
  · intro hc
    refine h2 i j hij ⟨a, b, p, q, ha, hb, hp, hq, ?_⟩
    rw [e2]
    exact lt_of_lt_of_le hc (mul_le_mul_of_nonneg_right hm (by positivity))
  · intro hd hc
    have hX : 0 ≤ (torusDist p q - 1 / 2 ^ 52) ^ D := pow_nonneg (by linarith) D
    have hc' := le_trans hc (mul_le_mul_of_nonneg_right hm hX)
    constructor
    · intro hmem
      exact h3 i j hmem ⟨a, b, p, q, ha, hb, hp, hq, by rw [e2]; exact hd, by rw [e2]; exact hc'⟩
    · intro hmem
      exact h3 j i hmem ⟨b, a, q, p, hb, ha, hq, hp, by rw [e2, torusDist_comm]; exact hd, by
        rw [e2, torusDist_comm, mul_comm b a]; exact hc'⟩

/-- Without rounding errors the two conditions are the threshold rule and its negation (so C67 contains the statement of C18 for
release builds). -/
theorem surely_exact {D : Nat} {w : List ℝ} {x : List (Fin D → ℝ)} {i j : Nat} {a b : ℝ} {p q : Fin D → ℝ}
    (ha : w[i]? = some a) (hb : w[j]? = some b) (hp : x[i]? = some p) (hq : x[j]? = some q) :
    (SurelyClose 0 0 w x i j ↔ ThresholdRule w x i j) ∧ (SurelyFar 0 0 w x i j ↔ ¬ ThresholdRule w x i j) := by
  have hm : margin 0 0 w.length D = 1 := by unfold margin; norm_num
  have hd : 0 ≤ torusDist p q := torusDist_nonneg p q
  have key : ∀ (P : ℝ → ℝ → (Fin D → ℝ) → (Fin D → ℝ) → Prop), (∃ a b p q, w[i]? = some a ∧ w[j]? = some b ∧ x[i]? = some p ∧
      x[j]? = some q ∧ P a b p q) ↔ P a b p q := by
    intro P
    constructor
    · rintro ⟨a', b', p', q', h1, h2, h3, h4, h5⟩
      rw [ha, Option.some.injEq] at h1
      rw [hb, Option.some.injEq] at h2
      rw [hp, Option.some.injEq] at h3
      rw [hq, Option.some.injEq] at h4
      subst h1 h2 h3 h4
      exact h5
    · intro h; exact ⟨a, b, p, q, ha, hb, hp, hq, h⟩
  unfold SurelyClose SurelyFar ThresholdRule
  rw [key (fun a b p q => (torusDist p q + 2 * 0) ^ D < margin 0 0 w.length D * (a * b / w.sum)),
    key (fun a b p q => 2 * 0 ≤ torusDist p q ∧ a * b / w.sum ≤ margin 0 0 w.length D * (torusDist p q - 2 * 0) ^ D),
    key (fun a b p q => torusDist p q ^ D < a * b / w.sum), hm]
  simp only [mul_zero, add_zero, sub_zero, one_mul, not_lt]
  exact ⟨trivial, and_iff_right hd⟩

/-! ### an example -/

/-- a random number source for doubles -/
noncomputable def exampleRngD : Rng B64 where
  G := Unit
  uniform := fun _ => (B64.round (XR.fin (1 / 2)), ())
  uniformTo := fun b _ => (b *. B64.round (XR.fin (1 / 2)), ())
  geo := fun _ _ => (0, ())

theorem exampleInputD : RoundableInput 2 [1, 1, 5] [![0, 0], ![1 / 2, 1 / 4], ![7 / 8, 3 / 8]] := by
  have h400 : (2 : ℝ) ^ 3 ≤ 2 ^ 400 := pow_le_pow_right₀ (by norm_num) (by norm_num)
  have hfin : ∀ v ∈ ([1, 1, 5] : List ℝ), v < 2 ^ 400 := by
    intro v hv
    simp only [List.mem_cons, List.not_mem_nil, or_false] at hv
    refine lt_of_lt_of_le ?_ h400
    rcases hv with rfl | rfl | rfl <;> norm_num
  refine ⟨by norm_num, by norm_num, rfl, by norm_num, by norm_num, ?_, hfin, ?_, ?_, ?_⟩ <;> simp [Fin.forall_fin_two] <;> norm_num

/-- C67 at work: of the nodes with weights 1, 1, 5 at (0,0), (1/2,1/4), (7/8,3/8) the first and the third are connected (distance
3/8, 9/64 < 5/7), the first and the second are not (distance 1/2, 1/4 ≥ 1/7). -/
example : ∃ out notice, GenerateEdges (exampleEnv true) exampleRngD (fun _ => ()) (dw [1, 1, 5])
    ((dp [![0, 0], ![1 / 2, 1 / 4], ![7 / 8, 3 / 8]]).map List.ofFn) CFloat.inf out notice ∧
    ((0, 2) ∈ out ∨ (2, 0) ∈ out) ∧ (0, 1) ∉ out ∧ (1, 0) ∉ out := by
  have big : ∀ x : ℝ, |x| ≤ 8 → |x| < 2 ^ 1024 := fun x hx =>
    lt_of_le_of_lt hx (lt_of_lt_of_le (show (8 : ℝ) < 2 ^ 4 by norm_num) (pow_le_pow_right₀ (by norm_num) (by norm_num)))
  have dbl : ∀ (x : ℝ) (z : ℤ), |z| ≤ 16 → x * 8 = z → B64.IsDouble x := by
    intro x z hz he
    have hzr : ((|z| : ℤ) : ℝ) ≤ ((16 : ℤ) : ℝ) := Int.cast_le.2 hz
    rw [Int.cast_abs] at hzr
    have e : x = z * 2 ^ (-3 : ℤ) := by rw [← he]; norm_num; ring
    have hx : |x| ≤ 8 := by
      rw [e, abs_mul, abs_of_pos (show (0 : ℝ) < 2 ^ (-3 : ℤ) by positivity)]
      norm_num at hzr ⊢
      linarith
    have := B64.rnd_rep (N := z) (k := -3) (le_trans hz (by norm_num)) (by norm_num)
    rw [← e] at this
    exact ⟨this, big x hx⟩
  have hwD : ∀ v ∈ ([1, 1, 5] : List ℝ), B64.IsDouble v := by
    intro v hv
    have h1 : B64.IsDouble 1 := ⟨by simpa using B64.rnd_int (z := 1) (by norm_num), big 1 (by norm_num)⟩
    have h5 : B64.IsDouble 5 := ⟨by simpa using B64.rnd_int (z := 5) (by norm_num), big 5 (by norm_num)⟩
    simp only [List.mem_cons, List.not_mem_nil, or_false] at hv
    rcases hv with rfl | rfl | rfl
    · exact h1
    · exact h1
    · exact h5
  have hxD : ∀ p ∈ ([![0, 0], ![1 / 2, 1 / 4], ![7 / 8, 3 / 8]] : List (Fin 2 → ℝ)), ∀ d, B64.IsDouble (p d) := by
    intro p hp d
    simp only [List.mem_cons, List.not_mem_nil, or_false] at hp
    rcases hp with rfl | rfl | rfl <;> fin_cases d
    · exact dbl _ 0 (by norm_num) (by norm_num)
    · exact dbl _ 0 (by norm_num) (by norm_num)
    · exact dbl _ 4 (by norm_num) (by norm_num)
    · exact dbl _ 2 (by norm_num) (by norm_num)
    · exact dbl _ 7 (by norm_num) (by norm_num)
    · exact dbl _ 3 (by norm_num) (by norm_num)
  have hgeo : GeoBounded exampleRngD := fun _ _ => by show 0 < _; norm_num
  obtain ⟨⟨out, notice, h⟩, _⟩ := C66_rounded_simple_graph B64.rounded (by norm_num) (by norm_num) exampleInputD (dw_holds hwD hxD)
    CFloat.inf (exampleEnv true) exampleRngD hgeo (fun _ => ())
  obtain ⟨_, h3⟩ := C67_double exampleInputD hwD hxD _ rfl _ hgeo _ out notice h
  have d02 : torusDist ![(0 : ℝ), 0] ![7 / 8, 3 / 8] = 3 / 8 := by
    norm_num [torusDist, circleDist, List.finRange_succ, List.finRange_zero]
  have d01 : torusDist ![(0 : ℝ), 0] ![1 / 2, 1 / 4] = 1 / 2 := by
    norm_num [torusDist, circleDist, List.finRange_succ, List.finRange_zero]
  refine ⟨out, notice, h, (h3 0 2 1 5 _ _ (by norm_num) rfl rfl rfl rfl _ rfl).1 ?_, (h3 0 1 1 1 _ _ (by norm_num) rfl rfl rfl rfl _ rfl).2 ?_ ?_⟩
  · rw [d02]; norm_num
  · rw [d01]; norm_num
  · rw [d01]; norm_num

end Girgs.Props
