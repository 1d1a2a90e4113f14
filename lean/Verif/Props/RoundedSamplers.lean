import Verif.Proofs.B64Uniform
import Verif.Props.Samplers
import Verif.Props.Rounding
import Verif.Props.HThresholdRounding
/-!
Property C85: in floating point arithmetic, too, sampled nodes are valid input for the edge samplers.
-/
namespace Girgs.Props
open Spec CFloat

variable {F : Type} [CFloat F] {u lam eps p : ℝ} {A : Rounded F u lam}

theorem vals_of {P : ℝ → Prop} : ∀ {l : List F}, (∀ x ∈ l, ∃ v, A.val x = some v ∧ P v) → ∃ r, A.Vals l r ∧ ∀ v ∈ r, P v
  | [], _ => ⟨[], .nil, by simp⟩
  | x :: l, h => by
    obtain ⟨v, hv, pv⟩ := h x (by simp)
    obtain ⟨r, hr, pr⟩ := vals_of (l := l) fun y hy => h y (by simp [hy])
    refine ⟨v :: r, .cons hv hr, ?_⟩
    intro w hw
    rcases List.mem_cons.1 hw with rfl | hw
    · exact pv
    · exact pr w hw

/-- C85 (positions).  Whatever the random numbers, the number of threads and the schedule: `generatePositions` returns `n` rows of `dim` numbers of `[0,1)`. -/
theorem C85_positions {eng : Engine F} (he : RoundedEngine A eng) {omp : Omp} {device : ℕ → eng.G} {n dim : ℕ} {seed : ℤ} {parallel : Bool}
    {out : List (List F)} (h : GeneratePositions omp eng device n dim seed parallel out) :
    out.length = n ∧ ∀ row ∈ out, row.length = dim ∧ ∀ x ∈ row, ∃ v : ℝ, A.val x = some v ∧ 0 ≤ v ∧ v < 1 := by
  obtain ⟨h1, h2⟩ := position_entry h
  refine ⟨h1, fun row hrow => ⟨(h2 row hrow).1, fun x hx => ?_⟩⟩
  obtain ⟨g, rfl⟩ := (h2 row hrow).2 x hx
  obtain ⟨z, vz, z0, _, z1⟩ := he.uniform _ _ _ _ g A.val_zero A.val_one le_rfl one_pos le_rfl (one_le_pow₀ (by norm_num))
  exact ⟨z, vz, z0, z1 rfl⟩

/-- C85 (angles).  `sampleAngles` returns `n` numbers of `[0, 2p)`, where `p` is the value of the constant for π. -/
theorem C85_angles (E : RoundedElem A eps p) (hu : u ≤ 1 / 2 ^ 52) {eng : Engine F} (he : RoundedEngine A eng) {omp : Omp} {device : ℕ → eng.G} {n : ℕ} {seed : ℤ}
    {parallel : Bool} {out : List F} (h : SampleAngles omp eng device n seed parallel out) :
    out.length = n ∧ ∀ x ∈ out, ∃ v : ℝ, A.val x = some v ∧ 0 ≤ v ∧ v < 2 * p := by
  obtain ⟨radii, h⟩ := h
  obtain ⟨_, h2, _, h4⟩ := helper_entry h
  refine ⟨h2, fun x hx => ?_⟩
  obtain ⟨g, k, rfl⟩ := h4 rfl x hx
  exact angle_val E hu he _ _ _ _ g k

/-- C85 (radii).  `sampleRadii` returns `n` numbers between `2^-33` and `R + 2^-44`. -/
theorem C85_radii {alf Rf : F} {α R : ℝ} (S : RSampler A eps p alf Rf α R) {eng : Engine F} (he : RoundedEngine A eng) {omp : Omp} {device : ℕ → eng.G} {n : ℕ}
    {seed : ℤ} {parallel : Bool} {out : List F} (h : SampleRadii omp eng device n alf Rf seed parallel out) :
    out.length = n ∧ ∀ x ∈ out, ∃ v : ℝ, A.val x = some v ∧ 1 / 2 ^ 33 ≤ v ∧ v ≤ R + 1 / 2 ^ 44 := by
  obtain ⟨angles, h⟩ := h
  obtain ⟨h1, _, h3, _⟩ := helper_entry h
  refine ⟨h1, fun x hx => ?_⟩
  obtain ⟨g, k, rfl⟩ := h3 rfl x hx
  exact S.radius_val he _ _ g k

/-- C85 (the samplers return).  Nothing is undefined for these parameters: if `1 ≤ n ≤ 2^31 - 10000` and the seeds do not overflow then
`sampleRadiiAndAngles` returns. -/
theorem C85_returns {alf Rf : F} {α R : ℝ} (S : RSampler A eps p alf Rf α R) (eng : Engine F) (omp : Omp) (device : ℕ → eng.G) {n : ℕ} (hn : 1 ≤ n)
    (hn' : n + 9999 < 2147483648) {seed : ℤ} {parallel : Bool} (hs : ∀ t, hyperThreads omp n parallel = some t → SeedOK t seed) :
    ∃ radii angles, SampleRadiiAndAngles omp eng device n alf Rf seed parallel radii angles := by
  obtain ⟨_, _, radii, angles, _, _, _, h, _⟩ := C50_executions omp eng device true true n alf Rf seed parallel (fun _ => ⟨hn, hn'⟩) S.ge_val hs
  exact ⟨radii, angles, (h _).2 rfl⟩

/-- C85 (random hyperbolic graphs).  The points that `sampleRadiiAndAngles` returns are supported input of `hypergirgs::generateEdges`: radii above `u R` and at
most `R + 2^-44`, and angles in `[0, 2p)`.  So C79 and C80 apply to them. -/
theorem C85_hyperbolic {alf Rf Tf : F} {α R T : ℝ} (S : RSampler A eps p alf Rf α R) (hdisk : (⌈R⌉ : ℝ) ≤ 29 / 20 * R) (vT : A.val Tf = some T)
    (hT : T = 0 ∨ (1 / 16 ≤ T ∧ T ≤ 2 ^ 64)) {eng : Engine F} (he : RoundedEngine A eng) {omp : Omp} {device : ℕ → eng.G} {n : ℕ} (hn : 1 ≤ n) (hn' : n < 2147483648)
    {seed : ℤ} {parallel : Bool} {radii angles : List F} (h : SampleRadiiAndAngles omp eng device n alf Rf seed parallel radii angles) :
    ∃ r a, RInput A eps p radii angles Tf Rf r a T R ∧ r.length = n ∧ ∀ x ∈ r, 1 / 2 ^ 33 ≤ x := by
  obtain ⟨h1, h2, h3, h4⟩ := helper_entry h
  have hu := S.hu
  have hep := S.he
  obtain ⟨r, vr, pr⟩ := vals_of (A := A) (P := fun v => 1 / 2 ^ 33 ≤ v ∧ v ≤ R + 1 / 2 ^ 44) (l := radii) (fun x hx => by
    obtain ⟨g, k, rfl⟩ := h3 rfl x hx
    exact S.radius_val he _ _ g k)
  obtain ⟨a, va, pa⟩ := vals_of (A := A) (P := fun v => 0 ≤ v ∧ v < 2 * p) (l := angles) (fun x hx => by
    obtain ⟨g, k, rfl⟩ := h4 rfl x hx
    exact angle_val S.elem (hu.trans (by norm_num)) he _ _ _ _ g k)
  have l1 : r.length = n := by rw [← vr.length_eq]; exact h1
  have l2 : a.length = n := by rw [← va.length_eq]; exact h2
  have hR := S.R_ge
  have hR' := S.R_le
  refine ⟨r, a, ⟨S.elem, hu.trans (by norm_num), hep.trans (by norm_num), vr, va, vT, S.vR, ⟨by omega, by omega, by omega, ?_, pa, hT, hdisk, hR', by linarith⟩⟩, l1, fun x hx => (pr x hx).1⟩
  intro x hx
  obtain ⟨p1, p2⟩ := pr x hx
  refine ⟨lt_of_lt_of_le ?_ p1, p2⟩
  have : u * R ≤ 1 / 2 ^ 53 * 34 := mul_le_mul hu hR' (by linarith) (by norm_num)
  norm_num at this ⊢
  linarith

/-- C85 (the whole way to the graph).  For points from `sampleRadiiAndAngles` every execution of `hypergirgs::generateEdges` returns a simple graph on `n` nodes,
one thread suffices for it to return, and for temperature 0 the graph is the threshold graph up to close calls (`r` and `a` are the values of the radii
and angles). -/
theorem C85_hyperbolic_graph {alf Rf Tf : F} {α R T : ℝ} (S : RSampler A eps p alf Rf α R) (hdisk : (⌈R⌉ : ℝ) ≤ 29 / 20 * R) (vT : A.val Tf = some T)
    (hT : T = 0 ∨ (1 / 16 ≤ T ∧ T ≤ 2 ^ 64)) (hs : SymmetricLevels Rf ⌈R⌉.toNat) {eng : Engine F} (he : RoundedEngine A eng) {omp : Omp} {device : ℕ → eng.G} {n : ℕ}
    (hn : 1 ≤ n) (hn' : n < 2147483648) {seed : ℤ} {parallel : Bool} {radii angles : List F}
    (h : SampleRadiiAndAngles omp eng device n alf Rf seed parallel radii angles) (env : HEnv) (rng : Tree.Rng F) (hr : RoundedRng A rng) (gens : ℕ → rng.G) :
    (env.threads = 1 → ∃ out, HGenerateEdges env rng gens radii angles Tf Rf out) ∧
    (∀ out, HGenerateEdges env rng gens radii angles Tf Rf out → IsSimpleGraph n out) ∧
    ∃ r a, A.Vals radii r ∧ A.Vals angles a ∧ (T = 0 → ∀ out, HGenerateEdges env rng gens radii angles Tf Rf out →
      (∀ i j, i ≠ j → HypSurelyClose (1 / 2 ^ 40) r a R i j → (i, j) ∈ out ∨ (j, i) ∈ out) ∧
      (∀ i j, HypSurelyFar (1 / 2 ^ 46) r a R i j → (i, j) ∉ out ∧ (j, i) ∉ out)) := by
  obtain ⟨r, a, I, hl, hmin⟩ := C85_hyperbolic S hdisk vT hT he hn hn' h
  obtain ⟨g1, _, g3, _⟩ := C79_rounded_simple_graph I hs env rng hr gens
  refine ⟨g1, fun out ho => by rw [← hl]; exact g3 out ho, r, a, I.radii, I.angles, ?_⟩
  rintro rfl out ho
  exact (C80_rounded_threshold I hs (fun x hx => le_trans (by norm_num) (hmin x hx)) env rng hr.geo gens out ho).2

theorem rows_ofFn {D : ℕ} {l : List (List F)} (h : ∀ row ∈ l, row.length = D ∧ ∀ x ∈ row, ∃ v : ℝ, A.val x = some v ∧ 0 ≤ v ∧ v < 1) :
    ∃ (ps : List (Fin D → F)) (x : List (Fin D → ℝ)), l = ps.map List.ofFn ∧ List.Forall₂ (fun p q => ∀ d, A.val (p d) = some (q d)) ps x ∧
      ∀ q ∈ x, ∀ d, 0 ≤ q d ∧ q d < 1 := by
  induction l with
  | nil => exact ⟨[], [], rfl, .nil, by simp⟩
  | cons row l ih =>
    obtain ⟨ps, x, e, hv, hx⟩ := ih fun r hr => h r (by simp [hr])
    obtain ⟨hl, hrow⟩ := h row (by simp)
    subst hl
    have hc : ∀ d : Fin row.length, ∃ v : ℝ, A.val (row.get d) = some v ∧ 0 ≤ v ∧ v < 1 := fun d => hrow _ (List.get_mem row d)
    choose q hq1 hq2 using hc
    refine ⟨row.get :: ps, q :: x, ?_, .cons hq1 hv, ?_⟩
    · rw [List.map_cons, List.ofFn_get, e]
    · intro q' hq'
      rcases List.mem_cons.1 hq' with rfl | hq'
      · exact hq2
      · exact hx q' hq'

/-- C85 (GIRGs).  Positions from `generatePositions`, in 1 to 5 dimensions, are supported input of `girgs::generateEdges`: with weights within the limits of C66,
an execution returns, and every execution returns a simple graph on the `n` nodes. -/
theorem C85_girg (hu : u ≤ 1 / 2 ^ 34) (hlam : lam ≤ 1 / 4) {eng : Engine F} (he : RoundedEngine A eng) {omp : Omp} {device : ℕ → eng.G} {D : ℕ} {seed : ℤ}
    {parallel : Bool} {weights : List F} {w : List ℝ} (hw : A.Vals weights w) (hD1 : 1 ≤ D) (hD5 : D ≤ 5) (hn : 1 ≤ w.length) (hn' : w.length < 2147483648)
    (wpos : ∀ v ∈ w, 0 < v) (wfin : ∀ v ∈ w, v < 2 ^ 400) (total : ∀ v ∈ w, w.sum < 2 ^ 28 * v ^ 2) (spread : ∀ v ∈ w, ∀ v' ∈ w, v' < 2 ^ 29 * v)
    {positions : List (List F)} (h : GeneratePositions omp eng device w.length D seed parallel positions) (alpha : F) (env : Env) (rng : Tree.Rng F)
    (hgeo : GeoBounded rng) (gens : ℕ → rng.G) :
    (∃ out notice, GenerateEdges env rng gens weights positions alpha out notice) ∧
    ∀ out notice, GenerateEdges env rng gens weights positions alpha out notice → IsSimpleGraph w.length out ∧ notice = .none := by
  obtain ⟨h1, h2⟩ := C85_positions (A := A) he h
  obtain ⟨ps, x, rfl, hv, hx⟩ := rows_ofFn (A := A) (D := D) h2
  have hl : x.length = w.length := by
    rw [← hv.length_eq, ← h1, List.length_map]
  have g := C66_rounded_simple_graph A hu hlam ⟨hD1, hD5, hl, hn, hn', wpos, wfin, hx, total, spread⟩ ⟨hw, hv⟩ alpha env rng hgeo gens
  exact ⟨g.1, g.2.2⟩

/-- C85 for type double and `std::uniform_real_distribution` of libstdc++ (`canonical() * (b - a) + a`): the assumptions on the arithmetic and on the random
numbers hold. -/
theorem C85_double {G : Type} {seed : ℤ → G} {next : G → G} {canonical : G → ℝ × G} (hd : ∀ g, B64.IsDouble (canonical g).1)
    (h0 : ∀ g, 0 ≤ (canonical g).1) (h1 : ∀ g, (canonical g).1 < 1) {α R : ℝ} (hα : B64.IsDouble α) (hR : B64.IsDouble R) (a1 : 1 / 2 ≤ α) (a2 : α ≤ 16)
    (r1 : 1 / 2 ≤ R) (r2 : R ≤ 34) :
    RoundedEngine B64.rounded (B64.libEngine G seed next canonical) ∧
    RSampler B64.rounded (2 ^ (-53 : ℤ)) (B64.rnd Real.pi) (B64.round (XR.fin α)) (B64.round (XR.fin R)) α R :=
  ⟨B64.libEngine_rounded hd h0 h1, B64.elem, by norm_num, by norm_num, B64.round_double hα, B64.round_double hR, a1, a2, r1, r2⟩

/-- C85 at work: 100 nodes in a disk of radius 5/2 with `alpha = 3/4`, type double, an engine that always returns 1/2, temperature 0 -/
example : ∃ radii angles out, SampleRadiiAndAngles exampleOmp (B64.libEngine Unit (fun _ => ()) (fun _ => ()) fun _ => (1 / 2, ())) (fun _ => ()) 100
      (B64.round (XR.fin (3 / 4))) (B64.round (XR.fin (5 / 2))) 12 true radii angles ∧
    HGenerateEdges (exampleHEnv true 1 (by norm_num) (by norm_num)) exampleRngH (fun _ => ()) radii angles (B64.round (XR.fin 0))
      (B64.round (XR.fin (5 / 2))) out ∧ IsSimpleGraph 100 out := by
  have d2 : B64.IsDouble (1 / 2) := isDouble_quarter _ 2 (by norm_num) (by norm_num)
  have dα : B64.IsDouble (3 / 4) := isDouble_quarter _ 3 (by norm_num) (by norm_num)
  have dR : B64.IsDouble (5 / 2) := isDouble_quarter _ 10 (by norm_num) (by norm_num)
  obtain ⟨he, S⟩ := C85_double (G := Unit) (seed := fun _ => ()) (next := fun _ => ()) (canonical := fun _ => (1 / 2, ())) (fun _ => d2) (fun _ => by norm_num)
    (fun _ => by norm_num) dα dR (by norm_num) (by norm_num) (by norm_num) (by norm_num)
  obtain ⟨radii, angles, h⟩ := C85_returns S (B64.libEngine Unit (fun _ => ()) (fun _ => ()) fun _ => (1 / 2, ())) exampleOmp (fun _ => ()) (n := 100) (by norm_num)
    (by norm_num) (seed := 12) (parallel := true) (fun t ht => Or.inr (by
      have : t = 1 := by
        have h' : hyperThreads exampleOmp 100 true = some 1 := by decide
        rw [h'] at ht
        exact (Option.some.inj ht).symm
      omega))
  have hdisk : ((⌈(5 / 2 : ℝ)⌉ : ℤ) : ℝ) ≤ 29 / 20 * (5 / 2) := by
    have : ⌈(5 / 2 : ℝ)⌉ = 3 := by rw [Int.ceil_eq_iff]; norm_num
    rw [this]; norm_num
  have vT : B64.rounded.val (B64.round (XR.fin 0)) = some 0 := B64.round_double (isDouble_quarter 0 0 (by norm_num) (by norm_num))
  obtain ⟨r, a, I, _, _⟩ := C85_hyperbolic S hdisk vT (Or.inl rfl) he (by norm_num) (by norm_num) h
  obtain ⟨g1, g2, _⟩ := C85_hyperbolic_graph S hdisk vT (Or.inl rfl) (C79_levels I exampleClear).1 he (by norm_num) (by norm_num) h
    (exampleHEnv true 1 (by norm_num) (by norm_num)) exampleRngH exampleRngH_rounded (fun _ => ())
  obtain ⟨out, ho⟩ := g1 rfl
  exact ⟨radii, angles, out, h, ho, g2 out ho⟩

end Girgs.Props
