import Verif.Props.ToolParams
import Verif.Props.HyperExact
import Verif.Props.Radius
/-
C63: a run of `genhrg` from the command line to the files.
-/
namespace Girgs.Props
open Cli Spec Tools Output HTree
open XR (fin)

/-- real values behind a list of extended reals -/
theorem reals_of {out : List XR} {P : ℝ → Prop} (h : ∀ x ∈ out, ∃ v : ℝ, x = fin v ∧ P v) : ∃ l : List ℝ, out = xw l ∧ ∀ v ∈ l, P v := by
  induction out with
  | nil => exact ⟨[], rfl, by simp⟩
  | cons x out ih =>
    obtain ⟨v, rfl, hv⟩ := h x (by simp)
    obtain ⟨l, rfl, hl⟩ := ih fun y hy => h y (List.mem_cons_of_mem _ hy)
    exact ⟨v :: l, rfl, by simpa using ⟨hv, hl⟩⟩

theorem setting_int {F : Type} [CFloat F] (m : Machine F) {argv : List String} {k : String} {d x : ℤ} (hd : -2147483648 ≤ d ∧ d ≤ 2147483647)
    (h : Setting argv k m.stoi d x) : -2147483648 ≤ x ∧ x ≤ 2147483647 := by
  rcases h with ⟨v, _, _, h⟩ | ⟨rfl, _⟩
  · exact m.stoi_int v x h
  · exact hd

/-- a run that is not ended by the checks executes the main part -/
theorem hrg_run {F : Type} [CFloat F] {m : Machine F} {argv : List String} {c : HrgConfig F} (hc : readHrg m (parseArgs argv) = some c) {files : List File}
    (h : HrgMain m argv .done files) : wantsHelp argv = false ∧ wantsVersion argv = false ∧ checkHrg m c = none ∧ HrgRun m c .done files := by
  unfold HrgMain at h
  cases h1 : wantsHelp argv with
  | true => rw [h1, if_pos rfl] at h; cases h.1
  | false =>
    rw [h1] at h
    cases h2 : wantsVersion argv with
    | true => rw [h2] at h; simp at h
    | false =>
      rw [h2, hc] at h
      simp only [Bool.false_eq_true, if_false] at h
      cases h3 : checkHrg m c with
      | some name => rw [h3] at h; cases h.1
      | none => rw [h3] at h; exact ⟨rfl, rfl, rfl, h⟩

/-- the main part is executed if the checks pass -/
theorem hrg_main {F : Type} [CFloat F] {m : Machine F} {argv : List String} {c : HrgConfig F} (h1 : wantsHelp argv = false) (h2 : wantsVersion argv = false)
    (hc : readHrg m (parseArgs argv) = some c) (h3 : checkHrg m c = none) {exit : Exit} {files : List File} :
    HrgMain m argv exit files ↔ HrgRun m c exit files := by
  unfold HrgMain
  rw [h1, h2, hc]
  simp only [Bool.false_eq_true, if_false]
  rw [h3]

/-- what `checkHrg` ensures -/
theorem hrg_checked {m : Machine XR} {c : HrgConfig XR} (h : checkHrg m c = none) :
    Accepted c.alpha (Set.Icc (1 / 2) 1) ∧ Accepted c.T (Set.Ico 0 1) ∧ Accepted c.deg (Set.Icc 1 (c.n - 1)) ∧ 1 ≤ c.threads ∧ c.threads ≤ m.maxThreads := by
  have ha : rangeFails c.alpha (CFloat.ofRat (1 / 2)) (CFloat.ofRat 1) false false = false ↔ Accepted c.alpha (Set.Icc (1 / 2) 1) := by
    rw [ofRat_one', show (CFloat.ofRat (1 / 2) : XR) = fin (1 / 2) by rw [XR.ofRat_eq]; norm_num]
    exact rangeFails_accepted fun x => C55_real x _ _ _ _
  have ht : rangeFails c.T (CFloat.ofRat 0) (CFloat.ofRat 1) false true = false ↔ Accepted c.T (Set.Ico 0 1) := by
    rw [ofRat_one', ofRat_zero']
    exact rangeFails_accepted fun x => C55_real x _ _ _ _
  have hd : rangeFails c.deg (CFloat.ofRat 1) (CFloat.ofInt c.n -. CFloat.ofRat 1) false false = false ↔ Accepted c.deg (Set.Icc 1 (c.n - 1)) := by
    rw [ofInt_sub_one, ofRat_one']
    exact rangeFails_accepted fun x => C55_real x _ _ _ _
  have hth : rangeFailsInt c.threads 1 m.maxThreads false false = false ↔ 1 ≤ c.threads ∧ c.threads ≤ m.maxThreads := by
    rw [C55_int]; simp
  unfold checkHrg at h
  rw [← ha, ← ht, ← hd, ← hth]
  split_ifs at h <;> simp_all

theorem accepted_fin {x : ℝ} {S : Set ℝ} (h : Accepted (fin x) S) : x ∈ S := by
  rcases h with h | ⟨y, h, h'⟩
  · cases h
  · cases h'; exact h

/-- the files of a run in which all files could be opened -/
theorem emit_done {fs : List (String × FileResult)} (h : (emit fs).1 = .done) :
    (emit fs).2.map Prod.fst = fs.map Prod.fst ∧ ∀ name t, (name, t) ∈ (emit fs).2 ↔ (name, FileResult.written t) ∈ fs := by
  induction fs with
  | nil => exact ⟨rfl, by simp [emit]⟩
  | cons f fs ih =>
    rcases f with ⟨n, t | _⟩
    · obtain ⟨h1, h2⟩ := ih h
      refine ⟨by simp [emit, h1], fun name t' => ?_⟩
      simp only [emit, List.mem_cons, Prod.mk.injEq, FileResult.written.injEq, h2]
    · simp [emit] at h

theorem suffix_ne {s : String} : s ++ ".txt" ≠ s ++ ".hyp" := by
  intro h
  have := congrArg String.toList h
  simp only [String.toList_append] at this
  have := List.append_cancel_left this
  revert this; decide

/-- the arguments of the hyperbolic sampler in a run of `genhrg` are supported input -/
theorem hrg_input {m : Machine XR} (he : IntervalEngine m.eng) {c : HrgConfig XR} {α T R : ℝ} (hα : c.alpha = fin α) (hα0 : 1 / 2 ≤ α)
    (hT0 : 0 ≤ T) (hn1 : 1 ≤ c.n) (hn31 : c.n ≤ 2147483647) (hR1 : 4 / 3 ≤ R) (hR2 : R ≤ 165 / 4) {radii angles : List XR}
    (hrad : ∃ device, SampleRadii (m.omp c.threads.toNat) m.eng device c.n.toNat c.alpha (fin R) c.rseed (decide (1 < c.threads)) radii)
    (hang : ∃ device, SampleAngles (m.omp c.threads.toNat) m.eng device c.n.toNat c.aseed (decide (1 < c.threads)) angles) :
    ∃ rs as : List ℝ, radii = xw rs ∧ angles = xw as ∧ rs.length = c.n.toNat ∧ as.length = c.n.toNat ∧ (∀ r ∈ rs, 0 < r ∧ r < R) ∧
      (∀ a ∈ as, 0 ≤ a ∧ a < 2 * Real.pi) ∧ HypInput rs as T R := by
  have hcosh : 1 + 1 / 2 ^ 52 < Real.cosh (α * R) := by
    have h1 : 2 / 3 ≤ α * R := by nlinarith
    have h2 := Real.cosh_le_cosh.2 (show |(2 / 3 : ℝ)| ≤ |α * R| by rw [abs_of_nonneg (by norm_num), abs_of_nonneg (by linarith)]; exact h1)
    have h3 : (6 / 5 : ℝ) ≤ Real.cosh (2 / 3) := by
      have := Real.cosh_sq (2 / 3)
      have hs : (2 / 3 : ℝ) ≤ Real.sinh (2 / 3) := Real.self_le_sinh_iff.2 (by norm_num)
      have := Real.one_le_cosh (2 / 3)
      nlinarith
    norm_num at h3 ⊢
    linarith
  obtain ⟨d1, h1⟩ := hrad
  obtain ⟨d2, h2⟩ := hang
  rw [hα] at h1
  obtain ⟨l1, r1⟩ := (C50_range he (by linarith) (by linarith) hcosh).1 _ h1
  obtain ⟨l2, r2⟩ := (C50_range he (by linarith) (by linarith) hcosh).2.1 _ h2
  obtain ⟨rs, rfl, hrs⟩ := reals_of r1
  obtain ⟨as, rfl, has⟩ := reals_of r2
  simp only [xw, List.length_map] at l1 l2
  exact ⟨rs, as, rfl, rfl, l1, l2, hrs, has, ⟨by omega, by omega, by omega, fun r hr => ⟨(hrs r hr).1, (hrs r hr).2.le⟩, has, hT0, Or.inr ⟨hR1, hR2⟩⟩⟩

/-- C63.  A run of `genhrg` that ends normally: there are `n` points with radii in `(0,R)` and angles in `[0,2π)`, where `R` is the estimated radius, and a
simple graph on them, which for temperature 0 consists of the pairs at hyperbolic distance less than `R`; exactly the requested files are written,
edge list first; the edge list file contains exactly this graph and the coordinate file these coordinates (up to `5e-18`). -/
theorem C63_output (m : Machine XR) (he : IntervalEngine m.eng) (hu : UnitRng m.rng) {argv : List String} {c : HrgConfig XR}
    (hc : readHrg m (parseArgs argv) = some c) {α T deg : ℝ} (hα : c.alpha = fin α) (hT : c.T = fin T) (hdeg : c.deg = fin deg)
    (hR : ∀ R, HrgRadius m c R → ∃ r : ℝ, R = fin r ∧ 4 / 3 ≤ r ∧ r ≤ 165 / 4) {files : List File} (h : HrgMain m argv .done files) :
    ∃ (n : ℕ) (R : ℝ) (radii angles : List ℝ) (edges : List (ℕ × ℕ)), c.n = n ∧ HrgRadius m c (fin R) ∧
      radii.length = n ∧ angles.length = n ∧ (∀ r ∈ radii, 0 < r ∧ r < R) ∧ (∀ a ∈ angles, 0 ≤ a ∧ a < 2 * Real.pi) ∧
      IsSimpleGraph n edges ∧ (T = 0 → IsGraphOf n (HypRule radii angles R) edges) ∧
      files.map Prod.fst = (if c.edge then [c.file ++ ".txt"] else []) ++ (if c.coord then [c.file ++ ".hyp"] else []) ∧
      (∀ t, (c.file ++ ".txt", t) ∈ files → readEdgeList t = some ((n : ℤ), edges.map fun e => ((e.1 : ℤ), (e.2 : ℤ)))) ∧
      (PrintsRounded m.printer → ∀ t, (c.file ++ ".hyp", t) ∈ files →
        ∃ coords, readCoords t = some coords ∧ coords.length = n ∧
          ∀ (i : ℕ) (r a : ℝ), radii[i]? = some r → angles[i]? = some a →
            ∃ q s, coords[i]? = some (q, s) ∧ |q - r| ≤ 0.000000000000000005 ∧ |s - a| ≤ 0.000000000000000005) := by
  obtain ⟨h1, h2, h3, R, radii, angles, edges, ⟨hn0, hrad, hsr, hsa, dev, gs, hgs, gens, hg, hE⟩, fs, hfs, hem⟩ := hrg_run hc h
  obtain ⟨R, rfl, hR1, hR2⟩ := hR R hrad
  obtain ⟨ka, kt, kd, _, _⟩ := hrg_checked h3
  rw [hα] at ka; rw [hT] at kt; rw [hdeg] at kd
  have ka := accepted_fin ka
  have kt := accepted_fin kt
  have kd := accepted_fin kd
  have hn2 : 2 ≤ c.n := by
    have := kd.1.trans kd.2
    exact_mod_cast (by linarith : (2 : ℝ) ≤ c.n)
  have hn31 := (setting_int m (by norm_num) ((C62_hrg_settings m argv c).1 hc).1).2
  obtain ⟨rs, as, rfl, rfl, l1, l2, hrs, has, hin⟩ := hrg_input he hα ka.1 kt.1 (by omega) hn31 hR1 hR2 hsr hsa
  rw [hT] at hE
  have hnn : c.n = (c.n.toNat : ℤ) := by omega
  have hsim := C49_simple_graph hin _ _ hu gens _ hE
  rw [l1] at hsim
  have hex : (emit fs).1 = .done := by rw [← hem]
  have hfl : files = (emit fs).2 := by rw [← hem]
  obtain ⟨e1, e2⟩ := emit_done hex
  unfold hrgFiles at hfs
  refine ⟨c.n.toNat, R, rs, as, edges, hnn, hrad, l1, l2, hrs, has, hsim, ?_, ?_, ?_, ?_⟩
  · rintro rfl
    have := C45_threshold_exact hin _ _ hu.geo gens _ hE
    rwa [l1] at this
  · rw [hfl, e1]
    cases hco : c.coord with
    | false =>
      rw [hco] at hfs
      simp only [Bool.false_eq_true, if_false, Option.bind_eq_bind, Option.bind_some, Option.some.injEq] at hfs
      rw [← hfs]
      cases c.edge <;> simp
    | true =>
      rw [hco] at hfs
      simp only [if_true, Option.bind_eq_bind, Option.bind_eq_some_iff, Option.map_eq_some_iff, Option.some.injEq] at hfs
      obtain ⟨_, ⟨r, _, rfl⟩, rfl⟩ := hfs
      cases c.edge <;> simp
  · intro t ht
    rw [hfl, e2] at ht
    have hx : ∀ q ∈ fs, q.1 = c.file ++ ".txt" → q.2 = writeEdgeList (m.canOpen (c.file ++ ".txt")) c.n (intEdges edges) := by
      intro q hq hq1
      cases hco : c.coord with
      | false =>
        rw [hco] at hfs
        simp only [Bool.false_eq_true, if_false, Option.bind_eq_bind, Option.bind_some, Option.some.injEq] at hfs
        rw [← hfs] at hq
        cases hed : c.edge <;> rw [hed] at hq <;> simp at hq
        rw [hq]
      | true =>
        rw [hco] at hfs
        simp only [if_true, Option.bind_eq_bind, Option.bind_eq_some_iff, Option.map_eq_some_iff, Option.some.injEq] at hfs
        obtain ⟨_, ⟨r, _, rfl⟩, rfl⟩ := hfs
        cases hed : c.edge <;> rw [hed] at hq <;> simp at hq
        · rw [hq] at hq1; exact absurd hq1.symm suffix_ne
        · rcases hq with hq | hq
          · rw [hq]
          · rw [hq] at hq1; exact absurd hq1.symm suffix_ne
    have hw := hx _ ht rfl
    simp only at hw
    cases hop : m.canOpen (c.file ++ ".txt") with
    | false => rw [hop, (C34_round_trip _ _).2] at hw; cases hw
    | true =>
      rw [hop] at hw
      obtain ⟨t', ht', hr'⟩ := (C34_round_trip c.n (intEdges edges)).1
      rw [ht'] at hw
      cases hw
      rw [hr', ← hnn]; rfl
  · intro hp t ht
    rw [hfl, e2] at ht
    obtain ⟨t', ht', hr'⟩ := C60_round_trip hp (radii := rs) (angles := as) (by omega)
    have hx : ∀ q ∈ fs, q.1 = c.file ++ ".hyp" → some q.2 = writeCoords m.printer (m.canOpen (c.file ++ ".hyp")) c.n.toNat (xw rs) (xw as) := by
      intro q hq hq1
      cases hco : c.coord with
      | false =>
        rw [hco] at hfs
        simp only [Bool.false_eq_true, if_false, Option.bind_eq_bind, Option.bind_some, Option.some.injEq] at hfs
        rw [← hfs] at hq
        cases hed : c.edge <;> rw [hed] at hq <;> simp at hq
        rw [hq] at hq1; exact absurd hq1 suffix_ne
      | true =>
        rw [hco] at hfs
        simp only [if_true, Option.bind_eq_bind, Option.bind_eq_some_iff, Option.map_eq_some_iff, Option.some.injEq] at hfs
        obtain ⟨_, ⟨r, hr, rfl⟩, rfl⟩ := hfs
        cases hed : c.edge <;> rw [hed] at hq <;> simp at hq
        · rw [hq, hr]
        · rcases hq with hq | hq
          · rw [hq] at hq1; exact absurd hq1 suffix_ne
          · rw [hq, hr]
    have hw := hx _ ht rfl
    simp only at hw
    cases hop : m.canOpen (c.file ++ ".hyp") with
    | false => rw [hop] at hw; simp [writeCoords] at hw
    | true =>
      rw [hop, ← l1] at hw
      unfold xw at hw
      rw [ht'] at hw
      cases hw
      rw [l1] at hr'
      exact hr'

/-- C63, the radius.  For parameters in the documented ranges with `alpha > 1/2`, fewer than `2^30` nodes, and unless `-nkr 1` is used with temperature 0: the
radius is the one at which the expected degree (leading order) is the requested one; it is at least `4/3`, and at most 41.25 if the expected degree at
radius 41.25 is not larger than the requested one. -/
theorem C63_radius (m : Machine XR) {c : HrgConfig XR} {α T deg : ℝ} (hα : c.alpha = fin α) (hT : c.T = fin T) (hdeg : c.deg = fin deg)
    (h3 : checkHrg m c = none) (hα2 : 1 / 2 < α) (hn : c.n < 2 ^ 30) (hnk : c.nkr = false ∨ 0 < T) :
    ∃ R : ℝ, (∀ R', HrgRadius m c R' ↔ R' = fin R) ∧ hrgDegree c.n α T R = deg ∧ 4 / 3 ≤ R ∧ (hrgDegree c.n α T (165 / 4) ≤ deg → R ≤ 165 / 4) := by
  obtain ⟨ka, kt, kd, _, _⟩ := hrg_checked h3
  rw [hα] at ka; rw [hT] at kt; rw [hdeg] at kd
  have ka := accepted_fin ka
  have kt := accepted_fin kt
  have kd := accepted_fin kd
  have hn2 : 2 ≤ c.n := by
    have := kd.1.trans kd.2
    exact_mod_cast (by linarith : (2 : ℝ) ≤ c.n)
  have hd0 : 0 < deg := by linarith [kd.1]
  obtain ⟨R, hR, hdegR⟩ := C51_inverts (n := c.n) (by omega) hn hα2 kt.1 kt.2 hd0
  have hiff : ∀ R', HrgRadius m c R' ↔ R' = fin R := by
    intro R'
    unfold HrgRadius
    rw [hα, hT, hdeg]
    have e : Radius.calculateRadius c.n (fin α) (fin T) (fin deg) = some R' ↔ R' = fin R := by
      rw [hR]; simp [eq_comm]
    rcases hnk with h | h
    · rw [h]; simpa using e
    · split
      · rw [C52_cold (by omega) hn hα2 h kt.2 hd0]; exact e
      · exact e
  refine ⟨R, hiff, (hdegR R).2 rfl, ?_, ?_⟩
  · exact (C51_positive (by omega) hn hα2 ka.2 kt.1 kt.2 hd0 (by linarith [kd.2]) hR).2.le
  · intro h40
    by_contra hc
    push Not at hc
    have e1 := (hdegR R).2 rfl
    unfold hrgDegree at h40 e1
    have hpos : 0 < 2 / Real.pi * xi α ^ 2 * (c.n : ℝ) * (if T = 0 then 1 else Real.pi * T / Real.sin (Real.pi * T)) := by
      by_contra hneg
      push Not at hneg
      have := Real.exp_pos (-R / 2)
      have h5 : 2 / Real.pi * xi α ^ 2 * (c.n : ℝ) * Real.exp (-R / 2) * (if T = 0 then 1 else Real.pi * T / Real.sin (Real.pi * T)) ≤ 0 := by
        have : 2 / Real.pi * xi α ^ 2 * (c.n : ℝ) * Real.exp (-R / 2) * (if T = 0 then 1 else Real.pi * T / Real.sin (Real.pi * T)) =
          (2 / Real.pi * xi α ^ 2 * (c.n : ℝ) * (if T = 0 then 1 else Real.pi * T / Real.sin (Real.pi * T))) * Real.exp (-R / 2) := by ring
        rw [this]
        exact mul_nonpos_of_nonpos_of_nonneg hneg (Real.exp_pos _).le
      linarith
    have hexp : Real.exp (-R / 2) < Real.exp (-(165 / 4) / 2) := Real.exp_lt_exp.2 (by linarith)
    have := mul_lt_mul_of_pos_left hexp hpos
    nlinarith

/-- the samplers of genhrg return -/
theorem hrg_samples (m : Machine XR) {c : HrgConfig XR} {R : XR} (hc : CFloat.ge (CFloat.cosh (c.alpha *. R)) (oneUp : XR) = true)
    (hc' : CFloat.ge (CFloat.cosh ((CFloat.ofRat 1 : XR) *. CFloat.ofRat 10)) (oneUp : XR) = true)
    (hn : 1 ≤ c.n ∧ c.n + 9999 < 2147483648) (hs : c.rseed < 0 ∨ c.rseed + c.threads ≤ 2147483648) (hs' : c.aseed < 0 ∨ c.aseed + c.threads ≤ 2147483648)
    (ht : 1 ≤ c.threads) :
    (∃ device radii, SampleRadii (m.omp c.threads.toNat) m.eng device c.n.toNat c.alpha R c.rseed (decide (1 < c.threads)) radii) ∧
    (∃ device angles, SampleAngles (m.omp c.threads.toNat) m.eng device c.n.toNat c.aseed (decide (1 < c.threads)) angles) := by
  have hth : ∀ t, hyperThreads (m.omp c.threads.toNat) c.n.toNat (decide (1 < c.threads)) = some t → (t : ℤ) ≤ c.threads := by
    intro t
    unfold hyperThreads
    by_cases h1 : 1 < c.threads
    · rw [decide_eq_true h1, if_pos rfl, if_pos (by omega)]
      intro h
      have := Option.some.inj h
      have h2 : t ≤ (m.omp c.threads.toNat).maxThreads := by rw [← this]; exact Nat.min_le_left _ _
      have h3 : (m.omp c.threads.toNat).maxThreads = max 1 c.threads.toNat := rfl
      omega
    · rw [decide_eq_false h1, if_neg (by simp)]
      intro h
      have := Option.some.inj h
      omega
  constructor
  · obtain ⟨_, _, radii, angles, _, _, _, h, _⟩ := C50_executions (m.omp c.threads.toNat) m.eng (fun _ => m.eng.seed 0) true false c.n.toNat c.alpha R c.rseed
      (decide (1 < c.threads)) (fun _ => by omega) hc (fun t h => by
        have := hth t h
        rcases hs with h | h
        · exact Or.inl h
        · exact Or.inr (by omega))
    exact ⟨_, radii, angles, (h _).2 rfl⟩
  · obtain ⟨_, _, radii, angles, _, _, _, h, _⟩ := C50_executions (m.omp c.threads.toNat) m.eng (fun _ => m.eng.seed 0) false true c.n.toNat
      (CFloat.ofRat 1) (CFloat.ofRat 10) c.aseed (decide (1 < c.threads)) (fun _ => by omega) hc' (fun t h => by
        have := hth t h
        rcases hs' with h | h
        · exact Or.inl h
        · exact Or.inr (by omega))
    exact ⟨_, angles, radii, (h _).2 rfl⟩

theorem xr_ge {a b : ℝ} (h : b ≤ a) : CFloat.ge (fin a) (fin b) = true := by
  simpa [CFloat.ge, CFloat.lt, CFloat.eq, XR.lt, XR.eq] using by
    rcases h.lt_or_eq with h | h
    · exact Or.inl h
    · exact Or.inr h.symm

theorem xr_cosh (x : ℝ) : CFloat.cosh (fin x) = fin (Real.cosh x) := rfl

theorem emit_all {fs : List (String × FileResult)} (h : ∀ f ∈ fs, ∃ t, f.2 = .written t) : (emit fs).1 = .done := by
  induction fs with
  | nil => rfl
  | cons f fs ih =>
    obtain ⟨t, ht⟩ := h f (by simp)
    rcases f with ⟨n, r⟩
    simp only at ht
    subst ht
    exact ih fun f hf => h f (List.mem_cons_of_mem _ hf)

theorem emit_none {fs : List (String × FileResult)} (h : (emit fs).1 = .done) : ∀ f ∈ fs, ∃ t, f.2 = .written t := by
  induction fs with
  | nil => simp
  | cons f fs ih =>
    rcases f with ⟨n, t | _⟩
    · intro f hf
      rcases List.mem_cons.1 hf with rfl | hf
      · exact ⟨t, rfl⟩
      · exact ih h f hf
    · simp [emit] at h

/-- C63, termination.  For a supported radius and fewer than `2^31-9999` nodes, `genhrg` can end normally if and only if the requested files can be
opened, and the sampler returns (C44): there is one thread, or with `L = ⌈log2(2 threads)⌉` two points of radius `R-1` at angle `π/2^(L-1)` are more than `R`
apart. -/
theorem C63_returns_iff (m : Machine XR) (he : IntervalEngine m.eng) (hu : UnitRng m.rng) {argv : List String} {c : HrgConfig XR}
    (h1 : wantsHelp argv = false) (h2 : wantsVersion argv = false)
    (hc : readHrg m (parseArgs argv) = some c) (h3 : checkHrg m c = none) {α T deg R : ℝ} (hα : c.alpha = fin α) (hT : c.T = fin T) (hdeg : c.deg = fin deg)
    (hR : ∀ R', HrgRadius m c R' ↔ R' = fin R) (hR1 : 4 / 3 ≤ R) (hR2 : R ≤ 165 / 4) (hn : c.n + 9999 < 2147483648)
    (hs : c.rseed < 0 ∨ c.rseed + c.threads ≤ 2147483648) (hs' : c.aseed < 0 ∨ c.aseed + c.threads ≤ 2147483648) :
    (∃ files, HrgMain m argv .done files) ↔
      (c.edge = true → m.canOpen (c.file ++ ".txt") = true) ∧ (c.coord = true → m.canOpen (c.file ++ ".hyp") = true) ∧
      (c.threads = 1 ∨ Real.cosh R < hypCosh (R - 1) (Real.pi / 2 ^ (⌈Real.logb 2 (2 * c.threads)⌉.toNat - 1)) (R - 1) 0) := by
  obtain ⟨ka, kt, kd, th1, th2⟩ := hrg_checked h3
  rw [hα] at ka; rw [hT] at kt; rw [hdeg] at kd
  have ka := accepted_fin ka
  have kt := accepted_fin kt
  have kd := accepted_fin kd
  have hn2 : 2 ≤ c.n := by
    have := kd.1.trans kd.2
    exact_mod_cast (by linarith : (2 : ℝ) ≤ c.n)
  have henv : (m.henv c.threads.toNat).threads = c.threads.toNat := by
    show max 1 (min c.threads.toNat 8388608) = _
    have := m.max_le
    omega
  -- when the sampler returns
  have key : ∀ rs as : List ℝ, HypInput rs as T R → ∀ gens : ℕ → m.rng.G,
      ((∃ out, HGenerateEdges (m.henv c.threads.toNat) m.rng gens (xw rs) (xw as) (fin T) (fin R) out) ↔
        (c.threads = 1 ∨ Real.cosh R < hypCosh (R - 1) (Real.pi / 2 ^ (⌈Real.logb 2 (2 * c.threads)⌉.toNat - 1)) (R - 1) 0)) := by
    intro rs as hin gens
    rw [C44_returns_iff hin _ _ hu gens, henv]
    by_cases ht : c.threads.toNat = 1
    · exact ⟨fun _ => Or.inl (by omega), fun _ => Or.inl ht⟩
    · have e := (hstartOK_XR (m.henv c.threads.toNat)).eq (by rw [henv]; exact ht)
      rw [henv] at e
      have hcast : ((c.threads.toNat : ℕ) : ℝ) = (c.threads : ℝ) := by
        have : ((c.threads.toNat : ℕ) : ℤ) = c.threads := by omega
        exact_mod_cast this
      have hL : startLevel c.threads.toNat = ⌈Real.logb 2 (2 * c.threads)⌉.toNat := by
        unfold startLevel
        rw [if_neg ht, hcast]
      rw [e, hL]
      constructor
      · rintro (h | ⟨L, h, h'⟩)
        · exact absurd h ht
        · rw [← Option.some.inj h] at h'
          exact Or.inr h'
      · rintro (h | h)
        · omega
        · exact Or.inr ⟨_, rfl, h⟩
  constructor
  · rintro ⟨files, h⟩
    obtain ⟨_, _, _, R', radii, angles, edges, ⟨hn0, hrad, hsr, hsa, dev, gs, hgs, gens, hg, hE⟩, fs, hfs, hem⟩ := hrg_run hc h
    rw [(hR R').1 hrad] at hsr hE
    obtain ⟨rs, as, rfl, rfl, l1, l2, hrs, has, hin⟩ := hrg_input he hα ka.1 kt.1 (by omega) (by omega) hR1 hR2 hsr hsa
    rw [hT] at hE
    have hex : (emit fs).1 = .done := by rw [← hem]
    have hwr := emit_none hex
    unfold hrgFiles at hfs
    refine ⟨?_, ?_, (key rs as hin gens).1 ⟨_, hE⟩⟩
    · intro hed
      have : (c.file ++ ".txt", writeEdgeList (m.canOpen (c.file ++ ".txt")) c.n (intEdges edges)) ∈ fs := by
        rw [hed] at hfs
        cases hcc : c.coord with
        | false =>
          rw [hcc] at hfs
          simp only [Bool.false_eq_true, if_false, if_true, Option.bind_eq_bind, Option.bind_some, Option.some.injEq] at hfs
          rw [← hfs]; simp
        | true =>
          rw [hcc] at hfs
          simp only [if_true, Option.bind_eq_bind, Option.bind_eq_some_iff, Option.map_eq_some_iff, Option.some.injEq] at hfs
          obtain ⟨_, _, rfl⟩ := hfs
          simp
      obtain ⟨t, ht⟩ := hwr _ this
      by_contra hno
      simp only [Bool.not_eq_true] at hno
      rw [hno] at ht
      cases ht
    · intro hco
      rw [hco] at hfs
      simp only [if_true, Option.bind_eq_bind, Option.bind_eq_some_iff, Option.map_eq_some_iff, Option.some.injEq] at hfs
      obtain ⟨_, ⟨r, hr, rfl⟩, rfl⟩ := hfs
      obtain ⟨t, ht⟩ := hwr (c.file ++ ".hyp", r) (by simp)
      simp only at ht
      subst ht
      by_contra hno
      simp only [Bool.not_eq_true] at hno
      rw [hno] at hr
      cases hr
  · rintro ⟨hed, hco, hret⟩
    have hge : CFloat.ge (CFloat.cosh (c.alpha *. fin R)) (oneUp : XR) = true := by
      rw [hα, XR.mul_fin, xr_cosh, oneUp_eq]
      refine xr_ge ?_
      have h1 : 2 / 3 ≤ α * R := by nlinarith [ka.1]
      have h2 := Real.cosh_le_cosh.2 (show |(2 / 3 : ℝ)| ≤ |α * R| by rw [abs_of_nonneg (by norm_num), abs_of_nonneg (by linarith)]; exact h1)
      have h3 : (6 / 5 : ℝ) ≤ Real.cosh (2 / 3) := by
        have := Real.cosh_sq (2 / 3)
        have hs : (2 / 3 : ℝ) ≤ Real.sinh (2 / 3) := Real.self_le_sinh_iff.2 (by norm_num)
        have := Real.one_le_cosh (2 / 3)
        nlinarith
      norm_num at h3 ⊢
      linarith
    have hge' : CFloat.ge (CFloat.cosh ((CFloat.ofRat 1 : XR) *. CFloat.ofRat 10)) (oneUp : XR) = true := by
      rw [XR.ofRat_eq, XR.ofRat_eq, XR.mul_fin, xr_cosh, oneUp_eq]
      refine xr_ge ?_
      have hs : (10 : ℝ) ≤ Real.sinh 10 := Real.self_le_sinh_iff.2 (by norm_num)
      have := Real.sinh_lt_cosh 10
      have : (10 : ℝ) ≤ Real.cosh 10 := hs.trans this.le
      norm_num at this ⊢
      linarith
    obtain ⟨⟨dr, radii, hsr⟩, ⟨da, angles, hsa⟩⟩ := hrg_samples m hge hge' ⟨by omega, hn⟩ hs hs' th1
    obtain ⟨rs, as, rfl, rfl, l1, l2, hrs, has, hin⟩ := hrg_input he hα ka.1 kt.1 (by omega) (by omega) hR1 hR2 ⟨dr, hsr⟩ ⟨da, hsa⟩
    obtain ⟨gs, hgs⟩ : ∃ gs, m.hyperEngine.gens XR (m.henv c.threads.toNat).threads c.sseed 0 = some gs := by
      by_cases ht : c.threads.toNat = 1
      · rw [henv, ht]; exact ⟨_, rfl⟩
      · obtain ⟨_, _, _, _, _, _, _, _, _, _, hh⟩ := C42_task_count (m.henv c.threads.toNat) (by rw [henv]; omega)
        obtain ⟨gs, h, _⟩ := hh m.hyperEngine c.sseed 0
        exact ⟨gs, h⟩
    obtain ⟨edges, hE⟩ := (key rs as hin (fun k => (gs[k]?).getD (m.hyperEngine.seed 0))).2 hret
    rw [← hT] at hE
    have hdata : HrgData m c (fin R) (xw rs) (xw as) edges :=
      ⟨by omega, (hR _).2 rfl, ⟨dr, hsr⟩, ⟨da, hsa⟩, 0, gs, hgs, _, fun k g hk => by simp [hk], hE⟩
    -- the files
    have hfs : ∃ fs, hrgFiles m c (xw rs) (xw as) edges = some fs ∧ ∀ f ∈ fs, ∃ t, f.2 = .written t := by
      have ht : c.edge = true → ∃ t, writeEdgeList (m.canOpen (c.file ++ ".txt")) c.n (intEdges edges) = .written t := by
        intro h
        rw [hed h]
        exact ⟨_, rfl⟩
      unfold hrgFiles
      cases hcc : c.coord with
      | false =>
        simp only [Bool.false_eq_true, if_false, Option.bind_eq_bind, Option.bind_some, Option.some.injEq]
        refine ⟨_, rfl, ?_⟩
        cases hee : c.edge with
        | false => simp
        | true => simpa using ht hee
      | true =>
        have hw : ∃ t, writeCoords m.printer true c.n.toNat (xw rs) (xw as) = some (.written t) := by
          have := coordLines_eq m.printer (xw rs) (xw as) (List.range c.n.toNat) (fun i hi => by simpa [xw, l1] using hi)
            (fun i hi => by simpa [xw, l2] using hi)
          unfold writeCoords
          rw [if_pos rfl, this]
          exact ⟨_, rfl⟩
        obtain ⟨t, hw⟩ := hw
        simp only [if_true, hco hcc, hw, Option.map_some, Option.bind_eq_bind, Option.bind_some, Option.some.injEq]
        refine ⟨_, rfl, ?_⟩
        cases hee : c.edge with
        | false => simp
        | true => simpa using ht hee
    obtain ⟨fs, hfs, hall⟩ := hfs
    refine ⟨(emit fs).2, (hrg_main h1 h2 hc h3).2 ⟨_, _, _, _, hdata, fs, hfs, ?_⟩⟩
    rw [← emit_all hall]

/-- an example of a command line -/
def hrgArgs : List String := ["genhrg", "-n", "100", "-deg", "3", "-edge", "1", "-coord", "1"]

noncomputable def hrgExample : HrgConfig XR := ⟨100, fin (3 / 4), fin 0, fin 3, 12, 130, 1400, 1, false, "graph", true, true⟩

theorem hrgExample_read : readHrg exampleMachine (parseArgs hrgArgs) = some hrgExample := by
  have e1 : (CFloat.ofRat (3 / 4) : XR) = fin (3 / 4) := by rw [XR.ofRat_eq]; norm_num
  unfold hrgExample
  rw [← ofRat_zero', ← e1]
  simp [readHrg, getOr, flag, parseArgs, parseFrom, assign, optionName, exampleMachine, hrgArgs]

theorem hrgExample_check : checkHrg exampleMachine hrgExample = none := by
  have e1 : (CFloat.ofRat (1 / 2) : XR) = fin (1 / 2) := by rw [XR.ofRat_eq]; norm_num
  unfold checkHrg hrgExample
  simp only [ofInt_sub_one]
  rw [e1, ofRat_one', ofRat_zero', (C55_real (3 / 4) (1 / 2) 1 false false).2 (by norm_num), (C55_real 0 0 1 false true).2 (by norm_num),
    (C55_real 3 1 _ false false).2 (by norm_num), (C55_int 1 1 _ false false).2 (by simp [exampleMachine])]
  rfl

theorem hrgExample_radius : ∃ R : ℝ, (∀ R', HrgRadius exampleMachine hrgExample R' ↔ R' = fin R) ∧ 4 / 3 ≤ R ∧ R ≤ 165 / 4 := by
  obtain ⟨R, hR, _, hR1, hR2⟩ := C63_radius exampleMachine (c := hrgExample) rfl rfl rfl hrgExample_check (by norm_num)
    (by norm_num [hrgExample]) (Or.inl rfl)
  refine ⟨R, hR, hR1, hR2 ?_⟩
  unfold hrgDegree xi
  rw [if_pos rfl]
  have h1 : Real.exp (-(165 / 4) / 2) ≤ 1 / 2 ^ 20 := by
    refine le_trans (Real.exp_le_exp.2 (by norm_num : (-(165 / 4) / 2 : ℝ) ≤ -20)) ?_
    rw [Real.exp_neg, ← one_div]
    refine one_div_le_one_div_of_le (by positivity) ?_
    have : Real.exp 20 = Real.exp 1 ^ 20 := by rw [← Real.exp_nat_mul]; norm_num
    rw [this]
    exact pow_le_pow_left₀ (by norm_num) (by linarith [Real.add_one_le_exp (1 : ℝ)]) _
  have h2 : 2 / Real.pi ≤ 1 := by rw [div_le_one Real.pi_pos]; linarith [Real.pi_gt_three]
  have h3 : 0 < 2 / Real.pi := by positivity
  have h4 := Real.exp_pos (-(165 / 4) / 2)
  have : 2 / Real.pi * Real.exp (-(165 / 4) / 2) ≤ 1 * (1 / 2 ^ 20) := mul_le_mul h2 h1 h4.le zero_le_one
  norm_num [hrgExample] at this ⊢
  nlinarith

/-- the hypotheses of C63 are met: with 100 nodes and degree 3 both files are written -/
theorem hrgExample_run : ∃ t t', HrgMain exampleMachine hrgArgs .done [("graph.txt", t), ("graph.hyp", t')] := by
  obtain ⟨R, hR, hR1, h40⟩ := hrgExample_radius
  obtain ⟨files, h⟩ := (C63_returns_iff exampleMachine exampleEngine_interval exampleRng_unit rfl rfl hrgExample_read hrgExample_check rfl rfl rfl hR hR1 h40
    (by norm_num [hrgExample]) (Or.inr (by norm_num [hrgExample])) (Or.inr (by norm_num [hrgExample]))).2 ⟨fun _ => rfl, fun _ => rfl, Or.inl rfl⟩
  obtain ⟨_, _, _, _, _, _, _, _, _, _, _, _, _, hf, _⟩ := C63_output exampleMachine exampleEngine_interval exampleRng_unit hrgExample_read rfl rfl rfl
    (fun R' h => ⟨R, (hR R').1 h, hR1, h40⟩) h
  simp only [hrgExample, if_true] at hf
  rcases files with _ | ⟨⟨a, t⟩, _ | ⟨⟨b, t'⟩, _ | ⟨_, _⟩⟩⟩ <;> simp at hf
  obtain ⟨rfl, rfl⟩ := hf
  exact ⟨t, t', h⟩

end Girgs.Props
