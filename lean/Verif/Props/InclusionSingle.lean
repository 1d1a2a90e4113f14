import Verif.Props.InclusionPart
/-
C75: the output of inclusion_single.
-/
namespace Girgs
namespace Props
open Spec Tree Real Tools Inclusion Cli Examples
open XR (fin)

/-- the hyperbolic random graph of an inclusion tool -/
theorem hrg_part {m : Machine XR} (he : IntervalEngine m.eng) (hu : UnitRng m.rng) {threads : ℕ} {n : ℤ} {α R : ℝ} {rseed aseed : ℤ}
    (hα0 : 1 / 2 ≤ α) (hn1 : 1 ≤ n) (hn31 : n ≤ 2147483647) (hR1 : 4 / 3 ≤ R) (hR2 : R ≤ 165 / 4) {radii angles : List XR} {edges : List (ℕ × ℕ)}
    (h : HrgPart m threads n (fin α) (fin R) rseed aseed radii angles edges) :
    ∃ rs as : List ℝ, radii = xw rs ∧ angles = xw as ∧ rs.length = n.toNat ∧ as.length = n.toNat ∧ (∀ r ∈ rs, 0 < r ∧ r < R) ∧
      (∀ a ∈ as, 0 ≤ a ∧ a < 2 * π) ∧ HypInput rs as 0 R ∧ IsGraphOf n.toNat (HypRule rs as R) edges := by
  obtain ⟨_, ⟨d1, h1⟩, ⟨d2, h2⟩, dev, gs, hgs, gens, hg, hE⟩ := h
  have hcosh : 1 + 1 / 2 ^ 52 < cosh (α * R) := by
    have h1 : 2 / 3 ≤ α * R := by nlinarith
    have h2 := cosh_le_cosh.2 (show |(2 / 3 : ℝ)| ≤ |α * R| by rw [abs_of_nonneg (by norm_num), abs_of_nonneg (by linarith)]; exact h1)
    have h3 : (6 / 5 : ℝ) ≤ cosh (2 / 3) := by
      have := cosh_sq (2 / 3)
      have hs : (2 / 3 : ℝ) ≤ sinh (2 / 3) := self_le_sinh_iff.2 (by norm_num)
      have := one_le_cosh (2 / 3)
      nlinarith
    norm_num at h3 ⊢
    linarith
  obtain ⟨l1, r1⟩ := (C50_range he (by linarith) (by linarith) hcosh).1 _ h1
  obtain ⟨l2, r2⟩ := (C50_range he (by linarith) (by linarith) hcosh).2.1 _ h2
  obtain ⟨rs, rfl, hrs⟩ := reals_of r1
  obtain ⟨as, rfl, has⟩ := reals_of r2
  simp only [xw, List.length_map] at l1 l2
  have hin : HypInput rs as 0 R :=
    ⟨by omega, by omega, by omega, fun r hr => ⟨(hrs r hr).1, (hrs r hr).2.le⟩, has, le_rfl, Or.inr ⟨hR1, hR2⟩⟩
  rw [ofRat_zero'] at hE
  have := C45_threshold_exact hin _ _ hu.geo gens _ hE
  rw [l1] at this
  exact ⟨rs, as, rfl, rfl, l1, l2, hrs, has, hin, this⟩

/-- the size condition for exactness of the GIRG sampler, in terms of the weights before scaling -/
def SizeOk (radii : List ℝ) (R d : ℝ) : Prop := 2 * (convWeights radii R).sum ^ 2 < 2 ^ 29 * (d - 2 / 100) * radii.length

/-- What a line of the output for the desired degree `d` means: `d` is a possible degree, the scaling `k` makes `d` the expected average degree of the GIRG
(up to `0.02 + 1/n`), and the three numbers count the pairs of nodes that are connected in the hyperbolic random graph but not in the GIRG with scaling `k`, in
this GIRG but not in the hyperbolic random graph, and in this GIRG. -/
def RowCorrect (radii angles : List ℝ) (R d : ℝ) (row : Row XR) : Prop :=
  row.deg = fin d ∧ 0 < d ∧ d ≤ radii.length - 1 ∧ ∃ k : ℝ, 0 < k ∧ row.scaling = fin k ∧
    d - 2 / 100 ≤ thresholdGirgDegree 1 ((convWeights radii R).map (· * k)) ∧
    thresholdGirgDegree 1 ((convWeights radii R).map (· * k)) < d + 2 / 100 + 1 / radii.length ∧
    (SizeOk radii R d →
      row.hrgOnly = pairCount radii.length (fun u v => HypRule radii angles R u v ∧ ¬ ConvRule radii angles R k u v) ∧
      row.girgOnly = pairCount radii.length (fun u v => ConvRule radii angles R k u v ∧ ¬ HypRule radii angles R u v) ∧
      row.girgEdges = pairCount radii.length (ConvRule radii angles R k))

theorem convRule_symm {radii angles : List ℝ} {R k : ℝ} {u v : ℕ} (h : ConvRule radii angles R k u v) : ConvRule radii angles R k v u := ThresholdRule.symm h

/-- one call of `diff` -/
theorem single_diff {m : Machine XR} (hu : UnitRng m.rng) {radii angles : List ℝ} {T R : ℝ} (hin : HypInput radii angles T R) (h2 : 2 ≤ radii.length)
    {edges : List (ℕ × ℕ)} (hg : IsGraphOf radii.length (HypRule radii angles R) edges) {g hrg : List Edge} (e1 : createReverseEdges (intEdges edges) = some g)
    (hs : Sorted g hrg) {d : ℝ} {sub : List Edge × List Edge} {row : Row XR}
    (h : SingleDiff m (girgWeights (xw radii) (fin R)) (girgPositions (xw angles)) hrg (fin d) sub row) :
    RowCorrect radii angles R d row ∧ (SizeOk radii R d → (sub.1 = [] ↔ row.hrgOnly = 0) ∧ (sub.2 = [] ↔ row.girgOnly = 0)) := by
  obtain ⟨s, es, hpart, g', e2, sorted, hs', rfl, rfl⟩ := h
  obtain ⟨k, hk, rfl, hd0, hdn, q1, q2, _, q3⟩ := conv_part hu hin h2 hpart
  have key : SizeOk radii R d → _ := fun hsz =>
    single_counts (fun u v h => hypRule_symm h) (fun u v h => convRule_symm h) hg (q3 hsz) e1 e2 hs hs'
  refine ⟨⟨rfl, hd0, hdn, k, hk, rfl, q1, q2, fun hsz => ?_⟩, fun hsz => ?_⟩
  · obtain ⟨c1, c2, c3⟩ := key hsz
    refine ⟨?_, ?_, ?_⟩
    · show (edgeDiff hrg sorted).1.length / 2 = _; rw [c1]; omega
    · show (edgeDiff hrg sorted).2.length / 2 = _; rw [c2]; omega
    · show sorted.length / 2 = _; rw [c3]; exact Nat.mul_div_cancel_left _ (by norm_num)
  · obtain ⟨c1, c2, c3⟩ := key hsz
    constructor
    · show _ ↔ (edgeDiff hrg sorted).1.length / 2 = 0
      rw [← List.length_eq_zero_iff, c1]; omega
    · show _ ↔ (edgeDiff hrg sorted).2.length / 2 = 0
      rw [← List.length_eq_zero_iff, c2]; omega

/-- the first loop -/
theorem search_up {diff : XR → List Edge × List Edge → Row XR → Prop} {C : ℝ → Row XR → Prop} {S : ℝ → Prop} {deg step : ℝ}
    (hd : ∀ d sub row, diff (fin d) sub row → C d row ∧ (S d → (sub.1 = [] ↔ row.hrgOnly = 0) ∧ (sub.2 = [] ↔ row.girgOnly = 0)))
    {x : XR} {rows : List (Row XR)} (h : SearchUp diff (fin deg) (fin step) x rows) : ∀ {high : ℝ}, x = fin high →
    rows ≠ [] ∧ ∀ (i : ℕ) row, rows[i]? = some row → C (deg + (high + i * step)) row ∧
      (S (deg + (high + i * step)) → (row.hrgOnly = 0 ↔ i + 1 = rows.length)) := by
  induction h with
  | @stop x sub row h1 h2 =>
    rintro high rfl
    refine ⟨by simp, fun i r hi => ?_⟩
    cases i with
    | succ i => simp at hi
    | zero =>
      simp only [List.getElem?_cons_zero, Option.some.injEq] at hi
      subst hi
      rw [XR.add_fin] at h1
      obtain ⟨a, b⟩ := hd _ _ _ h1
      refine ⟨by simpa using a, fun hS => ?_⟩
      have := (b (by simpa using hS)).1
      simp [← this, h2]
  | @next x sub row rows h1 h2 _ ih =>
    rintro high rfl
    obtain ⟨i1, i2⟩ := ih (high := high + step) (by rw [XR.add_fin])
    refine ⟨by simp, fun i r hi => ?_⟩
    cases i with
    | succ i =>
      rw [List.getElem?_cons_succ] at hi
      obtain ⟨a, b⟩ := i2 i r hi
      have e : deg + (high + step + i * step) = deg + (high + (i + 1 : ℕ) * step) := by push_cast; ring
      rw [e] at a b
      refine ⟨a, fun hS => ?_⟩
      rw [b hS]; simp
    | zero =>
      simp only [List.getElem?_cons_zero, Option.some.injEq] at hi
      subst hi
      rw [XR.add_fin] at h1
      obtain ⟨a, b⟩ := hd _ _ _ h1
      refine ⟨by simpa using a, fun hS => ?_⟩
      have := (b (by simpa using hS)).1
      rw [← this]
      simp [h2, i1]

/-- the second loop -/
theorem search_down {diff : XR → List Edge × List Edge → Row XR → Prop} {C : ℝ → Row XR → Prop} {S : ℝ → Prop} {deg step : ℝ}
    (hd : ∀ d sub row, diff (fin d) sub row → C d row ∧ (S d → (sub.1 = [] ↔ row.hrgOnly = 0) ∧ (sub.2 = [] ↔ row.girgOnly = 0)))
    {x : XR} {rows : List (Row XR)} (h : SearchDown diff (fin deg) (fin step) x rows) : ∀ {low : ℝ}, x = fin low →
    rows ≠ [] ∧ ∀ (i : ℕ) row, rows[i]? = some row → C (deg + (low - i * step)) row ∧
      (S (deg + (low - i * step)) → (row.girgOnly = 0 ↔ i + 1 = rows.length)) := by
  induction h with
  | @stop x sub row h1 h2 =>
    rintro low rfl
    refine ⟨by simp, fun i r hi => ?_⟩
    cases i with
    | succ i => simp at hi
    | zero =>
      simp only [List.getElem?_cons_zero, Option.some.injEq] at hi
      subst hi
      rw [XR.add_fin] at h1
      obtain ⟨a, b⟩ := hd _ _ _ h1
      refine ⟨by simpa using a, fun hS => ?_⟩
      have := (b (by simpa using hS)).2
      simp [← this, h2]
  | @next x sub row rows h1 h2 _ ih =>
    rintro low rfl
    obtain ⟨i1, i2⟩ := ih (low := low - step) (by rw [XR.sub_fin])
    refine ⟨by simp, fun i r hi => ?_⟩
    cases i with
    | succ i =>
      rw [List.getElem?_cons_succ] at hi
      obtain ⟨a, b⟩ := i2 i r hi
      have e : deg + (low - step - i * step) = deg + (low - (i + 1 : ℕ) * step) := by push_cast; ring
      rw [e] at a b
      refine ⟨a, fun hS => ?_⟩
      rw [b hS]; simp
    | zero =>
      simp only [List.getElem?_cons_zero, Option.some.injEq] at hi
      subst hi
      rw [XR.add_fin] at h1
      obtain ⟨a, b⟩ := hd _ _ _ h1
      refine ⟨by simpa using a, fun hS => ?_⟩
      have := (b (by simpa using hS)).2
      rw [← this]
      simp [h2, i1]

theorem single_run {m : Machine XR} {argv : List String} {c : SingleConfig XR} (hc : readSingle m (parseArgs argv) = some c) {rows : List (Row XR)}
    (h : SingleMain m argv .done rows) : wantsHelp argv = false ∧ checkSingle c = none ∧ SingleRun m c rows := by
  unfold SingleMain at h
  cases h1 : wantsHelp argv with
  | true => rw [h1, if_pos rfl] at h; cases h.1
  | false =>
    rw [h1, if_neg (by simp), hc] at h
    simp only at h
    cases h2 : checkSingle c with
    | some x => rw [h2] at h; cases h.1
    | none => rw [h2] at h; exact ⟨rfl, rfl, h.2⟩

theorem single_checked {c : SingleConfig XR} (h : checkSingle c = none) : Accepted c.alpha (Set.Icc (1 / 2) 1) ∧ Accepted c.deg (Set.Icc 1 (c.n - 1)) := by
  have ha : rangeFails c.alpha (CFloat.ofRat (1 / 2)) (CFloat.ofRat 1) false false = false ↔ Accepted c.alpha (Set.Icc (1 / 2) 1) := by
    rw [ofRat_one', show (CFloat.ofRat (1 / 2) : XR) = fin (1 / 2) by rw [XR.ofRat_eq]; norm_num]
    exact rangeFails_accepted fun x => C55_real x _ _ _ _
  have hd : rangeFails c.deg (CFloat.ofRat 1) (CFloat.ofInt c.n -. CFloat.ofRat 1) false false = false ↔ Accepted c.deg (Set.Icc 1 (c.n - 1)) := by
    rw [ofInt_sub_one, ofRat_one']
    exact rangeFails_accepted fun x => C55_real x _ _ _ _
  unfold checkSingle at h
  rw [← ha, ← hd]
  split_ifs at h <;> simp_all

theorem readSingle_int {m : Machine XR} {p : Params} {c : SingleConfig XR} (h : readSingle m p = some c) : c.n ≤ 2147483647 := by
  unfold readSingle at h
  simp only [Option.bind_eq_bind, Option.bind_eq_some_iff] at h
  obtain ⟨n, hn, _, _, _, _, _, _, _, _, _, _, _, _, h⟩ := h
  simp only [Option.some.injEq] at h
  rw [← h]
  unfold getOr at hn
  split at hn
  · cases hn; norm_num
  · split_ifs at hn
    · cases hn; norm_num
    · exact (m.stoi_int _ _ hn).2

/-- C75.  A run of `inclusion_single` that ends normally: there are `n` points of a hyperbolic random graph in the disk of the calculated radius `R`.  The
lines of the output are those of the search upwards followed by those of the search downwards, both at least one: the degrees are `deg + odeg`,
`deg + odeg + step`, … and `deg + odeg - step`, `deg + odeg - 2 step`, ….  Each line is correct (`RowCorrect`), so all degrees lie in `(0, n-1]`.  The search
upwards ends exactly at the first line in which no edge of the hyperbolic random graph is missing in the GIRG, the search downwards at the first line in
which no edge of the GIRG is missing in the hyperbolic random graph. -/
theorem C75_output (m : Machine XR) (he : IntervalEngine m.eng) (hu : UnitRng m.rng) {argv : List String} {c : SingleConfig XR}
    (hc : readSingle m (parseArgs argv) = some c) {α deg odeg step : ℝ} (hα : c.alpha = fin α) (hdeg : c.deg = fin deg) (ho : c.odeg = fin odeg)
    (hst : c.step = fin step)
    (hR : ∀ R, Radius.calculateRadius c.n c.alpha (fin 0) c.deg = some R → ∃ r : ℝ, R = fin r ∧ 4 / 3 ≤ r ∧ r ≤ 165 / 4) {rows : List (Row XR)}
    (h : SingleMain m argv .done rows) :
    ∃ (n : ℕ) (R : ℝ) (radii angles : List ℝ) (ups downs : List (Row XR)), c.n = n ∧ Radius.calculateRadius c.n c.alpha (fin 0) c.deg = some (fin R) ∧
      radii.length = n ∧ angles.length = n ∧ (∀ r ∈ radii, 0 < r ∧ r < R) ∧ (∀ a ∈ angles, 0 ≤ a ∧ a < 2 * π) ∧ rows = ups ++ downs ∧
      ups ≠ [] ∧ downs ≠ [] ∧
      (∀ (i : ℕ) row, ups[i]? = some row → RowCorrect radii angles R (deg + odeg + i * step) row ∧
        (SizeOk radii R (deg + odeg + i * step) → (row.hrgOnly = 0 ↔ i + 1 = ups.length))) ∧
      (∀ (i : ℕ) row, downs[i]? = some row → RowCorrect radii angles R (deg + odeg - (i + 1) * step) row ∧
        (SizeOk radii R (deg + odeg - (i + 1) * step) → (row.girgOnly = 0 ↔ i + 1 = downs.length))) := by
  obtain ⟨_, h2, R, radii, angles, edges, hrad, hpart, g, hg, hrg, hs, ups, downs, hup, hdown, rfl⟩ := single_run hc h
  obtain ⟨ka, kd⟩ := single_checked h2
  rw [hα] at ka; rw [hdeg] at kd
  have ka := accepted_fin ka
  have kd := accepted_fin kd
  have hn2 : 2 ≤ c.n := by
    have := kd.1.trans kd.2
    exact_mod_cast (by linarith : (2 : ℝ) ≤ c.n)
  have hn31 := readSingle_int hc
  rw [ofRat_zero'] at hrad
  obtain ⟨R, rfl, hR1, hR2⟩ := hR R hrad
  rw [hα] at hpart
  obtain ⟨rs, as, rfl, rfl, l1, l2, hrs, has, hin, hgraph⟩ := hrg_part he hu ka.1 (by omega) hn31 hR1 hR2 hpart
  rw [← l1] at hgraph
  have hd := fun (d : ℝ) sub row (h : SingleDiff m _ _ hrg (fin d) sub row) => single_diff hu hin (by omega) hgraph hg hs h
  rw [hdeg, hst, ho] at hup hdown
  obtain ⟨u1, u2⟩ := search_up hd hup rfl
  obtain ⟨d1, d2⟩ := search_down hd hdown (XR.sub_fin odeg step)
  refine ⟨c.n.toNat, R, rs, as, ups, downs, by omega, hrad, l1, l2, hrs, has, rfl, u1, d1, fun i row hi => ?_, fun i row hi => ?_⟩
  · have := u2 i row hi
    rwa [← add_assoc] at this
  · have := d2 i row hi
    rwa [show deg + (odeg - step - i * step) = deg + odeg - (i + 1) * step by ring] at this

end Props
end Girgs
