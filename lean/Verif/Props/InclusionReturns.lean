import Verif.Props.InclusionSingle
/-
C75: when inclusion_single ends, and which lines it can print.
-/
namespace Girgs
namespace Props
open Spec Tree Real Tools Inclusion Cli Examples
open XR (fin)

/-- a larger scaling gives a larger expected degree -/
theorem thresholdDegree_mono {D : ℕ} (hD : 1 ≤ D) {w : List ℝ} (hw : ∀ y ∈ w, 0 < y) (hne : w ≠ []) {k k' : ℝ} (hk : 0 < k) (hkk : k ≤ k') :
    thresholdGirgDegree D (w.map (· * k)) ≤ thresholdGirgDegree D (w.map (· * k')) := by
  have hW := List.sum_pos w hw hne
  rw [Scaling.thresholdDegree_scaled hD hw hne hk, Scaling.thresholdDegree_scaled hD hw hne (hk.trans_le hkk)]
  gcongr
  refine Scaling.pairSum_mono fun i hi j hj => ?_
  unfold Scaling.probThreshold
  refine min_le_min le_rfl ?_
  have h1 := (Scaling.bw_weights hw).pos i hi
  have h2 := (Scaling.bw_weights hw).pos j hj
  gcongr

/-- the samplers of the inclusion tools return -/
theorem hrg_part_exists {m : Machine XR} (he : IntervalEngine m.eng) (hu : UnitRng m.rng) {threads : ℕ} {n : ℤ} {α R : ℝ} {rseed aseed : ℤ}
    (hα0 : 1 / 2 ≤ α) (hn1 : 1 ≤ n) (hn31 : n ≤ 2147483647) (hR1 : 4 / 3 ≤ R) (hR2 : R ≤ 165 / 4) (hr : rseed ≤ 2147483647) (ha : aseed ≤ 2147483647)
    (ht : (m.henv threads).threads = 1 ∨ ∃ L, HTree.firstParallelLevel XR (m.henv threads).threads = some L ∧
      cosh R < hypCosh (R - 1) (π / 2 ^ (L - 1)) (R - 1) 0) :
    ∃ radii angles edges, HrgPart m threads n (fin α) (fin R) rseed aseed radii angles edges := by
  have hcosh : (6 / 5 : ℝ) ≤ cosh (α * R) := by
    have h1 : 2 / 3 ≤ α * R := by nlinarith
    have h2 := cosh_le_cosh.2 (show |(2 / 3 : ℝ)| ≤ |α * R| by rw [abs_of_nonneg (by norm_num), abs_of_nonneg (by linarith)]; exact h1)
    have h3 : (6 / 5 : ℝ) ≤ cosh (2 / 3) := by
      have := cosh_sq (2 / 3)
      have hs : (2 / 3 : ℝ) ≤ sinh (2 / 3) := self_le_sinh_iff.2 (by norm_num)
      have := one_le_cosh (2 / 3)
      nlinarith
    linarith
  have hge : CFloat.ge (CFloat.cosh (fin α *. fin R)) (oneUp : XR) = true := by
    rw [XR.mul_fin, xr_cosh, oneUp_eq]
    refine xr_ge ?_
    norm_num at hcosh ⊢
    linarith
  have hge' : CFloat.ge (CFloat.cosh ((CFloat.ofRat 1 : XR) *. CFloat.ofRat 10)) (oneUp : XR) = true := by
    rw [XR.ofRat_eq, XR.ofRat_eq, XR.mul_fin, xr_cosh, oneUp_eq]
    refine xr_ge ?_
    have hs : (10 : ℝ) ≤ sinh 10 := self_le_sinh_iff.2 (by norm_num)
    have := sinh_lt_cosh 10
    have : (10 : ℝ) ≤ cosh 10 := hs.trans this.le
    norm_num at this ⊢
    linarith
  have hth : ∀ t, hyperThreads (m.omp threads) n.toNat false = some t → t = 1 := by
    intro t h
    unfold hyperThreads at h
    rw [if_neg (by simp)] at h
    exact (Option.some.inj h).symm
  obtain ⟨_, _, radii, _, _, _, _, hsr, _⟩ := C50_executions (m.omp threads) m.eng (fun _ => m.eng.seed 0) true false n.toNat (fin α) (fin R) rseed
      false (fun h => by cases h) hge (fun t h => by rw [hth t h]; exact Or.inr (by omega))
  obtain ⟨_, _, _, angles, _, _, _, hsa, _⟩ := C50_executions (m.omp threads) m.eng (fun _ => m.eng.seed 0) false true n.toNat (CFloat.ofRat 1)
      (CFloat.ofRat 10) aseed false (fun h => by cases h) hge' (fun t h => by rw [hth t h]; exact Or.inr (by omega))
  have hsr := (hsr _).2 rfl
  have hsa := (hsa _).2 rfl
  obtain ⟨l1, r1⟩ := (C50_range he (by linarith) (by linarith) (by norm_num at hcosh ⊢; linarith)).1 _ ⟨_, hsr⟩
  obtain ⟨l2, r2⟩ := (C50_range he (α := 1) (R := 10) (by norm_num) (by norm_num) (by
    have hs : (10 : ℝ) ≤ sinh 10 := self_le_sinh_iff.2 (by norm_num)
    have := sinh_lt_cosh 10
    norm_num; linarith)).2.1 _ ⟨_, hsa⟩
  obtain ⟨rs, rfl, hrs⟩ := reals_of r1
  obtain ⟨as, rfl, has⟩ := reals_of r2
  simp only [xw, List.length_map] at l1 l2
  have hin : HypInput rs as 0 R :=
    ⟨by omega, by omega, by omega, fun r hr => ⟨(hrs r hr).1, (hrs r hr).2.le⟩, has, le_rfl, Or.inr ⟨hR1, hR2⟩⟩
  obtain ⟨gs, hgs⟩ : ∃ gs, m.hyperEngine.gens XR (m.henv threads).threads 0 0 = some gs := by
    by_cases ht : (m.henv threads).threads = 1
    · rw [ht]; exact ⟨_, rfl⟩
    · obtain ⟨_, _, _, _, _, _, _, _, _, _, hh⟩ := C42_task_count (m.henv threads) (by have := (m.henv threads).threads_pos; omega)
      obtain ⟨gs, h, _⟩ := hh m.hyperEngine 0 0
      exact ⟨gs, h⟩
  obtain ⟨edges, hE⟩ := (C44_returns_iff hin (m.henv threads) m.rng hu (fun k => (gs[k]?).getD (m.hyperEngine.seed 0))).2 ht
  rw [← ofRat_zero'] at hE
  exact ⟨_, _, edges, by omega, ⟨_, _, hsr⟩, ⟨_, _, hsa⟩, 0, gs, hgs, _, fun k g hk => by simp [hk], hE⟩

/-- whichever scaling with expected degree `d` (up to the accuracy of the estimation) is used: the GIRG contains the hyperbolic random graph -/
def Contains (radii angles : List ℝ) (R d : ℝ) : Prop :=
  ∀ k : ℝ, 0 < k → d - 2 / 100 ≤ thresholdGirgDegree 1 ((convWeights radii R).map (· * k)) →
    thresholdGirgDegree 1 ((convWeights radii R).map (· * k)) < d + 2 / 100 + 1 / radii.length →
    ∀ u v, u < radii.length → v < radii.length → u ≠ v → HypRule radii angles R u v → ConvRule radii angles R k u v

/-- whichever scaling with expected degree `d` (up to the accuracy of the estimation) is used: the hyperbolic random graph contains the GIRG -/
def Contained (radii angles : List ℝ) (R d : ℝ) : Prop :=
  ∀ k : ℝ, 0 < k → d - 2 / 100 ≤ thresholdGirgDegree 1 ((convWeights radii R).map (· * k)) →
    thresholdGirgDegree 1 ((convWeights radii R).map (· * k)) < d + 2 / 100 + 1 / radii.length →
    ∀ u v, u < radii.length → v < radii.length → u ≠ v → ConvRule radii angles R k u v → HypRule radii angles R u v

/-- C75.  Degrees at which the inclusions hold: if the expected degree for the scaling `W / (√2 exp(R/2))` is less than `d - 0.02`, then GIRGs of degree
`d` contain the hyperbolic random graph; if the expected degree for the scaling `W / (2π exp(R/2))` is at least `d + 0.02 + 1/n`, then GIRGs of degree
`d` are contained in it. -/
theorem C75_bounds {radii angles : List ℝ} {T R : ℝ} (hin : HypInput radii angles T R) {d : ℝ} :
    (thresholdGirgDegree 1 ((convWeights radii R).map (· * ((convWeights radii R).sum / (√2 * exp (R / 2))))) < d - 2 / 100 → Contains radii angles R d) ∧
    (d + 2 / 100 + 1 / radii.length ≤ thresholdGirgDegree 1 ((convWeights radii R).map (· * ((convWeights radii R).sum / (2 * π * exp (R / 2))))) →
      Contained radii angles R d) := by
  have hne : radii ≠ [] := by have := hin.pos; rintro rfl; simp at this
  have hW := convWeights_sum_pos (R := R) hne
  have hne' : convWeights radii R ≠ [] := by unfold convWeights; simpa using hne
  have hpi := pi_pos
  constructor
  · intro h k hk h1 h2 u v _ _ _ hr
    refine hyp_super hin.radius hin.angle ?_ hr
    by_contra hlt
    have hk' : k ≤ (convWeights radii R).sum / (√2 * exp (R / 2)) := by
      rw [le_div_iff₀ (by positivity)]; linarith
    have := thresholdDegree_mono le_rfl convWeights_pos hne' hk hk'
    linarith
  · intro h k hk h1 h2 u v _ _ _ hr
    refine hyp_sub hin.radius hin.angle hk ?_ hr
    by_contra hlt
    have hk' : (convWeights radii R).sum / (2 * π * exp (R / 2)) ≤ k := by
      rw [div_le_iff₀ (by positivity)]; linarith
    have := thresholdDegree_mono le_rfl convWeights_pos hne' (by positivity) hk'
    linarith

/-- C75.  What the lines tell: a line without edges missing in the GIRG means that the GIRG with the printed scaling contains the hyperbolic random graph, one
without edges missing in the hyperbolic random graph the reverse; and if GIRGs of this degree contain (are contained in) the hyperbolic random graph then the
line says so. -/
theorem C75_found {radii angles : List ℝ} {R d : ℝ} {row : Row XR} (h : RowCorrect radii angles R d row) (hs : SizeOk radii R d) :
    ∃ k : ℝ, row.scaling = fin k ∧
      (row.hrgOnly = 0 ↔ ∀ u v, u < radii.length → v < radii.length → u ≠ v → HypRule radii angles R u v → ConvRule radii angles R k u v) ∧
      (row.girgOnly = 0 ↔ ∀ u v, u < radii.length → v < radii.length → u ≠ v → ConvRule radii angles R k u v → HypRule radii angles R u v) ∧
      (Contains radii angles R d → row.hrgOnly = 0) ∧ (Contained radii angles R d → row.girgOnly = 0) := by
  obtain ⟨_, _, _, k, hk, hsc, q1, q2, q3⟩ := h
  obtain ⟨c1, c2, _⟩ := q3 hs
  have e1 : row.hrgOnly = 0 ↔ ∀ u v, u < radii.length → v < radii.length → u ≠ v → HypRule radii angles R u v → ConvRule radii angles R k u v := by
    rw [c1, pairCount_eq_zero]
    constructor
    · intro h u v hu hv huv hr
      rcases lt_or_gt_of_ne huv with hlt | hlt
      · by_contra hn; exact h u v hlt hv ⟨hr, hn⟩
      · by_contra hn; exact h v u hlt hu ⟨hypRule_symm hr, fun h' => hn (convRule_symm h')⟩
    · rintro h u v hlt hv ⟨hr, hn⟩
      exact hn (h u v (by omega) hv (by omega) hr)
  have e2 : row.girgOnly = 0 ↔ ∀ u v, u < radii.length → v < radii.length → u ≠ v → ConvRule radii angles R k u v → HypRule radii angles R u v := by
    rw [c2, pairCount_eq_zero]
    constructor
    · intro h u v hu hv huv hr
      rcases lt_or_gt_of_ne huv with hlt | hlt
      · by_contra hn; exact h u v hlt hv ⟨hr, hn⟩
      · by_contra hn; exact h v u hlt hu ⟨convRule_symm hr, fun h' => hn (hypRule_symm h')⟩
    · rintro h u v hlt hv ⟨hr, hn⟩
      exact hn (h u v (by omega) hv (by omega) hr)
  exact ⟨k, hsc, e1, e2, fun h => e1.2 (h k hk q1 q2), fun h => e2.2 (h k hk q1 q2)⟩

/-- C75.  Monotonicity: of two lines, the one with the larger scaling has at most as many edges missing in the GIRG, and at least as many additional
edges and edges of the GIRG. -/
theorem C75_monotone {radii angles : List ℝ} {T R d d' : ℝ} (hin : HypInput radii angles T R) {row row' : Row XR} (h : RowCorrect radii angles R d row)
    (h' : RowCorrect radii angles R d' row') (hs : SizeOk radii R d) (hs' : SizeOk radii R d') {k k' : ℝ} (hk : row.scaling = fin k)
    (hk' : row'.scaling = fin k') (hkk : k ≤ k') : row'.hrgOnly ≤ row.hrgOnly ∧ row.girgOnly ≤ row'.girgOnly ∧ row.girgEdges ≤ row'.girgEdges := by
  obtain ⟨_, _, _, k1, hk0, e, _, _, q⟩ := h
  obtain ⟨_, _, _, k2, hk0', e', _, _, q'⟩ := h'
  rw [hk] at e; rw [hk'] at e'
  cases e; cases e'
  obtain ⟨c1, c2, c3⟩ := q hs
  obtain ⟨c1', c2', c3'⟩ := q' hs'
  rw [c1, c2, c3, c1', c2', c3']
  have hm : ∀ u v, ConvRule radii angles R k u v → ConvRule radii angles R k' u v := fun u v h => conv_mono hin.angle hk0 hkk h
  exact ⟨pairCount_le fun u v h => ⟨h.1, fun h' => h.2 (hm _ _ h')⟩, pairCount_le fun u v h => ⟨hm _ _ h.1, h.2⟩, pairCount_le hm⟩

/-- `std::sort` has a result -/
theorem sorted_exists (g : List Edge) : ∃ out, Sorted g out := by
  have hle : ∀ a b : Edge, (!edgeLt b a) = true ↔ EdgeLe a b := by
    intro a b
    rw [Bool.not_eq_true', ← Bool.not_eq_true, edgeLt_iff]
    constructor
    · intro h
      by_contra hn
      exact h ⟨edgeLe_total hn, fun e => hn (by rw [e]; exact Or.inr ⟨rfl, le_rfl⟩)⟩
    · rintro h ⟨h1, h2⟩
      exact h2 (edgeLe_antisymm h1 h)
  refine ⟨g.mergeSort fun a b => !edgeLt b a, List.mergeSort_perm _ _, ?_⟩
  have := List.pairwise_mergeSort (le := fun a b => !edgeLt b a) (fun a b c h1 h2 => ?_) (fun a b => ?_) g
  · exact this.imp fun h => by simpa using h
  · rw [hle] at *; exact edgeLe_trans h1 h2
  · rw [Bool.or_eq_true, hle, hle]
    by_cases h : EdgeLe a b
    · exact Or.inl h
    · exact Or.inr (edgeLe_total h)

/-- a graph on `n` nodes has at most `n²` edges -/
theorem graph_length {n : ℕ} {P : ℕ → ℕ → Prop} {es : List (ℕ × ℕ)} (h : IsGraphOf n P es) : es.length ≤ n ^ 2 := by
  classical
  have hd : es.Nodup := h.2.1.imp fun h => h.1
  rw [← List.toFinset_card_of_nodup hd]
  have : es.toFinset ⊆ Finset.range n ×ˢ Finset.range n := by
    intro e he
    obtain ⟨h1, h2, _⟩ := h.1 e (by simpa using he)
    simp [h1, h2]
  refine (Finset.card_le_card this).trans ?_
  simp [sq]

theorem reverse_exists {n : ℕ} {P : ℕ → ℕ → Prop} {es : List (ℕ × ℕ)} (h : IsGraphOf n P es) (hn : n ^ 2 < 2147483648) :
    ∃ g, createReverseEdges (intEdges es) = some g :=
  ⟨_, C56_reverse (by have := graph_length h; simp only [intEdges, List.length_map]; omega)⟩

/-- one call of `diff` returns (release build) -/
theorem single_diff_exists {m : Machine XR} (hm : m.ndebug = true) (hu : UnitRng m.rng) {radii angles : List ℝ} {T R : ℝ} (hin : HypInput radii angles T R)
    (h2 : 2 ≤ radii.length) (hn : radii.length ^ 2 < 2147483648) (hrg : List Edge) {d : ℝ} (hd0 : 0 < d) (hdn : d ≤ radii.length - 1) (hsize : SizeOk radii R d) :
    ∃ sub row, SingleDiff m (girgWeights (xw radii) (fin R)) (girgPositions (xw angles)) hrg (fin d) sub row := by
  obtain ⟨s, es, hp⟩ := conv_part_exists hm hu (threads := 1) hin h2 hd0 hdn hsize
  obtain ⟨k, _, rfl, _, _, _, _, _, hg⟩ := conv_part hu hin h2 hp
  obtain ⟨g, hg'⟩ := reverse_exists (hg hsize) hn
  obtain ⟨so, hso⟩ := sorted_exists g
  exact ⟨_, _, _, es, hp, g, hg', so, hso, rfl, rfl⟩

theorem up_exists {diff : XR → List Edge × List Edge → Row XR → Prop} {deg step : ℝ} (i : ℕ) : ∀ {high : ℝ},
    (∀ l : ℕ, l ≤ i → ∃ sub row, diff (fin (deg + high + l * step)) sub row) → (∀ sub row, diff (fin (deg + high + i * step)) sub row → sub.1 = []) →
    ∃ rows, SearchUp diff (fin deg) (fin step) (fin high) rows := by
  induction i with
  | zero =>
    intro high h1 h2
    obtain ⟨sub, row, h⟩ := h1 0 le_rfl
    have := h2 _ _ h
    rw [Nat.cast_zero, zero_mul, add_zero, ← XR.add_fin] at h
    exact ⟨_, .stop h this⟩
  | succ i ih =>
    intro high h1 h2
    obtain ⟨sub, row, h⟩ := h1 0 (by omega)
    rw [Nat.cast_zero, zero_mul, add_zero, ← XR.add_fin] at h
    by_cases hs : sub.1 = []
    · exact ⟨_, .stop h hs⟩
    · have e : ∀ l : ℕ, deg + (high + step) + l * step = deg + high + (l + 1 : ℕ) * step := fun l => by push_cast; ring
      obtain ⟨rows, hr⟩ := ih (high := high + step) (fun l hl => by rw [e]; exact h1 (l + 1) (by omega)) (by rw [e]; exact h2)
      rw [← XR.add_fin] at hr
      exact ⟨_, .next h hs hr⟩

theorem down_exists {diff : XR → List Edge × List Edge → Row XR → Prop} {deg step : ℝ} (i : ℕ) : ∀ {low : ℝ},
    (∀ l : ℕ, l ≤ i → ∃ sub row, diff (fin (deg + low - l * step)) sub row) → (∀ sub row, diff (fin (deg + low - i * step)) sub row → sub.2 = []) →
    ∃ rows, SearchDown diff (fin deg) (fin step) (fin low) rows := by
  induction i with
  | zero =>
    intro low h1 h2
    obtain ⟨sub, row, h⟩ := h1 0 le_rfl
    have := h2 _ _ h
    rw [Nat.cast_zero, zero_mul, sub_zero, ← XR.add_fin] at h
    exact ⟨_, .stop h this⟩
  | succ i ih =>
    intro low h1 h2
    obtain ⟨sub, row, h⟩ := h1 0 (by omega)
    rw [Nat.cast_zero, zero_mul, sub_zero, ← XR.add_fin] at h
    by_cases hs : sub.2 = []
    · exact ⟨_, .stop h hs⟩
    · have e : ∀ l : ℕ, deg + (low - step) - l * step = deg + low - (l + 1 : ℕ) * step := fun l => by push_cast; ring
      obtain ⟨rows, hr⟩ := ih (low := low - step) (fun l hl => by rw [e]; exact h1 (l + 1) (by omega)) (by rw [e]; exact h2)
      rw [← XR.sub_fin] at hr
      exact ⟨_, .next h hs hr⟩

/-- C75, termination (release build, fewer than 46341 nodes).  If for the points that are drawn some degree of the search upwards (downwards) belongs to GIRGs that contain
(are contained in) the hyperbolic random graph, and all degrees up to there lie in `(0, n-1]` and have supported sizes, then `inclusion_single` can
end normally. -/
theorem C75_returns (m : Machine XR) (hrel : m.ndebug = true) (he : IntervalEngine m.eng) (hu : UnitRng m.rng) {argv : List String} {c : SingleConfig XR}
    (hhelp : wantsHelp argv = false) (hc : readSingle m (parseArgs argv) = some c) (hck : checkSingle c = none) {α deg odeg step R : ℝ} (hα : c.alpha = fin α)
    (hdeg : c.deg = fin deg) (ho : c.odeg = fin odeg) (hst : c.step = fin step) (hsd : c.rseed ≤ 2147483647 ∧ c.aseed ≤ 2147483647)
    (hR : Radius.calculateRadius c.n c.alpha (fin 0) c.deg = some (fin R)) (hR1 : 4 / 3 ≤ R) (hR2 : R ≤ 165 / 4) (hn : c.n ^ 2 < 2147483648)
    (hpts : ∀ radii angles device device', SampleRadii (m.omp 1) m.eng device c.n.toNat c.alpha (fin R) c.rseed false (xw radii) →
      SampleAngles (m.omp 1) m.eng device' c.n.toNat c.aseed false (xw angles) → ∃ i j : ℕ,
        (∀ l : ℕ, l ≤ i → 0 < deg + odeg + l * step ∧ deg + odeg + l * step ≤ c.n - 1 ∧ SizeOk radii R (deg + odeg + l * step)) ∧
        Contains radii angles R (deg + odeg + i * step) ∧
        (∀ l : ℕ, l ≤ j → 0 < deg + odeg - (l + 1) * step ∧ deg + odeg - (l + 1) * step ≤ c.n - 1 ∧ SizeOk radii R (deg + odeg - (l + 1) * step)) ∧
        Contained radii angles R (deg + odeg - (j + 1) * step)) :
    ∃ rows, SingleMain m argv .done rows := by
  obtain ⟨ka, kd⟩ := single_checked hck
  rw [hα] at ka; rw [hdeg] at kd
  have ka := accepted_fin ka
  have kd := accepted_fin kd
  have hn2 : 2 ≤ c.n := by
    have := kd.1.trans kd.2
    exact_mod_cast (by linarith : (2 : ℝ) ≤ c.n)
  have hn31 := readSingle_int hc
  obtain ⟨radii, angles, edges, hpart⟩ := hrg_part_exists he hu (threads := 1) (rseed := c.rseed) (aseed := c.aseed) ka.1 (by omega) hn31 hR1 hR2 hsd.1 hsd.2
    (Or.inl rfl)
  obtain ⟨rs, as, rfl, rfl, l1, l2, hrs, has, hin, hgraph⟩ := hrg_part he hu ka.1 (by omega) hn31 hR1 hR2 hpart
  rw [← l1] at hgraph
  have hpart' := hpart
  obtain ⟨_, ⟨d1, s1⟩, ⟨d2, s2⟩, _⟩ := hpart'
  rw [← hα] at s1
  obtain ⟨i, j, hi, hi', hj, hj'⟩ := hpts rs as d1 d2 s1 s2
  have hlen : (rs.length : ℝ) = c.n := by
    have : (rs.length : ℤ) = c.n := by omega
    exact_mod_cast this
  have hn' : rs.length ^ 2 < 2147483648 := by
    have : (rs.length : ℤ) = c.n := by omega
    rw [← this] at hn
    exact_mod_cast hn
  obtain ⟨g, hg⟩ := reverse_exists hgraph hn'
  obtain ⟨hrg, hs⟩ := sorted_exists g
  have hd := fun (d : ℝ) sub row (h : SingleDiff m _ _ hrg (fin d) sub row) => single_diff hu hin (by omega) hgraph hg hs h
  have hex := fun (d : ℝ) (h0 : 0 < d) (h1 : d ≤ (rs.length : ℝ) - 1) (h2 : SizeOk rs R d) =>
    single_diff_exists hrel hu hin (by omega) hn' hrg h0 h1 h2
  rw [← hlen] at hi hj
  obtain ⟨ups, hups⟩ := up_exists (diff := SingleDiff m (girgWeights (xw rs) (fin R)) (girgPositions (xw as)) hrg) (deg := deg) (step := step) i (high := odeg)
    (fun l hl => hex _ (hi l hl).1 (hi l hl).2.1 (hi l hl).2.2)
    (fun sub row h => by
      have hsz := (hi i le_rfl).2.2
      obtain ⟨r1, r2⟩ := hd _ _ _ h
      obtain ⟨_, _, _, _, f, _⟩ := C75_found r1 hsz
      exact (r2 hsz).1.2 (f hi'))
  have e : ∀ l : ℕ, deg + (odeg - step) - l * step = deg + odeg - (l + 1) * step := fun l => by ring
  obtain ⟨downs, hdowns⟩ := down_exists (diff := SingleDiff m (girgWeights (xw rs) (fin R)) (girgPositions (xw as)) hrg) (deg := deg) (step := step) j
    (low := odeg - step)
    (fun l hl => by rw [e]; exact hex _ (hj l hl).1 (hj l hl).2.1 (hj l hl).2.2)
    (fun sub row h => by
      rw [e] at h
      have hsz := (hj j le_rfl).2.2
      obtain ⟨r1, r2⟩ := hd _ _ _ h
      obtain ⟨_, _, _, _, _, f⟩ := C75_found r1 hsz
      exact (r2 hsz).2.2 (f hj'))
  refine ⟨ups ++ downs, ?_⟩
  unfold SingleMain
  rw [hhelp, if_neg (by simp), hc]
  simp only [hck]
  refine ⟨trivial, fin R, xw rs, xw as, edges, by rw [ofRat_zero']; exact hR, by rw [hα]; exact hpart, g, hg, hrg, hs, ups, downs, ?_, ?_, rfl⟩
  · rw [hdeg, hst, ho]; exact hups
  · rw [hdeg, hst, ho, XR.sub_fin]; exact hdowns

/-- C75.  The parameters `inclusion_single` works with are the values given on the command line, or the defaults of the help text. -/
theorem C75_settings {F : Type} [CFloat F] (m : Machine F) (argv : List String) (c : SingleConfig F) :
    readSingle m (parseArgs argv) = some c ↔
      Setting argv "n" m.stoi 10000 c.n ∧ Setting argv "alpha" m.stod (CFloat.ofRat (3 / 4)) c.alpha ∧ Setting argv "deg" m.stod (CFloat.ofRat 10) c.deg ∧
      Setting argv "odeg" m.stod (CFloat.ofRat 0) c.odeg ∧ Setting argv "step" m.stod (CFloat.ofRat (1 / 10)) c.step ∧
      Setting argv "rseed" m.stoi 12 c.rseed ∧ Setting argv "aseed" m.stoi 130 c.aseed := by
  simp only [← getOr_iff]
  unfold readSingle
  simp only [Option.bind_eq_bind, Option.bind_eq_some_iff, Option.some.injEq]
  constructor
  · rintro ⟨n, h1, a, h2, t, h3, d, h4, r, h5, q, h6, s, h7, rfl⟩
    exact ⟨h1, h2, h3, h4, h5, h6, h7⟩
  · rintro ⟨h1, h2, h3, h4, h5, h6, h7⟩
    exact ⟨_, h1, _, h2, _, h3, _, h4, _, h5, _, h6, _, h7, rfl⟩

/-- C75, exits.  `inclusion_single` prints the help text if and only if there are no arguments or the first one asks for it, it ends with an exception if and
only if a number cannot be read, and with an error message if and only if `alpha` is not in `[1/2, 1]` or `deg` is not in `[1, n-1]` (as far as they are
not nan); lines are printed in normal runs only. -/
theorem C75_exits (m : Machine XR) {argv : List String} {exit : Exit} {rows : List (Row XR)} (h : SingleMain m argv exit rows) :
    (exit = .help ↔ argv.length < 2 ∨ argv[1]? = some "--help" ∨ argv[1]? = some "-help") ∧
    (wantsHelp argv = false → (exit = .badNumber ↔ ∀ c, readSingle m (parseArgs argv) ≠ some c)) ∧
    (wantsHelp argv = false → ∀ c, readSingle m (parseArgs argv) = some c →
      (exit = .outOfRange "alpha" ↔ ¬ Accepted c.alpha (Set.Icc (1 / 2) 1)) ∧
      (exit = .outOfRange "deg" ↔ Accepted c.alpha (Set.Icc (1 / 2) 1) ∧ ¬ Accepted c.deg (Set.Icc 1 (c.n - 1))) ∧
      (exit = .done ↔ Accepted c.alpha (Set.Icc (1 / 2) 1) ∧ Accepted c.deg (Set.Icc 1 (c.n - 1)))) ∧
    (rows ≠ [] → exit = .done) := by
  have hw : wantsHelp argv = true ↔ argv.length < 2 ∨ argv[1]? = some "--help" ∨ argv[1]? = some "-help" := by
    simp only [wantsHelp, Bool.or_eq_true, decide_eq_true_eq, or_assoc]
  rw [← hw]
  unfold SingleMain at h
  cases h1 : wantsHelp argv with
  | true =>
    rw [h1, if_pos rfl] at h
    obtain ⟨rfl, rfl⟩ := h
    simp
  | false =>
    rw [h1, if_neg (by simp)] at h
    cases h2 : readSingle m (parseArgs argv) with
    | none =>
      rw [h2] at h
      obtain ⟨rfl, rfl⟩ := h
      simp
    | some c =>
      rw [h2] at h
      simp only at h
      have ha : rangeFails c.alpha (CFloat.ofRat (1 / 2)) (CFloat.ofRat 1) false false = false ↔ Accepted c.alpha (Set.Icc (1 / 2) 1) := by
        rw [ofRat_one', show (CFloat.ofRat (1 / 2) : XR) = fin (1 / 2) by rw [XR.ofRat_eq]; norm_num]
        exact rangeFails_accepted fun x => C55_real x _ _ _ _
      have hd : rangeFails c.deg (CFloat.ofRat 1) (CFloat.ofInt c.n -. CFloat.ofRat 1) false false = false ↔ Accepted c.deg (Set.Icc 1 (c.n - 1)) := by
        rw [ofInt_sub_one, ofRat_one']
        exact rangeFails_accepted fun x => C55_real x _ _ _ _
      have key : (exit = .badNumber ↔ False) ∧ (exit = .help ↔ False) ∧ (exit = .outOfRange "alpha" ↔ ¬ Accepted c.alpha (Set.Icc (1 / 2) 1)) ∧
          (exit = .outOfRange "deg" ↔ Accepted c.alpha (Set.Icc (1 / 2) 1) ∧ ¬ Accepted c.deg (Set.Icc 1 (c.n - 1))) ∧
          (exit = .done ↔ Accepted c.alpha (Set.Icc (1 / 2) 1) ∧ Accepted c.deg (Set.Icc 1 (c.n - 1))) ∧ (rows ≠ [] → exit = .done) := by
        rw [← ha, ← hd]
        unfold checkSingle at h
        generalize rangeFails c.alpha (CFloat.ofRat (1 / 2)) (CFloat.ofRat 1) false false = b1 at h ⊢
        generalize rangeFails c.deg (CFloat.ofRat 1) (CFloat.ofInt c.n -. CFloat.ofRat 1) false false = b2 at h ⊢
        cases b1 <;> cases b2 <;> simp at h ⊢ <;> simp [h]
      obtain ⟨k1, k2, k3, k4, k5, k6⟩ := key
      refine ⟨by simpa using k2, fun _ => ⟨fun h => absurd h (by simp [k1]), fun h => absurd rfl (h c)⟩, ?_, k6⟩
      intro _ c' hc'
      cases hc'
      exact ⟨k3, k4, k5⟩

/-- an example of a command line -/
def singleArgs : List String := ["inclusion_single", "-n", "100", "-deg", "3"]

noncomputable def singleExample : SingleConfig XR := ⟨100, fin (3 / 4), fin 3, fin 0, fin (1 / 10), 12, 130⟩

theorem singleExample_read : readSingle exampleMachine (parseArgs singleArgs) = some singleExample := by
  have e1 : (CFloat.ofRat (3 / 4) : XR) = fin (3 / 4) := by rw [XR.ofRat_eq]; norm_num
  have e2 : (CFloat.ofRat (1 / 10) : XR) = fin (1 / 10) := by rw [XR.ofRat_eq]; norm_num
  unfold singleExample
  rw [← ofRat_zero', ← e1, ← e2]
  simp [readSingle, getOr, parseArgs, parseFrom, assign, optionName, exampleMachine, singleArgs]

theorem singleExample_check : checkSingle singleExample = none := by
  have e1 : (CFloat.ofRat (1 / 2) : XR) = fin (1 / 2) := by rw [XR.ofRat_eq]; norm_num
  unfold checkSingle singleExample
  simp only [ofInt_sub_one]
  rw [e1, ofRat_one', (C55_real (3 / 4) (1 / 2) 1 false false).2 (by norm_num), (C55_real 3 1 _ false false).2 (by norm_num)]
  rfl

/-- with the example engine all points of a sample coincide -/
theorem example_points {n : ℕ} {α R : ℝ} {rs as : List ℝ} {threads : ℕ} {d d' : ℕ → exampleMachine.eng.G} {s s' : ℤ}
    (h : SampleRadii (exampleMachine.omp threads) exampleMachine.eng d n (fin α) (fin R) s false (xw rs))
    (h' : SampleAngles (exampleMachine.omp threads) exampleMachine.eng d' n s' false (xw as)) :
    rs.length = n ∧ as.length = n ∧ (∃ r, ∀ x ∈ rs, x = r) ∧ (∃ a, ∀ x ∈ as, x = a) := by
  obtain ⟨_, h⟩ := h
  obtain ⟨_, h'⟩ := h'
  obtain ⟨l1, _, e1, _⟩ := helper_entry h
  obtain ⟨_, l2, _, e2⟩ := helper_entry h'
  have u1 : ∀ x ∈ xw rs, ∀ y ∈ xw rs, x = y := by
    intro x hx y hy
    obtain ⟨g, k, rfl⟩ := e1 rfl x hx
    obtain ⟨g', k', rfl⟩ := e1 rfl y hy
    rfl
  have u2 : ∀ x ∈ xw as, ∀ y ∈ xw as, x = y := by
    intro x hx y hy
    obtain ⟨g, k, rfl⟩ := e2 rfl x hx
    obtain ⟨g', k', rfl⟩ := e2 rfl y hy
    rfl
  have conv : ∀ l : List ℝ, (∀ x ∈ xw l, ∀ y ∈ xw l, x = y) → ∃ r, ∀ x ∈ l, x = r := by
    intro l hl
    cases l with
    | nil => exact ⟨0, by simp⟩
    | cons a l =>
      refine ⟨a, fun x hx => ?_⟩
      have := hl (fin x) (List.mem_map.2 ⟨x, hx, rfl⟩) (fin a) (List.mem_map.2 ⟨a, by simp, rfl⟩)
      cases this; rfl
  exact ⟨by simpa [xw] using l1, by simpa [xw] using l2, conv _ u1, conv _ u2⟩

/-- coinciding points are connected in all graphs -/
theorem example_complete {radii angles : List ℝ} {T R : ℝ} (hin : HypInput radii angles T R) (hr : ∃ r, ∀ x ∈ radii, x = r) (ha : ∃ a, ∀ x ∈ angles, x = a)
    (d : ℝ) : Contains radii angles R d ∧ Contained radii angles R d := by
  obtain ⟨r, hr⟩ := hr
  obtain ⟨a, ha⟩ := ha
  have hR : 0 < R := by rcases hin.disk with h | h <;> linarith [h.1, h.2]
  have g1 : ∀ u, u < radii.length → radii[u]? = some r := fun u hu => by
    rw [List.getElem?_eq_getElem hu, hr _ (List.getElem_mem hu)]
  have g2 : ∀ u, u < radii.length → angles[u]? = some a := fun u hu => by
    rw [← hin.len] at hu
    rw [List.getElem?_eq_getElem hu, ha _ (List.getElem_mem hu)]
  constructor
  · intro k hk _ _ u v hu hv _ _
    rw [convRule_iff hin.angle hk]
    have hW := convWeights_sum_pos (R := R) (radii := radii) (by rintro rfl; simp at hu)
    refine ⟨r, r, a, a, g1 u hu, g1 v hv, g2 u hu, g2 v hv, ?_⟩
    have : circleDist (a / (2 * π)) (a / (2 * π)) = 0 := by simp [circleDist]
    rw [this]
    positivity
  · intro k hk _ _ u v hu hv _ _
    refine ⟨r, r, a, a, g1 u hu, g1 v hv, g2 u hu, g2 v hv, ?_⟩
    have h0 := (hin.radius r (hr _ (List.getElem_mem hu) ▸ List.getElem_mem hu)).1
    have hc : hypCosh r a r a = 1 := by
      unfold hypCosh
      rw [sub_self, cos_zero]
      nlinarith [cosh_sq r]
    unfold hypDist
    rw [hc]
    simpa using hR

/-- the radius of the example -/
theorem singleExample_radius : ∃ R : ℝ, Radius.calculateRadius singleExample.n singleExample.alpha (fin 0) singleExample.deg = some (fin R) ∧
    4 / 3 ≤ R ∧ R ≤ 165 / 4 ∧ exp (R / 2) ≤ 200 := by
  obtain ⟨R, hR, hdegR, hR1, hR2⟩ := C63_radius exampleMachine (c := hrgExample) rfl rfl rfl hrgExample_check (by norm_num) (by norm_num [hrgExample]) (Or.inl rfl)
  have hexp : exp (R / 2) ≤ 200 := by
    unfold hrgDegree xi at hdegR
    rw [if_pos rfl, show -R / 2 = -(R / 2) by ring, exp_neg] at hdegR
    have h0 := exp_pos (R / 2)
    have hpi := pi_gt_three
    have e : 2 / π * (3 / 4 / (3 / 4 - 1 / 2)) ^ 2 * ((hrgExample.n : ℤ) : ℝ) * (exp (R / 2))⁻¹ * 1 = 1800 / (π * exp (R / 2)) := by
      norm_num [hrgExample]
      field_simp
      norm_num
    rw [e, div_eq_iff (by positivity)] at hdegR
    nlinarith
  have h40 : R ≤ 165 / 4 := by
    have : R / 2 < 20 := by
      rw [← exp_lt_exp]
      refine lt_of_le_of_lt hexp ?_
      have : exp 20 = exp 1 ^ 20 := by rw [← exp_nat_mul]; norm_num
      rw [this]
      calc (200 : ℝ) < 2 ^ 20 := by norm_num
        _ ≤ _ := pow_le_pow_left₀ (by norm_num) (by linarith [add_one_le_exp (1 : ℝ)]) _
    linarith
  exact ⟨R, (hR (fin R)).2 rfl, hR1, h40, hexp⟩

/-- the hypotheses of C75 are met: with 100 nodes and degree 3 there is a normal run -/
theorem singleExample_run : ∃ rows, SingleMain exampleMachine singleArgs .done rows := by
  obtain ⟨R, hrad, hR1, h40, hexp⟩ := singleExample_radius
  refine C75_returns exampleMachine rfl exampleEngine_interval exampleRng_unit rfl singleExample_read singleExample_check rfl rfl rfl rfl
    (by norm_num [singleExample]) hrad hR1 h40 (by norm_num [singleExample]) ?_
  intro rs as d d' h h'
  have hs := h
  obtain ⟨l1, l2, hr, ha⟩ := example_points h h'
  have hpart := hrg_input exampleEngine_interval (c := hrgExample) (T := 0) rfl (by norm_num) le_rfl (by norm_num [hrgExample]) (by norm_num [hrgExample]) hR1 h40
    ⟨d, h⟩ ⟨d', h'⟩
  obtain ⟨rs', as', e1, e2, _, _, _, _, hin⟩ := hpart
  have inj : Function.Injective (fin : ℝ → XR) := fun a b h => by cases h; rfl
  obtain rfl : rs = rs' := List.map_injective_iff.2 inj e1
  obtain rfl : as = as' := List.map_injective_iff.2 inj e2
  have l1' : rs.length = 100 := l1
  have hsz : ∀ x : ℝ, 2 ≤ x → SizeOk rs R x := by
    intro x hx
    have h1 := List.sum_le_card_nsmul (convWeights rs R) (200 : ℝ) fun y hy => by
      obtain ⟨r, hr, rfl⟩ := List.mem_map.1 hy
      have := hin.radius r hr
      exact (exp_le_exp.2 (by linarith)).trans hexp
    rw [conv_length, nsmul_eq_mul, l1'] at h1
    have h0 := convWeights_sum_pos (R := R) (radii := rs) (by rintro rfl; simp at l1')
    unfold SizeOk
    rw [l1']
    norm_num at h1 ⊢
    nlinarith
  refine ⟨0, 0, ?_, (example_complete hin hr ha _).1, ?_, (example_complete hin hr ha _).2⟩
  · intro l hl
    obtain rfl : l = 0 := by omega
    norm_num [singleExample]
    exact hsz _ (by norm_num)
  · intro l hl
    obtain rfl : l = 0 := by omega
    norm_num [singleExample]
    exact hsz _ (by norm_num)

/-- C75 at work: the first line of the run is the one for degree 3 -/
example : ∃ row rows, SingleMain exampleMachine singleArgs .done (row :: rows) ∧ row.deg = fin 3 := by
  obtain ⟨R, hrad, hR1, h40, _⟩ := singleExample_radius
  obtain ⟨rows, h⟩ := singleExample_run
  obtain ⟨n, R', radii, angles, ups, downs, _, _, _, _, _, _, rfl, hne, _, hup, _⟩ := C75_output exampleMachine exampleEngine_interval exampleRng_unit singleExample_read
    rfl rfl rfl rfl (fun R' h' => by rw [hrad] at h'; exact ⟨R, (Option.some.inj h').symm, hR1, h40⟩) h
  obtain ⟨r, us, rfl⟩ := List.exists_cons_of_ne_nil hne
  refine ⟨r, us ++ downs, h, ?_⟩
  have := (hup 0 r rfl).1.1
  rw [this]; norm_num

end Props
end Girgs
