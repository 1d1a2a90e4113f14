import Verif.Props.InclusionRange
/-
C76: parameters, exits and termination of inclusion_range.
-/
namespace Girgs
namespace Props
open Spec Tree Real Tools Inclusion Cli Examples
open XR (fin)

/-- C76.  The parameters `inclusion_range` works with are the values given on the command line, or the defaults of the help text. -/
theorem C76_settings {F : Type} [CFloat F] (m : Machine F) (argv : List String) (c : RangeConfig F) :
    readRange m (parseArgs argv) = some c ↔
      Setting argv "n1" m.stoi 4096 c.n1 ∧ Setting argv "n2" m.stoi 2097152 c.n2 ∧ Setting argv "alpha" m.stod (CFloat.ofRat (3 / 4)) c.alpha ∧
      Setting argv "deg" m.stoi 100 c.deg ∧ Setting argv "rseed" m.stoi 12 c.rseed ∧ Setting argv "aseed" m.stoi 130 c.aseed ∧
      Setting argv "reps" m.stoi 50 c.reps ∧ Setting argv "para" m.stoi 4 c.para := by
  simp only [← getOr_iff]
  unfold readRange
  simp only [Option.bind_eq_bind, Option.bind_eq_some_iff, Option.some.injEq]
  constructor
  · rintro ⟨n, h1, a, h2, t, h3, d, h4, r, h5, q, h6, s, h7, p, h8, rfl⟩
    exact ⟨h1, h2, h3, h4, h5, h6, h7, h8⟩
  · rintro ⟨h1, h2, h3, h4, h5, h6, h7, h8⟩
    exact ⟨_, h1, _, h2, _, h3, _, h4, _, h5, _, h6, _, h7, _, h8, rfl⟩

/-- C76, exits.  `inclusion_range` prints the help text if and only if there are no arguments or the first one asks for it, it ends with an exception if and
only if a number cannot be read, and with an error message for the first of `alpha` (not in `[1/2, 1]`, as far as it is not nan), `deg` (not in `[1, n1-1]`), `reps`
(not in `[0, 100000]`) and `para` (not in `[1, 8]`) that is out of range; lines are printed in normal runs only. -/
theorem C76_exits (m : Machine XR) {argv : List String} {exit : Exit} {lines : List (Line XR)} (h : RangeMain m argv exit lines) :
    (exit = .help ↔ argv.length < 2 ∨ argv[1]? = some "--help" ∨ argv[1]? = some "-help") ∧
    (wantsHelp argv = false → (exit = .badNumber ↔ ∀ c, readRange m (parseArgs argv) ≠ some c)) ∧
    (wantsHelp argv = false → ∀ c, readRange m (parseArgs argv) = some c →
      (exit = .outOfRange "alpha" ↔ ¬ Accepted c.alpha (Set.Icc (1 / 2) 1)) ∧
      (exit = .outOfRange "deg" ↔ Accepted c.alpha (Set.Icc (1 / 2) 1) ∧ ¬ (1 ≤ c.deg ∧ c.deg ≤ c.n1 - 1)) ∧
      (exit = .outOfRange "reps" ↔ Accepted c.alpha (Set.Icc (1 / 2) 1) ∧ (1 ≤ c.deg ∧ c.deg ≤ c.n1 - 1) ∧ ¬ (0 ≤ c.reps ∧ c.reps ≤ 100000)) ∧
      (exit = .outOfRange "para" ↔
        Accepted c.alpha (Set.Icc (1 / 2) 1) ∧ (1 ≤ c.deg ∧ c.deg ≤ c.n1 - 1) ∧ (0 ≤ c.reps ∧ c.reps ≤ 100000) ∧ ¬ (1 ≤ c.para ∧ c.para ≤ 8)) ∧
      (exit = .done ↔
        Accepted c.alpha (Set.Icc (1 / 2) 1) ∧ (1 ≤ c.deg ∧ c.deg ≤ c.n1 - 1) ∧ (0 ≤ c.reps ∧ c.reps ≤ 100000) ∧ (1 ≤ c.para ∧ c.para ≤ 8))) ∧
    (lines ≠ [] → exit = .done) := by
  have hw : wantsHelp argv = true ↔ argv.length < 2 ∨ argv[1]? = some "--help" ∨ argv[1]? = some "-help" := by
    simp only [wantsHelp, Bool.or_eq_true, decide_eq_true_eq, or_assoc]
  rw [← hw]
  unfold RangeMain at h
  cases h1 : wantsHelp argv with
  | true =>
    rw [h1, if_pos rfl] at h
    obtain ⟨rfl, rfl⟩ := h
    simp
  | false =>
    rw [h1, if_neg (by simp)] at h
    cases h2 : readRange m (parseArgs argv) with
    | none =>
      rw [h2] at h
      obtain ⟨rfl, rfl⟩ := h
      simp
    | some c =>
      rw [h2] at h
      simp only at h
      have ha : rangeFails c.alpha (CFloat.ofRat (1 / 2)) (CFloat.ofRat 1) false false = false ↔ Accepted c.alpha (Set.Icc (1 / 2) 1) := by
        rw [ofRat_one', show (CFloat.ofRat (1 / 2) : XR) = fin (1 / 2) by rw [XR.ofRat_eq]; norm_num]
        exact rangeFails_accepted fun x => C55_real x _ _ _ _
      have hi : ∀ x a b : ℤ, rangeFailsInt x a b false false = false ↔ a ≤ x ∧ x ≤ b := fun x a b => by rw [C55_int]; simp
      refine ⟨?_, ?_, ?_, ?_⟩
      · constructor
        · rintro rfl; exfalso
          cases h3 : checkRange c with
          | none => rw [h3] at h; cases h.1
          | some x => rw [h3] at h; cases h.1
        · intro h; cases h
      · refine fun _ => ⟨fun hb => ?_, fun h => absurd rfl (h c)⟩
        subst hb
        exfalso
        cases h3 : checkRange c with
        | none => rw [h3] at h; cases h.1
        | some x => rw [h3] at h; cases h.1
      · intro _ c' hc'
        cases hc'
        rw [← ha, ← hi, ← hi, ← hi]
        unfold checkRange at h
        generalize rangeFails c.alpha (CFloat.ofRat (1 / 2)) (CFloat.ofRat 1) false false = b1 at h ⊢
        generalize rangeFailsInt c.deg 1 (c.n1 - 1) false false = b2 at h ⊢
        generalize rangeFailsInt c.reps 0 100000 false false = b3 at h ⊢
        generalize rangeFailsInt c.para 1 8 false false = b4 at h ⊢
        cases b1 <;> cases b2 <;> cases b3 <;> cases b4 <;> simp at h ⊢ <;> simp [h]
      · intro hl
        cases h3 : checkRange c with
        | none => rw [h3] at h; exact h.1
        | some x => rw [h3] at h; exact absurd h.2 hl

/-! ### termination -/

/-- a bisection ends if all calls of `diff` in the interval return -/
theorem bisect_exists {diff : XR → ℕ × ℕ → Prop} {pick : ℕ × ℕ → Bool} (N : ℕ) : ∀ {lo hi : ℝ}, hi - lo ≤ 2 ^ N / 2 →
    (1 / 2 < hi - lo → ∀ d, lo < d → d < hi → ∃ sub, diff (fin d) sub) → ∃ lo' hi' t, Bisect diff pick (fin lo) (fin hi) lo' hi' t := by
  induction N with
  | zero =>
    intro lo hi h _
    refine ⟨_, _, _, .stop ?_⟩
    rw [XR.sub_fin, half_lt_fin, decide_eq_false_iff_not]
    norm_num at h ⊢
    linarith
  | succ N ih =>
    intro lo hi h hd
    by_cases hlt : 1 / 2 < hi - lo
    · obtain ⟨sub, hs⟩ := hd hlt ((lo + hi) / 2) (by linarith) (by linarith)
      have hc : ((CFloat.ofRat (1 / 2) : XR) <. (fin hi -. fin lo)) = true := by rw [XR.sub_fin, half_lt_fin, decide_eq_true_eq]; exact hlt
      rw [pow_succ] at h
      rw [← mid_fin] at hs
      cases hp : pick sub with
      | true =>
        obtain ⟨a, b, t, ht⟩ := ih (lo := (lo + hi) / 2) (hi := hi) (by linarith) fun _ d h1 h2 => hd hlt d (by linarith) h2
        rw [← mid_fin] at ht
        exact ⟨_, _, _, .up hc hs hp ht⟩
      | false =>
        obtain ⟨a, b, t, ht⟩ := ih (lo := lo) (hi := (lo + hi) / 2) (by linarith) fun _ d h1 h2 => hd hlt d h1 (by linarith)
        rw [← mid_fin] at ht
        exact ⟨_, _, _, .down hc hs hp ht⟩
    · refine ⟨_, _, _, .stop ?_⟩
      rw [XR.sub_fin, half_lt_fin, decide_eq_false_iff_not]
      exact hlt

/-- one call of `diff` returns (release build) -/
theorem range_diff_exists {m : Machine XR} (hm : m.ndebug = true) (hu : UnitRng m.rng) {threads : ℕ} {radii angles : List ℝ} {T R : ℝ} (hin : HypInput radii angles T R)
    (h2 : 2 ≤ radii.length) (hn : radii.length ^ 2 < 2147483648) {hrg : List Edge} (hl : hrg.length < 2147483648) {d : ℝ} (hd0 : 0 < d) (hdn : d ≤ radii.length - 1)
    (hsize : SizeOk radii R d) : ∃ sub, RangeDiff m threads (girgWeights (xw radii) (fin R)) (girgPositions (xw angles)) hrg (fin d) sub := by
  obtain ⟨s, es, hp⟩ := conv_part_exists hm hu (threads := threads) hin h2 hd0 hdn hsize
  obtain ⟨k, _, rfl, _, _, _, _, _, hg⟩ := conv_part hu hin h2 hp
  obtain ⟨so, hso⟩ := sorted_exists (unifyEdges (intEdges es))
  refine ⟨_, _, es, hp, so, hso, hl, ?_, rfl⟩
  rw [hso.1.length_eq]
  have := graph_length (hg hsize)
  simp only [unifyEdges, intEdges, List.length_map]
  omega

theorem SizeOk.mono {radii : List ℝ} {R d d' : ℝ} (h : SizeOk radii R d) (hd : d ≤ d') : SizeOk radii R d' := by
  unfold SizeOk at *
  refine h.trans_le ?_
  gcongr

theorem size_exists {call : ℤ → List (Line XR) → Prop} {n2 : ℤ} (hn2 : 2 * n2 ≤ 2147483647) (N : ℕ) : ∀ {n : ℤ}, 1 ≤ n → n2 - n < N →
    (∀ n', n ≤ n' → n' ≤ n2 → ∃ l, call n' l) → ∃ lines, SizeLoop call n2 n lines := by
  induction N with
  | zero => intro n h1 h2 _; exact ⟨_, .stop (by push_cast at h2; omega)⟩
  | succ N ih =>
    intro n h1 h2 hc
    by_cases hle : n ≤ n2
    · obtain ⟨l, hl⟩ := hc n le_rfl hle
      obtain ⟨r, hr⟩ := ih (n := 2 * n) (by omega) (by push_cast at h2; omega) fun n' h h' => hc n' (by omega) h'
      exact ⟨_, .next hle hl (by unfold int32; rw [if_pos (by omega)]) hr⟩
    · exact ⟨_, .stop (by omega)⟩

theorem rep_exists {body : ℕ → List (Line XR) → Prop} (k : ℕ) : ∀ {rep : ℕ}, (∀ i, rep ≤ i → i < rep + k → ∃ l, body i l) → ∃ lines, RepLoop body rep k lines := by
  induction k with
  | zero => intro rep _; exact ⟨_, .stop⟩
  | succ k ih =>
    intro rep h
    obtain ⟨l, hl⟩ := h rep le_rfl (by omega)
    obtain ⟨r, hr⟩ := ih (rep := rep + 1) fun i h1 h2 => h i (by omega) (by omega)
    exact ⟨_, .next hl hr⟩

/-- one call of `deg_low_high` returns (release build) -/
theorem range_call_exists {m : Machine XR} (hrel : m.ndebug = true) (he : IntervalEngine m.eng) (hu : UnitRng m.rng) {c : RangeConfig XR} {α : ℝ}
    (hα : c.alpha = fin α) (hα0 : 1 / 2 ≤ α) {rep : ℕ} {n : ℤ} (hn2 : 2 ≤ n) (hn : n ^ 2 < 2147483648)
    (hs1 : -2147483648 ≤ c.rseed ∧ c.rseed + rep + n ≤ 2147483647) (hs2 : -2147483648 ≤ c.aseed ∧ c.aseed + rep + n ≤ 2147483647) {R : ℝ}
    (hR : Radius.LikeNetworKit m.ndebug n c.alpha (fin 0) (fin c.deg) (fin R)) (hR1 : 4 / 3 ≤ R) (hR2 : R ≤ 165 / 4)
    (ht : (m.henv c.para.toNat).threads = 1 ∨ ∃ L, HTree.firstParallelLevel XR (m.henv c.para.toNat).threads = some L ∧
      cosh R < hypCosh (R - 1) (π / 2 ^ (L - 1)) (R - 1) 0)
    (hpts : ∀ radii angles device device', SampleRadii (m.omp c.para.toNat) m.eng device n.toNat c.alpha (fin R) (c.rseed + rep + n) false (xw radii) →
      SampleAngles (m.omp c.para.toNat) m.eng device' n.toNat (c.aseed + rep + n) false (xw angles) →
      2 * (2 * pairCount n.toNat (HypRule radii angles R) / n : ℝ) ≤ n - 1 ∧
      ((2 * pairCount n.toNat (HypRule radii angles R) / n : ℝ) ≤ 1 / 2 ∨ SizeOk radii R (2 * pairCount n.toNat (HypRule radii angles R) / n / 2))) :
    ∃ block, RangeCall m c rep n block := by
  have hn31 : n ≤ 2147483647 := by nlinarith
  obtain ⟨radii, angles, edges, hpart⟩ := hrg_part_exists he hu (threads := c.para.toNat) (rseed := c.rseed + rep + n) (aseed := c.aseed + rep + n) hα0 (by omega) hn31
    hR1 hR2 hs1.2 hs2.2 ht
  obtain ⟨rs, as, rfl, rfl, l1, l2, hrs, has, hin, hgraph⟩ := hrg_part he hu hα0 (by omega) hn31 hR1 hR2 hpart
  have hpart' := hpart
  obtain ⟨_, ⟨d1, s1⟩, ⟨d2, s2⟩, _⟩ := hpart'
  rw [← hα] at s1
  obtain ⟨hmax, hsz⟩ := hpts rs as d1 d2 s1 s2
  have hcnt := graph_count (fun u v h => hypRule_symm h) hgraph
  have hn0 : (0 : ℝ) < n := by exact_mod_cast (by omega : 0 < n)
  set h : ℝ := 2 * pairCount n.toNat (HypRule rs as R) / n with hh
  have hdeg : (CFloat.ofNat edges.length : XR) *. CFloat.ofRat 2 /. CFloat.ofInt n = fin h := by
    rw [XR.ofNat_eq, XR.ofInt_eq, XR.ofRat_eq, XR.mul_fin, XR.div_fin _ _ hn0.ne', hcnt, hh]
    congr 1
    push_cast
    ring
  have hh0 : 0 ≤ h := by rw [hh]; positivity
  have hlen : (rs.length : ℤ) = n := by omega
  have hlen' : (rs.length : ℝ) = n := by exact_mod_cast hlen
  have hn' : rs.length ^ 2 < 2147483648 := by rw [← hlen] at hn; exact_mod_cast hn
  obtain ⟨hrg, hs⟩ := sorted_exists (unifyEdges (intEdges edges))
  have hl : hrg.length < 2147483648 := by
    rw [hs.1.length_eq]
    have := graph_length hgraph
    rw [← l1] at this
    simp only [unifyEdges, intEdges, List.length_map]
    omega
  have hex : 1 / 2 < h → ∀ d, h / 2 < d → d < 2 * h →
      ∃ sub, RangeDiff m c.para.toNat (girgWeights (xw rs) (fin R)) (girgPositions (xw as)) hrg (fin d) sub := by
    intro h1 d h2 h3
    have hsz : SizeOk rs R (h / 2) := hsz.resolve_left (by linarith)
    exact range_diff_exists hrel hu hin (by omega) hn' hl (by linarith) (by rw [hlen']; linarith) (hsz.mono h2.le)
  obtain ⟨N, hN⟩ := pow_unbounded_of_one_lt (4 * h) (by norm_num : (1 : ℝ) < 2)
  obtain ⟨l1', h1', t1, b1⟩ := bisect_exists (diff := RangeDiff m c.para.toNat (girgWeights (xw rs) (fin R)) (girgPositions (xw as)) hrg)
    (pick := fun sub => sub.1 != 0) N (lo := h) (hi := 2 * h) (by linarith) fun hlt d q1 q2 => hex (by linarith) d (by linarith) q2
  obtain ⟨l2', h2', t2, b2⟩ := bisect_exists (diff := RangeDiff m c.para.toNat (girgWeights (xw rs) (fin R)) (girgPositions (xw as)) hrg)
    (pick := fun sub => sub.2 == 0) N (lo := 1 / 2 * h) (hi := 6 / 5 * h) (by linarith) fun hlt d q1 q2 => hex (by linarith) d (by linarith) (by linarith)
  have c1 : (CFloat.ofRat 2 : XR) *. fin h = fin (2 * h) := by rw [XR.ofRat_eq, XR.mul_fin]; norm_num
  have c2 : (CFloat.ofRat (1 / 2) : XR) *. fin h = fin (1 / 2 * h) := by rw [XR.ofRat_eq, XR.mul_fin]; norm_num
  have c3 : fin h *. (CFloat.ofRat (6 / 5) : XR) = fin (6 / 5 * h) := by rw [XR.ofRat_eq, XR.mul_fin, mul_comm]; norm_num
  have i32 : ∀ x : ℤ, -2147483648 ≤ x → x ≤ 2147483647 → int32 x = some x := fun x h1 h2 => by unfold int32; rw [if_pos (by omega)]
  refine ⟨(if CFloat.eq l1' (fin h) then [.warnHigh] else []) ++ (if CFloat.eq h2' (fin (6 / 5 * h)) then [.warnLow] else []) ++
      [.row n (fin h) ((l2' +. h2') /. CFloat.ofRat 2) ((l1' +. h1') /. CFloat.ofRat 2) rep], c.rseed + rep + n, c.aseed + rep + n, fin R, xw rs, xw as, edges, i32 _ (by omega) (by omega), i32 _ (by omega) (by omega), i32 _ (by omega) (by omega),
    i32 _ (by omega) (by omega), ?_, by rw [hα]; exact hpart, hrg, hs, ?_⟩
  · rw [ofRat_zero', XR.ofInt_eq]; exact hR
  · rw [hdeg]
    dsimp only
    rw [c1, c2, c3]
    exact ⟨_, _, _, b1, _, _, _, b2, rfl⟩

theorem readRange_int {m : Machine XR} {p : Params} {c : RangeConfig XR} (h : readRange m p = some c) : -2147483648 ≤ c.rseed ∧ -2147483648 ≤ c.aseed := by
  unfold readRange at h
  simp only [Option.bind_eq_bind, Option.bind_eq_some_iff] at h
  obtain ⟨_, _, _, _, _, _, _, _, r, hr, a, ha, _, _, _, _, h⟩ := h
  simp only [Option.some.injEq] at h
  rw [← h]
  have key : ∀ {k : String} {d x : ℤ}, -2147483648 ≤ d → getOr m.stoi p k d = some x → -2147483648 ≤ x := by
    intro k d x hd h
    unfold getOr at h
    split at h
    · cases h; exact hd
    · split_ifs at h
      · cases h; exact hd
      · exact (m.stoi_int _ _ h).1
  exact ⟨key (by norm_num) hr, key (by norm_num) ha⟩

/-- C76, termination (release build, fewer than 46341 nodes).  If the seeds stay inside of `int`, for all sizes a radius between 4/3 and 41.25 is found with which the
hyperbolic sampler returns (C44), and the drawn hyperbolic random graphs have an average degree of at most `(n-1)/2` (and a supported size), then `inclusion_range` can end normally. -/
theorem C76_returns (m : Machine XR) (hrel : m.ndebug = true) (he : IntervalEngine m.eng) (hu : UnitRng m.rng) {argv : List String} {c : RangeConfig XR}
    (hhelp : wantsHelp argv = false) (hc : readRange m (parseArgs argv) = some c) (hck : checkRange c = none) {α : ℝ} (hα : c.alpha = fin α)
    (hn : c.n2 < 46341) (hsd : c.rseed + c.reps + c.n2 ≤ 2147483647 ∧ c.aseed + c.reps + c.n2 ≤ 2147483647)
    (hall : ∀ n : ℤ, c.n1 ≤ n → n ≤ c.n2 → ∃ R : ℝ, Radius.LikeNetworKit m.ndebug n c.alpha (fin 0) (fin c.deg) (fin R) ∧ 4 / 3 ≤ R ∧ R ≤ 165 / 4 ∧
      ((m.henv c.para.toNat).threads = 1 ∨ ∃ L, HTree.firstParallelLevel XR (m.henv c.para.toNat).threads = some L ∧
        cosh R < hypCosh (R - 1) (π / 2 ^ (L - 1)) (R - 1) 0) ∧
      ∀ (rep : ℕ) radii angles device device', rep < c.reps → SampleRadii (m.omp c.para.toNat) m.eng device n.toNat c.alpha (fin R) (c.rseed + rep + n) false (xw radii) →
        SampleAngles (m.omp c.para.toNat) m.eng device' n.toNat (c.aseed + rep + n) false (xw angles) →
        2 * (2 * pairCount n.toNat (HypRule radii angles R) / n : ℝ) ≤ n - 1 ∧
        ((2 * pairCount n.toNat (HypRule radii angles R) / n : ℝ) ≤ 1 / 2 ∨ SizeOk radii R (2 * pairCount n.toNat (HypRule radii angles R) / n / 2))) :
    ∃ lines, RangeMain m argv .done lines := by
  obtain ⟨ka, kd, _, _⟩ := range_checked hck
  rw [hα] at ka
  have ka := accepted_fin ka
  obtain ⟨i1, i2⟩ := readRange_int hc
  obtain ⟨lines, hl⟩ := rep_exists (body := fun rep l => SizeLoop (RangeCall m c rep) c.n2 c.n1 l) c.reps.toNat (rep := 0) fun rep _ hrep => by
    refine size_exists (by omega) (c.n2 - c.n1 + 1).toNat (by omega) (by omega) fun n h1 h2 => ?_
    obtain ⟨R, hR, hR1, hR2, ht, hp⟩ := hall n h1 h2
    have hrep' : (rep : ℤ) < c.reps := by omega
    exact range_call_exists hrel he hu hα ka.1 (by omega) (by nlinarith) ⟨i1, by omega⟩ ⟨i2, by omega⟩ hR hR1 hR2 ht fun radii angles d d' => hp rep radii angles d d' hrep'
  refine ⟨lines, ?_⟩
  unfold RangeMain
  rw [hhelp, if_neg (by simp), hc]
  simp only [hck]
  exact ⟨trivial, hl⟩

/-- C76.  There is no normal run in which a hyperbolic random graph of average degree above `max(1/2, 2(n-1)/3)` occurs: the search upwards begins with a degree above `n - 1`. -/
theorem C76_dense {n rep : ℕ} {radii angles : List ℝ} {R : ℝ} {block : List (Line XR)} (h : BlockCorrect n radii angles R rep block) :
    (2 * pairCount n (HypRule radii angles R) / n : ℝ) ≤ 1 / 2 ∨ (2 * pairCount n (HypRule radii angles R) / n : ℝ) ≤ 2 / 3 * (n - 1) := by
  obtain ⟨h, _, _, _, _, rfl, _, ⟨_, _, _, _, k⟩, _⟩ := h.out
  by_cases hh : 1 / 2 < (2 * pairCount n (HypRule radii angles R) / n : ℝ)
  · have := (k hh).2
    right; linarith
  · exact Or.inl (not_lt.1 hh)

end Props
end Girgs
