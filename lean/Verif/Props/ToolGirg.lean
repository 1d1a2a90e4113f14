import Verif.Props.ToolHrg
import Verif.Props.Exact
import Verif.Props.ScalingDegree
/-
C64: a run of `gengirg` from the command line to the files.
-/
namespace Girgs.Props
open Cli Spec Tools Output Tree
open XR (fin)

/-- real coordinates behind a list of rows of extended reals -/
theorem rows_of {D : ℕ} {out : List (List XR)} (h : ∀ row ∈ out, row.length = D ∧ ∀ x ∈ row, ∃ v : ℝ, x = fin v ∧ 0 ≤ v ∧ v < 1) :
    ∃ x : List (Fin D → ℝ), out = xl x ∧ ∀ p ∈ x, ∀ i, 0 ≤ p i ∧ p i < 1 := by
  induction out with
  | nil => exact ⟨[], rfl, by simp⟩
  | cons row out ih =>
    obtain ⟨x, rfl, hx⟩ := ih fun y hy => h y (List.mem_cons_of_mem _ hy)
    obtain ⟨h1, h2⟩ := h row (by simp)
    obtain ⟨l, rfl, hl⟩ := reals_of h2
    have hl1 : l.length = D := by simpa [xw] using h1
    subst hl1
    refine ⟨(fun i => l[i]) :: x, ?_, ?_⟩
    · have : xw l = List.ofFn fun i : Fin l.length => fin l[i] := by
        apply List.ext_getElem
        · simp [xw]
        · intro i _ _; simp [xw]
      rw [this]
      rfl
    · intro p hp i
      rcases List.mem_cons.1 hp with rfl | hp
      · exact hl _ (List.getElem_mem _)
      · exact hx p hp i

/-- a run that is not ended by the checks executes the main part -/
theorem girg_run {F : Type} [CFloat F] {m : Machine F} {argv : List String} {c : GirgConfig F} (hc : readGirg m (parseArgs argv) = some c) {exit : Exit}
    (he : exit = .done ∨ exit = .scalingThrew) {files : List File}
    (h : GirgMain m argv exit files) : wantsHelp argv = false ∧ wantsVersion argv = false ∧ checkGirg m c = none ∧ GirgRun m c exit files := by
  unfold GirgMain at h
  cases h1 : wantsHelp argv with
  | true => rw [h1, if_pos rfl] at h; rcases he with rfl | rfl <;> cases h.1
  | false =>
    rw [h1] at h
    cases h2 : wantsVersion argv with
    | true => rw [h2] at h; rcases he with rfl | rfl <;> simp at h
    | false =>
      rw [h2, hc] at h
      simp only [Bool.false_eq_true, if_false] at h
      cases h3 : checkGirg m c with
      | some name => rw [h3] at h; rcases he with rfl | rfl <;> cases h.1
      | none => rw [h3] at h; exact ⟨rfl, rfl, rfl, h⟩

/-- the main part is executed if the checks pass -/
theorem girg_main {F : Type} [CFloat F] {m : Machine F} {argv : List String} {c : GirgConfig F} (h1 : wantsHelp argv = false) (h2 : wantsVersion argv = false)
    (hc : readGirg m (parseArgs argv) = some c) (h3 : checkGirg m c = none) {exit : Exit} {files : List File} :
    GirgMain m argv exit files ↔ GirgRun m c exit files := by
  unfold GirgMain
  rw [h1, h2, hc]
  simp only [Bool.false_eq_true, if_false]
  rw [h3]

/-- what `checkGirg` ensures -/
theorem girg_checked {m : Machine XR} {c : GirgConfig XR} (h : checkGirg m c = none) :
    (1 ≤ c.d ∧ c.d ≤ 5) ∧ Accepted c.ple (Set.Ioc 2 3) ∧ (c.alpha = .pinf ∨ Accepted c.alpha (Set.Ioi 1)) ∧
        Accepted c.deg (Set.Icc 1 (c.n - 1)) ∧ 1 ≤ c.threads ∧ c.threads ≤ m.maxThreads := by
  have hdim : rangeFailsInt c.d 1 5 false false = false ↔ 1 ≤ c.d ∧ c.d ≤ 5 := by rw [C55_int]; simp
  have hp : rangeFails c.ple (CFloat.ofRat 2) (CFloat.ofRat 3) true false = false ↔ Accepted c.ple (Set.Ioc 2 3) := by
    rw [show (CFloat.ofRat 2 : XR) = fin 2 by rw [XR.ofRat_eq]; norm_num, show (CFloat.ofRat 3 : XR) = fin 3 by rw [XR.ofRat_eq]; norm_num]
    exact rangeFails_accepted fun x => C55_real x _ _ _ _
  have ha : rangeFails c.alpha (CFloat.ofRat 1) CFloat.inf true false = false ↔ (c.alpha = .pinf ∨ Accepted c.alpha (Set.Ioi 1)) := by
    rw [ofRat_one', show (CFloat.inf : XR) = .pinf from rfl, C55_alpha]
    unfold Accepted
    constructor
    · rintro (h | h | ⟨x, h, h'⟩)
      · exact Or.inr (Or.inl h)
      · exact Or.inl h
      · exact Or.inr (Or.inr ⟨x, h', h⟩)
    · rintro (h | h | ⟨x, h, h'⟩)
      · exact Or.inr (Or.inl h)
      · exact Or.inl h
      · exact Or.inr (Or.inr ⟨x, h', h⟩)
  have hd : rangeFails c.deg (CFloat.ofRat 1) (CFloat.ofInt c.n -. CFloat.ofRat 1) false false = false ↔ Accepted c.deg (Set.Icc 1 (c.n - 1)) := by
    rw [ofInt_sub_one, ofRat_one']
    exact rangeFails_accepted fun x => C55_real x _ _ _ _
  have hth : rangeFailsInt c.threads 1 m.maxThreads false false = false ↔ 1 ≤ c.threads ∧ c.threads ≤ m.maxThreads := by
    rw [C55_int]; simp
  unfold checkGirg at h
  rw [← ha, ← hp, ← hd, ← hth, ← hdim]
  split_ifs at h <;> simp_all

/-- the scaled weights are supported input of the edge sampler -/
theorem girg_supported {D : ℕ} (hD1 : 1 ≤ D) (hD5 : D ≤ 5) {w : List ℝ} {x : List (Fin D → ℝ)} (hl : x.length = w.length) (h2 : 2 ≤ w.length)
    (h31 : w.length < 2147483648) (hw : ∀ y ∈ w, 1 ≤ y ∧ y ≤ w.length / 2) (hx : ∀ p ∈ x, ∀ i, 0 ≤ p i ∧ p i < 1) {k : ℝ} (hk : 0 < k)
    (hup : k ≤ max (2 ^ D) w.sum) (hlow : w.sum < 2 ^ 29 * k) : SupportedInput D (w.map (· * k)) x := by
  have hn : (w.length : ℝ) < 2147483648 := by exact_mod_cast h31
  have hsum : w.sum ≤ w.length * (w.length / 2) := by
    have := List.sum_le_card_nsmul w (w.length / 2 : ℝ) fun y hy => (hw y hy).2
    simpa using this
  have hk100 : k ≤ 2 ^ 62 := by
    refine hup.trans (max_le ?_ ?_)
    · have : (2 : ℝ) ^ D ≤ 2 ^ 5 := pow_le_pow_right₀ (by norm_num) hD5
      linarith [show (2 : ℝ) ^ 5 ≤ 2 ^ 62 by norm_num]
    · have h0 : (0 : ℝ) ≤ w.length := by positivity
      nlinarith
  refine ⟨hD1, hD5, by simpa using hl, by simpa using (by omega : 1 ≤ w.length), by simpa using h31, ?_, ?_, hx, ?_, ?_⟩
  · intro u hu
    obtain ⟨y, hy, rfl⟩ := List.mem_map.1 hu
    exact mul_pos (by linarith [(hw y hy).1]) hk
  · intro u hu
    obtain ⟨y, hy, rfl⟩ := List.mem_map.1 hu
    have h1 : y * k ≤ 2 ^ 30 * 2 ^ 62 := mul_le_mul (by linarith [(hw y hy).2]) hk100 hk.le (by norm_num)
    have h2 : (2 : ℝ) ^ 30 * 2 ^ 62 < 2 ^ 1024 := by
      rw [← pow_add]
      exact pow_lt_pow_right₀ (by norm_num) (by norm_num)
    exact h1.trans_lt h2
  · intro u hu
    obtain ⟨y, hy, rfl⟩ := List.mem_map.1 hu
    rw [List.sum_map_mul_right, List.map_id']
    have h1 := (hw y hy).1
    have h3 : w.sum * k < 2 ^ 29 * k * k := mul_lt_mul_of_pos_right hlow hk
    have h4 : k * k ≤ (y * k) ^ 2 := by
      have : k ≤ y * k := by nlinarith
      nlinarith
    nlinarith
  · intro u hu v hv
    obtain ⟨y, hy, rfl⟩ := List.mem_map.1 hu
    obtain ⟨z, hz, rfl⟩ := List.mem_map.1 hv
    have h1 := (hw y hy).1
    have h2 := (hw z hz).2
    have : z < 2 ^ 30 * y := by nlinarith
    nlinarith

/-- the requested files -/
theorem girg_files {F : Type} [CFloat F] {m : Machine F} {c : GirgConfig F} {ws : List F} {ps : List (List F)} {es : List (ℕ × ℕ)}
    {fs : List (String × FileResult)} (h : girgFiles m c ws ps es = some fs) :
    (c.dot = false ∧ fs = if c.edge then [(c.file ++ ".txt", writeEdgeList (m.canOpen (c.file ++ ".txt")) c.n (intEdges es))] else []) ∨
    (c.dot = true ∧ ∃ r, saveDot m.printer (m.canOpen (c.file ++ ".dot")) ws ps (intEdges es) = some r ∧
      fs = (c.file ++ ".dot", r) :: if c.edge then [(c.file ++ ".txt", writeEdgeList (m.canOpen (c.file ++ ".txt")) c.n (intEdges es))] else []) := by
  unfold girgFiles at h
  cases hd : c.dot with
  | false =>
    rw [hd] at h
    simp only [Bool.false_eq_true, if_false, Option.bind_eq_bind, Option.bind_some, Option.some.injEq] at h
    exact Or.inl ⟨rfl, h.symm⟩
  | true =>
    rw [hd] at h
    simp only [if_true, Option.bind_eq_bind, Option.bind_eq_some_iff, Option.map_eq_some_iff, Option.some.injEq] at h
    obtain ⟨_, ⟨r, hr, rfl⟩, rfl⟩ := h
    exact Or.inr ⟨rfl, r, hr, rfl⟩

theorem suffix_ne' {s : String} : s ++ ".txt" ≠ s ++ ".dot" := by
  intro h
  have := congrArg String.toList h
  simp only [String.toList_append] at this
  have := List.append_cancel_left this
  revert this; decide

theorem saveDot_closed {F : Type} [CFloat F] (pr : Printer F) (ws : List F) (ps : List (List F)) (es : List (ℤ × ℤ)) :
    saveDot pr false ws ps es = some .openFailed := rfl

/-- node data and scaling of a run of `gengirg` -/
theorem girg_nodes {m : Machine XR} (he : IntervalEngine m.eng) {c : GirgConfig XR} (h3 : checkGirg m c = none) (hn31 : c.n ≤ 2147483647) {ple deg : ℝ}
    (hple : c.ple = fin ple) (hdeg : c.deg = fin deg) {ws : List XR} {ps : List (List XR)} (h : GirgNodes m c ws ps) :
    ∃ (w : List ℝ) (x : List (Fin c.d.toNat → ℝ)), ws = xw w ∧ ps = xl x ∧ w.length = c.n.toNat ∧ x.length = c.n.toNat ∧ 2 ≤ c.n.toNat ∧
      c.n.toNat < 2147483648 ∧ 1 ≤ c.d.toNat ∧ c.d.toNat ≤ 5 ∧ (∀ y ∈ w, 1 ≤ y ∧ y ≤ c.n.toNat / 2) ∧ (∀ p ∈ x, ∀ i, 0 ≤ p i ∧ p i < 1) ∧
      1 ≤ deg ∧ deg ≤ w.length - 1 := by
  obtain ⟨hn0, hne, ⟨dw, hw⟩, ⟨dp, hp⟩⟩ := h
  obtain ⟨kd, kp, ka, kg, _, _⟩ := girg_checked h3
  rw [hple] at kp; rw [hdeg] at kg
  have kp := accepted_fin kp
  have kg := accepted_fin kg
  have hn2 : 2 ≤ c.n := by
    have := kg.1.trans kg.2
    exact_mod_cast (by linarith : (2 : ℝ) ≤ c.n)
  rw [hple] at hw
  obtain ⟨l1, r1⟩ := C26_range he (by omega) (by linarith [kp.1]) hw
  obtain ⟨l2, r2⟩ := C27_range he hp
  obtain ⟨w, rfl, hw'⟩ := reals_of r1
  obtain ⟨x, rfl, hx'⟩ := rows_of r2
  have l1 : w.length = c.n.toNat := by simpa [xw] using l1
  have l2 : x.length = c.n.toNat := by simpa [xl] using l2
  refine ⟨w, x, rfl, rfl, l1, l2, by omega, by omega, by omega, by omega, hw', hx', kg.1, ?_⟩
  rw [l1]
  have : ((c.n.toNat : ℕ) : ℝ) = (c.n : ℝ) := by
    have : ((c.n.toNat : ℕ) : ℤ) = c.n := by omega
    exact_mod_cast this
  rw [this]
  exact kg.2

/-- `alpha/(alpha-1)`, 1 for `alpha = infinity` -/
noncomputable def alphaFactor : XR → ℝ
  | .fin a => a / (a - 1)
  | _ => 1

theorem girg_normal {n : ℕ} (hn : n < 2147483648) {w : List ℝ} (hw : ∀ y ∈ w, 1 ≤ y ∧ y ≤ n / 2) : NormalWeights w := by
  intro y hy
  obtain ⟨h1, h2⟩ := hw y hy
  have hn' : (n : ℝ) < 2147483648 := by exact_mod_cast hn
  have h3 : (1 : ℝ) ≤ 2 ^ 1022 := one_le_pow₀ (by norm_num)
  have h4 : (1 : ℝ) ≤ 2 ^ 971 := one_le_pow₀ (by norm_num)
  generalize (2 : ℝ) ^ 1022 = A at h3 ⊢
  generalize (2 : ℝ) ^ 971 = B at h4 ⊢
  refine ⟨?_, ?_⟩
  · rw [div_le_iff₀ (by linarith)]; nlinarith
  · nlinarith

/-- the scaling of a run of `gengirg` -/
theorem girg_scaled {m : Machine XR} {c : GirgConfig XR} {w : List ℝ} {x : List (Fin c.d.toNat → ℝ)} {deg : ℝ} (hdeg : c.deg = fin deg)
    (ha : c.alpha = .pinf ∨ ∃ a : ℝ, c.alpha = fin a ∧ 1 < a)
    (hl : x.length = w.length) (h2 : 2 ≤ w.length) (h31 : w.length < 2147483648) (hD1 : 1 ≤ c.d.toNat) (hD5 : c.d.toNat ≤ 5)
    (hw : ∀ y ∈ w, 1 ≤ y ∧ y ≤ w.length / 2) (hx : ∀ p ∈ x, ∀ i, 0 ≤ p i ∧ p i < 1) (hd1 : 1 ≤ deg) (hdn : deg ≤ w.length - 1) {s : XR} {ws : List XR}
    (h : GirgScaling m c (xw w) (.returned s ws)) :
    ∃ k : ℝ, 0 < k ∧ ws = xw (w.map (· * k)) ∧
      (c.alpha = .pinf → deg - 2 / 100 ≤ thresholdGirgDegree c.d.toNat (w.map (· * k)) ∧
        thresholdGirgDegree c.d.toNat (w.map (· * k)) < deg + 2 / 100 + 1 / w.length) ∧
      (∀ a : ℝ, c.alpha = fin a → deg - 2 / 100 ≤ girgDegree c.d.toNat a (w.map (· * k)) ∧
        girgDegree c.d.toNat a (w.map (· * k)) < (if a ≤ 8 then 1 else a / (a - 1)) * (deg + 2 / 100 + 1 / w.length)) ∧
      (alphaFactor c.alpha * 2 ^ c.d.toNat * w.sum ^ 2 < 2 ^ 29 * (deg - 2 / 100) * w.length → SupportedInput c.d.toNat (w.map (· * k)) x) := by
  obtain ⟨part, hperm, hs⟩ := h
  have hwl : (xw w).length = w.length := by simp [xw]
  have hpart : part.flatten.Perm (List.range w.length) := by
    have := hperm.flatten
    rw [m.chunks_flatten _ _ (m.env c.threads.toNat).threads_pos, hwl] at this
    exact this
  have hN := girg_normal h31 hw
  have hne : w ≠ [] := by rintro rfl; simp at h2
  rw [hdeg] at hs
  have hs0 : Scaling.ScaleWeights m.alg m.ndebug part (w.map fin) (fin deg) c.d.toNat c.alpha (.returned s ws) := hs
  obtain ⟨k, hk, rfl, hws, q1, q2, q3⟩ := C59_degree hN hne (by omega) hpart hD1 (by omega) hs0
  obtain ⟨f1, f2⟩ := C59_factor hN h2 (by omega) hpart hD1 (by omega) hdn one_pos (fun y hy => (hw y hy).1) hs0
  have hWp : 0 < w.sum := List.sum_pos w (fun y hy => by linarith [(hw y hy).1]) hne
  refine ⟨k, hk, hws, q1, fun a ha' => ?_, fun hsize => ?_⟩
  · rcases le_or_gt a 8 with h8 | h8
    · rw [if_pos h8, one_mul]; exact q2 a ha' h8
    · rw [if_neg (not_le.2 h8)]; exact q3 a ha' h8
  · have hup : k ≤ max (2 ^ c.d.toNat) w.sum := by
      rcases ha with h | ⟨a, h, h'⟩
      · simpa using (f1 h).1
      · simpa using (f2 a h h').1
    have hlow : w.sum < 2 ^ 29 * k := by
      have key : (deg - 2 / 100) * w.length ≤ alphaFactor c.alpha * (2 ^ c.d.toNat * w.sum * k) := by
        rcases ha with h | ⟨a, h, h'⟩
        · rw [h]; simpa [alphaFactor] using (f1 h).2
        · rw [h]
          have := (f2 a h h').2
          have ha1 : 0 < a - 1 := by linarith
          have ha0 : a ≠ 0 := by linarith
          show _ ≤ a / (a - 1) * _
          have h5 := mul_le_mul_of_nonneg_left this (div_pos (by linarith : 0 < a) ha1).le
          have e : a / (a - 1) * ((deg - 2 / 100) * w.length * ((a - 1) / a)) = (deg - 2 / 100) * w.length := by
            field_simp
          rwa [e] at h5
      have hA : 0 < alphaFactor c.alpha := by
        rcases ha with h | ⟨a, h, h'⟩
        · rw [h]; exact one_pos
        · rw [h]; exact div_pos (by linarith) (by linarith)
      have h6 : alphaFactor c.alpha * 2 ^ c.d.toNat * w.sum ^ 2 < 2 ^ 29 * (alphaFactor c.alpha * (2 ^ c.d.toNat * w.sum * k)) := by
        refine hsize.trans_le ?_
        nlinarith
      have hP : 0 < alphaFactor c.alpha * 2 ^ c.d.toNat * w.sum := by positivity
      have h7 : alphaFactor c.alpha * 2 ^ c.d.toNat * w.sum * w.sum < alphaFactor c.alpha * 2 ^ c.d.toNat * w.sum * (2 ^ 29 * k) := by nlinarith
      exact lt_of_mul_lt_mul_left h7 hP.le
    exact girg_supported hD1 hD5 hl h2 h31 hw hx hk hup hlow

/-- C64.  A run of `gengirg` that ends normally: there are `n` weights `w` from 1 to `n/2`, a factor `k` and `n` positions in `[0,1)^d`; the expected average
degree for the weights `k*w` is the requested one (up to 0.02 and `1/n`; for `8 < alpha < infinity` the upper bound is weaker); if the sum `W` of the
unscaled weights satisfies `2^d*W²*(alpha/(alpha-1)) < 2^29*(deg-0.02)*n`, then the edges are a simple graph, for `alpha = infinity` the threshold
graph; exactly the requested files are written, `.dot` first; the edge list file contains exactly this graph, and the dot file the weights `k*w` up to 0.005, the
positions up to `5e-7` and the same edges. -/
theorem C64_output (m : Machine XR) (he : IntervalEngine m.eng) (hu : UnitRng m.rng) {argv : List String} {c : GirgConfig XR}
    (hc : readGirg m (parseArgs argv) = some c) {ple deg : ℝ} (hple : c.ple = fin ple) (hdeg : c.deg = fin deg) (hα : c.alpha ≠ .nan)
    {files : List File} (h : GirgMain m argv .done files) :
    ∃ (n d : ℕ) (w : List ℝ) (k : ℝ) (x : List (Fin d → ℝ)) (edges : List (ℕ × ℕ)), c.n = n ∧ c.d = d ∧ w.length = n ∧ x.length = n ∧
      (∀ y ∈ w, 1 ≤ y ∧ y ≤ n / 2) ∧ 0 < k ∧ (∀ p ∈ x, ∀ i, 0 ≤ p i ∧ p i < 1) ∧
      (c.alpha = .pinf → deg - 2 / 100 ≤ thresholdGirgDegree d (w.map (· * k)) ∧ thresholdGirgDegree d (w.map (· * k)) < deg + 2 / 100 + 1 / n) ∧
      (∀ a : ℝ, c.alpha = fin a → 1 < a ∧ deg - 2 / 100 ≤ girgDegree d a (w.map (· * k)) ∧
        girgDegree d a (w.map (· * k)) < (if a ≤ 8 then 1 else a / (a - 1)) * (deg + 2 / 100 + 1 / n)) ∧
      (alphaFactor c.alpha * 2 ^ d * w.sum ^ 2 < 2 ^ 29 * (deg - 2 / 100) * n →
        IsSimpleGraph n edges ∧ (c.alpha = .pinf → IsGraphOf n (ThresholdRule (w.map (· * k)) x) edges)) ∧
      files.map Prod.fst = (if c.dot then [c.file ++ ".dot"] else []) ++ (if c.edge then [c.file ++ ".txt"] else []) ∧
      (∀ t, (c.file ++ ".txt", t) ∈ files → readEdgeList t = some ((n : ℤ), edges.map fun e => ((e.1 : ℤ), (e.2 : ℤ)))) ∧
      (PrintsRounded m.printer → ∀ t, (c.file ++ ".dot", t) ∈ files →
        ∃ nodes, readDot t = some ⟨nodes, edges.map fun e => ((e.1 : ℤ), (e.2 : ℤ))⟩ ∧ nodes.length = n ∧
          ∀ (i : ℕ) (y : ℝ) (p : Fin d → ℝ), w[i]? = some y → x[i]? = some p →
            ∃ label coords, nodes[i]? = some ((i : ℤ), label, coords) ∧ coords.length = d ∧
              (∃ q, readDecimal label = some q ∧ |q - y * k| ≤ 0.005) ∧
              ∀ j : Fin d, ∃ t q, coords[(j : ℕ)]? = some t ∧ readDecimal t = some q ∧ |q - p j| ≤ 0.0000005) := by
  obtain ⟨_, _, h3, weights, positions, hnodes, hrun⟩ := girg_run hc (Or.inl rfl) h
  have hn31 := (setting_int m (by norm_num) ((C62_girg_settings m argv c).1 hc).1).2
  obtain ⟨w, x, rfl, rfl, l1, l2, hn2, hlt, hD1, hD5, hw, hx, hd1, hdn⟩ := girg_nodes he h3 hn31 hple hdeg hnodes
  have ha : c.alpha = .pinf ∨ ∃ a : ℝ, c.alpha = fin a ∧ 1 < a := by
    rcases (girg_checked h3).2.2.1 with h | h | ⟨a, h, h'⟩
    · exact Or.inl h
    · exact absurd h hα
    · exact Or.inr ⟨a, h', h⟩
  rcases hrun with ⟨_, _, h, _⟩ | ⟨s, ws, edges, hs, ⟨dev, gens, hg, notice, hE⟩, fs, hfs, hem⟩
  · cases h
  rw [← l1] at hw hlt hn2
  obtain ⟨k, hk, rfl, q1, q2, q3⟩ := girg_scaled hdeg ha (by omega) hn2 hlt hD1 hD5 hw hx hd1 hdn hs
  have hex : (emit fs).1 = .done := by rw [← hem]
  have hfl : files = (emit fs).2 := by rw [← hem]
  obtain ⟨e1, e2⟩ := emit_done hex
  refine ⟨w.length, c.d.toNat, w, k, x, edges, by omega, by omega, rfl, by omega, hw, hk, hx, q1, fun a h => ⟨?_, q2 a h⟩, fun hsz => ?_, ?_, ?_, ?_⟩
  · rcases ha with h' | ⟨b, h', h''⟩
    · rw [h] at h'; cases h'
    · rw [h] at h'; cases h'; exact h''
  · have sup := q3 hsz
    refine ⟨?_, fun hp => ?_⟩
    · simpa using ((C17_simple_graph sup c.alpha _ _ hu.geo gens).2.2 _ _ hE).1
    · rw [hp] at hE
      simpa using (C18_threshold_exact sup _ _ hu.geo gens _ _ hE).1
  · rw [hfl, e1]
    rcases girg_files hfs with ⟨hd, rfl⟩ | ⟨hd, r, hr, rfl⟩ <;> cases c.edge <;> simp [hd]
  · intro t ht
    rw [hfl, e2] at ht
    have hw : FileResult.written t = writeEdgeList (m.canOpen (c.file ++ ".txt")) c.n (intEdges edges) := by
      rcases girg_files hfs with ⟨hd, rfl⟩ | ⟨hd, r, hr, rfl⟩ <;> cases hed : c.edge <;> rw [hed] at ht <;> simp [suffix_ne'] at ht
      · exact ht
      · exact ht
    cases hop : m.canOpen (c.file ++ ".txt") with
    | false => rw [hop, (C34_round_trip _ _).2] at hw; cases hw
    | true =>
      rw [hop] at hw
      obtain ⟨t', ht', hr'⟩ := (C34_round_trip c.n (intEdges edges)).1
      rw [ht'] at hw
      cases hw
      rw [hr']
      have : c.n = (w.length : ℤ) := by omega
      rw [this]; rfl
  · intro hpr t ht
    rw [hfl, e2] at ht
    have hxl : xl x = (x.map List.ofFn).map fun r => r.map fin := by
      simp [xl, List.map_ofFn, Function.comp_def]
    obtain ⟨t', ht', nodes, n1, n2, n3⟩ := C35_accuracy hpr (weights := w.map (· * k)) (positions := x.map List.ofFn) (intEdges edges)
      (by simp; omega) (by simpa using (by omega : w.length < 2 ^ 31))
    rw [← hxl] at ht'
    have hw : saveDot m.printer (m.canOpen (c.file ++ ".dot")) (xw (w.map (· * k))) (xl x) (intEdges edges) = some (.written t) := by
      rcases girg_files hfs with ⟨hd, rfl⟩ | ⟨hd, r, hr, rfl⟩ <;> cases hed : c.edge <;> rw [hed] at ht <;> simp [Ne.symm suffix_ne'] at ht
      · rw [hr, ht]
      · rw [hr, ht]
    cases hop : m.canOpen (c.file ++ ".dot") with
    | false => rw [hop, saveDot_closed] at hw; cases hw
    | true =>
      rw [hop] at hw
      have : FileResult.written t' = .written t := Option.some.inj (ht'.symm.trans hw)
      cases this
      refine ⟨nodes, n1, by simpa using n2, fun i y p hy hp => ?_⟩
      obtain ⟨label, coords, k1, k2, k3, k4⟩ := n3 i (y * k) (List.ofFn p) (by rw [List.getElem?_map, hy]; rfl) (by rw [List.getElem?_map, hp]; rfl)
      refine ⟨label, coords, k1, by simpa using k2, k3, fun j => k4 j (p j) ?_⟩
      rw [List.getElem?_eq_getElem (by rw [List.length_ofFn]; exact j.2)]
      simp

/-- C64, the exception.  `gengirg` ends with the exception of `scaleWeights` only if `alpha` is NaN (which passes the range check). -/
theorem C64_exception (m : Machine XR) {argv : List String} {c : GirgConfig XR} (hc : readGirg m (parseArgs argv) = some c) {files : List File}
    (h : GirgMain m argv .scalingThrew files) : c.alpha = .nan ∧ files = [] := by
  obtain ⟨_, _, h3, weights, positions, hnodes, hrun⟩ := girg_run hc (Or.inr rfl) h
  rcases hrun with ⟨ws, ⟨part, hp, hs⟩, _, hf⟩ | ⟨s, ws, edges, _, _, fs, _, hem⟩
  · refine ⟨?_, hf⟩
    rcases (C28_rejects_iff _ _ _ _ _ _ _).1 ⟨ws, hs⟩ with h | h | ⟨a, h, h'⟩
    · exact h
    · rcases (girg_checked h3).2.2.1 with h1 | h1 | ⟨a, h1, h2⟩
      · rw [h] at h1; cases h1
      · exact h1
      · rw [h] at h2; cases h2
    · rcases (girg_checked h3).2.2.1 with h1 | h1 | ⟨b, h1, h2⟩
      · rw [h] at h1; cases h1
      · exact h1
      · rw [h] at h2; cases h2
        have : (1 : ℝ) < a := h1
        rcases h' with h' | h' <;> linarith
  · exfalso
    have : ∀ fs : List (String × FileResult), (emit fs).1 ≠ .scalingThrew := by
      intro fs
      induction fs with
      | nil => simp [emit]
      | cons f fs ih =>
        rcases f with ⟨n, t | _⟩
        · exact ih
        · simp [emit]
    exact this fs (by rw [← hem])

/-- C64, the exception.  If `alpha` is NaN and the other checks pass, every run that ends does so with the exception. -/
theorem C64_nan (m : Machine XR) {argv : List String} {c : GirgConfig XR} (h1 : wantsHelp argv = false) (h2 : wantsVersion argv = false)
    (hc : readGirg m (parseArgs argv) = some c) (h3 : checkGirg m c = none) (hα : c.alpha = .nan) {exit : Exit} {files : List File}
    (h : GirgMain m argv exit files) : exit = .scalingThrew ∧ files = [] := by
  obtain ⟨weights, positions, hnodes, hrun⟩ := (girg_main h1 h2 hc h3).1 h
  rcases hrun with ⟨ws, _, he, hf⟩ | ⟨s, ws, edges, ⟨part, hp, hs⟩, _⟩
  · exact ⟨he, hf⟩
  · exfalso
    rcases C28_estimator hs with ⟨h | ⟨a, h, _⟩, _⟩ | ⟨⟨a, h, _⟩, _⟩ <;> rw [hα] at h <;> cases h

/-- C64, termination.  For a release build, a supported size for all weights that can be drawn, and seeds with `seed + threads ≤ 2^31` (or negative),
`gengirg` can end normally if and only if the requested files can be opened. -/
theorem C64_returns_iff (m : Machine XR) (hrel : m.ndebug = true) (he : IntervalEngine m.eng) (hu : UnitRng m.rng) {argv : List String} {c : GirgConfig XR}
    (h1 : wantsHelp argv = false) (h2 : wantsVersion argv = false)
    (hc : readGirg m (parseArgs argv) = some c) (h3 : checkGirg m c = none) {ple deg : ℝ} (hple : c.ple = fin ple) (hdeg : c.deg = fin deg) (hα : c.alpha ≠ .nan)
    (hsize : ∀ (w : List ℝ) (device : ℕ → m.eng.G),
      GenerateWeights (m.omp c.threads.toNat) m.eng device c.n.toNat c.ple c.wseed (decide (1 < c.threads)) (xw w) →
        alphaFactor c.alpha * 2 ^ c.d.toNat * w.sum ^ 2 < 2 ^ 29 * (deg - 2 / 100) * w.length)
    (hs : ∀ s ∈ [c.wseed, c.pseed, c.sseed], s < 0 ∨ s + c.threads ≤ 2147483648) :
    (∃ files, GirgMain m argv .done files) ↔
      (c.dot = true → m.canOpen (c.file ++ ".dot") = true) ∧ (c.edge = true → m.canOpen (c.file ++ ".txt") = true) := by
  have hn31 := (setting_int m (by norm_num) ((C62_girg_settings m argv c).1 hc).1).2
  obtain ⟨kd, kp, ka, kg, th1, th2⟩ := girg_checked h3
  rw [hple] at kp; rw [hdeg] at kg
  have kp := accepted_fin kp
  have kg := accepted_fin kg
  have hn2 : 2 ≤ c.n := by
    have := kg.1.trans kg.2
    exact_mod_cast (by linarith : (2 : ℝ) ≤ c.n)
  have ha : c.alpha = .pinf ∨ ∃ a : ℝ, c.alpha = fin a ∧ 1 < a := by
    rcases ka with h | h | ⟨a, h, h'⟩
    · exact Or.inl h
    · exact absurd h hα
    · exact Or.inr ⟨a, h', h⟩
  constructor
  · rintro ⟨files, h⟩
    obtain ⟨_, _, _, weights, positions, _, hrun⟩ := girg_run hc (Or.inl rfl) h
    rcases hrun with ⟨_, _, h, _⟩ | ⟨s, ws, edges, _, _, fs, hfs, hem⟩
    · cases h
    have hwr := emit_none (show (emit fs).1 = .done by rw [← hem])
    constructor
    · intro hd
      rcases girg_files hfs with ⟨hd', _⟩ | ⟨_, r, hr, rfl⟩
      · rw [hd] at hd'; cases hd'
      · obtain ⟨t, ht⟩ := hwr _ (List.mem_cons_self)
        simp only at ht
        subst ht
        by_contra hno
        simp only [Bool.not_eq_true] at hno
        rw [hno, saveDot_closed] at hr
        cases hr
    · intro hed
      have : (c.file ++ ".txt", writeEdgeList (m.canOpen (c.file ++ ".txt")) c.n (intEdges edges)) ∈ fs := by
        rcases girg_files hfs with ⟨_, rfl⟩ | ⟨_, r, hr, rfl⟩ <;> simp [hed]
      obtain ⟨t, ht⟩ := hwr _ this
      by_contra hno
      simp only [Bool.not_eq_true] at hno
      rw [hno] at ht
      cases ht
  · rintro ⟨hdot, hedge⟩
    have hseed : ∀ s ∈ [c.wseed, c.pseed, c.sseed], ∀ t : ℕ, (t : ℤ) ≤ c.threads → SeedOK t s := by
      intro s hs' t ht
      rcases hs s hs' with h | h
      · exact Or.inl h
      · exact Or.inr (by omega)
    have hnt : ∀ b, (nodeThreads (m.omp c.threads.toNat) c.n.toNat b : ℤ) ≤ c.threads := by
      intro b
      unfold nodeThreads
      have h3 : (m.omp c.threads.toNat).maxThreads = max 1 c.threads.toNat := rfl
      rw [h3]
      cases b <;> simp <;> omega
    obtain ⟨_, ws, _, hws, lws, _⟩ := C26_executions (m.omp c.threads.toNat) m.eng (fun _ => m.eng.seed 0) c.n.toNat c.ple c.wseed (decide (1 < c.threads))
      (hseed _ (by simp) _ (hnt _))
    obtain ⟨_, ps, _, hps, _⟩ := C27_executions (m.omp c.threads.toNat) m.eng (fun _ => m.eng.seed 0) c.n.toNat c.d.toNat c.pseed true
      (hseed _ (by simp) _ (hnt _))
    have hw := (hws _).2 rfl
    have hp := (hps _).2 rfl
    have hnodes : GirgNodes m c ws ps := ⟨by omega, by rintro rfl; simp at lws; omega, ⟨_, hw⟩, ⟨_, hp⟩⟩
    obtain ⟨w, x, rfl, rfl, l1, l2, hn2', hlt, hD1, hD5, hw', hx, hd1, hdn⟩ := girg_nodes he h3 hn31 hple hdeg hnodes
    rw [← l1] at hw' hlt hn2'
    have hN := girg_normal hlt hw'
    -- scaling
    obtain ⟨s, ws', hsc⟩ : ∃ s ws', GirgScaling m c (xw w) (.returned s ws') := by
      have hwl : (xw w).length = w.length := by simp [xw]
      obtain ⟨s, ws', h⟩ := (C59_returns_iff hN hn2' (by omega)
        (part := m.chunks (m.env c.threads.toNat).threads (xw w).length)
        (by rw [m.chunks_flatten _ _ (m.env c.threads.toNat).threads_pos, hwl]) m.alg hD1 (by omega)
        (show AlphaAccepted c.alpha by
          rcases ha with h | ⟨a, h, h'⟩
          · exact Or.inl h
          · exact Or.inr ⟨a, h, by linarith, by linarith [h'.ne']⟩) deg).1.2 ⟨by linarith, hdn⟩
      exact ⟨s, ws', _, List.Perm.refl _, by rw [hdeg, hrel]; exact h⟩
    obtain ⟨k, hk, rfl, _, _, q3⟩ := girg_scaled hdeg ha (by omega) hn2' hlt hD1 hD5 hw' hx hd1 hdn hsc
    have sup := q3 (hsize w _ hw)
    -- edges
    obtain ⟨gens, hg⟩ := seedGens_ok (hseed c.sseed (by simp) (m.env c.threads.toNat).threads (by
      show ((max 1 (min c.threads.toNat 8388608) : ℕ) : ℤ) ≤ _
      omega)) m.edgeSeed (fun _ => m.edgeSeed 0)
    obtain ⟨⟨edges, notice, hE⟩, _⟩ := C17_simple_graph sup c.alpha (m.env c.threads.toNat) m.rng hu.geo gens
    -- files
    have hfs : ∃ fs, girgFiles m c (xw (w.map (· * k))) (xl x) edges = some fs ∧ ∀ f ∈ fs, ∃ t, f.2 = .written t := by
      have ht : c.edge = true → ∃ t, writeEdgeList (m.canOpen (c.file ++ ".txt")) c.n (intEdges edges) = .written t := by
        intro h
        rw [hedge h]
        exact ⟨_, rfl⟩
      unfold girgFiles
      cases hcc : c.dot with
      | false =>
        simp only [Bool.false_eq_true, if_false, Option.bind_eq_bind, Option.bind_some, Option.some.injEq]
        refine ⟨_, rfl, ?_⟩
        cases hee : c.edge with
        | false => simp
        | true => simpa using ht hee
      | true =>
        obtain ⟨t, hw, _⟩ := C35_round_trip m.printer (xw (w.map (· * k))) (xl x) (intEdges edges) (by simp [xw, xl]; omega) (by simp [xw]; omega)
        simp only [if_true, hdot hcc, hw, Option.map_some, Option.bind_eq_bind, Option.bind_some, Option.some.injEq]
        refine ⟨_, rfl, ?_⟩
        cases hee : c.edge with
        | false => simp
        | true => simpa using ht hee
    obtain ⟨fs, hfs, hall⟩ := hfs
    refine ⟨(emit fs).2, (girg_main h1 h2 hc h3).2 ⟨_, _, hnodes, Or.inr ⟨s, _, edges, hsc, ⟨_, gens, hg, notice, hE⟩, fs, hfs, ?_⟩⟩⟩
    rw [← emit_all hall]

/-- the condition on the size in C64 holds for all weights between 1 and `n/2` if `2^d*n³*(alpha/(alpha-1)) < 2^31*(deg-0.02)` -/
theorem size_small {A : ℝ} (hA : 0 < A) {d n : ℕ} {deg : ℝ} (hn : 0 < n) {w : List ℝ} (hl : w.length = n) (hw : ∀ y ∈ w, 1 ≤ y ∧ y ≤ n / 2)
    (h : A * 2 ^ d * n ^ 3 < 2 ^ 31 * (deg - 2 / 100)) : A * 2 ^ d * w.sum ^ 2 < 2 ^ 29 * (deg - 2 / 100) * w.length := by
  have hn0 : (0 : ℝ) < n := by exact_mod_cast hn
  have h0 : 0 ≤ w.sum := List.sum_nonneg fun y hy => by linarith [(hw y hy).1]
  have h1 : w.sum ≤ n * (n / 2) := by
    have := List.sum_le_card_nsmul w (n / 2 : ℝ) fun y hy => (hw y hy).2
    rw [hl] at this
    simpa using this
  have h2 : w.sum ^ 2 ≤ (n * (n / 2)) ^ 2 := pow_le_pow_left₀ h0 h1 2
  have hP : 0 < A * 2 ^ d := by positivity
  have h3 := mul_le_mul_of_nonneg_left h2 hP.le
  have h4 := mul_lt_mul_of_pos_right h hn0
  rw [hl]
  nlinarith

/-- an example of a command line -/
def girgArgs : List String := ["gengirg", "-n", "100", "-deg", "3", "-edge", "1", "-dot", "1"]

noncomputable def girgExample : GirgConfig XR := ⟨100, 1, fin (5 / 2), .pinf, fin 3, 12, 130, 1400, 1, "graph", true, true⟩

theorem girgExample_read : readGirg exampleMachine (parseArgs girgArgs) = some girgExample := by
  have e1 : (CFloat.ofRat (5 / 2) : XR) = fin (5 / 2) := by rw [XR.ofRat_eq]; norm_num
  unfold girgExample
  rw [← e1]
  simp [readGirg, getOr, flag, parseArgs, parseFrom, assign, optionName, exampleMachine, CFloat.inf, girgArgs]

theorem girgExample_check : checkGirg exampleMachine girgExample = none := by
  have e1 : (CFloat.ofRat 2 : XR) = fin 2 := by rw [XR.ofRat_eq]; norm_num
  have e2 : (CFloat.ofRat 3 : XR) = fin 3 := by rw [XR.ofRat_eq]; norm_num
  unfold checkGirg girgExample
  simp only [ofInt_sub_one]
  rw [e1, e2, ofRat_one', (C55_int 1 1 5 false false).2 (by simp), (C55_real (5 / 2) 2 3 true false).2 (by norm_num),
    show (CFloat.inf : XR) = .pinf from rfl, (C55_alpha _).2 (Or.inr (Or.inl rfl)),
    (C55_real 3 1 _ false false).2 (by norm_num), (C55_int 1 1 _ false false).2 (by simp [exampleMachine])]
  rfl

/-- the condition on the size -/
theorem girgExample_size (w : List ℝ) (device : ℕ → exampleMachine.eng.G)
    (hw : GenerateWeights (exampleMachine.omp girgExample.threads.toNat) exampleMachine.eng device girgExample.n.toNat girgExample.ple girgExample.wseed
      (decide (1 < girgExample.threads)) (xw w)) :
    alphaFactor girgExample.alpha * 2 ^ girgExample.d.toNat * w.sum ^ 2 < 2 ^ 29 * ((3 : ℝ) - 2 / 100) * w.length := by
  obtain ⟨l, hr⟩ := C26_range exampleEngine_interval (by norm_num [girgExample]) (by norm_num) hw
  have l' : w.length = 100 := by simpa [xw, girgExample] using l
  refine size_small (n := 100) one_pos (by norm_num) l' (fun y hy => ?_) (by norm_num [girgExample])
  obtain ⟨v, hv, hv'⟩ := hr (fin y) (List.mem_map.2 ⟨y, hy, rfl⟩)
  cases hv
  exact_mod_cast hv'

/-- the hypotheses of C64 are met: with 100 nodes and degree 3 both files are written -/
theorem girgExample_run : ∃ t t', GirgMain exampleMachine girgArgs .done [("graph.dot", t), ("graph.txt", t')] := by
  obtain ⟨files, h⟩ := (C64_returns_iff exampleMachine rfl exampleEngine_interval exampleRng_unit rfl rfl girgExample_read girgExample_check rfl rfl
    (by simp [girgExample]) girgExample_size
    (by intro s hs; right; simp [girgExample] at hs ⊢; rcases hs with rfl | rfl | rfl <;> norm_num)).2 ⟨fun _ => rfl, fun _ => rfl⟩
  obtain ⟨_, _, _, _, _, _, _, _, _, _, _, _, _, _, _, _, hf, _⟩ := C64_output exampleMachine exampleEngine_interval exampleRng_unit girgExample_read rfl rfl
    (by simp [girgExample]) h
  simp only [girgExample, if_true] at hf
  rcases files with _ | ⟨⟨a, t⟩, _ | ⟨⟨b, t'⟩, _ | ⟨_, _⟩⟩⟩ <;> simp at hf
  obtain ⟨rfl, rfl⟩ := hf
  exact ⟨t, t', h⟩

end Girgs.Props
