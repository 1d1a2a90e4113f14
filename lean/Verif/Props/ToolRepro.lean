import Verif.Props.ToolGirg
/-
C65: two runs of a command line tool with the same arguments and non-negative seeds.
-/
namespace Girgs.Props
open Cli Spec Tools Output Tree
open XR (fin)

/-! ### node data -/

theorem seedGens_device {G : Type} {t : ℕ} {f : ℤ → G} {d : ℕ → G} (d' : ℕ → G) {s : ℤ} (hs : 0 ≤ s) : seedGens t f d s = seedGens t f d' s := by
  unfold seedGens
  rw [if_pos hs, if_pos hs]

theorem weights_unique {F : Type} [CFloat F] {omp : Omp} {eng : Engine F} {n : ℕ} {ple : F} {seed : ℤ} {par : Bool} (hs : 0 ≤ seed) {a b : List F}
    (h : ∃ d, GenerateWeights omp eng d n ple seed par a) (h' : ∃ d, GenerateWeights omp eng d n ple seed par b) : a = b := by
  obtain ⟨d, h⟩ := h
  obtain ⟨d', g, hg, h'⟩ := h'
  rw [seedGens_device d hs] at hg
  obtain ⟨out, ho, _⟩ := generateWeights_iff omp eng d n ple seed par hg
  rw [(ho a).1 h, (ho b).1 ⟨g, hg, h'⟩]

theorem positions_unique {F : Type} [CFloat F] {omp : Omp} {eng : Engine F} {n dim : ℕ} {seed : ℤ} {par : Bool} (hs : 0 ≤ seed) {a b : List (List F)}
    (h : ∃ d, GeneratePositions omp eng d n dim seed par a) (h' : ∃ d, GeneratePositions omp eng d n dim seed par b) : a = b := by
  obtain ⟨d, h⟩ := h
  obtain ⟨d', g, hg, h'⟩ := h'
  rw [seedGens_device d hs] at hg
  obtain ⟨out, ho, _⟩ := generatePositions_iff omp eng d n dim seed par hg
  rw [(ho a).1 h, (ho b).1 ⟨g, hg, h'⟩]

theorem helper_unique {F : Type} [CFloat F] {omp : Omp} {eng : Engine F} {Radii Angles : Bool} {n : ℕ} {alpha R : F} {seed : ℤ} {par : Bool} (hs : 0 ≤ seed)
    {d d' : ℕ → eng.G} {a b : List F × List F}
    (h : SampleHelper omp eng d Radii Angles n alpha R seed par a) (h' : SampleHelper omp eng d' Radii Angles n alpha R seed par b) : a = b := by
  have hb : SampleHelper omp eng d Radii Angles n alpha R seed par b := by
    obtain ⟨t, h1, h2, h3, g, hg, h4⟩ := h'
    rw [seedGens_device d hs] at hg
    exact ⟨t, h1, h2, h3, g, hg, h4⟩
  obtain ⟨t, h1, h2, h3, g, hg, _⟩ := id h
  have hn : par = true → 1 ≤ n ∧ n + 9999 < 2147483648 := by
    rintro rfl
    unfold hyperThreads at h1
    rw [if_pos rfl] at h1
    split at h1
    · rename_i hlt
      refine ⟨?_, hlt⟩
      rcases Nat.eq_zero_or_pos n with rfl | h
      · simp at h1; exact absurd h1.symm h2
      · exact h
    · cases h1
  have hseed : ∀ t, hyperThreads omp n par = some t → SeedOK t seed := by
    intro t' ht'
    rw [h1] at ht'
    cases ht'
    unfold seedGens at hg
    rw [if_pos hs] at hg
    split at hg
    · exact Or.inr (by assumption)
    · cases hg
  obtain ⟨_, _, r, an, _, _, _, ho, _⟩ := C50_executions omp eng d Radii Angles n alpha R seed par hn h3 hseed
  rw [(ho a).1 h, (ho b).1 hb]

/-! ### scaling -/

theorem returns_unique {F S : Type} [CFloat F] {f : F → S → Option (F × S)} {des : F} {st : S} {a b : F} (h : Scaling.Returns f des st a)
    (h' : Scaling.Returns f des st b) : a = b := by
  obtain ⟨k, s, h⟩ := h
  obtain ⟨k', s', h'⟩ := h'
  have stop : ∀ (j : ℕ) (c : F) (s : S), Scaling.run f des Scaling.accuracy j (.returned c s) = .returned c s := by
    intro j c s
    cases j <;> rfl
  have e1 := Scaling.run_add (f := f) (des := des) (acc := Scaling.accuracy) k k' (Scaling.start st)
  have e2 := Scaling.run_add (f := f) (des := des) (acc := Scaling.accuracy) k' k (Scaling.start st)
  rw [h, stop] at e1
  rw [h', stop, Nat.add_comm, e1] at e2
  cases e2
  rfl

/-- in exact arithmetic the result of `scaleWeights` does not depend on the order of the reductions -/
theorem scaling_unique {alg : Scaling.StdAlg XR} {ndebug : Bool} {w : List ℝ} (hw : ∀ y ∈ w, 0 < y) (hne : w ≠ []) {part part' : List (List ℕ)}
    (hp : part.flatten.Perm (List.range w.length)) (hp' : part'.flatten.Perm (List.range w.length)) {des alpha : XR} {d : ℕ}
    (ha : alpha = .pinf ∨ ∃ a : ℝ, alpha = fin a) {r r' : Scaling.ScaleResult XR}
    (h : Scaling.ScaleWeights alg ndebug part (xw w) des d alpha r) (h' : Scaling.ScaleWeights alg ndebug part' (xw w) des d alpha r') : r = r' := by
  have e1 : Scaling.thresholdFn alg ndebug part (w.map fin) d = Scaling.thresholdFn alg ndebug part' (w.map fin) d := by
    obtain ⟨a1, a2, a3⟩ := Scaling.reductions hw hne hp
    obtain ⟨b1, b2, b3⟩ := Scaling.reductions hw hne hp'
    unfold Scaling.thresholdFn
    rw [a1, a2, a3, b1, b2, b3]
  have e2 : Scaling.estimatorFor alpha = .general → Scaling.alphaFn alg ndebug part (w.map fin) d alpha = Scaling.alphaFn alg ndebug part' (w.map fin) d alpha := by
    intro hg
    rcases ha with rfl | ⟨a, rfl⟩
    · exfalso
      revert hg
      unfold Scaling.estimatorFor
      rw [if_pos (by rw [XR.ofRat_eq]; rfl)]
      simp
    obtain ⟨_, _, a3⟩ := Scaling.reductions hw hne hp
    obtain ⟨_, _, b3⟩ := Scaling.reductions hw hne hp'
    obtain ⟨p1, p2, p3, p4⟩ := Scaling.alphaReductions hw hne hp a
    obtain ⟨q1, q2, q3, q4⟩ := Scaling.alphaReductions hw hne hp' a
    funext c s
    unfold Scaling.alphaFn
    have hW : (w.map fin).foldl CFloat.add (CFloat.ofRat 0) = fin w.sum := by
      rw [XR.ofRat_eq]; simpa using Scaling.foldl_add_eq w 0
    simp only [hW, p1, p2, p3, p4, q1, q2, q3, q4, a3, b3]
  unfold Scaling.ScaleWeights at h h'
  cases hest : Scaling.estimatorFor alpha with
  | threshold =>
    rw [hest] at h h'
    obtain ⟨s, ⟨c, hc, rfl⟩, rfl⟩ := h
    obtain ⟨s', ⟨c', hc', rfl⟩, rfl⟩ := h'
    unfold xw at hc hc'
    rw [← e1] at hc'
    rw [returns_unique hc hc']
  | general =>
    rw [hest] at h h'
    obtain ⟨s, ⟨c, hc, rfl⟩, rfl⟩ := h
    obtain ⟨s', ⟨c', hc', rfl⟩, rfl⟩ := h'
    unfold xw at hc hc'
    rw [← e2 hest] at hc'
    rw [returns_unique hc hc']
  | throw =>
    rw [hest] at h h'
    rw [h, h']

/-! ### genhrg -/

theorem merge_single {E : Type} {l out : List E} (h : IsMerge [l] out) : out = l := by
  obtain ⟨tg, h1, h2, h3⟩ := h
  have := h3 0 l rfl
  rw [List.filter_eq_self.2 (fun p hp => by have := h2 p hp; simp at this; simp [this])] at this
  rw [← h1, this]

/-- the requested files -/
theorem hrg_files {F : Type} [CFloat F] {m : Machine F} {c : HrgConfig F} {rs as : List F} {es : List (ℕ × ℕ)}
    {fs : List (String × FileResult)} (h : hrgFiles m c rs as es = some fs) :
    ∃ cs : List (String × FileResult), (∀ f ∈ cs, f.1 = c.file ++ ".hyp") ∧ (∀ f ∈ cs, ∀ g ∈ cs, f = g) ∧
      (∀ es', hrgFiles m c rs as es' =
        some ((if c.edge then [(c.file ++ ".txt", writeEdgeList (m.canOpen (c.file ++ ".txt")) c.n (intEdges es'))] else []) ++ cs)) := by
  unfold hrgFiles at h ⊢
  cases hd : c.coord with
  | false => exact ⟨[], by simp, by simp, fun es' => rfl⟩
  | true =>
    rw [hd] at h
    simp only [if_true, Option.bind_eq_bind, Option.bind_eq_some_iff, Option.map_eq_some_iff, Option.some.injEq] at h
    obtain ⟨_, ⟨r, hr, rfl⟩, _⟩ := h
    refine ⟨[(c.file ++ ".hyp", r)], by simp, by simp, fun es' => ?_⟩
    simp only [if_true, hr, Option.map_some, Option.bind_eq_bind, Option.bind_some]

theorem target_unique {F : Type} [CFloat F] {b : Bool} {n mm alpha T eps R R' : F} (h : Radius.TargetRadius b n mm alpha T eps R)
    (h' : Radius.TargetRadius b n mm alpha T eps R') : R = R' := by
  unfold Radius.TargetRadius at h h'
  simp only at h h'
  split at h
  · rename_i h0
    rw [if_pos h0] at h'
    obtain ⟨i, h⟩ := h
    obtain ⟨j, h'⟩ := h'
    have key : ∀ (k : ℕ) (x : F) (n k' al e : F), (Radius.step n k' al e)^[k] (.returned x) = .returned x := by
      intro k x n k' al e
      induction k with
      | zero => rfl
      | succ k ih => rw [Function.iterate_succ_apply]; exact ih
    unfold Radius.searchState at h h'
    rcases Nat.le_total i j with hij | hij
    · rw [show j = (j - i) + i by omega, Function.iterate_add_apply, h, key] at h'
      cases h'; rfl
    · rw [show i = (i - j) + j by omega, Function.iterate_add_apply, h', key] at h
      cases h; rfl
  · rename_i h0
    rw [if_neg h0] at h'
    split at h
    · rename_i h1
      rw [if_pos h1] at h'
      rw [h, h']
    · rename_i h1
      rw [if_neg h1] at h'
      rw [h, h']

/-- the radius is determined by the parameters -/
theorem hrgRadius_unique {F : Type} [CFloat F] {m : Machine F} {c : HrgConfig F} {R R' : F} (h : HrgRadius m c R) (h' : HrgRadius m c R') : R = R' := by
  unfold HrgRadius at h h'
  split at h
  · rename_i h0
    rw [if_pos h0] at h'
    exact target_unique h h'
  · rename_i h0
    rw [if_neg h0, h] at h'; exact Option.some.inj h'

/-- C65, genhrg.  Two runs with the same arguments and non-negative seeds that end normally, whatever the schedules and `std::random_device`: the same files are
written, the coordinate files are identical, and the edge list files contain the same number of nodes and the same edges up to their order; with one
thread the edge list files are identical as well. -/
theorem C65_hrg (m : Machine XR) (he : IntervalEngine m.eng) (hu : UnitRng m.rng) {argv : List String} {c : HrgConfig XR}
    (hc : readHrg m (parseArgs argv) = some c) {α T deg : ℝ} (hα : c.alpha = fin α) (hT : c.T = fin T) (hdeg : c.deg = fin deg)
    (hR : ∀ R, HrgRadius m c R → ∃ r : ℝ, R = fin r ∧ 4 / 3 ≤ r ∧ r ≤ 165 / 4) (hs : 0 ≤ c.rseed ∧ 0 ≤ c.aseed ∧ 0 ≤ c.sseed)
    {files files' : List File} (h : HrgMain m argv .done files) (h' : HrgMain m argv .done files') :
    files.map Prod.fst = files'.map Prod.fst ∧
    (∀ t t', (c.file ++ ".hyp", t) ∈ files → (c.file ++ ".hyp", t') ∈ files' → t = t') ∧
    (∀ t t', (c.file ++ ".txt", t) ∈ files → (c.file ++ ".txt", t') ∈ files' →
      ∃ es es', readEdgeList t = some (c.n, es) ∧ readEdgeList t' = some (c.n, es') ∧ es.Perm es') ∧
    (c.threads = 1 → files = files') := by
  obtain ⟨_, _, h3, R, radii, angles, edges, ⟨hn0, hrad, hsr, hsa, dev, gs, hgs, gens, hg, hE⟩, fs, hfs, hem⟩ := hrg_run hc h
  obtain ⟨_, _, _, R', radii', angles', edges', ⟨_, hrad', hsr', hsa', dev', gs', hgs', gens', hg', hE'⟩, fs', hfs', hem'⟩ := hrg_run hc h'
  obtain rfl := hrgRadius_unique hrad hrad'
  obtain ⟨R, rfl, hR1, hR2⟩ := hR R hrad
  have er : radii = radii' := by
    obtain ⟨d, a, h1⟩ := hsr
    obtain ⟨d', a', h2⟩ := hsr'
    exact congrArg Prod.fst (helper_unique hs.1 h1 h2)
  have ea : angles = angles' := by
    obtain ⟨d, a, h1⟩ := hsa
    obtain ⟨d', a', h2⟩ := hsa'
    exact congrArg Prod.snd (helper_unique hs.2.1 h1 h2)
  subst er ea
  obtain ⟨ka, kt, kd, th1, th2⟩ := hrg_checked h3
  rw [hα] at ka; rw [hT] at kt; rw [hdeg] at kd
  have ka := accepted_fin ka
  have kt := accepted_fin kt
  have kd := accepted_fin kd
  have hn2 : 2 ≤ c.n := by
    have := kd.1.trans kd.2
    exact_mod_cast (by linarith : (2 : ℝ) ≤ c.n)
  have hn31 := (setting_int m (by norm_num) ((C62_hrg_settings m argv c).1 hc).1).2
  obtain ⟨rs, as, rfl, rfl, l1, l2, hrs, has, hin⟩ := hrg_input he hα ka.1 kt.1 (by omega) hn31 hR1 hR2 hsr hsa
  rw [hT] at hE hE'
  have hperm : edges.Perm edges' := C48_reproducible hin _ _ hu m.hyperEngine c.sseed hs.2.2 dev dev' gs gs' hgs hgs' gens gens' hg hg' _ _ hE hE'
  have hone : c.threads = 1 → edges = edges' := by
    intro h1
    have et : (m.henv c.threads.toNat).threads = 1 := by
      have := m.max_pos
      show max 1 (min c.threads.toNat 8388608) = 1
      rw [h1]
      simp only [Int.toNat_one]
      omega
    have eg : gens 0 = gens' 0 := by
      rw [et] at hgs hgs'
      unfold HEngine.gens at hgs hgs'
      rw [if_pos rfl] at hgs hgs'
      simp only [if_pos hs.2.2, Option.some.injEq] at hgs hgs'
      rw [hg 0 _ (by rw [← hgs]; rfl), hg' 0 _ (by rw [← hgs']; rfl)]
    obtain ⟨H, hH, calls, hca, ho⟩ := hE
    obtain ⟨H', hH', calls', hca', ho'⟩ := hE'
    obtain rfl := hH.unique hH' (HypInput.inputOK hin)
    unfold HTree.Generate at hca hca'
    rw [if_pos et] at hca hca'
    obtain ⟨ts, r, e1, e2, rfl⟩ := hca
    obtain ⟨ts', r', e1', e2', rfl⟩ := hca'
    rw [e1] at e1'
    cases e1'
    rw [eg] at e2
    rw [e2] at e2'
    cases e2'
    rw [merge_single (ho.isMerge (by unfold blockSize; omega)), merge_single (ho'.isMerge (by unfold blockSize; omega))]
  obtain ⟨cs, hcs, hcs1, hall⟩ := hrg_files hfs
  rw [hall edges, Option.some.injEq] at hfs
  rw [hall edges', Option.some.injEq] at hfs'
  have hex : (emit fs).1 = .done := by rw [← hem]
  have hfl : files = (emit fs).2 := by rw [← hem]
  have hex' : (emit fs').1 = .done := by rw [← hem']
  have hfl' : files' = (emit fs').2 := by rw [← hem']
  obtain ⟨e1, e2⟩ := emit_done hex
  obtain ⟨e1', e2'⟩ := emit_done hex'
  refine ⟨?_, ?_, ?_, fun h1 => ?_⟩
  · rw [hfl, hfl', e1, e1', ← hfs, ← hfs']
    cases c.edge <;> simp
  · intro t t' ht ht'
    rw [hfl, e2, ← hfs] at ht
    rw [hfl', e2', ← hfs'] at ht'
    have k1 : ∀ (es : List (ℕ × ℕ)) (t : Text), (c.file ++ ".hyp", FileResult.written t) ∈
        (if c.edge then [(c.file ++ ".txt", writeEdgeList (m.canOpen (c.file ++ ".txt")) c.n (intEdges es))] else []) ++ cs →
        (c.file ++ ".hyp", FileResult.written t) ∈ cs := by
      intro es t ht
      rcases List.mem_append.1 ht with ht | ht
      · cases hed : c.edge <;> rw [hed] at ht <;> simp [Ne.symm suffix_ne] at ht
      · exact ht
    have := hcs1 _ (k1 _ _ ht) _ (k1 _ _ ht')
    simpa using this
  · intro t t' ht ht'
    rw [hfl, e2, ← hfs] at ht
    rw [hfl', e2', ← hfs'] at ht'
    have k1 : ∀ (es : List (ℕ × ℕ)) (t : Text), (c.file ++ ".txt", FileResult.written t) ∈
        (if c.edge then [(c.file ++ ".txt", writeEdgeList (m.canOpen (c.file ++ ".txt")) c.n (intEdges es))] else []) ++ cs →
        readEdgeList t = some (c.n, intEdges es) := by
      intro es t ht
      rcases List.mem_append.1 ht with ht | ht
      · cases hed : c.edge <;> rw [hed] at ht <;> simp at ht
        cases hop : m.canOpen (c.file ++ ".txt") with
        | false => rw [hop] at ht; cases ht
        | true =>
          obtain ⟨t', ht', hr⟩ := (C34_round_trip c.n (intEdges es)).1
          rw [hop, ht'] at ht
          cases ht
          exact hr
      · exact absurd (hcs _ ht) suffix_ne
    exact ⟨_, _, k1 _ _ ht, k1 _ _ ht', hperm.map _⟩
  · have := hone h1
    subst this
    rw [hfl, hfl', ← hfs, ← hfs']

/-- the hypotheses of `C65_hrg` are met: the example has exactly one result -/
example : ∃ t t', ∀ files, HrgMain exampleMachine hrgArgs .done files ↔ files = [("graph.txt", t), ("graph.hyp", t')] := by
  obtain ⟨t, t', h⟩ := hrgExample_run
  obtain ⟨R, hR, hR1, hR2⟩ := hrgExample_radius
  refine ⟨t, t', fun files => ⟨fun h' => ?_, fun e => e ▸ h⟩⟩
  exact (C65_hrg exampleMachine exampleEngine_interval exampleRng_unit hrgExample_read rfl rfl rfl (fun R' h => ⟨R, (hR R').1 h, hR1, hR2⟩)
    (by norm_num [hrgExample]) h' h).2.2.2 rfl

/-! ### gengirg -/

/-- C65, gengirg.  Two runs with the same arguments and non-negative seeds that end normally, in exact arithmetic and for a supported size (as in C64):
the same files are written; the dot files contain the same nodes and labels, and they and the edge list files contain the same edges up to their order; the
files are identical if there are fewer than `2^20` edges. -/
theorem C65_girg (m : Machine XR) (he : IntervalEngine m.eng) (hu : UnitRng m.rng) {argv : List String} {c : GirgConfig XR}
    (hc : readGirg m (parseArgs argv) = some c) {ple deg : ℝ} (hple : c.ple = fin ple) (hdeg : c.deg = fin deg) (hα : c.alpha ≠ .nan)
    (hsize : ∀ (w : List ℝ) (device : ℕ → m.eng.G),
      GenerateWeights (m.omp c.threads.toNat) m.eng device c.n.toNat c.ple c.wseed (decide (1 < c.threads)) (xw w) →
        alphaFactor c.alpha * 2 ^ c.d.toNat * w.sum ^ 2 < 2 ^ 29 * (deg - 2 / 100) * w.length)
    (hs : 0 ≤ c.wseed ∧ 0 ≤ c.pseed ∧ 0 ≤ c.sseed)
    {files files' : List File} (h : GirgMain m argv .done files) (h' : GirgMain m argv .done files') :
    files.map Prod.fst = files'.map Prod.fst ∧
    (∀ t t', (c.file ++ ".dot", t) ∈ files → (c.file ++ ".dot", t') ∈ files' →
      ∃ nodes es es', readDot t = some ⟨nodes, es⟩ ∧ readDot t' = some ⟨nodes, es'⟩ ∧ es.Perm es' ∧ (es.length < 2 ^ 20 → t = t')) ∧
    (∀ t t', (c.file ++ ".txt", t) ∈ files → (c.file ++ ".txt", t') ∈ files' →
      ∃ es es', readEdgeList t = some (c.n, es) ∧ readEdgeList t' = some (c.n, es') ∧ es.Perm es' ∧ (es.length < 2 ^ 20 → t = t')) := by
  obtain ⟨_, _, h3, weights, positions, hnodes, hrun⟩ := girg_run hc (Or.inl rfl) h
  obtain ⟨_, _, _, weights', positions', hnodes', hrun'⟩ := girg_run hc (Or.inl rfl) h'
  obtain rfl := weights_unique hs.1 hnodes.2.2.1 hnodes'.2.2.1
  obtain rfl := positions_unique hs.2.1 hnodes.2.2.2 hnodes'.2.2.2
  obtain ⟨dw, hdw⟩ := hnodes.2.2.1
  have hn31 := (setting_int m (by norm_num) ((C62_girg_settings m argv c).1 hc).1).2
  obtain ⟨w, x, rfl, rfl, l1, l2, hn2, hlt, hD1, hD5, hw, hx, hd1, hdn⟩ := girg_nodes he h3 hn31 hple hdeg hnodes
  have ha : c.alpha = .pinf ∨ ∃ a : ℝ, c.alpha = fin a ∧ 1 < a := by
    rcases (girg_checked h3).2.2.1 with h | h | ⟨a, h, h'⟩
    · exact Or.inl h
    · exact absurd h hα
    · exact Or.inr ⟨a, h', h⟩
  rcases hrun with ⟨_, _, h, _⟩ | ⟨s, ws, edges, hsc, ⟨dev, gens, hg, notice, hE⟩, fs, hfs, hem⟩
  · cases h
  rcases hrun' with ⟨_, _, h, _⟩ | ⟨s', ws', edges', hsc', ⟨dev', gens', hg', notice', hE'⟩, fs', hfs', hem'⟩
  · cases h
  rw [← l1] at hw hlt hn2
  have hws : ws = ws' := by
    obtain ⟨part, hp, hsc⟩ := hsc
    obtain ⟨part', hp', hsc'⟩ := hsc'
    have key : ∀ part : List (List ℕ), part.Perm (m.chunks (m.env c.threads.toNat).threads (xw w).length) → part.flatten.Perm (List.range w.length) := by
      intro part hp
      have := hp.flatten
      rw [m.chunks_flatten _ _ (m.env c.threads.toNat).threads_pos, show (xw w).length = w.length by simp [xw]] at this
      exact this
    have := scaling_unique (fun y hy => by linarith [(hw y hy).1]) (by rintro rfl; simp at hn2) (key _ hp) (key _ hp')
      (ha.imp id fun ⟨a, h, _⟩ => ⟨a, h⟩) hsc hsc'
    cases this
    rfl
  subst hws
  obtain ⟨k, hk, rfl, _, _, q3⟩ := girg_scaled hdeg ha (by omega) hn2 hlt hD1 hD5 hw hx hd1 hdn hsc
  have sup := q3 (hsize w dw hdw)
  obtain ⟨hperm, hsame⟩ := C25_reproducible sup c.alpha _ _ hu.geo m.edgeSeed c.sseed hs.2.2 dev dev' gens gens' hg hg' _ _ _ _ hE hE'
  have hex : (emit fs).1 = .done := by rw [← hem]
  have hfl : files = (emit fs).2 := by rw [← hem]
  have hex' : (emit fs').1 = .done := by rw [← hem']
  have hfl' : files' = (emit fs').2 := by rw [← hem']
  obtain ⟨e1, e2⟩ := emit_done hex
  obtain ⟨e1', e2'⟩ := emit_done hex'
  have names : ∀ {es fs}, girgFiles m c (xw (w.map (· * k))) (xl x) es = some fs →
      fs.map Prod.fst = (if c.dot then [c.file ++ ".dot"] else []) ++ (if c.edge then [c.file ++ ".txt"] else []) := by
    intro es fs hfs
    rcases girg_files hfs with ⟨hd, rfl⟩ | ⟨hd, r, hr, rfl⟩ <;> cases c.edge <;> simp [hd]
  refine ⟨by rw [hfl, hfl', e1, e1', names hfs, names hfs'], ?_, ?_⟩
  · intro t t' ht ht'
    rw [hfl, e2] at ht
    rw [hfl', e2'] at ht'
    have key : ∀ {es fs t}, girgFiles m c (xw (w.map (· * k))) (xl x) es = some fs → (c.file ++ ".dot", FileResult.written t) ∈ fs →
        saveDot m.printer true (xw (w.map (· * k))) (xl x) (intEdges es) = some (.written t) := by
      intro es fs t hfs ht
      have : saveDot m.printer (m.canOpen (c.file ++ ".dot")) (xw (w.map (· * k))) (xl x) (intEdges es) = some (.written t) := by
        rcases girg_files hfs with ⟨hd, rfl⟩ | ⟨hd, r, hr, rfl⟩ <;> cases hed : c.edge <;> rw [hed] at ht <;> simp [Ne.symm suffix_ne'] at ht
        · rw [hr, ht]
        · rw [hr, ht]
      cases hop : m.canOpen (c.file ++ ".dot") with
      | false => rw [hop, saveDot_closed] at this; cases this
      | true => rw [hop] at this; exact this
    have hk1 := key hfs ht
    have hk2 := key hfs' ht'
    have hll : (xw (w.map (· * k))).length = (xl x).length := by simp [xw, xl]; omega
    have hsz : (xw (w.map (· * k))).length < 2 ^ 31 := by simp [xw]; omega
    obtain ⟨u, hu1, nodes, n1, n2, n3⟩ := C35_round_trip m.printer _ _ (intEdges edges) hll hsz
    obtain ⟨u', hu1', nodes', n1', n2', n3'⟩ := C35_round_trip m.printer _ _ (intEdges edges') hll hsz
    rw [hk1] at hu1
    rw [hk2] at hu1'
    cases hu1
    cases hu1'
    have hnn : nodes = nodes' := by
      apply List.ext_getElem?
      intro i
      rcases Nat.lt_or_ge i (xw (w.map (· * k))).length with hi | hi
      · rw [n3 i _ _ (List.getElem?_eq_getElem hi) (List.getElem?_eq_getElem (hll ▸ hi)), n3' i _ _ (List.getElem?_eq_getElem hi) (List.getElem?_eq_getElem (hll ▸ hi))]
      · rw [List.getElem?_eq_none (by omega), List.getElem?_eq_none (by omega)]
    subst hnn
    refine ⟨nodes, _, _, n1, n1', hperm.map _, fun hlen => ?_⟩
    have := hsame (by simpa [intEdges] using hlen)
    subst this
    rw [hk1] at hk2
    cases hk2
    rfl
  · intro t t' ht ht'
    rw [hfl, e2] at ht
    rw [hfl', e2'] at ht'
    have key : ∀ {es fs t}, girgFiles m c (xw (w.map (· * k))) (xl x) es = some fs → (c.file ++ ".txt", FileResult.written t) ∈ fs →
        writeEdgeList true c.n (intEdges es) = .written t := by
      intro es fs t hfs ht
      have : FileResult.written t = writeEdgeList (m.canOpen (c.file ++ ".txt")) c.n (intEdges es) := by
        rcases girg_files hfs with ⟨hd, rfl⟩ | ⟨hd, r, hr, rfl⟩ <;> cases hed : c.edge <;> rw [hed] at ht <;> simp [suffix_ne'] at ht
        · exact ht
        · exact ht
      cases hop : m.canOpen (c.file ++ ".txt") with
      | false => rw [hop, (C34_round_trip _ _).2] at this; cases this
      | true => rw [hop] at this; exact this.symm
    have hk1 := key hfs ht
    have hk2 := key hfs' ht'
    obtain ⟨u, hu1, hr⟩ := (C34_round_trip c.n (intEdges edges)).1
    obtain ⟨u', hu1', hr'⟩ := (C34_round_trip c.n (intEdges edges')).1
    rw [hk1] at hu1
    rw [hk2] at hu1'
    cases hu1
    cases hu1'
    refine ⟨_, _, hr, hr', hperm.map _, fun hlen => ?_⟩
    have := hsame (by simpa [intEdges] using hlen)
    subst this
    rw [hk1] at hk2
    cases hk2
    rfl

/-- the hypotheses of `C65_girg` are met -/
example : ∃ t t', GirgMain exampleMachine girgArgs .done [("graph.dot", t), ("graph.txt", t')] ∧
    ∀ u u', GirgMain exampleMachine girgArgs .done [("graph.dot", u), ("graph.txt", u')] → ∃ nodes es es', readDot t = some ⟨nodes, es⟩ ∧
      readDot u = some ⟨nodes, es'⟩ ∧ es.Perm es' ∧ (es.length < 2 ^ 20 → t = u) := by
  obtain ⟨t, t', h⟩ := girgExample_run
  exact ⟨t, t', h, fun u u' h' => (C65_girg exampleMachine exampleEngine_interval exampleRng_unit girgExample_read rfl rfl (by simp [girgExample])
    girgExample_size (by norm_num [girgExample]) h h').2.1 t u (List.mem_cons_self) (List.mem_cons_self)⟩

end Girgs.Props
