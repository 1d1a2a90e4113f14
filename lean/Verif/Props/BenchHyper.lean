import Verif.Proofs.BenchHyper
import Verif.Props.Bench
/-
C82: `main` of bench_hyper.
-/
namespace Girgs
namespace Props
open Spec Tools Bench
open XR (fin)

/-- the sizes of bench_hyper: `⌊10^(4 + i/3)⌋` for `i = 0,…,12` -/
def benchSizes : List ℕ := [10000, 21544, 46415, 100000, 215443, 464158, 1000000, 2154434, 4641588, 10000000, 21544346, 46415888, 100000000]

/-- degree and size of the runs in one group, in the order of the program: the sizes of at least 20 times the degree -/
def benchConfigs : List (ℕ × ℕ) := ([10, 100, 1000] : List ℕ).flatMap fun d => (benchSizes.filter fun n => decide (d * 20 ≤ n)).map fun n => (d, n)

/-- the groups, in the order of the program: 5 iterations, the temperatures 0, 0.5 and 0.9, the power law exponents 2.2 and 3; `alpha = (ple - 1) / 2` -/
def benchGroups (F : Type) [CFloat F] : List (HGroup F) :=
  (List.range 5).flatMap fun iter => ([CFloat.ofRat 0, CFloat.ofRat (1 / 2), CFloat.ofRat (9 / 10)] : List F).flatMap fun T =>
    ([CFloat.ofRat (11 / 5), CFloat.ofRat 3] : List F).map fun ple => ⟨iter, T, ple, (ple -. CFloat.ofRat 1) /. CFloat.ofRat 2⟩

variable {F : Type} [CFloat F]

/-- The arithmetic computes the sizes: `n0 * pow(10.0, 1.0 * ni / 3)`, converted to `unsigned`, is the size with number `ni`, and 215443469 after the last. -/
def ComputesSizes (F : Type) [CFloat F] : Prop := ∀ ni, 1 ≤ ni → ni ≤ 13 → nextSize F ni = (benchSizes ++ [215443469])[ni]?

/-- What happens in a group whose first run has the seed `seed0`. -/
structure GroupRun (m : Machine F) (threads seed0 : ℕ) (g : HGroup F) (entries : List (HEntry F)) : Prop where
  /-- degrees and sizes come in the fixed order -/
  configs : entries.map (fun e => (e.avgDeg, e.n)) = benchConfigs
  /-- the seed depends on the position only -/
  seeds : ∀ i e, entries[i]? = some e → e.seed = seed0 + 10 * i
  /-- what is printed comes from an execution of the benchmark with these parameters -/
  runs : ∀ (i : ℕ) e row time, entries[i]? = some e → e.outcome = some (row, time) → Benchmark m threads e.n e.avgDeg g.alpha g.T e.seed row
  /-- a size is skipped exactly if a size that is not larger took longer than the limit before, in the same group -/
  skips : ∀ (i : ℕ) e, entries[i]? = some e → (e.outcome = none ↔ ∃ (j : ℕ) (e' : HEntry F) (row : HRow F) (time : F),
    j < i ∧ entries[j]? = some e' ∧ e'.outcome = some (row, time) ∧ (timeout F <. time) = true ∧ e'.n ≤ e.n)

theorem sizesFrom (h : ComputesSizes F) : SizesFrom F 10000 1 benchSizes := by
  have g : ∀ i, 1 ≤ i → i ≤ 13 → nextSize F i = (benchSizes ++ [215443469])[i]? := h
  refine ⟨rfl, by decide, _, g 1 (by decide) (by decide), rfl, by decide, _, g 2 (by decide) (by decide), rfl, by decide, _, g 3 (by decide) (by decide),
    rfl, by decide, _, g 4 (by decide) (by decide), rfl, by decide, _, g 5 (by decide) (by decide), rfl, by decide, _, g 6 (by decide) (by decide),
    rfl, by decide, _, g 7 (by decide) (by decide), rfl, by decide, _, g 8 (by decide) (by decide), rfl, by decide, _, g 9 (by decide) (by decide),
    rfl, by decide, _, g 10 (by decide) (by decide), rfl, by decide, _, g 11 (by decide) (by decide), rfl, by decide, _, g 12 (by decide) (by decide),
    rfl, by decide, _, g 13 (by decide) (by decide), ?_⟩
  show ¬ 215443469 ≤ nMax
  decide

theorem benchConfigs_le : ∀ c ∈ benchConfigs, c.2 ≤ nMax := by decide

/-- the body of the loop over the groups -/
def GroupStep (m : Machine F) (threads : ℕ) (g : HGroup F) (s : HMState) (es : List (HGroup F × List (HEntry F))) (s' : HMState) : Prop :=
  ∃ entries, Loop (fun avgDeg => SizeLoop m threads g avgDeg 10000 1) [10, 100, 1000] ⟨s.seed, nMax + 1⟩ entries s' ∧ es = [(g, entries)]

theorem groupLoop {m : Machine F} {threads : ℕ} (hF : ComputesSizes F) (g : HGroup F) (seed : ℕ) (hs : seed + 380 < 4294967296) (entries : List (HEntry F)) (seed' : ℕ) :
    (∃ s', Loop (fun avgDeg => SizeLoop m threads g avgDeg 10000 1) [10, 100, 1000] ⟨seed, nMax + 1⟩ entries s' ∧ s'.seed = seed') ↔
      GroupRun m threads seed g entries ∧ seed' = seed + 380 := by
  have e : ∀ s', Loop (fun avgDeg => SizeLoop m threads g avgDeg 10000 1) [10, 100, 1000] ⟨seed, nMax + 1⟩ entries s' ↔
      Loop (SizeStep m threads g) benchConfigs ⟨seed, nMax + 1⟩ entries s' := by
    intro s'
    rw [Loop.congr _ (fun d _ s es s' => sizeLoop_iff benchSizes 10000 1 (sizesFrom hF) s es s')]
    exact Loop.flatMap_iff (body := SizeStep m threads g) (fun d => (benchSizes.filter fun n => decide (d * 20 ≤ n)).map fun n => (d, n)) _ _ _ _
  have hlen : benchConfigs.length = 38 := by decide
  simp only [e]
  rw [loop_steps benchConfigs ⟨seed, nMax + 1⟩ entries seed' (by rw [hlen]; exact hs), hlen]
  refine and_congr ?_ Iff.rfl
  have hle : ∀ {i : ℕ} {e : HEntry F}, entries.map (fun e => (e.avgDeg, e.n)) = benchConfigs → entries[i]? = some e → ¬ nMax + 1 ≤ e.n := by
    intro i e hc he
    have := benchConfigs_le (e.avgDeg, e.n) (by rw [← hc]; exact List.mem_map.2 ⟨e, List.mem_of_getElem? he, rfl⟩)
    simp only at this
    omega
  constructor
  · intro h
    refine ⟨h.configs, h.seeds, h.runs, fun i e he => ?_⟩
    rw [h.skips i e he]
    exact or_iff_right (hle h.configs he)
  · intro h
    refine ⟨h.configs, h.seeds, h.runs, fun i e he => ?_⟩
    rw [h.skips i e he]
    exact (or_iff_right (hle h.configs he)).symm

theorem loop_groups {m : Machine F} {threads : ℕ} (hF : ComputesSizes F) : ∀ (gs : List (HGroup F)) (s : HMState) (groups : List (HGroup F × List (HEntry F))),
    s.seed + 380 * gs.length < 4294967296 →
    ((∃ s', Loop (GroupStep m threads) gs s groups s') ↔
      groups.map Prod.fst = gs ∧ ∀ k g es, groups[k]? = some (g, es) → GroupRun m threads (s.seed + 380 * k) g es) := by
  intro gs
  induction gs with
  | nil =>
    intro s groups hs
    constructor
    · rintro ⟨s', h⟩
      cases h; simp
    · rintro ⟨h, _⟩
      simp only [List.map_eq_nil_iff] at h
      subst h
      exact ⟨s, .done _⟩
  | cons g gs ih =>
    intro s groups hs
    simp only [List.length_cons] at hs
    have hs0 : s.seed + 380 < 4294967296 := lt_of_le_of_lt (by omega) hs
    constructor
    · rintro ⟨s', h⟩
      cases h with
      | @step _ _ _ _ s1 groups' _ hb hr =>
        obtain ⟨entries, hl, rfl⟩ := hb
        obtain ⟨h1, h2⟩ := (groupLoop hF g s.seed hs0 entries _).1 ⟨s1, hl, rfl⟩
        obtain ⟨h3, h4⟩ := (ih s1 groups' (by omega)).1 ⟨s', hr⟩
        refine ⟨by simp [h3], ?_⟩
        rintro (_ | k) g' es' he
        · cases he; exact h1
        · have := h4 k g' es' (by simpa using he)
          rw [h2] at this
          rwa [show s.seed + 380 * (k + 1) = s.seed + 380 + 380 * k by omega]
    · rintro ⟨h1, h2⟩
      rcases groups with _ | ⟨⟨g', entries⟩, groups⟩
      · simp at h1
      simp only [List.map_cons, List.cons.injEq] at h1
      obtain ⟨rfl, h1⟩ := h1
      obtain ⟨s1, hl, hs1⟩ := (groupLoop hF g' s.seed hs0 entries _).2 ⟨h2 0 g' entries rfl, rfl⟩
      obtain ⟨s', hr⟩ := (ih s1 groups (by omega)).2 ⟨h1, fun k g es he => by
        have := h2 (k + 1) g es (by simpa using he)
        rw [hs1]
        rwa [show s.seed + 380 + 380 * k = s.seed + 380 * (k + 1) by omega]⟩
      exact ⟨s', .step (es := [_]) ⟨entries, hl, rfl⟩ hr⟩

theorem hyperMain_loop {m : Machine F} {threads : ℕ} (groups : List (HGroup F × List (HEntry F))) :
    HyperMain m threads groups ↔ ∃ s, Loop (GroupStep m threads) (benchGroups F) ⟨0, 0⟩ groups s := by
  unfold HyperMain
  refine exists_congr fun s => ?_
  unfold benchGroups
  rw [← Loop.flatMap_iff]
  refine Loop.congr _ (fun iter _ s es s' => ?_) _ _ _
  rw [← Loop.flatMap_iff]
  refine Loop.congr _ (fun T _ s es s' => ?_) _ _ _
  rw [← Loop.map_iff]
  refine Loop.congr _ (fun ple _ s es s' => ?_) _ _ _
  constructor
  · rintro ⟨g, rfl, h⟩; exact h
  · intro h; exact ⟨_, rfl, h⟩

/-- C82.  Whatever times are measured: the executions of bench_hyper are exactly these.  There are 30 groups (5 iterations, 3 temperatures, 2 exponents) of 38 pairs
of degree and size in a fixed order; pair `i` of group `k` has the seed `380 k + 10 i`, whether or not other sizes were skipped; it is skipped exactly if a pair
before it in the same group whose size is not larger took more than the limit; otherwise the line printed is one the benchmark function can print for these parameters. -/
theorem C82_main (hF : ComputesSizes F) {m : Machine F} {threads : ℕ} (groups : List (HGroup F × List (HEntry F))) :
    HyperMain m threads groups ↔
      groups.map Prod.fst = benchGroups F ∧ ∀ k g es, groups[k]? = some (g, es) → GroupRun m threads (380 * k) g es := by
  have hlen : (benchGroups F).length = 30 := rfl
  rw [hyperMain_loop, loop_groups hF _ _ _ (by rw [hlen]; decide)]
  simp

/-! ### executions -/

/-- a loop with prescribed rows and times -/
theorem steps_exist {m : Machine F} {threads : ℕ} {g : HGroup F} (row : ℕ → HRow F) (time : ℕ → F) : ∀ (cs : List (ℕ × ℕ)) (k : ℕ) (s : HMState),
    s.seed + 10 * cs.length < 4294967296 → (∀ i c, cs[i]? = some c → c.2 < s.skip →
      (∀ j c', j < i → cs[j]? = some c' → c'.2 ≤ c.2 → (timeout F <. time (k + j)) = false) →
      Benchmark m threads c.2 c.1 g.alpha g.T (s.seed + 10 * i) (row (k + i))) →
    ∃ es s', Loop (SizeStep m threads g) cs s es s' ∧ ∀ i e r t, es[i]? = some e → e.outcome = some (r, t) → r = row (k + i) ∧ t = time (k + i) := by
  intro cs
  induction cs with
  | nil => intro k s _ _; exact ⟨[], s, .done _, by simp⟩
  | cons c cs ih =>
    intro k s hs hb
    simp only [List.length_cons] at hs
    have hmod : (s.seed + 10) % 4294967296 = s.seed + 10 := Nat.mod_eq_of_lt (by omega)
    have hb' : ∀ i c0, cs[i]? = some c0 → c0.2 < s.skip → (c.2 ≤ c0.2 → (timeout F <. time k) = false) →
        (∀ j c', j < i → cs[j]? = some c' → c'.2 ≤ c0.2 → (timeout F <. time (k + 1 + j)) = false) →
        Benchmark m threads c0.2 c0.1 g.alpha g.T (s.seed + 10 + 10 * i) (row (k + 1 + i)) := by
      intro i c0 hc h1 h2 h3
      have := hb (i + 1) c0 (by simpa using hc) h1 (by
        rintro (_ | j) c' hj he hle
        · cases he; exact h2 hle
        · have := h3 j c' (by omega) (by simpa using he) hle
          rwa [show k + 1 + j = k + (j + 1) by omega] at this)
      rw [show s.seed + 10 + 10 * i = s.seed + 10 * (i + 1) by omega, show k + 1 + i = k + (i + 1) by omega]
      exact this
    by_cases hsk : c.2 < s.skip
    · have hb0 : Benchmark m threads c.2 c.1 g.alpha g.T s.seed (row k) := hb 0 c rfl hsk (by intro j c' hj; omega)
      obtain ⟨es, s', hl, ho⟩ := ih (k + 1) ⟨s.seed + 10, if timeout F <. time k then c.2 else s.skip⟩ (by show s.seed + 10 + _ < _; omega) (by
        intro i c0 hc h1 h3
        refine hb' i c0 hc ?_ ?_ h3
        · simp only at h1
          split at h1 <;> omega
        · intro hle
          by_contra ht
          simp only [Bool.not_eq_false] at ht
          simp only [ht, if_true] at h1
          omega)
      refine ⟨_, s', .step (es := [⟨c.1, c.2, s.seed, some (row k, time k)⟩]) ⟨_, rfl, hmod.symm, ?_, by simp⟩ hl, ?_⟩
      · rintro r t e; cases e
        exact ⟨hsk, hb0, rfl⟩
      · rintro (_ | i) e r t he h
        · cases he; cases h; exact ⟨rfl, rfl⟩
        · have := ho i e r t (by simpa using he) h
          rwa [show k + 1 + i = k + (i + 1) by omega] at this
    · obtain ⟨es, s', hl, ho⟩ := ih (k + 1) ⟨s.seed + 10, s.skip⟩ (by show s.seed + 10 + _ < _; omega) (by
        intro i c0 hc h1 h3
        refine hb' i c0 hc h1 (fun hle => ?_) h3
        simp only at h1
        omega)
      refine ⟨_, s', .step (es := [⟨c.1, c.2, s.seed, none⟩]) (s' := ⟨s.seed + 10, s.skip⟩) ⟨none, rfl, hmod.symm, by simp, fun _ => ⟨hsk, rfl⟩⟩ hl, ?_⟩
      rintro (_ | i) e r t he h
      · cases he; cases h
      · have := ho i e r t (by simpa using he) h
        rwa [show k + 1 + i = k + (i + 1) by omega] at this

/-- no pair before pair `i` of the group whose size is not larger takes more than the limit -/
def InTime (time : ℕ → F) (i : ℕ) : Prop :=
  ∀ (j : ℕ) (c c' : ℕ × ℕ), j < i → benchConfigs[i]? = some c → benchConfigs[j]? = some c' → c'.2 ≤ c.2 → (timeout F <. time j) = false

theorem groupRun_exists (hF : ComputesSizes F) {m : Machine F} {threads seed0 : ℕ} {g : HGroup F} (hs : seed0 + 380 < 4294967296) (row : ℕ → HRow F) (time : ℕ → F)
    (hb : ∀ i d n, benchConfigs[i]? = some (d, n) → InTime time i → Benchmark m threads n d g.alpha g.T (seed0 + 10 * i) (row i)) :
    ∃ es, GroupRun m threads seed0 g es ∧ ∀ (i : ℕ) e r t, es[i]? = some e → e.outcome = some (r, t) → r = row i ∧ t = time i := by
  obtain ⟨es, s', hl, ho⟩ := steps_exist (m := m) (threads := threads) (g := g) row time benchConfigs 0 ⟨seed0, nMax + 1⟩
    (by rw [show benchConfigs.length = 38 by decide]; exact hs) (fun i c hc _ ht => by
      rw [Nat.zero_add]
      refine hb i c.1 c.2 hc (fun j c0 c' hj hc0 hc' hle => ?_)
      cases hc.symm.trans hc0
      have := ht j c' hj hc' hle
      rwa [Nat.zero_add] at this)
  refine ⟨es, ((groupLoop hF g seed0 hs es _).1 ⟨s', ?_, rfl⟩).1, fun i e r t he h => by have := ho i e r t he h; rwa [Nat.zero_add] at this⟩
  rw [Loop.congr _ (fun d _ s es s' => sizeLoop_iff benchSizes 10000 1 (sizesFrom hF) s es s')]
  exact (Loop.flatMap_iff (body := SizeStep m threads g) (fun d => (benchSizes.filter fun n => decide (d * 20 ≤ n)).map fun n => (d, n)) _ _ _ _).2 hl

/-- C82: For every choice of the times: if the benchmark function can print the line `row k i` for each pair `i` of each group `k` that is not preceded (in its group) by a
pair of no larger size that takes more than the limit, with the seed of this position, then there is an execution of the program that ends and in which every
pair that is not skipped gets its line and time. -/
theorem C82_returns (hF : ComputesSizes F) {m : Machine F} {threads : ℕ} (row : ℕ → ℕ → HRow F) (time : ℕ → ℕ → F)
    (hb : ∀ k g i d n, (benchGroups F)[k]? = some g → benchConfigs[i]? = some (d, n) → InTime (time k) i →
      Benchmark m threads n d g.alpha g.T (380 * k + 10 * i) (row k i)) :
    ∃ groups, HyperMain m threads groups ∧
      ∀ k g es i e r t, groups[k]? = some (g, es) → es[i]? = some e → e.outcome = some (r, t) → r = row k i ∧ t = time k i := by
  have hlen : (benchGroups F).length = 30 := rfl
  have hex : ∀ k, ∃ es : List (HEntry F), ∀ g, (benchGroups F)[k]? = some g → GroupRun m threads (380 * k) g es ∧
      ∀ (i : ℕ) e r t, es[i]? = some e → e.outcome = some (r, t) → r = row k i ∧ t = time k i := by
    intro k
    rcases hg : (benchGroups F)[k]? with _ | g
    · exact ⟨[], by simp⟩
    · have hk : k < 30 := by
        obtain ⟨h, _⟩ := List.getElem?_eq_some_iff.1 hg
        rwa [hlen] at h
      obtain ⟨es, h⟩ := groupRun_exists hF (m := m) (threads := threads) (seed0 := 380 * k) (g := g) (by omega) (row k) (time k)
        (fun i d n hc ht => hb k g i d n hg hc ht)
      exact ⟨es, fun g' e => by cases e; exact h⟩
  choose es hes using hex
  let groups := (benchGroups F).zipIdx.map fun p => (p.1, es p.2)
  have hget : ∀ k g' es', groups[k]? = some (g', es') → (benchGroups F)[k]? = some g' ∧ es' = es k := by
    intro k g' es' h
    simp only [groups, List.getElem?_map, List.getElem?_zipIdx, Option.map_eq_some_iff] at h
    obtain ⟨_, ⟨a, ha, rfl⟩, h⟩ := h
    cases h
    exact ⟨ha, by simp⟩
  refine ⟨groups, (C82_main hF groups).2 ⟨?_, ?_⟩, ?_⟩
  · have : Prod.fst ∘ (fun p : HGroup F × ℕ => (p.1, es p.2)) = Prod.fst := rfl
    simp only [groups, List.map_map, this, List.zipIdx_map_fst]
  · intro k g' es' h
    obtain ⟨h1, rfl⟩ := hget k g' es' h
    exact (hes k g' h1).1
  · intro k g' es' i e r t h he ho
    obtain ⟨h1, rfl⟩ := hget k g' es' h
    exact (hes k g' h1).2 i e r t he ho

/-! ### exact arithmetic -/

theorem nextSize_eq {ni k : ℕ} (hk : k < 2 ^ 31) (h1 : k ^ 3 ≤ 10 ^ (12 + ni)) (h2 : 10 ^ (12 + ni) < (k + 1) ^ 3) : nextSize XR ni = some k := by
  have hx : (0 : ℝ) < 10000 * 10 ^ ((ni : ℝ) / 3) := by positivity
  have hcube : (10000 * 10 ^ ((ni : ℝ) / 3) : ℝ) ^ 3 = 10 ^ (12 + ni) := by
    rw [mul_pow, ← Real.rpow_natCast, ← Real.rpow_natCast (10 ^ ((ni : ℝ) / 3)), ← Real.rpow_mul (by norm_num)]
    rw [show ((ni : ℝ) / 3) * ((3 : ℕ) : ℝ) = ni by push_cast; ring, Real.rpow_natCast, Real.rpow_natCast, pow_add]
    norm_num
  have hlo : (k : ℝ) ≤ 10000 * 10 ^ ((ni : ℝ) / 3) := by
    refine le_of_pow_le_pow_left₀ (n := 3) (by norm_num) hx.le ?_
    rw [hcube]; exact_mod_cast h1
  have hhi : (10000 * 10 ^ ((ni : ℝ) / 3) : ℝ) < k + 1 := by
    refine lt_of_pow_lt_pow_left₀ 3 (by positivity) ?_
    rw [hcube]; exact_mod_cast h2
  have e : (CFloat.ofNat 10000 *. CFloat.pow (CFloat.ofRat 10) (CFloat.ofRat 1 *. CFloat.ofNat ni /. CFloat.ofNat 3) : XR) = fin (10000 * 10 ^ ((ni : ℝ) / 3)) := by
    rw [XR.ofNat_eq, XR.ofNat_eq, XR.ofNat_eq, XR.ofRat_eq, XR.ofRat_eq, XR.mul_fin, XR.div_fin _ _ (by norm_num), XR.pow_fin _ _ (by norm_num), XR.mul_fin]
    norm_num
  unfold nextSize
  rw [e]
  have hk' : (k : ℝ) + 1 ≤ 2 ^ 31 := by exact_mod_cast hk
  rw [XR.toU32_fin _ hx.le (by norm_num at hk' ⊢; linarith)]
  congr 1
  have : ⌊(10000 * 10 ^ ((ni : ℝ) / 3) : ℝ)⌋ = (k : ℤ) := by
    rw [Int.floor_eq_iff]; push_cast; exact ⟨hlo, hhi⟩
  rw [this, Int.toNat_natCast]

/-- C82: exact arithmetic computes the sizes. -/
theorem C82_sizes : ComputesSizes XR := by
  intro ni h1 h2
  interval_cases ni <;> exact nextSize_eq (by decide) (by decide) (by decide)

/-! ### an execution -/

theorem pow_lt_exp {x : ℝ} {p q : ℕ} (hq : 0 < q) (hx : 0 ≤ x) (h : x ^ q < 2.7182818283 ^ p) : x < Real.exp (p / q) := by
  have e : Real.exp ((p : ℝ) / q) ^ q = Real.exp 1 ^ p := by
    rw [← Real.exp_nat_mul, ← Real.exp_nat_mul]
    congr 1
    have : (q : ℝ) ≠ 0 := by exact_mod_cast hq.ne'
    field_simp
  refine lt_of_pow_lt_pow_left₀ q (Real.exp_pos _).le ?_
  rw [e]
  exact h.trans_le (pow_le_pow_left₀ (by norm_num) Real.exp_one_gt_d9.le p)

/-- the first pair of a group with positive temperature -/
theorem first_warm {α T : ℝ} (hα : α = 3 / 5 ∨ α = 1) (hT : T = 1 / 2 ∨ T = 9 / 10) {seed : ℕ} (hs : seed ≤ 1000000) :
    ∃ row, Benchmark exampleMachine 1 10000 10 (fin α) (fin T) seed row := by
  have hα2 : 1 / 2 < α := by rcases hα with rfl | rfl <;> norm_num
  have hα1 : α ≤ 1 := by rcases hα with rfl | rfl <;> norm_num
  have hT0 : 0 < T := by rcases hT with rfl | rfl <;> norm_num
  have hT1 : T < 1 := by rcases hT with rfl | rfl <;> norm_num
  have hc := Radius.calculateRadius_eq (n := 10000) (α := α) (T := T) (deg := 10) (by norm_num) (by norm_num) hα2 hT0.le hT1 (by norm_num)
  have h43 := (C51_positive (n := 10000) (by norm_num) (by norm_num) hα2 hα1 hT0.le hT1 (by norm_num) (by norm_num) hc).2
  have hpi := Real.pi_pos
  have hsin : 1 / 5 ≤ Real.sin (Real.pi * T) := by
    have e : Real.sin (Real.pi * T) = Real.sin (Real.pi * (1 - T)) := by
      rw [show Real.pi * (1 - T) = Real.pi - Real.pi * T by ring, Real.sin_pi_sub]
    have hj := Real.mul_le_sin (x := Real.pi * (1 - T)) (by nlinarith) (by rcases hT with rfl | rfl <;> nlinarith)
    rw [e]
    refine le_trans ?_ hj
    have : 2 / Real.pi * (Real.pi * (1 - T)) = 2 * (1 - T) := by field_simp
    rw [this]
    rcases hT with rfl | rfl <;> norm_num
  have hratio : Radius.ratio ((10000 : ℤ) : ℝ) α T 10 ≤ 2 ^ 29 := by
    unfold Radius.ratio
    rw [if_neg hT0.ne']
    have hf : T / Real.sin (Real.pi * T) ≤ 5 := by
      rw [div_le_iff₀ (by linarith)]
      linarith
    have hf0 : 0 ≤ T / Real.sin (Real.pi * T) := div_nonneg hT0.le (by linarith)
    generalize T / Real.sin (Real.pi * T) = f at *
    rcases hα with rfl | rfl
    · rw [div_le_iff₀ (by norm_num)]; norm_num; linarith
    · rw [div_le_iff₀ (by norm_num)]; norm_num; linarith
  have hR2 : 2 * Real.log (Radius.ratio ((10000 : ℤ) : ℝ) α T 10) ≤ 165 / 4 := by
    have h0 : 0 < Radius.ratio ((10000 : ℤ) : ℝ) α T 10 := Radius.ratio_pos (by norm_num) hα2 hT0.le hT1 (by norm_num)
    have h1 := Real.log_le_log h0 hratio
    rw [Real.log_pow] at h1
    have := Real.log_two_lt_d9
    norm_num at h1
    norm_num
    linarith
  have hrad : Radius.LikeNetworKit exampleMachine.ndebug (10000 : ℤ) (fin α) (fin T) (fin 10) (fin (2 * Real.log (Radius.ratio ((10000 : ℤ) : ℝ) α T 10))) := by
    rw [C52_cold (by norm_num) (by norm_num) hα2 hT0 hT1 (by norm_num)]
    exact hc
  obtain ⟨row, h1, _⟩ := C77_hyper_returns (m := exampleMachine) exampleEngine_interval exampleRng_unit (threads := 1) (n := 10000) (avgDeg := 10) (seed := seed)
    (α := α) (T := T) hα2 hT0.le (by norm_num) (by norm_num) le_rfl (by omega) (by rw [XR.ofNat_eq]; exact_mod_cast hrad) h43.le hR2 (Or.inl rfl)
  exact ⟨row, h1⟩

/-- the first pair of a group with temperature 0 -/
theorem first_cold {α : ℝ} (hα : α = 3 / 5 ∨ α = 1) {seed : ℕ} (hs : seed ≤ 1000000) :
    ∃ row, Benchmark exampleMachine 1 10000 10 (fin α) (fin 0) seed row := by
  have hα2 : 1 / 2 < α := by rcases hα with rfl | rfl <;> norm_num
  have hpi := Real.pi_gt_d2
  have hpi' := Real.pi_lt_d2
  have hpi0 := Real.pi_pos
  have hx0 : 0 < Radius.ratio ((10000 : ℤ) : ℝ) α 0 10 := Radius.ratio_pos (by norm_num) hα2 le_rfl (by norm_num) (by norm_num)
  set x := Radius.ratio ((10000 : ℤ) : ℝ) α 0 10 with hx
  set r := 2 * Real.log x with hr
  have hdeg : hrgDegree (10000 : ℤ) α 0 r = 10 := (Radius.hrgDegree_radius (by norm_num) hα2 le_rfl (by norm_num) (by norm_num) r).2 hr
  have hx1 : 2500 ≤ x := by
    rw [hx]; unfold Radius.ratio
    rw [if_pos rfl]
    rcases hα with rfl | rfl <;> (field_simp; norm_num; linarith)
  have hx2 : x ≤ 23000 := by
    rw [hx]; unfold Radius.ratio
    rw [if_pos rfl]
    rcases hα with rfl | rfl <;> (field_simp; norm_num; linarith)
  have hr1 : 8 / 3 ≤ r := by
    have : 4 / 3 ≤ Real.log x := by
      rw [Real.le_log_iff_exp_le hx0]
      have h1 : Real.exp (4 / 3) ≤ Real.exp 2 := Real.exp_le_exp.2 (by norm_num)
      have h2 : Real.exp 2 = Real.exp 1 ^ 2 := by rw [← Real.exp_nat_mul]; norm_num
      have h3 := Real.exp_one_lt_d9
      have h4 : Real.exp 1 ^ 2 ≤ 3 ^ 2 := pow_le_pow_left₀ (Real.exp_pos 1).le (by linarith) 2
      linarith
    linarith
  have hr2 : r ≤ 206 / 10 := by
    have : Real.log x ≤ 103 / 10 := by
      rw [Real.log_le_iff_le_exp hx0]
      have := pow_lt_exp (x := 23000) (p := 103) (q := 10) (by norm_num) (by norm_num) (by norm_num)
      push_cast at this
      linarith
    linarith
  have hy : Real.exp (-r / 2) = 1 / x := by
    rw [hr, show -(2 * Real.log x) / 2 = -Real.log x by ring, Real.exp_neg, Real.exp_log hx0, one_div]
  have hxi : 2 / Real.pi * xi α ^ 2 * ((10000 : ℤ) : ℝ) = 10 * x := by
    have := hdeg
    unfold hrgDegree at this
    rw [if_pos rfl, hy, mul_one, mul_one_div, div_eq_iff hx0.ne'] at this
    exact this
  have hC : Real.pi / 4 * (1 / α) ^ 2 - (Real.pi - 1) * (1 / α) + (Real.pi - 2) ≤ 0 := by
    rcases hα with rfl | rfl
    · norm_num; linarith
    · norm_num; linarith
  have hlow : 10 < coldDegree (10000 : ℤ) α (r / 2) := by
    unfold coldDegree
    rw [hxi]
    have key : 1 / x < Real.exp (-(r / 2) / 2) + Real.exp (-α * (r / 2)) *
        (α * (r / 2 / 2) * (Real.pi / 4 * (1 / α) ^ 2 - (Real.pi - 1) * (1 / α) + (Real.pi - 2)) - 1) := by
      rw [← hy]
      rcases hα with rfl | rfl
      · have hz := Real.exp_pos (-r / 20)
        set z := Real.exp (-r / 20) with hzd
        have e1 : Real.exp (-r / 2) = z ^ 10 := by rw [hzd, ← Real.exp_nat_mul]; congr 1; push_cast; ring
        have e2 : Real.exp (-(r / 2) / 2) = z ^ 5 := by rw [hzd, ← Real.exp_nat_mul]; congr 1; push_cast; ring
        have e3 : Real.exp (-(3 / 5) * (r / 2)) = z ^ 6 := by rw [hzd, ← Real.exp_nat_mul]; congr 1; push_cast; ring
        rw [e1, e2, e3]
        have hx3 : 22857 ≤ x := by
          rw [hx]; unfold Radius.ratio
          rw [if_pos rfl]
          field_simp; norm_num; linarith
        have hz1 : z ≤ 0.368 := by
          refine le_of_pow_le_pow_left₀ (n := 10) (by norm_num) (by norm_num) ?_
          rw [← e1, hy, div_le_iff₀ hx0]
          norm_num
          linarith
        have hB : -(18 / 10) ≤ 3 / 5 * (r / 2 / 2) * (Real.pi / 4 * (1 / (3 / 5)) ^ 2 - (Real.pi - 1) * (1 / (3 / 5)) + (Real.pi - 2)) - 1 := by
          rw [show Real.pi / 4 * (1 / (3 / 5)) ^ 2 - (Real.pi - 1) * (1 / (3 / 5)) + (Real.pi - 2) = Real.pi / 36 - 1 / 3 by ring]
          nlinarith
        have hz6 : 0 < z ^ 6 := by positivity
        have h1 : z ^ 6 * -(18 / 10) ≤ z ^ 6 * (3 / 5 * (r / 2 / 2) * (Real.pi / 4 * (1 / (3 / 5)) ^ 2 - (Real.pi - 1) * (1 / (3 / 5)) + (Real.pi - 2)) - 1) :=
          mul_le_mul_of_nonneg_left hB hz6.le
        refine lt_of_lt_of_le ?_ (add_le_add_right h1 _)
        have hz5 : 0 < z ^ 5 := by positivity
        have h5 : z ^ 5 ≤ 0.368 ^ 5 := pow_le_pow_left₀ hz.le hz1 5
        have : 0 < z ^ 5 * (1 - z * (18 / 10) - z ^ 5) := by
          refine mul_pos hz5 ?_
          norm_num at h5
          norm_num at hz1
          linarith
        nlinarith
      · have hz := Real.exp_pos (-r / 4)
        set z := Real.exp (-r / 4) with hzd
        have e1 : Real.exp (-r / 2) = z ^ 2 := by rw [hzd, ← Real.exp_nat_mul]; congr 1; push_cast; ring
        have e2 : Real.exp (-(r / 2) / 2) = z := by rw [hzd]; congr 1; ring
        have e3 : Real.exp (-1 * (r / 2)) = z ^ 2 := by rw [hzd, ← Real.exp_nat_mul]; congr 1; push_cast; ring
        rw [e1, e2, e3]
        have hz1 : z ≤ 1 / 50 := by
          refine le_of_pow_le_pow_left₀ (n := 2) (by norm_num) (by norm_num) ?_
          rw [← e1, hy, div_le_iff₀ hx0]
          norm_num
          linarith
        have hB : -3 ≤ 1 * (r / 2 / 2) * (Real.pi / 4 * (1 / 1) ^ 2 - (Real.pi - 1) * (1 / 1) + (Real.pi - 2)) - 1 := by
          rw [show Real.pi / 4 * (1 / 1) ^ 2 - (Real.pi - 1) * (1 / 1) + (Real.pi - 2) = Real.pi / 4 - 1 by ring]
          nlinarith
        have h1 := mul_le_mul_of_nonneg_left hB (sq_nonneg z)
        refine lt_of_lt_of_le ?_ (add_le_add_right h1 _)
        nlinarith
    have h2 := mul_lt_mul_of_pos_left key (by positivity : 0 < 10 * x)
    rw [mul_one_div, mul_div_assoc, div_self hx0.ne', mul_one] at h2
    exact h2
  have hupp : coldDegree (10000 : ℤ) α (2 * r) < 10 := by
    unfold coldDegree
    rw [hxi]
    have e1 : Real.exp (-(2 * r) / 2) = (1 / x) ^ 2 := by rw [← hy, ← Real.exp_nat_mul]; congr 1; push_cast; ring
    rw [e1]
    have h1 : Real.exp (-α * (2 * r)) * (α * (2 * r / 2) * (Real.pi / 4 * (1 / α) ^ 2 - (Real.pi - 1) * (1 / α) + (Real.pi - 2)) - 1) ≤ 0 := by
      refine mul_nonpos_of_nonneg_of_nonpos (Real.exp_pos _).le ?_
      have : α * (2 * r / 2) * (Real.pi / 4 * (1 / α) ^ 2 - (Real.pi - 1) * (1 / α) + (Real.pi - 2)) ≤ 0 :=
        mul_nonpos_of_nonneg_of_nonpos (by nlinarith) hC
      linarith
    have h2 := mul_le_mul_of_nonneg_left (add_le_add_right h1 ((1 / x) ^ 2)) (by positivity : 0 ≤ 10 * x)
    refine lt_of_le_of_lt h2 ?_
    have e2 : 10 * x * ((1 / x) ^ 2 + 0) = 10 / x := by field_simp; ring
    rw [e2, div_lt_iff₀ hx0]
    linarith
  obtain ⟨R, h1, h2, _⟩ := C52_returns (ndebug := exampleMachine.ndebug) (n := (10000 : ℤ)) (k := 10) (α := α) (ε := 1 / 100) (r := r) (by norm_num) hα2 (by norm_num)
    (by norm_num) hdeg hlow hupp
  rw [Set.uIcc_of_le (by linarith)] at h2
  have hrad : Radius.LikeNetworKit exampleMachine.ndebug (10000 : ℤ) (fin α) (fin 0) (fin 10) (fin R) := (C52_zero (by norm_num) _).2 h1
  obtain ⟨row, h3, _⟩ := C77_hyper_returns (m := exampleMachine) exampleEngine_interval exampleRng_unit (threads := 1) (n := 10000) (avgDeg := 10) (seed := seed)
    (α := α) (T := 0) hα2 le_rfl (by norm_num) (by norm_num) le_rfl (by omega) (by rw [XR.ofNat_eq]; exact_mod_cast hrad) (by linarith [h2.1]) (by linarith [h2.2]) (Or.inl rfl)
  exact ⟨row, h3⟩

/-- the parameters of the groups in exact arithmetic -/
theorem group_params : ∀ g ∈ benchGroups XR, ∃ α T : ℝ, g.alpha = fin α ∧ g.T = fin T ∧ (α = 3 / 5 ∨ α = 1) ∧ (T = 0 ∨ T = 1 / 2 ∨ T = 9 / 10) := by
  intro g hg
  unfold benchGroups at hg
  simp only [List.mem_flatMap, List.mem_map, List.mem_cons, List.not_mem_nil, or_false] at hg
  obtain ⟨iter, _, T, hT, ple, hple, rfl⟩ := hg
  obtain ⟨p, hp, hp'⟩ : ∃ p : ℝ, ple = fin p ∧ (p = 11 / 5 ∨ p = 3) := by
    rcases hple with rfl | rfl
    · exact ⟨11 / 5, by rw [XR.ofRat_eq]; norm_num, Or.inl rfl⟩
    · exact ⟨3, by rw [XR.ofRat_eq]; norm_num, Or.inr rfl⟩
  obtain ⟨t, ht, ht'⟩ : ∃ t : ℝ, T = fin t ∧ (t = 0 ∨ t = 1 / 2 ∨ t = 9 / 10) := by
    rcases hT with rfl | rfl | rfl
    · exact ⟨0, by rw [XR.ofRat_eq]; norm_num, by simp⟩
    · exact ⟨1 / 2, by rw [XR.ofRat_eq]; norm_num, by simp⟩
    · exact ⟨9 / 10, by rw [XR.ofRat_eq]; norm_num, by simp⟩
  refine ⟨(p - 1) / 2, t, ?_, ht, ?_, ht'⟩
  · show (ple -. CFloat.ofRat 1) /. CFloat.ofRat 2 = _
    rw [hp, XR.ofRat_eq, XR.ofRat_eq, XR.sub_fin, XR.div_fin _ _ (by norm_num)]
    norm_num
  · rcases hp' with rfl | rfl
    · left; norm_num
    · right; norm_num

/-- C82 at work: an execution of the program in exact arithmetic with one thread, in which the first run of each group takes 100.001 seconds (and thus all others are
skipped). -/
theorem benchMainExample : ∃ groups, HyperMain exampleMachine 1 groups ∧
    ∀ (k : ℕ) (g : HGroup XR) (es : List (HEntry XR)) (i : ℕ) (e : HEntry XR), groups[k]? = some (g, es) → es[i]? = some e → (e.outcome = none ↔ i ≠ 0) := by
  have hlim : (timeout XR <. (fin 100001 : XR)) = true := by
    unfold timeout
    rw [XR.ofRat_eq, XR.ofRat_eq, XR.mul_fin]
    simp [CFloat.lt, XR.lt]
    norm_num
  have hpos : ∀ i, i < 38 → ∀ c, benchConfigs[i]? = some c → 10000 ≤ c.2 := by decide
  have hmin : ∀ (i : ℕ) (c : ℕ × ℕ), benchConfigs[i]? = some c → 10000 ≤ c.2 := fun i c h => by
    obtain ⟨h', _⟩ := List.getElem?_eq_some_iff.1 h
    exact hpos i h' c h
  have hrow : ∀ k, ∃ row, ∀ g, (benchGroups XR)[k]? = some g → Benchmark exampleMachine 1 10000 10 g.alpha g.T (380 * k) row := by
    intro k
    rcases hg : (benchGroups XR)[k]? with _ | g
    · exact ⟨⟨0, 0, 0, .nan, .nan, .nan, .nan, 0, .nan⟩, by simp⟩
    · have hk : k < 30 := (List.getElem?_eq_some_iff.1 hg).1
      obtain ⟨α, T, h1, h2, h3, h4⟩ := group_params g (List.mem_of_getElem? hg)
      have : ∃ row, Benchmark exampleMachine 1 10000 10 (fin α) (fin T) (380 * k) row := by
        rcases h4 with rfl | h4
        · exact first_cold h3 (by omega)
        · exact first_warm h3 h4 (by omega)
      obtain ⟨row, h⟩ := this
      refine ⟨row, fun g' e => ?_⟩
      cases e
      rw [h1, h2]; exact h
  choose row hrow using hrow
  obtain ⟨groups, h1, h2⟩ := C82_returns C82_sizes (m := exampleMachine) (threads := 1) (fun k _ => row k) (fun _ _ => (fin 100001 : XR)) (by
    rintro k g (_ | i) d n hg hc ht
    · cases hc
      exact hrow k g hg
    · exfalso
      have := ht 0 (d, n) (10, 10000) (by omega) hc rfl (hmin _ _ hc)
      rw [hlim] at this
      cases this)
  refine ⟨groups, h1, fun k g es i e hk hi => ?_⟩
  obtain ⟨_, h3⟩ := (C82_main C82_sizes groups).1 h1
  have hg := h3 k g es hk
  have hconf : ∀ (i : ℕ) e, es[i]? = some e → benchConfigs[i]? = some (e.avgDeg, e.n) := fun i e h => by
    rw [← hg.configs, List.getElem?_map, h]; rfl
  rw [hg.skips i e hi]
  constructor
  · rintro ⟨j, _, _, _, hj, _⟩; omega
  · intro hi0
    have hlen : es.length = 38 := by
      have := congrArg List.length hg.configs
      rw [List.length_map] at this
      exact this.trans (by decide)
    have he0 : es[0]? = some es[0] := List.getElem?_eq_getElem (by omega)
    rcases ho : es[0].outcome with _ | ⟨r, t⟩
    · obtain ⟨j, _, _, _, hj, _⟩ := (hg.skips 0 _ he0).1 ho
      omega
    · refine ⟨0, _, r, t, by omega, he0, ho, ?_, ?_⟩
      · rw [(h2 k g es 0 _ r t hk he0 ho).2]; exact hlim
      · have c0 := hconf 0 _ he0
        have : es[0].n = 10000 := by
          have e : benchConfigs[0]? = some (10, 10000) := rfl
          rw [e, Option.some.injEq, Prod.mk.injEq] at c0
          exact c0.2.symm
        rw [this]
        exact hmin _ _ (hconf i e hi)

end Props
end Girgs
