import Verif.Proofs.HypClustering
import Verif.Props.HyperPowerLaw
import Verif.Props.Clustering
import Verif.Props.JointLaw
import Verif.Proofs.HypClusteringT
/-
C103: generated hyperbolic random graphs have high clustering.
-/
namespace Girgs.Props
open CFloat Spec MeasureTheory ProbabilityTheory HypDeg Radius
open XR (fin)
open scoped ENNReal

theorem gap_iff {Ω : Type} {n : ℕ} {R : ℝ} (hR : 0 < R) {ρ φ : Fin n → Ω → ℝ} (ω : Ω) (u v : Fin n) :
    gap ρ φ R ω u v < 1 ↔ hypCosh (ρ u ω) (φ u ω) (ρ v ω) (φ v ω) < Real.cosh R := by
  unfold gap
  rw [Real.exp_lt_one_iff, ← HypDeg.cosh_hypDist, Real.cosh_lt_cosh, abs_of_nonneg (HypDeg.hypDist_nonneg _ _ _ _), abs_of_pos hR]
  constructor <;> intro h <;> linarith

open Clustering in
/-- two edges and triangles for fixed points, `T > 2^-52` -/
theorem hyp_wedge_triangle {radii angles : List ℝ} {T R : ℝ} (hin : HypInput radii angles T R) (hT : 1 / 4503599627370496 < T) (hfil : 2 * T * Real.log 99 ≤ R)
    (env : HEnv) {rng : Tree.Rng XR} [MeasurableSpace rng.G] {μ : Measure rng.G} (hr : IdealRng rng μ) (hur : UnitRng rng)
    (hret : env.threads = 1 ∨ ∃ L, HTree.firstParallelLevel XR env.threads = some L ∧
      Real.cosh R < hypCosh (R - 1) (Real.pi / 2 ^ (L - 1)) (R - 1) 0) {g : ℕ} (hg : 1 ≤ g)
    (hgens : env.threads ≠ 1 → ∃ L tasks, HTree.firstParallelLevel XR env.threads = some L ∧
      HTree.numTasks L = some tasks ∧ env.threads - 1 + tasks ≤ g)
    {u v x : ℕ} (hu : u < radii.length) (hv : v < radii.length) (hx : x < radii.length) (huv : u ≠ v) (hux : u ≠ x) (hvx : v ≠ x) :
    hypGraphProb env rng μ hg (xw radii) (xw angles) (fin T) (fin R) (fun es => wedge es u v x) ≤
      ENNReal.ofReal (hypPairProb radii angles R T u v) * ENNReal.ofReal (hypPairProb radii angles R T u x) ∧
    (1 / 2 ≤ hypPairProb radii angles R T u v → 1 / 2 ≤ hypPairProb radii angles R T u x → 1 / 2 ≤ hypPairProb radii angles R T v x →
      1 ≤ 8 * hypGraphProb env rng μ hg (xw radii) (xw angles) (fin T) (fin R) (fun es => triangle es u v x)) := by
  classical
  obtain ⟨pr, hsym, hpr, hlaw⟩ := C104_hyper hin hT hfil
  have hle : ∀ a b, a < radii.length → b < radii.length → a ≠ b → pr a b ≤ hypPairProb radii angles R T a b := by
    intro a b ha hb hab
    rcases hpr a b ha hb hab with h | h
    · exact h.le
    · rw [h.1]; exact (hypPairProb_bounds a b).1
  have hge : ∀ a b, a < radii.length → b < radii.length → a ≠ b → 1 / 2 ≤ hypPairProb radii angles R T a b → 1 / 2 ≤ pr a b := by
    intro a b ha hb hab h1
    rcases hpr a b ha hb hab with h | h
    · rw [h]; exact h1
    · linarith [h.2]
  have huS : u ∉ ({v, x} : Finset ℕ) := by simp [huv, hux]
  have hS : ∀ b ∈ ({v, x} : Finset ℕ), b < radii.length := by
    intro b hb
    simp only [Finset.mem_insert, Finset.mem_singleton] at hb
    rcases hb with rfl | rfl <;> assumption
  have hvS : v ∉ ({x} : Finset ℕ) := by simp [hvx]
  have hS' : ∀ b ∈ ({x} : Finset ℕ), b < radii.length := by
    intro b hb
    rw [Finset.mem_singleton.1 hb]; exact hx
  have hf : ∀ a b, ENNReal.ofReal (pr a b) = ENNReal.ofReal (pr b a) := fun a b => by rw [hsym a b]
  constructor
  · have h1 := hlaw env rng μ hr hur hret g hg hgens (star u {v, x}) (fun _ _ => False) (fun a b => star_symm a b) (fun _ _ h => h) (fun _ _ _ h => h)
    have h2 : ∏ e ∈ upairs radii.length, (if star u {v, x} e.1 e.2 then ENNReal.ofReal (pr e.1 e.2) else 1) =
        ENNReal.ofReal (pr u v) * ENNReal.ofReal (pr u x) := by
      rw [prod_star hu huS hS (f := fun a b => ENNReal.ofReal (pr a b)) hf, Finset.prod_pair hvx]
    simp only [if_false] at h1
    rw [show (Finset.filter (fun e : ℕ × ℕ => e.1 < e.2) (Finset.range radii.length ×ˢ Finset.range radii.length)) = upairs radii.length from rfl, h2] at h1
    refine le_trans (measure_mono ?_) (h1.le.trans (mul_le_mul (ENNReal.ofReal_le_ofReal (hle u v hu hv huv)) (ENNReal.ofReal_le_ofReal (hle u x hu hx hux)) bot_le bot_le))
    rintro st ⟨out, h3, h4⟩
    refine ⟨out, h3, fun a b _ _ _ => ⟨?_, fun h => h.elim⟩⟩
    rintro (⟨rfl, h5⟩ | ⟨rfl, h5⟩) <;> simp only [Finset.mem_insert, Finset.mem_singleton] at h5 <;> rcases h5 with rfl | rfl
    · exact h4.1
    · exact h4.2
    · exact h4.1.symm
    · exact h4.2.symm
  · intro k1 k2 k3
    have h1 := hlaw env rng μ hr hur hret g hg hgens (fun a b => star u {v, x} a b ∨ star v {x} a b) (fun _ _ => False)
      (fun a b h => h.imp (star_symm a b) (star_symm a b)) (fun _ _ h => h) (fun _ _ _ h => h)
    have h2 : ∏ e ∈ upairs radii.length, (if star u {v, x} e.1 e.2 ∨ star v {x} e.1 e.2 then ENNReal.ofReal (pr e.1 e.2) else 1) =
        ENNReal.ofReal (pr u v) * ENNReal.ofReal (pr u x) * ENNReal.ofReal (pr v x) := by
      rw [← Finset.prod_singleton (fun b => ENNReal.ofReal (pr v b)) x, ← Finset.prod_pair (f := fun b => ENNReal.ofReal (pr u b)) hvx,
        ← prod_star hu huS hS (f := fun a b => ENNReal.ofReal (pr a b)) hf, ← prod_star hv hvS hS' (f := fun a b => ENNReal.ofReal (pr a b)) hf,
        ← Finset.prod_mul_distrib]
      refine Finset.prod_congr rfl fun e _ => ?_
      by_cases h3 : star u {v, x} e.1 e.2
      · have h4 : ¬ star v {x} e.1 e.2 := by
          unfold Clustering.star at h3 ⊢
          simp only [Finset.mem_insert, Finset.mem_singleton] at h3 ⊢
          omega
        simp [h3, h4]
      · simp [h3]
    simp only [if_false] at h1
    rw [show (Finset.filter (fun e : ℕ × ℕ => e.1 < e.2) (Finset.range radii.length ×ˢ Finset.range radii.length)) = upairs radii.length from rfl, h2] at h1
    have h3 : hypGraphProb env rng μ hg (xw radii) (xw angles) (fin T) (fin R) (hasEdges radii.length (fun a b => star u {v, x} a b ∨ star v {x} a b) fun _ _ => False) ≤
        hypGraphProb env rng μ hg (xw radii) (xw angles) (fin T) (fin R) (fun es => triangle es u v x) := by
      refine measure_mono ?_
      rintro st ⟨out, h3, h4⟩
      exact ⟨out, h3, (h4 u v hu hv huv).1 (Or.inl (Or.inl ⟨rfl, by simp⟩)), (h4 u x hu hx hux).1 (Or.inl (Or.inl ⟨rfl, by simp⟩)),
        (h4 v x hv hx hvx).1 (Or.inr (Or.inl ⟨rfl, by simp⟩))⟩
    refine le_trans ?_ (mul_le_mul le_rfl (h1.ge.trans h3) bot_le bot_le)
    have g1 := hge u v hu hv huv k1
    have g2 := hge u x hu hx hux k2
    have g3 := hge v x hv hx hvx k3
    rw [← ENNReal.ofReal_mul (by linarith), ← ENNReal.ofReal_mul (by nlinarith), show (8 : ℝ≥0∞) = ENNReal.ofReal 8 by simp, ← ENNReal.ofReal_mul (by norm_num)]
    rw [ENNReal.one_le_ofReal]
    have g4 := mul_le_mul g1 g2 (by norm_num) (by linarith)
    have g5 := mul_le_mul g4 g3 (by norm_num) (by nlinarith)
    linarith

section Random
variable {Ω : Type} [MeasurableSpace Ω] {P : Measure Ω} {omp : Omp} {eng : Engine XR} [MeasurableSpace eng.G] {μ : Measure eng.G}
  {σ : ℤ → Ω → eng.G} {device : ℕ → Ω → eng.G} {n : ℕ} {α R T : ℝ} {radii angles : Ω → List XR} {rng : Tree.Rng XR}

/-- C103, `T = 0`.  `n` points of the disk of radius `R` are drawn (ideal engines, independently started), then `generateEdges` is run with temperature 0, in any
environment and with any random numbers.  `r i` is the radius of node `i`.  Two neighbours `v`, `x` of a node `u` that is farther away from the centre than both
are connected with probability at least 1/4. -/
theorem C103_threshold (hs : SampledPoints P omp eng μ σ device n α R radii angles) (h31 : n < 2147483648)
    (hdisk : (2 / 3 ≤ R ∧ R ≤ 1) ∨ (4 / 3 ≤ R ∧ R ≤ 165 / 4)) (hα : 0 < α) (hαR : 1 ≤ α * R)
    (env : Ω → HEnv) (hgeo : GeoBounded rng) (gens : Ω → ℕ → rng.G) {out : Ω → List (ℕ × ℕ)}
    (h : ∀ ω, HGenerateEdges (env ω) rng (gens ω) (radii ω) (angles ω) (fin 0) (fin R) (out ω))
    {r : ℕ → Ω → ℝ} (hr : ∀ i < n, ∀ ω, (radii ω)[i]? = some (fin (r i ω))) {u v x : ℕ} (hu : u < n) (hv : v < n) (hx : x < n)
    (huv : u ≠ v) (hux : u ≠ x) (hvx : v ≠ x) :
    P {ω | wedge (out ω) u v x ∧ r v ω ≤ r u ω ∧ r x ω ≤ r u ω} ≤ 4 * P {ω | triangle (out ω) u v x ∧ r v ω ≤ r u ω ∧ r x ω ≤ r u ω} := by
  have hn : 1 ≤ n := by omega
  have hR : 0 < R := by rcases hdisk with h | h <;> linarith
  obtain ⟨ρ, φ, hp, ho⟩ := sampled_random hs hn hα hR hαR
  have hρ : ∀ i (hi : i < n) ω, r i ω = ρ ⟨i, hi⟩ ω := by
    intro i hi ω
    have := hr i hi ω
    rw [(ho ω).1, List.getElem?_ofFn, dif_pos hi, Option.some.injEq] at this
    exact (XR.fin.inj this).symm
  have hadj : ∀ ω (a b : Fin n), a ≠ b → (adjacent (out ω) a b ↔ hypCosh (ρ a ω) (φ a ω) (ρ b ω) (φ b ω) < Real.cosh R) := by
    intro ω a b hab
    have h1 := h ω
    rw [(ho ω).1, (ho ω).2, xw_ofFn, xw_ofFn] at h1
    have hin := random_input hp hn h31 le_rfl hdisk ω
    have hlen : (List.ofFn fun i => ρ i ω).length = n := List.length_ofFn
    have h2 := (C45_threshold_exact hin _ rng hgeo _ _ h1).2.2 a b (by rw [hlen]; exact a.2) (by rw [hlen]; exact b.2) (fun h => hab (Fin.ext h))
    rw [← gap_iff hR, ← rule_gap]
    exact h2
  have n1 : (⟨u, hu⟩ : Fin n) ≠ ⟨v, hv⟩ := fun h => huv (Fin.mk.inj h)
  have n2 : (⟨u, hu⟩ : Fin n) ≠ ⟨x, hx⟩ := fun h => hux (Fin.mk.inj h)
  have n3 : (⟨v, hv⟩ : Fin n) ≠ ⟨x, hx⟩ := fun h => hvx (Fin.mk.inj h)
  refine le_trans (measure_mono ?_) ((triangle_mass hp hαR n1 n2 n3).trans (mul_le_mul le_rfl (measure_mono ?_) bot_le bot_le))
  · rintro ω ⟨⟨a1, a2⟩, b1, b2⟩
    rw [hρ u hu, hρ v hv] at b1
    rw [hρ u hu, hρ x hx] at b2
    exact ⟨⟨b1, (hadj ω ⟨u, hu⟩ ⟨v, hv⟩ n1).1 a1⟩, b2, (hadj ω ⟨u, hu⟩ ⟨x, hx⟩ n2).1 a2⟩
  · rintro ω ⟨a1, a2⟩
    have p1 := hp.rangeR ⟨v, hv⟩ ω
    have p2 := hp.rangeR ⟨x, hx⟩ ω
    have p3 := hp.rangeR ⟨u, hu⟩ ω
    have c1 := a1.close p1.1.le
    have c2 := a2.close p2.1.le
    refine ⟨⟨(hadj ω ⟨u, hu⟩ ⟨v, hv⟩ n1).2 c1.2, (hadj ω ⟨u, hu⟩ ⟨x, hx⟩ n2).2 c2.2, (hadj ω ⟨v, hv⟩ ⟨x, hx⟩ n3).2 (a1.triangle a2 p1.1 p2.1 p3.2.le)⟩, ?_, ?_⟩
    · rw [hρ u hu, hρ v hv]; exact c1.1
    · rw [hρ u hu, hρ x hx]; exact c2.1

/-- C103, `2^-52 < T < 1` with `2 T ln 99 ≤ R`, same setting, but in an environment in which the call returns (C44), with ideal random numbers that are independent of
the points.  Two neighbours of a node that is farther away from the centre than both are connected with probability at least `1/(1568 C²)`, `C = πT / sin(πT)`. -/
theorem C103_expected (hs : SampledPoints P omp eng μ σ device n α R radii angles) (h31 : n < 2147483648)
    (hdisk : (2 / 3 ≤ R ∧ R ≤ 1) ∨ (4 / 3 ≤ R ∧ R ≤ 165 / 4)) (hα : 0 < α) (hαR : 1 ≤ α * R)
    (hT : 1 / 4503599627370496 < T) (hT1 : T < 1) (hfil : 2 * T * Real.log 99 ≤ R) (env : HEnv) [MeasurableSpace rng.G]
    {ν : Measure rng.G} (hrng : IdealRng rng ν) (hur : UnitRng rng)
    (hret : env.threads = 1 ∨ ∃ L, HTree.firstParallelLevel XR env.threads = some L ∧
      Real.cosh R < hypCosh (R - 1) (Real.pi / 2 ^ (L - 1)) (R - 1) 0) {g : ℕ} (hg : 1 ≤ g)
    (hgens : env.threads ≠ 1 → ∃ L tasks, HTree.firstParallelLevel XR env.threads = some L ∧
      HTree.numTasks L = some tasks ∧ env.threads - 1 + tasks ≤ g)
    {r : ℕ → Ω → ℝ} (hr : ∀ i < n, ∀ ω, (radii ω)[i]? = some (fin (r i ω))) {u v x : ℕ} (hu : u < n) (hv : v < n) (hx : x < n)
    (huv : u ≠ v) (hux : u ≠ x) (hvx : v ≠ x) :
    upperMean P (fun ω => if r v ω ≤ r u ω ∧ r x ω ≤ r u ω then
        hypGraphProb env rng ν hg (radii ω) (angles ω) (fin T) (fin R) (fun es => wedge es u v x) else 0) ≤
      ENNReal.ofReal (1568 * (Real.pi * T / Real.sin (Real.pi * T)) ^ 2) * ∫⁻ ω, (if r v ω ≤ r u ω ∧ r x ω ≤ r u ω then
        hypGraphProb env rng ν hg (radii ω) (angles ω) (fin T) (fin R) (fun es => triangle es u v x) else 0) ∂P := by
  classical
  have hn : 1 ≤ n := by omega
  have hT0 : 0 < T := lt_trans (by norm_num) hT
  have hR : 0 < R := by rcases hdisk with h | h <;> linarith
  have hR' : 2 / 3 ≤ R := by rcases hdisk with h | h <;> linarith
  obtain ⟨ρ, φ, hp, ho⟩ := sampled_random hs hn hα hR hαR
  have hρ : ∀ i (hi : i < n) ω, r i ω = ρ ⟨i, hi⟩ ω := by
    intro i hi ω
    have := hr i hi ω
    rw [(ho ω).1, List.getElem?_ofFn, dif_pos hi, Option.some.injEq] at this
    exact (XR.fin.inj this).symm
  have n1 : (⟨u, hu⟩ : Fin n) ≠ ⟨v, hv⟩ := fun h => huv (Fin.mk.inj h)
  have n2 : (⟨u, hu⟩ : Fin n) ≠ ⟨x, hx⟩ := fun h => hux (Fin.mk.inj h)
  have n3 : (⟨v, hv⟩ : Fin n) ≠ ⟨x, hx⟩ := fun h => hvx (Fin.mk.inj h)
  have hgraph : ∀ ω, hypGraphProb env rng ν hg (radii ω) (angles ω) (fin T) (fin R) (fun es => wedge es u v x) ≤
        ENNReal.ofReal (conn T (gap ρ φ R ω ⟨u, hu⟩ ⟨v, hv⟩)) * ENNReal.ofReal (conn T (gap ρ φ R ω ⟨u, hu⟩ ⟨x, hx⟩)) ∧
      (gap ρ φ R ω ⟨u, hu⟩ ⟨v, hv⟩ < 1 → gap ρ φ R ω ⟨u, hu⟩ ⟨x, hx⟩ < 1 → gap ρ φ R ω ⟨v, hv⟩ ⟨x, hx⟩ < 1 →
        1 ≤ 8 * hypGraphProb env rng ν hg (radii ω) (angles ω) (fin T) (fin R) (fun es => triangle es u v x)) := by
    intro ω
    have hin := random_input hp hn h31 hT0.le hdisk ω
    have hlen : (List.ofFn fun i => ρ i ω).length = n := List.length_ofFn
    have key := hyp_wedge_triangle hin hT hfil env hrng hur hret hg hgens (u := u) (v := v) (x := x) (by rw [hlen]; exact hu) (by rw [hlen]; exact hv)
      (by rw [hlen]; exact hx) huv hux hvx
    rw [(ho ω).1, (ho ω).2, xw_ofFn, xw_ofFn]
    have c1 := prob_gap (ρ := ρ) (φ := φ) (R := R) hT0 ω ⟨u, hu⟩ ⟨v, hv⟩
    have c2 := prob_gap (ρ := ρ) (φ := φ) (R := R) hT0 ω ⟨u, hu⟩ ⟨x, hx⟩
    have c3 := prob_gap (ρ := ρ) (φ := φ) (R := R) hT0 ω ⟨v, hv⟩ ⟨x, hx⟩
    simp only at c1 c2 c3
    rw [c1, c2, c3] at key
    have half : ∀ w : ℝ, 0 ≤ w → w < 1 → 1 / 2 ≤ conn T w := by
      intro w h0 h1
      unfold conn
      rw [if_neg hT0.ne']
      have h2 : w ^ (1 / T) ≤ 1 := Real.rpow_le_one h0 h1.le (by positivity)
      have h3 := Real.rpow_nonneg h0 (1 / T)
      exact div_le_div_of_nonneg_left (by norm_num) (by linarith) (by linarith)
    exact ⟨key.1, fun h1 h2 h3 => key.2 (half _ (gap_pos ω _ _).le h1) (half _ (gap_pos ω _ _).le h2) (half _ (gap_pos ω _ _).le h3)⟩
  have hq : ∀ b : Fin n, Measurable fun ω => ((ρ ⟨u, hu⟩ ω, φ ⟨u, hu⟩ ω), (ρ b ω, φ b ω)) := fun b =>
    ((hp.measR _).prodMk (hp.measA _)).prodMk ((hp.measR b).prodMk (hp.measA b))
  have m1 : ∀ b : Fin n, Measurable fun ω => innerConn T R (ρ ⟨u, hu⟩ ω, φ ⟨u, hu⟩ ω) (ρ b ω, φ b ω) := fun b => (innerConn_measurable T R).comp (hq b)
  refine (upperMean_le (F := fun ω => innerConn T R (ρ ⟨u, hu⟩ ω, φ ⟨u, hu⟩ ω) (ρ ⟨v, hv⟩ ω, φ ⟨v, hv⟩ ω) *
    innerConn T R (ρ ⟨u, hu⟩ ω, φ ⟨u, hu⟩ ω) (ρ ⟨x, hx⟩ ω, φ ⟨x, hx⟩ ω)) ((m1 _).mul (m1 _)) fun ω => ?_).trans ?_
  · split_ifs with h
    · rw [hρ u hu, hρ v hv, hρ x hx] at h
      have p1 := hp.rangeR ⟨v, hv⟩ ω
      have p2 := hp.rangeR ⟨x, hx⟩ ω
      have p3 := hp.rangeR ⟨u, hu⟩ ω
      refine (hgraph ω).1.trans (le_of_eq ?_)
      unfold innerConn
      rw [if_pos ⟨p1.1, h.1, p3.2.le⟩, if_pos ⟨p2.1, h.2, p3.2.le⟩]
      rfl
    · exact bot_le
  refine (inner_pair_mass hp hαR hT0.le hT1 hR' n1 n2 n3).trans ?_
  have hc : connC T = Real.pi * T / Real.sin (Real.pi * T) := by
    unfold connC; rw [if_neg hT0.ne']
  rw [← hc, show 1568 * connC T ^ 2 = 196 * connC T ^ 2 * 8 by ring, ENNReal.ofReal_mul (p := 196 * connC T ^ 2) (by positivity), mul_assoc (ENNReal.ofReal (196 * connC T ^ 2))]
  refine mul_le_mul le_rfl ?_ bot_le bot_le
  rw [show ENNReal.ofReal 8 = 8 by simp, ← lintegral_const_mul' _ _ (by simp)]
  refine lintegral_mono fun ω => ?_
  dsimp only
  by_cases h : HalfClose R (ρ ⟨u, hu⟩ ω, φ ⟨u, hu⟩ ω) (ρ ⟨v, hv⟩ ω, φ ⟨v, hv⟩ ω) ∧ HalfClose R (ρ ⟨u, hu⟩ ω, φ ⟨u, hu⟩ ω) (ρ ⟨x, hx⟩ ω, φ ⟨x, hx⟩ ω)
  · obtain ⟨a1, a2⟩ := h
    have p1 := hp.rangeR ⟨v, hv⟩ ω
    have p2 := hp.rangeR ⟨x, hx⟩ ω
    have p3 := hp.rangeR ⟨u, hu⟩ ω
    have c1 := a1.close p1.1.le
    have c2 := a2.close p2.1.le
    have c3 := a1.triangle a2 p1.1 p2.1 p3.2.le
    have o1 : r v ω ≤ r u ω := by rw [hρ u hu, hρ v hv]; exact c1.1
    have o2 : r x ω ≤ r u ω := by rw [hρ u hu, hρ x hx]; exact c2.1
    rw [if_pos ⟨a1, a2⟩, if_pos ⟨o1, o2⟩]
    exact (hgraph ω).2 ((gap_iff hR ω _ _).2 c1.2) ((gap_iff hR ω _ _).2 c2.2) ((gap_iff hR ω _ _).2 c3)
  · rw [if_neg h]; exact bot_le

end Random

/-- `C103_threshold`: a million nodes, `α = 1`, `R = 20`: nodes 3, 8 and 5 -/
example : ∃ (radii angles : (ℤ → ℕ → ℝ) → List XR) (out : (ℤ → ℕ → ℝ) → List (ℕ × ℕ)) (r : ℕ → (ℤ → ℕ → ℝ) → ℝ) (P : Measure (ℤ → ℕ → ℝ)),
    P = (Measure.infinitePi fun _ : ℤ => seqMeasure) ∧ (∀ i < 1000000, ∀ ω, (radii ω)[i]? = some (fin (r i ω))) ∧
    (∀ ω, HGenerateEdges (exampleHEnv true 1 (by norm_num) (by norm_num)) idealRng (fun _ _ => 0) (radii ω) (angles ω) (fin 0) (fin 20) (out ω)) ∧
    P {ω | wedge (out ω) 3 8 5 ∧ r 8 ω ≤ r 3 ω ∧ r 5 ω ≤ r 3 ω} ≤ 4 * P {ω | triangle (out ω) 3 8 5 ∧ r 8 ω ≤ r 3 ω ∧ r 5 ω ≤ r 3 ω} := by
  obtain ⟨n, hn⟩ : ∃ n : ℕ, n = 1000000 := ⟨_, rfl⟩
  rw [← hn]
  obtain ⟨radii, angles, hs⟩ := exampleSampled (n := n) (by omega) (α := 1) (R := 20) one_pos (by norm_num)
  obtain ⟨ρ, φ, hp, ho⟩ := sampled_random hs (by omega) one_pos (by norm_num) (by norm_num)
  have hex : ∀ ω, ∃ out, HGenerateEdges (exampleHEnv true 1 (by norm_num) (by norm_num)) idealRng (fun _ _ => 0) (radii ω) (angles ω) (fin 0) (fin 20) out := by
    intro ω
    rw [(ho ω).1, (ho ω).2, xw_ofFn, xw_ofFn]
    exact (C44_returns_iff (random_input hp (by omega) (by omega) le_rfl (Or.inr (by norm_num)) ω) _ _ idealRng_unit _).2 (Or.inl rfl)
  choose out hout using hex
  have hr : ∀ i < n, ∀ ω, (radii ω)[i]? = some (fin ((fun i ω => if h : i < n then ρ ⟨i, h⟩ ω else 0) i ω)) := by
    intro i hi ω
    rw [(ho ω).1, List.getElem?_ofFn, dif_pos hi]
    simp only [dif_pos hi]
  exact ⟨radii, angles, out, _, _, rfl, hr, hout,
    C103_threshold hs (by omega) (Or.inr (by norm_num)) one_pos (by norm_num) _ idealRng_unit.geo _ hout hr (by omega) (by omega) (by omega)
      (by decide) (by decide) (by decide)⟩

/-- `C103_expected`: the same at temperature 1/2, where `C = π/2` -/
example : ∃ (radii angles : (ℤ → ℕ → ℝ) → List XR) (r : ℕ → (ℤ → ℕ → ℝ) → ℝ) (P : Measure (ℤ → ℕ → ℝ)),
    P = (Measure.infinitePi fun _ : ℤ => seqMeasure) ∧ (∀ i < 1000000, ∀ ω, (radii ω)[i]? = some (fin (r i ω))) ∧
    upperMean P (fun ω => if r 8 ω ≤ r 3 ω ∧ r 5 ω ≤ r 3 ω then hypGraphProb (exampleHEnv true 1 (by norm_num) (by norm_num)) idealRng seqMeasure le_rfl
        (radii ω) (angles ω) (fin (1 / 2)) (fin 20) (fun es => wedge es 3 8 5) else 0) ≤
      ENNReal.ofReal 3920 * ∫⁻ ω, (if r 8 ω ≤ r 3 ω ∧ r 5 ω ≤ r 3 ω then hypGraphProb (exampleHEnv true 1 (by norm_num) (by norm_num)) idealRng seqMeasure le_rfl
        (radii ω) (angles ω) (fin (1 / 2)) (fin 20) (fun es => triangle es 3 8 5) else 0) ∂P := by
  obtain ⟨n, hn⟩ : ∃ n : ℕ, n = 1000000 := ⟨_, rfl⟩
  rw [← hn]
  obtain ⟨radii, angles, hs⟩ := exampleSampled (n := n) (by omega) (α := 1) (R := 20) one_pos (by norm_num)
  obtain ⟨ρ, φ, hp, ho⟩ := sampled_random hs (by omega) one_pos (by norm_num) (by norm_num)
  have hr : ∀ i < n, ∀ ω, (radii ω)[i]? = some (fin ((fun i ω => if h : i < n then ρ ⟨i, h⟩ ω else 0) i ω)) := by
    intro i hi ω
    rw [(ho ω).1, List.getElem?_ofFn, dif_pos hi]
    simp only [dif_pos hi]
  have hlog : Real.log 99 ≤ 6 := by
    rw [Real.log_le_iff_le_exp (by norm_num), show (6 : ℝ) = ((6 : ℕ) : ℝ) * 1 by norm_num, Real.exp_nat_mul]
    calc (99 : ℝ) ≤ 2.7 ^ 6 := by norm_num
      _ ≤ Real.exp 1 ^ 6 := pow_le_pow_left₀ (by norm_num) (by have := Real.exp_one_gt_d9; linarith) 6
  have key := C103_expected (T := 1 / 2) hs (by omega) (Or.inr (by norm_num)) one_pos (by norm_num) (by norm_num) (by norm_num) (by linarith)
    (exampleHEnv true 1 (by norm_num) (by norm_num)) idealRng_ideal idealRng_unit (Or.inl rfl) le_rfl (fun h => absurd rfl h) hr (u := 3) (v := 8) (x := 5)
    (by omega) (by omega) (by omega) (by decide) (by decide) (by decide)
  refine ⟨radii, angles, _, _, rfl, hr, key.trans (mul_le_mul (ENNReal.ofReal_le_ofReal ?_) le_rfl bot_le bot_le)⟩
  rw [mul_one_div, Real.sin_pi_div_two, div_one]
  have h1 := Real.pi_lt_d2
  have h2 := Real.pi_pos
  nlinarith

end Girgs.Props
