import Verif.Proofs.InclusionCount
import Verif.Props.HyperExact
import Verif.Props.Exact
/-
C74: hyperbolic random graphs and the geometric inhomogeneous random graphs of the converted points.
-/
namespace Girgs
namespace Props
open Spec Tree Real
open XR (fin)

/-- the converted points with scaled weights are supported input -/
theorem conv_supported {radii angles : List ℝ} {T R k : ℝ} (hin : HypInput radii angles T R) (hk : 0 < k) (hk2 : k ≤ 2 ^ 900)
    (hW : (convWeights radii R).sum < 2 ^ 29 * k) : SupportedInput 1 ((convWeights radii R).map (· * k)) (convPositions angles) := by
  have hR : R ≤ 165 / 4 := by rcases hin.disk with h | h <;> linarith [h.1, h.2]
  have he : exp (165 / 8) < 2 ^ 30 := by
    have h1 : exp 1 < 2.7182818286 := exp_one_lt_d9
    have h2 : exp (165 / 8) ^ 8 = exp 1 ^ 165 := by rw [← exp_nat_mul, ← exp_nat_mul]; norm_num
    refine lt_of_pow_lt_pow_left₀ 8 (by norm_num) ?_
    rw [h2]
    calc exp 1 ^ 165 < 2.7182818286 ^ 165 := by gcongr
      _ < (2 ^ 30) ^ 8 := by norm_num
  have hb : ∀ y ∈ convWeights radii R, 1 ≤ y ∧ y < 2 ^ 30 := by
    intro y hy
    obtain ⟨r, hr, rfl⟩ := List.mem_map.1 hy
    have := hin.radius r hr
    refine ⟨one_le_exp (by linarith), lt_of_le_of_lt (exp_le_exp.2 ?_) he⟩
    linarith
  have hlen : (convWeights radii R).length = radii.length := by simp [convWeights]
  refine ⟨le_rfl, by norm_num, ?_, ?_, ?_, ?_, ?_, ?_, ?_, ?_⟩
  · simp [convWeights, convPositions, hin.len]
  · simpa [convWeights] using hin.pos
  · simpa [convWeights] using hin.small
  · intro u hu
    obtain ⟨y, hy, rfl⟩ := List.mem_map.1 hu
    have := (hb y hy).1
    positivity
  · intro u hu
    obtain ⟨y, hy, rfl⟩ := List.mem_map.1 hu
    have := hb y hy
    calc y * k ≤ 2 ^ 30 * 2 ^ 900 := by
          apply mul_le_mul this.2.le hk2 hk.le (by positivity)
      _ = (2 : ℝ) ^ 930 := by rw [← pow_add]
      _ < 2 ^ 1024 := pow_lt_pow_right₀ (by norm_num) (by norm_num)
  · intro p hp d
    obtain ⟨a, ha, rfl⟩ := List.mem_map.1 hp
    have := hin.angle a ha
    have hpi := pi_pos
    exact ⟨by have := this.1; positivity, by rw [div_lt_one (by positivity)]; exact this.2⟩
  · intro u hu
    obtain ⟨y, hy, rfl⟩ := List.mem_map.1 hu
    have := hb y hy
    rw [sum_map_mul]
    calc (convWeights radii R).sum * k < 2 ^ 29 * k * k := by gcongr
      _ ≤ 2 ^ 29 * (y * k) ^ 2 := by
        rw [mul_pow]
        have : 1 ≤ y ^ 2 := one_le_pow₀ this.1
        nlinarith [mul_pos hk hk]
  · intro u hu v hv
    obtain ⟨y, hy, rfl⟩ := List.mem_map.1 hu
    obtain ⟨z, hz, rfl⟩ := List.mem_map.1 hv
    have h1 := hb y hy
    have h2 := hb z hz
    have : z < 2 ^ 30 * y := by nlinarith
    calc z * k < 2 ^ 30 * y * k := by gcongr
      _ = _ := by ring

/-- the GIRG sampler on the converted points gives the graph of the converted rule -/
theorem conv_graph {radii angles : List ℝ} {T R k : ℝ} (hin : HypInput radii angles T R) (hk : 0 < k) (hk2 : k ≤ 2 ^ 900)
    (hW : (convWeights radii R).sum < 2 ^ 29 * k) (env : Env) (rng : Rng XR) (hgeo : GeoBounded rng) (gens : ℕ → rng.G) {out : List (ℕ × ℕ)}
    {notice : Notice} (hg : GenerateEdges env rng gens ((Inclusion.girgWeights (xw radii) (fin R)).map (· *. fin k)) (Inclusion.girgPositions (xw angles))
      XR.pinf out notice) : IsGraphOf radii.length (ConvRule radii angles R k) out := by
  have e : (Inclusion.girgWeights (xw radii) (fin R)).map (· *. fin k) = xw ((convWeights radii R).map (· * k)) := by
    rw [girgWeights_eq]; simp [xw, List.map_map, Function.comp_def]
  rw [e, girgPositions_eq] at hg
  have := (C18_threshold_exact (conv_supported hin hk hk2 hW) env rng hgeo gens out notice hg).1
  rw [List.length_map, show (convWeights radii R).length = radii.length by simp [convWeights]] at this
  exact this

/-- C74.  Take points of a hyperbolic random graph at temperature 0 in a disk of radius `R`, convert them with `radiusToGirgWeight` and
`angleToGirgPosition` to weights and positions, and scale the weights by `k`.  Let `W` be the sum of the unscaled weights.  Whatever the two samplers
return: if `W ≤ √2 * k * exp(R/2)`, then each edge of the hyperbolic random graph is an edge of the GIRG; if `2π * k * exp(R/2) ≤ W`, then each edge of the GIRG
is an edge of the hyperbolic random graph. -/
theorem C74_sandwich {radii angles : List ℝ} {R k : ℝ} (hin : HypInput radii angles 0 R) (hk : 0 < k) (hk2 : k ≤ 2 ^ 900)
    (hW : (convWeights radii R).sum < 2 ^ 29 * k)
    (henv : HEnv) (hrng : Tree.Rng XR) (hhgeo : GeoBounded hrng) (hgens : ℕ → hrng.G) {hrg : List (ℕ × ℕ)}
    (h1 : HGenerateEdges henv hrng hgens (xw radii) (xw angles) (fin 0) (fin R) hrg)
    (env : Env) (rng : Rng XR) (hgeo : GeoBounded rng) (gens : ℕ → rng.G) {girg : List (ℕ × ℕ)} {notice : Notice}
    (h2 : GenerateEdges env rng gens ((Inclusion.girgWeights (xw radii) (fin R)).map (· *. fin k)) (Inclusion.girgPositions (xw angles)) XR.pinf girg notice) :
    ((convWeights radii R).sum ≤ √2 * (k * exp (R / 2)) → ∀ u v, (u, v) ∈ hrg → (u, v) ∈ girg ∨ (v, u) ∈ girg) ∧
    (2 * π * (k * exp (R / 2)) ≤ (convWeights radii R).sum → ∀ u v, (u, v) ∈ girg → (u, v) ∈ hrg ∨ (v, u) ∈ hrg) := by
  obtain ⟨a1, a2, a3⟩ := C45_threshold_exact hin henv hrng hhgeo hgens hrg h1
  obtain ⟨b1, b2, b3⟩ := conv_graph hin hk hk2 hW env rng hgeo gens h2
  constructor
  · intro hs u v huv
    obtain ⟨l1, l2, l3⟩ := a1 _ huv
    exact (b3 u v l1 l2 l3).2 (hyp_super hin.radius hin.angle hs ((a3 u v l1 l2 l3).1 (Or.inl huv)))
  · intro hs u v huv
    obtain ⟨l1, l2, l3⟩ := b1 _ huv
    exact (a3 u v l1 l2 l3).2 (hyp_sub hin.radius hin.angle hk hs ((b3 u v l1 l2 l3).1 (Or.inl huv)))

/-- C74.  A larger scaling gives a larger graph: each edge of the GIRG with scaling `k` is an edge of the GIRG with a scaling `k' ≥ k`. -/
theorem C74_monotone {radii angles : List ℝ} {R k k' : ℝ} (hin : HypInput radii angles 0 R) (hk : 0 < k) (hkk : k ≤ k') (hk2 : k' ≤ 2 ^ 900)
    (hW : (convWeights radii R).sum < 2 ^ 29 * k)
    (env env' : Env) (rng rng' : Rng XR) (hgeo : GeoBounded rng) (hgeo' : GeoBounded rng') (gens : ℕ → rng.G) (gens' : ℕ → rng'.G)
    {girg girg' : List (ℕ × ℕ)} {notice notice' : Notice}
    (h1 : GenerateEdges env rng gens ((Inclusion.girgWeights (xw radii) (fin R)).map (· *. fin k)) (Inclusion.girgPositions (xw angles)) XR.pinf girg notice)
    (h2 : GenerateEdges env' rng' gens' ((Inclusion.girgWeights (xw radii) (fin R)).map (· *. fin k')) (Inclusion.girgPositions (xw angles)) XR.pinf girg'
      notice') : ∀ u v, (u, v) ∈ girg → (u, v) ∈ girg' ∨ (v, u) ∈ girg' := by
  obtain ⟨a1, a2, a3⟩ := conv_graph hin hk (hkk.trans hk2) hW env rng hgeo gens h1
  obtain ⟨b1, b2, b3⟩ := conv_graph hin (hk.trans_le hkk) hk2 (hW.trans_le (by gcongr)) env' rng' hgeo' gens' h2
  intro u v huv
  obtain ⟨l1, l2, l3⟩ := a1 _ huv
  exact (b3 u v l1 l2 l3).2 (conv_mono hin.angle hk hkk ((a3 u v l1 l2 l3).1 (Or.inl huv)))

/-- C74 at work: for the four example points of C45 both samplers return, with scaling 1 the GIRG contains the hyperbolic random graph, and the first two
nodes are connected in both -/
example : ∃ hrg girg notice, HGenerateEdges (exampleHEnv true 1 (by norm_num) (by norm_num)) exampleRng (fun _ => ()) (xw [1, 2, 9 / 2, 5])
      (xw [0, 1, 3 / 2, 4]) (fin 0) (fin 6) hrg ∧
    GenerateEdges (exampleEnv true) exampleRng (fun _ => ()) ((Inclusion.girgWeights (xw [1, 2, 9 / 2, 5]) (fin 6)).map (· *. fin 1))
      (Inclusion.girgPositions (xw [0, 1, 3 / 2, 4])) XR.pinf girg notice ∧
    (∀ u v, (u, v) ∈ hrg → (u, v) ∈ girg ∨ (v, u) ∈ girg) ∧ ((0, 1) ∈ girg ∨ (1, 0) ∈ girg) := by
  have hW : (convWeights [1, 2, 9 / 2, 5] 6).sum ≤ √2 * (1 * exp (6 / 2)) := by
    have q : ∀ x : ℝ, 0 ≤ x → x ≤ 3 → exp (3 - x) ≤ exp 3 / (1 + x + x ^ 2 / 2) := by
      intro x hx _
      rw [exp_sub]
      exact div_le_div_of_nonneg_left (exp_pos 3).le (by positivity) (quadratic_le_exp_of_nonneg hx)
    have h1 := q (1 / 2) (by norm_num) (by norm_num)
    have h2 := q 1 (by norm_num) (by norm_num)
    have h3 := q (9 / 4) (by norm_num) (by norm_num)
    have h4 := q (5 / 2) (by norm_num) (by norm_num)
    have h5 : (7 / 5 : ℝ) ≤ √2 := le_sqrt_of_sq_le (by norm_num)
    have h6 : 7 / 5 * exp 3 ≤ √2 * exp 3 := by gcongr
    have h0 := exp_pos 3
    norm_num [convWeights] at *
    linarith
  have hWs : (convWeights [1, 2, 9 / 2, 5] 6).sum < 2 ^ 29 * 1 := by
    have h1 : exp 1 < 3 := by linarith [exp_one_lt_d9]
    have h2 : exp (6 / 2) < 27 := by
      rw [show (6 / 2 : ℝ) = (3 : ℕ) * 1 by norm_num, exp_nat_mul]
      calc exp 1 ^ 3 < 3 ^ 3 := by gcongr
        _ = 27 := by norm_num
    have h3 : √2 ≤ 2 := by rw [sqrt_le_left (by norm_num)]; norm_num
    nlinarith [exp_pos (6 / 2)]
  obtain ⟨hrg, h1, e1, _⟩ := exampleHrgRun
  have hs := conv_supported (exampleHyp le_rfl) one_pos (one_le_pow₀ (by norm_num)) hWs
  obtain ⟨⟨girg, notice, h2⟩, _⟩ := C17_simple_graph hs XR.pinf (exampleEnv true) exampleRng exampleRng_geo (fun _ => ())
  have e : (Inclusion.girgWeights (xw [1, 2, 9 / 2, 5]) (fin 6)).map (· *. fin 1) = xw ((convWeights [1, 2, 9 / 2, 5] 6).map (· * 1)) := by
    rw [girgWeights_eq]; simp [xw, List.map_map, Function.comp_def]
  rw [← e, ← girgPositions_eq] at h2
  have hsub := (C74_sandwich (exampleHyp le_rfl) one_pos (one_le_pow₀ (by norm_num)) hWs _ _ exampleRng_geo _ h1 _ _ exampleRng_geo _ h2).1 hW
  exact ⟨hrg, girg, notice, h1, h2, hsub, e1.elim (hsub 0 1) fun h => (hsub 1 0 h).symm⟩

end Props
end Girgs
