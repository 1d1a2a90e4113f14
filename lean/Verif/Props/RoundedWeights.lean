import Verif.Proofs.RoundedWeights
import Verif.Proofs.B64Pow
import Verif.Props.RoundedSamplers
/-!
Property C88: the weights of `generateWeights` in floating point arithmetic.
-/
namespace Girgs.Props
open Spec CFloat

variable {F : Type} [CFloat F] {u lam eps p : ℝ} {A : Rounded F u lam}

theorem weight_entry {omp : Omp} {eng : Engine F} {device : ℕ → eng.G} {n : ℕ} {plef : F} {seed : ℤ} {parallel : Bool} {out : List F}
    (h : GenerateWeights omp eng device n plef seed parallel out) :
    out.length = n ∧ ∀ x ∈ out, ∃ g, x = weightOf n plef (eng.uniform (CFloat.ofRat 0) (CFloat.ofRat 1) g).1 := by
  have h' := h
  obtain ⟨gens, hg, _⟩ := h
  obtain ⟨out', h1, h2, h3⟩ := generateWeights_iff omp eng device n plef seed parallel hg
  obtain rfl := (h1 out).1 h'
  refine ⟨h2, fun x hx => ?_⟩
  obtain ⟨i, hi⟩ := List.mem_iff_getElem?.1 hx
  have hin : i < n := by rw [← h2]; exact (List.getElem?_eq_some_iff.1 hi).1
  obtain ⟨t, chunk, k, ht, hk⟩ := owner (omp := omp) (nodeThreads_pos omp n parallel) hin
  have := h3 t chunk k i ht hk
  rw [hi] at this
  exact ⟨_, Option.some.inj this⟩

/-- C88 (range).  With rounding errors at every operation, every weight of `generateWeights(n, ple, …)` is at least `1 - eps` and at most `(1 + 2^-47) n/2`,
whatever the random numbers of `[0,1)`, the number of threads and the schedule. -/
theorem C88_range {plef : F} {ple : ℝ} (S : RWeights A eps p plef ple) {eng : Engine F} (he : RoundedEngine A eng) {omp : Omp} {device : ℕ → eng.G} {n : ℕ}
    (hn : 2 ≤ n) (hn' : n ≤ 2 ^ 31) {seed : ℤ} {parallel : Bool} {out : List F} (h : GenerateWeights omp eng device n plef seed parallel out) :
    out.length = n ∧ ∀ x ∈ out, ∃ w : ℝ, A.val x = some w ∧ 1 - eps ≤ w ∧ w ≤ (1 + 1 / 2 ^ 47) * (n / 2) := by
  obtain ⟨h1, h2⟩ := weight_entry h
  refine ⟨h1, fun x hx => ?_⟩
  obtain ⟨g, rfl⟩ := h2 x hx
  obtain ⟨z, vz, z0, _, z1⟩ := he.uniform _ _ _ _ g A.val_zero A.val_one le_rfl one_pos le_rfl (one_le_pow₀ (by norm_num))
  exact S.weight_val hn hn' vz z0 (z1 rfl)

/-- C88 (the whole way to the graph).  Weights from `generateWeights` and positions from `generatePositions`, for `2 ≤ n < 2^29` nodes in 1 to 5 dimensions: if
the sum of the weights is below `2^27` (always for `n ≤ 16000`) then `generateEdges` returns, and always a simple graph on the `n` nodes. -/
theorem C88_graph {plef : F} {ple : ℝ} (S : RWeights A eps p plef ple) (hlam : lam ≤ 1 / 4) {eng : Engine F} (he : RoundedEngine A eng) {omp : Omp}
    {device device' : ℕ → eng.G} {n D : ℕ} (hn : 2 ≤ n) (hn' : n < 2 ^ 29) (hD1 : 1 ≤ D) (hD5 : D ≤ 5) {seed seed' : ℤ} {parallel parallel' : Bool}
    {weights : List F} (h : GenerateWeights omp eng device n plef seed parallel weights) {positions : List (List F)}
    (h' : GeneratePositions omp eng device' n D seed' parallel' positions) :
    ∃ w, A.Vals weights w ∧ w.length = n ∧ (∀ v ∈ w, 1 - eps ≤ v ∧ v ≤ (1 + 1 / 2 ^ 47) * (n / 2)) ∧ (n ≤ 16000 → w.sum < 2 ^ 27) ∧
      (w.sum < 2 ^ 27 → ∀ (alpha : F) (env : Env) (rng : Tree.Rng F), GeoBounded rng → ∀ gens : ℕ → rng.G,
        (∃ out notice, GenerateEdges env rng gens weights positions alpha out notice) ∧
        ∀ out notice, GenerateEdges env rng gens weights positions alpha out notice → IsSimpleGraph n out ∧ notice = .none) := by
  obtain ⟨h1, h2⟩ := C88_range S he hn (by omega) h
  obtain ⟨w, vw, pw⟩ := vals_of (A := A) (P := fun v => 1 - eps ≤ v ∧ v ≤ (1 + 1 / 2 ^ 47) * (n / 2)) h2
  have hl : w.length = n := by rw [← vw.length_eq]; exact h1
  have he4 : eps ≤ 1 / 4 := S.he.trans (by norm_num)
  have hnR : (n : ℝ) < 2 ^ 29 := by exact_mod_cast hn'
  have hn2 : (2 : ℝ) ≤ n := by exact_mod_cast hn
  have hw1 : ∀ v ∈ w, 3 / 4 ≤ v := fun v hv => by have := (pw v hv).1; linarith
  have hw2 : ∀ v ∈ w, v ≤ n := fun v hv => (pw v hv).2.trans (by
    have : (1 + 1 / 2 ^ 47 : ℝ) ≤ 2 := by norm_num
    nlinarith)
  refine ⟨w, vw, hl, pw, fun hsmall => ?_, fun hsum alpha env rng hgeo gens => ?_⟩
  · have hb : w.sum ≤ w.length • ((1 + 1 / 2 ^ 47) * ((n : ℝ) / 2)) := List.sum_le_card_nsmul _ _ fun v hv => (pw v hv).2
    rw [hl, nsmul_eq_mul] at hb
    have hs : (n : ℝ) ≤ 16000 := by exact_mod_cast hsmall
    have h3 : (n : ℝ) * ((1 + 1 / 2 ^ 47) * ((n : ℝ) / 2)) ≤ 16000 * ((1 + 1 / 2 ^ 47) * (16000 / 2)) := by gcongr
    refine lt_of_le_of_lt (hb.trans h3) (by norm_num)
  · subst hl
    refine C85_girg (A := A) (S.hu.trans (by norm_num)) hlam he vw hD1 hD5 (by omega) (by omega) (fun v hv => by have := hw1 v hv; linarith) (fun v hv => ?_)
      (fun v hv => ?_) (fun v hv v' hv' => ?_) h' alpha env rng hgeo gens
    · refine lt_of_le_of_lt (hw2 v hv) (hnR.trans ?_)
      exact pow_lt_pow_right₀ (by norm_num) (by norm_num)
    · have h3 := hw1 v hv
      have : (9 / 16 : ℝ) ≤ v ^ 2 := by nlinarith
      have h4 : (2 : ℝ) ^ 27 ≤ 2 ^ 28 * v ^ 2 := by norm_num; linarith
      exact lt_of_lt_of_le hsum h4
    · have h3 := hw1 v hv
      have h4 := (pw v' hv').2
      have h5 : (1 + 1 / 2 ^ 47 : ℝ) * ((w.length : ℝ) / 2) ≤ (5 / 4) * ((w.length : ℝ) / 2) := mul_le_mul_of_nonneg_right (by norm_num) (by linarith)
      have h6 : (2 : ℝ) ^ 29 * (3 / 4) ≤ 2 ^ 29 * v := mul_le_mul_of_nonneg_left h3 (by norm_num)
      linarith

/-- C88 for type double, with `std::uniform_real_distribution` of libstdc++ and a correctly rounded `pow`: the assumptions on the arithmetic and on the random
numbers hold. -/
theorem C88_double {G : Type} {seed : ℤ → G} {next : G → G} {canonical : G → ℝ × G} (hd : ∀ g, B64.IsDouble (canonical g).1)
    (h0 : ∀ g, 0 ≤ (canonical g).1) (h1 : ∀ g, (canonical g).1 < 1) {ple : ℝ} (hple : B64.IsDouble ple) (h2 : 2 ≤ ple) (h3 : ple ≤ 32) :
    RoundedEngine B64.rounded (B64.libEngine G seed next canonical) ∧
    RWeights B64.rounded (2 ^ (-53 : ℤ)) (B64.rnd Real.pi) (B64.round (XR.fin ple)) ple :=
  ⟨B64.libEngine_rounded hd h0 h1, B64.elem, B64.power, by norm_num, by norm_num, B64.round_double hple, h2, h3⟩

/-- C88 at work: 100 nodes in dimension 2 with power law exponent 5/2, type double, an engine that always returns 1/2, `alpha = 2` -/
example : ∃ weights positions out notice,
    GenerateWeights exampleOmp (B64.libEngine Unit (fun _ => ()) (fun _ => ()) fun _ => (1 / 2, ())) (fun _ => ()) 100 (B64.round (XR.fin (5 / 2))) 12 true weights ∧
    GeneratePositions exampleOmp (B64.libEngine Unit (fun _ => ()) (fun _ => ()) fun _ => (1 / 2, ())) (fun _ => ()) 100 2 130 true positions ∧
    GenerateEdges (exampleEnv true) exampleRngD (fun _ => ()) weights positions (B64.round (XR.fin 2)) out notice ∧ IsSimpleGraph 100 out := by
  have d2 : B64.IsDouble (1 / 2) := isDouble_quarter _ 2 (by norm_num) (by norm_num)
  have dp : B64.IsDouble (5 / 2) := isDouble_quarter _ 10 (by norm_num) (by norm_num)
  obtain ⟨he, S⟩ := C88_double (G := Unit) (seed := fun _ => ()) (next := fun _ => ()) (canonical := fun _ => (1 / 2, ())) (fun _ => d2) (fun _ => by norm_num)
    (fun _ => by norm_num) dp (by norm_num) (by norm_num)
  have hs : SeedOK (nodeThreads exampleOmp 100 true) 12 ∧ SeedOK (nodeThreads exampleOmp 100 true) 130 := by
    constructor <;> exact Or.inr (by decide)
  obtain ⟨_, weights, _, hw, _⟩ := C26_executions exampleOmp (B64.libEngine Unit (fun _ => ()) (fun _ => ()) fun _ => (1 / 2, ())) (fun _ => ()) 100
    (B64.round (XR.fin (5 / 2))) 12 true hs.1
  obtain ⟨_, positions, _, hp, _⟩ := C27_executions exampleOmp (B64.libEngine Unit (fun _ => ()) (fun _ => ()) fun _ => (1 / 2, ())) (fun _ => ()) 100 2 130 true hs.2
  have hw' := (hw weights).2 rfl
  have hp' := (hp positions).2 rfl
  obtain ⟨w, _, _, _, h4, h5⟩ := C88_graph S (by norm_num) he (by norm_num) (by norm_num) (by norm_num) (by norm_num) hw' hp'
  obtain ⟨⟨out, notice, ho⟩, g⟩ := h5 (h4 (by norm_num)) (B64.round (XR.fin 2)) (exampleEnv true) exampleRngD (fun _ _ => by show 0 < _; norm_num) (fun _ => ())
  exact ⟨weights, positions, out, notice, hw', hp', ho, (g out notice ho).1⟩

end Girgs.Props
