import Verif.Proofs.HSamplers
import Verif.Spec.Engine
import Mathlib.MeasureTheory.Measure.Lebesgue.Basic
import Mathlib.Analysis.SpecialFunctions.Pow.Real
/-
C26, C27, C50: sampling weights, positions, radii and angles.
-/
namespace Girgs.Props
open CFloat Spec MeasureTheory
open XR (fin)

theorem seedGens_ok {G : Type} {threads : ℕ} {seed : ℤ} (h : SeedOK threads seed) (f : ℤ → G) (dev : ℕ → G) :
    ∃ gens, seedGens threads f dev seed = some gens := by
  unfold seedGens
  split
  · rename_i h0
    rcases h with h | h
    · omega
    · rw [if_pos h]; exact ⟨_, rfl⟩
  · exact ⟨_, rfl⟩

theorem owner {omp : Omp} {t N i : ℕ} (ht : 1 ≤ t) (hi : i < N) :
    ∃ (k : ℕ) (chunk : List ℕ) (j : ℕ), (omp.chunks t N)[k]? = some chunk ∧ chunk[j]? = some i := by
  have : i ∈ (omp.chunks t N).flatten := by rw [omp.chunks_flatten t N ht]; exact List.mem_range.2 hi
  obtain ⟨c, hc, hic⟩ := List.mem_flatten.1 this
  obtain ⟨k, hk⟩ := List.mem_iff_getElem?.1 hc
  obtain ⟨j, hj⟩ := List.mem_iff_getElem?.1 hic
  exact ⟨k, c, j, hk, hj⟩

/-! ### C26 -/

section C26
variable {F : Type} [CFloat F]

/-- C26, for every floating point type.  All executions of `generateWeights` (all interleavings of the threads) return the same vector of `n` weights:
entry `i`, owned by thread `t` as the `k`-th iteration of its chunk, is the weight for the `k`-th random number of that thread's engine.  (The function
returns if `seed + thread` does not overflow.) -/
theorem C26_executions (omp : Omp) (eng : Engine F) (device : ℕ → eng.G) (n : ℕ) (ple : F) (seed : ℤ) (parallel : Bool)
    (hs : SeedOK (nodeThreads omp n parallel) seed) :
    ∃ gens out, seedGens (nodeThreads omp n parallel) eng.seed device seed = some gens ∧
      (∀ o, GenerateWeights omp eng device n ple seed parallel o ↔ o = out) ∧ out.length = n ∧
      ∀ (t : ℕ) (chunk : List ℕ) (k i : ℕ), (omp.chunks (nodeThreads omp n parallel) n)[t]? = some chunk → chunk[k]? = some i →
        out[i]? = some (weightOf n ple (drawAt eng (CFloat.ofRat 0) (CFloat.ofRat 1) (gens t) k)) := by
  obtain ⟨gens, hg⟩ := seedGens_ok hs eng.seed device
  obtain ⟨out, h1, h2, h3⟩ := generateWeights_iff omp eng device n ple seed parallel hg
  exact ⟨gens, out, hg, h1, h2, h3⟩

end C26

/-- the weight for the random number `u` -/
theorem weightOf_eq {n : ℕ} (hn : 1 ≤ n) {ple u : ℝ} (hple : 1 < ple) (hu : 0 ≤ u) (hu1 : u < 1) (hx : 0 < (((n : ℝ) / 2) ^ (1 - ple) - 1) * u + 1) :
    weightOf n (fin ple) (fin u) = fin (((((n : ℝ) / 2) ^ (1 - ple) - 1) * u + 1) ^ (1 / (1 - ple))) := by
  have hn0 : (0 : ℝ) < n := by exact_mod_cast hn
  unfold weightOf
  rw [XR.ofRat_eq, XR.ofRat_eq, XR.ofNat_eq, XR.mul_fin]
  have e1 : (CFloat.neg (fin ple) +. fin ((1 : ℚ) : ℝ) : XR) = fin (1 - ple) := by
    show fin (-ple + ((1 : ℚ) : ℝ)) = _
    refine congrArg fin ?_
    push_cast
    ring
  have e2 : (((1 / 2 : ℚ) : ℝ) * (n : ℝ)) = (n : ℝ) / 2 := by push_cast; ring
  rw [e1, e2, XR.pow_fin _ _ (by positivity), XR.sub_fin, XR.mul_fin, XR.add_fin, XR.div_fin _ _ (by linarith)]
  push_cast
  rw [XR.pow_fin _ _ hx]

theorem weight_base {n : ℕ} (hn : 2 ≤ n) {ple : ℝ} (hple : 1 < ple) :
    0 < ((n : ℝ) / 2) ^ (1 - ple) ∧ ((n : ℝ) / 2) ^ (1 - ple) ≤ 1 := by
  have hn0 : (1 : ℝ) ≤ (n : ℝ) / 2 := by rw [le_div_iff₀ two_pos]; exact_mod_cast (by omega : 1 * 2 ≤ n)
  exact ⟨Real.rpow_pos_of_pos (by linarith) _, Real.rpow_le_one_of_one_le_of_nonpos hn0 (by linarith)⟩

theorem weight_arg {n : ℕ} (hn : 2 ≤ n) {ple u : ℝ} (hple : 1 < ple) (hu : 0 ≤ u) (hu1 : u < 1) :
    ((n : ℝ) / 2) ^ (1 - ple) ≤ (((n : ℝ) / 2) ^ (1 - ple) - 1) * u + 1 ∧ (((n : ℝ) / 2) ^ (1 - ple) - 1) * u + 1 ≤ 1 := by
  obtain ⟨h0, h1⟩ := weight_base hn hple
  constructor <;> nlinarith

/-- C26.  For `n ≥ 2` and `ple > 1`, whatever the random numbers in `[0,1)`, the number of threads and the schedule, every weight is at least 1 and at
most `n/2`. -/
theorem C26_range {omp : Omp} {eng : Engine XR} (heng : IntervalEngine eng) {device : ℕ → eng.G} {n : ℕ} (hn : 2 ≤ n) {ple : ℝ} (hple : 1 < ple)
    {seed : ℤ} {parallel : Bool} {out : List XR} (h : GenerateWeights omp eng device n (fin ple) seed parallel out) :
    out.length = n ∧ ∀ x ∈ out, ∃ v : ℝ, x = fin v ∧ 1 ≤ v ∧ v ≤ n / 2 := by
  have h' := h
  obtain ⟨gens, hg, _⟩ := h
  obtain ⟨out', h1, h2, h3⟩ := generateWeights_iff omp eng device n (fin ple) seed parallel hg
  obtain rfl := (h1 out).1 h'
  refine ⟨h2, fun x hx => ?_⟩
  obtain ⟨i, hi⟩ := List.mem_iff_getElem?.1 hx
  have hin : i < n := by rw [← h2]; exact (List.getElem?_eq_some_iff.1 hi).1
  obtain ⟨t, chunk, k, ht, hk⟩ := owner (omp := omp) (nodeThreads_pos omp n parallel) hin
  have := h3 t chunk k i ht hk
  rw [hi] at this
  obtain ⟨u, hu, hu0, hu1⟩ := heng 0 1 (drawState eng (CFloat.ofRat 0) (CFloat.ofRat 1) (gens t) k) one_pos
  have hd : drawAt eng (CFloat.ofRat 0) (CFloat.ofRat 1) (gens t) k = fin u := by
    unfold drawAt
    rw [← hu]
    simp only [XR.ofRat_eq]
    push_cast
    rfl
  rw [hd] at this
  obtain ⟨q0, _⟩ := weight_base hn hple
  obtain ⟨q1, q2⟩ := weight_arg hn hple hu0 hu1
  rw [weightOf_eq (by omega) hple hu0 hu1 (by linarith)] at this
  refine ⟨_, Option.some.inj this, ?_, ?_⟩
  · exact Real.one_le_rpow_of_pos_of_le_one_of_nonpos (by linarith) q2 (by
      rw [one_div, inv_nonpos]; linarith)
  · have hn0 : (0 : ℝ) < (n : ℝ) / 2 := by
      have : (0 : ℝ) < n := by exact_mod_cast (by omega : 0 < n)
      linarith
    calc _ ≤ (((n : ℝ) / 2) ^ (1 - ple)) ^ (1 / (1 - ple)) :=
          Real.rpow_le_rpow_of_nonpos q0 q1 (by rw [one_div, inv_nonpos]; linarith)
      _ = n / 2 := by rw [← Real.rpow_mul hn0.le, mul_one_div_cancel (by linarith), Real.rpow_one]

/-- C26.  The distribution: if the random number is uniform on `[0,1)`, the weight is at most `y ∈ [1, n/2]` with probability
`(1 - y^(1-ple)) / (1 - (n/2)^(1-ple))`: a power law with exponent `ple`, truncated to `[1, n/2]`. -/
theorem C26_law {n : ℕ} (hn : 3 ≤ n) {ple : ℝ} (hple : 1 < ple) {y : ℝ} (hy : 1 ≤ y) (hyn : y ≤ n / 2) :
    (volume {u : ℝ | u ∈ Set.Ico (0 : ℝ) 1 ∧ ∃ v : ℝ, weightOf n (fin ple) (fin u) = fin v ∧ v ≤ y}).toReal =
      (1 - y ^ (1 - ple)) / (1 - ((n : ℝ) / 2) ^ (1 - ple)) := by
  have hn2 : (1 : ℝ) < (n : ℝ) / 2 := by
    have : (3 : ℝ) ≤ n := by exact_mod_cast hn
    linarith
  set b := ((n : ℝ) / 2) ^ (1 - ple) with hb
  have hb0 : 0 < b := Real.rpow_pos_of_pos (by linarith) _
  have hb1 : b < 1 := Real.rpow_lt_one_of_one_lt_of_neg hn2 (by linarith)
  set z := y ^ (1 - ple) with hz
  have hz1 : z ≤ 1 := Real.rpow_le_one_of_one_le_of_nonpos hy (by linarith)
  have hzb : b ≤ z := Real.rpow_le_rpow_of_nonpos (by linarith) hyn (by linarith)
  have hset : {u : ℝ | u ∈ Set.Ico (0 : ℝ) 1 ∧ ∃ v : ℝ, weightOf n (fin ple) (fin u) = fin v ∧ v ≤ y} =
      Set.Ico 0 1 ∩ Set.Iic ((1 - z) / (1 - b)) := by
    ext u
    simp only [Set.mem_setOf_eq, Set.mem_inter_iff, Set.mem_Iic]
    refine and_congr_right fun hu => ?_
    obtain ⟨hu0, hu1⟩ := hu
    have harg := weight_arg (n := n) (by omega) hple hu0 hu1
    rw [← hb] at harg
    have hpos : 0 < (b - 1) * u + 1 := by linarith [harg.1]
    rw [weightOf_eq (by omega) hple hu0 hu1 (by rw [← hb]; exact hpos), ← hb]
    have e : y = z ^ (1 / (1 - ple)) := by
      rw [hz, ← Real.rpow_mul (by linarith), mul_one_div_cancel (by linarith), Real.rpow_one]
    have hz0 : 0 < z := by linarith
    constructor
    · rintro ⟨v, hv, hvy⟩
      have hv' := XR.fin.inj hv
      rw [← hv', e] at hvy
      have := (Real.rpow_le_rpow_iff_of_neg hpos hz0 (z := 1 / (1 - ple)) (by rw [one_div, inv_neg'']; linarith)).1 hvy
      rw [le_div_iff₀ (by linarith)]
      linarith
    · intro h
      refine ⟨_, rfl, ?_⟩
      rw [le_div_iff₀ (by linarith)] at h
      rw [e]
      exact Real.rpow_le_rpow_of_nonpos hz0 (by linarith) (by rw [one_div, inv_nonpos]; linarith)
  rw [hset]
  have h0 : 0 ≤ (1 - z) / (1 - b) := div_nonneg (by linarith) (by linarith)
  have h1 : (1 - z) / (1 - b) ≤ 1 := by rw [div_le_one (by linarith)]; linarith
  have hsub1 : Set.Ico (0 : ℝ) 1 ∩ Set.Iic ((1 - z) / (1 - b)) ⊆ Set.Icc 0 ((1 - z) / (1 - b)) := fun u hu => ⟨hu.1.1, hu.2⟩
  have hsub2 : Set.Ico 0 ((1 - z) / (1 - b)) ⊆ Set.Ico (0 : ℝ) 1 ∩ Set.Iic ((1 - z) / (1 - b)) :=
    fun u hu => ⟨⟨hu.1, hu.2.trans_le h1⟩, hu.2.le⟩
  have hv : volume (Set.Ico (0 : ℝ) 1 ∩ Set.Iic ((1 - z) / (1 - b))) = ENNReal.ofReal ((1 - z) / (1 - b)) := by
    refine le_antisymm ((measure_mono hsub1).trans ?_) (le_trans ?_ (measure_mono hsub2))
    · rw [Real.volume_Icc, sub_zero]
    · rw [Real.volume_Ico, sub_zero]
  rw [hv, ENNReal.toReal_ofReal h0]

/-- the bound `n ≥ 2` in C26 is needed: for a single node the weight can be below 1 -/
theorem C26_single_node : weightOf 1 (fin 2) (fin (1 / 2)) = fin (2 / 3) := by
  rw [weightOf_eq le_rfl (by norm_num) (by norm_num) (by norm_num)]
  · refine congrArg fin ?_
    norm_num
  · norm_num [Real.rpow_neg_one]

/-! ### C27 -/

/-- C27, for every floating point type.  All executions of `generatePositions` return the same vector of `n` vectors of length `dim`; coordinate `d` of
node `i`, owned by thread `t` as the `k`-th iteration of its chunk, is the random number `k*dim + d` of that thread's engine. -/
theorem C27_executions {F : Type} [CFloat F] (omp : Omp) (eng : Engine F) (device : ℕ → eng.G) (n dim : ℕ) (seed : ℤ) (parallel : Bool)
    (hs : SeedOK (nodeThreads omp n parallel) seed) :
    ∃ gens out, seedGens (nodeThreads omp n parallel) eng.seed device seed = some gens ∧
      (∀ o, GeneratePositions omp eng device n dim seed parallel o ↔ o = out) ∧ out.length = n ∧ (∀ row ∈ out, row.length = dim) ∧
      ∀ (t : ℕ) (chunk : List ℕ) (k i d : ℕ), (omp.chunks (nodeThreads omp n parallel) n)[t]? = some chunk → chunk[k]? = some i → d < dim →
        ∃ row, out[i]? = some row ∧ row[d]? = some (drawAt eng (CFloat.ofRat 0) (CFloat.ofRat 1) (gens t) (k * dim + d)) := by
  obtain ⟨gens, hg⟩ := seedGens_ok hs eng.seed device
  obtain ⟨out, h⟩ := generatePositions_iff omp eng device n dim seed parallel hg
  exact ⟨gens, out, hg, h⟩

theorem position_entry {F : Type} [CFloat F] {omp : Omp} {eng : Engine F} {device : ℕ → eng.G} {n dim : ℕ} {seed : ℤ} {parallel : Bool}
    {out : List (List F)} (h : GeneratePositions omp eng device n dim seed parallel out) :
    out.length = n ∧ ∀ row ∈ out, row.length = dim ∧ ∀ x ∈ row, ∃ g, x = (eng.uniform (CFloat.ofRat 0) (CFloat.ofRat 1) g).1 := by
  have h' := h
  obtain ⟨gens, hg, _⟩ := h
  obtain ⟨out', h1, h2, h3, h4⟩ := generatePositions_iff omp eng device n dim seed parallel hg
  obtain rfl := (h1 out).1 h'
  refine ⟨h2, fun row hrow => ⟨h3 row hrow, fun x hx => ?_⟩⟩
  obtain ⟨i, hi⟩ := List.mem_iff_getElem?.1 hrow
  obtain ⟨d, hd⟩ := List.mem_iff_getElem?.1 hx
  have hin : i < n := by rw [← h2]; exact (List.getElem?_eq_some_iff.1 hi).1
  have hdd : d < dim := by rw [← h3 row hrow]; exact (List.getElem?_eq_some_iff.1 hd).1
  obtain ⟨t, chunk, k, ht, hk⟩ := owner (omp := omp) (nodeThreads_pos omp n parallel) hin
  obtain ⟨row', r1, r2⟩ := h4 t chunk k i d ht hk hdd
  rw [hi] at r1
  cases r1
  rw [hd] at r2
  exact ⟨_, Option.some.inj r2⟩

/-- C27.  Every coordinate is in `[0,1)`. -/
theorem C27_range {omp : Omp} {eng : Engine XR} (heng : IntervalEngine eng) {device : ℕ → eng.G} {n dim : ℕ} {seed : ℤ} {parallel : Bool}
    {out : List (List XR)} (h : GeneratePositions omp eng device n dim seed parallel out) :
    out.length = n ∧ ∀ row ∈ out, row.length = dim ∧ ∀ x ∈ row, ∃ v : ℝ, x = fin v ∧ 0 ≤ v ∧ v < 1 := by
  obtain ⟨h1, h2⟩ := position_entry h
  refine ⟨h1, fun row hrow => ⟨(h2 row hrow).1, fun x hx => ?_⟩⟩
  obtain ⟨g, rfl⟩ := (h2 row hrow).2 x hx
  obtain ⟨u, hu, hu0, hu1⟩ := heng 0 1 g one_pos
  refine ⟨u, ?_, hu0, hu1⟩
  rw [← hu]
  simp only [XR.ofRat_eq]
  push_cast
  rfl

/-! ### C50 -/

/-- C50, for every floating point type.  If the interval of the radius distribution is not empty, `n` is at most `2^31 - 10000` and the seeds do not
overflow, then for `n ≥ 1`, or sequentially for every `n`, all executions of the sampling helper return the same vectors, of length `n` (0 for the output
that is not requested); entry `i`, owned by thread `t` as the `k`-th iteration of its chunk, comes from the `k`-th pair of random numbers after the
warm-up of that thread's engine. -/
theorem C50_executions {F : Type} [CFloat F] (omp : Omp) (eng : Engine F) (device : ℕ → eng.G) (Radii Angles : Bool) (n : ℕ) (alpha R : F) (seed : ℤ)
    (parallel : Bool) (hn : parallel = true → 1 ≤ n ∧ n + 9999 < 2147483648) (hI : ge (CFloat.cosh (alpha *. R)) (oneUp : F) = true)
    (hs : ∀ t, hyperThreads omp n parallel = some t → SeedOK t seed) :
    ∃ threads gens radii angles, hyperThreads omp n parallel = some threads ∧ 1 ≤ threads ∧ seedGens threads eng.seed device seed = some gens ∧
      (∀ o, SampleHelper omp eng device Radii Angles n alpha R seed parallel o ↔ o = (radii, angles)) ∧
      radii.length = (if Radii then n else 0) ∧ angles.length = (if Angles then n else 0) ∧
      (∀ (t : ℕ) (chunk : List ℕ) (k i : ℕ), (omp.chunks threads n)[t]? = some chunk → chunk[k]? = some i →
        (Radii = true → radii[i]? = some (radiusAt eng Radii Angles alpha R (warmUp eng n threads (gens t)) k)) ∧
        (Angles = true → angles[i]? = some (angleAt eng Radii Angles alpha R (warmUp eng n threads (gens t)) k))) := by
  have ht : ∃ threads, hyperThreads omp n parallel = some threads ∧ 1 ≤ threads := by
    unfold hyperThreads
    cases parallel with
    | false => exact ⟨1, rfl, le_rfl⟩
    | true =>
      obtain ⟨h1, h2⟩ := hn rfl
      rw [if_pos rfl, if_pos h2]
      refine ⟨_, rfl, ?_⟩
      have := omp.max_pos
      rw [Nat.le_min]
      exact ⟨this, by omega⟩
  obtain ⟨threads, ht, ht1⟩ := ht
  obtain ⟨gens, hg⟩ := seedGens_ok (hs threads ht) eng.seed device
  obtain ⟨r, a, h⟩ := sampleHelper_iff eng Radii Angles alpha R omp device n seed parallel ht (by omega) hI hg
  exact ⟨threads, gens, r, a, ht, ht1, hg, h⟩

/-- C50.  For `n = 0` and `parallel` (the default), no execution is defined: the code asks for a team of 0 threads and divides by 0. -/
theorem C50_empty_undefined {F : Type} [CFloat F] (omp : Omp) (eng : Engine F) (device : ℕ → eng.G) (Radii Angles : Bool) (alpha R : F) (seed : ℤ)
    (o : List F × List F) : ¬ SampleHelper omp eng device Radii Angles 0 alpha R seed true o := by
  rintro ⟨threads, ht, h0, _⟩
  unfold hyperThreads at ht
  rw [if_pos rfl, if_pos (by norm_num)] at ht
  have := Option.some.inj ht
  simp at this
  exact h0 this.symm

theorem helper_entry {F : Type} [CFloat F] {omp : Omp} {eng : Engine F} {device : ℕ → eng.G} {Radii Angles : Bool} {n : ℕ} {alpha R : F} {seed : ℤ}
    {parallel : Bool} {o : List F × List F} (h : SampleHelper omp eng device Radii Angles n alpha R seed parallel o) :
    o.1.length = (if Radii then n else 0) ∧ o.2.length = (if Angles then n else 0) ∧
    (Radii = true → ∀ x ∈ o.1, ∃ g k, x = radiusAt eng Radii Angles alpha R g k) ∧
    (Angles = true → ∀ x ∈ o.2, ∃ g k, x = angleAt eng Radii Angles alpha R g k) := by
  have h' := h
  obtain ⟨threads, ht, ht0, hI, gens, hg, _⟩ := h
  obtain ⟨r, a, h1, h2, h3, h4⟩ := sampleHelper_iff eng Radii Angles alpha R omp device n seed parallel ht ht0 hI hg
  obtain rfl := (h1 o).1 h'
  refine ⟨h2, h3, ?_, ?_⟩
  · rintro rfl x hx
    obtain ⟨i, hi⟩ := List.mem_iff_getElem?.1 hx
    have hin : i < n := by
      have := (List.getElem?_eq_some_iff.1 hi).1
      rw [if_pos rfl] at h2
      exact h2 ▸ this
    obtain ⟨t, chunk, k, hc, hk⟩ := owner (omp := omp) (t := threads) (by omega) hin
    have := (h4 t chunk k i hc hk).1 rfl
    rw [hi] at this
    exact ⟨_, _, Option.some.inj this⟩
  · rintro rfl x hx
    obtain ⟨i, hi⟩ := List.mem_iff_getElem?.1 hx
    have hin : i < n := by
      have := (List.getElem?_eq_some_iff.1 hi).1
      rw [if_pos rfl] at h3
      exact h3 ▸ this
    obtain ⟨t, chunk, k, hc, hk⟩ := owner (omp := omp) (t := threads) (by omega) hin
    have := (h4 t chunk k i hc hk).2 rfl
    rw [hi] at this
    exact ⟨_, _, Option.some.inj this⟩

theorem oneUp_eq : (oneUp : XR) = fin (1 + 1 / 2 ^ 52) := by
  unfold oneUp
  rw [XR.ofRat_eq]
  refine congrArg fin ?_
  push_cast
  norm_num

theorem angle_range {eng : Engine XR} (heng : IntervalEngine eng) {Radii Angles : Bool} {alpha R : XR} (g : eng.G) (k : ℕ) :
    ∃ v : ℝ, angleAt eng Radii Angles alpha R g k = fin v ∧ 0 ≤ v ∧ v < 2 * Real.pi := by
  obtain ⟨x, hx, h0, h1⟩ := heng 0 (2 * Real.pi) ((afterIter eng Radii Angles alpha R)^[k] g) (by positivity)
  refine ⟨x, ?_, h0, h1⟩
  rw [← hx]
  unfold angleAt
  simp only [XR.ofRat_eq]
  push_cast
  rfl

theorem radius_range {eng : Engine XR} (heng : IntervalEngine eng) {Radii Angles : Bool} {α R : ℝ} (hα : 0 < α) (hR : 0 < R)
    (hc : 1 + 1 / 2 ^ 52 < Real.cosh (α * R)) (g : eng.G) (k : ℕ) :
    ∃ v : ℝ, radiusAt eng Radii Angles (fin α) (fin R) g k = fin v ∧ 0 < v ∧ v < R := by
  obtain ⟨x, hx, h0, h1⟩ := heng _ _ (afterAngle eng Angles ((afterIter eng Radii Angles (fin α) (fin R))^[k] g)) hc
  have hx1 : 1 < x := by
    have : (0 : ℝ) < 1 / 2 ^ 52 := by positivity
    linarith
  refine ⟨Real.arcosh x * (1 / α), ?_, ?_, ?_⟩
  · unfold radiusAt
    rw [oneUp_eq, XR.mul_fin]
    have e : CFloat.cosh (fin (α * R)) = fin (Real.cosh (α * R)) := rfl
    rw [e, hx, XR.acosh_fin _ hx1.le, XR.ofRat_eq, XR.div_fin _ _ hα.ne', XR.mul_fin]
    norm_num
  · have : 0 < Real.arcosh x := Real.arcosh_pos hx1
    positivity
  · have h2 : Real.arcosh x < α * R := by
      rw [← Real.arcosh_cosh (by positivity : 0 ≤ α * R)]
      exact (Real.arcosh_lt_arcosh (by linarith) (by linarith [Real.one_le_cosh (α * R)])).2 h1
    rw [mul_one_div, div_lt_iff₀ hα]
    linarith

/-- C50.  `sampleRadii` returns `n` radii in the open interval `(0,R)`; `sampleAngles` returns `n` angles in `[0, 2π)`; `sampleRadiiAndAngles` both.
Assumption: `alpha*R` is not so small that `cosh(alpha*R)` is at most the smallest double above 1. -/
theorem C50_range {omp : Omp} {eng : Engine XR} (heng : IntervalEngine eng) {device : ℕ → eng.G} {n : ℕ} {α R : ℝ} (hα : 0 < α) (hR : 0 < R)
    (hc : 1 + 1 / 2 ^ 52 < Real.cosh (α * R)) {seed : ℤ} {parallel : Bool} :
    (∀ out, SampleRadii omp eng device n (fin α) (fin R) seed parallel out →
      out.length = n ∧ ∀ x ∈ out, ∃ v : ℝ, x = fin v ∧ 0 < v ∧ v < R) ∧
    (∀ out, SampleAngles omp eng device n seed parallel out → out.length = n ∧ ∀ x ∈ out, ∃ v : ℝ, x = fin v ∧ 0 ≤ v ∧ v < 2 * Real.pi) ∧
    (∀ radii angles, SampleRadiiAndAngles omp eng device n (fin α) (fin R) seed parallel radii angles →
      radii.length = n ∧ angles.length = n ∧ (∀ x ∈ radii, ∃ v : ℝ, x = fin v ∧ 0 < v ∧ v < R) ∧
      ∀ x ∈ angles, ∃ v : ℝ, x = fin v ∧ 0 ≤ v ∧ v < 2 * Real.pi) := by
  refine ⟨?_, ?_, ?_⟩
  · rintro out ⟨angles, h⟩
    obtain ⟨h1, _, h3, _⟩ := helper_entry h
    refine ⟨h1, fun x hx => ?_⟩
    obtain ⟨g, k, rfl⟩ := h3 rfl x hx
    exact radius_range heng hα hR hc g k
  · rintro out ⟨radii, h⟩
    obtain ⟨_, h2, _, h4⟩ := helper_entry h
    refine ⟨h2, fun x hx => ?_⟩
    obtain ⟨g, k, rfl⟩ := h4 rfl x hx
    exact angle_range heng g k
  · intro radii angles h
    obtain ⟨h1, h2, h3, h4⟩ := helper_entry h
    refine ⟨h1, h2, fun x hx => ?_, fun x hx => ?_⟩
    · obtain ⟨g, k, rfl⟩ := h3 rfl x hx
      exact radius_range heng hα hR hc g k
    · obtain ⟨g, k, rfl⟩ := h4 rfl x hx
      exact angle_range heng g k

/-- an engine that satisfies the assumption: it returns the midpoint -/
noncomputable def exampleEngine : Engine XR where
  G := Unit
  seed _ := ()
  next _ := ()
  uniform a b _ := ((a +. b) /. fin 2, ())

theorem exampleEngine_interval : IntervalEngine exampleEngine := by
  intro a b g h
  refine ⟨(a + b) / 2, ?_, by linarith, by linarith⟩
  show (fin a +. fin b) /. fin 2 = _
  rw [XR.add_fin, XR.div_fin _ _ two_ne_zero]

/-- one thread -/
def exampleOmp : Omp where
  maxThreads := 1
  chunks t N := List.range N :: List.replicate (t - 1) []
  max_pos := le_rfl
  chunks_length t N h := by simp; omega
  chunks_flatten t N h := by simp

/-- the hypotheses of C26, C27 and C50 are met: the functions return for the example engine -/
example : (∃ out, GenerateWeights exampleOmp exampleEngine (fun _ => ()) 5 (fin 2.5) 12 true out) ∧
    (∃ out, GeneratePositions exampleOmp exampleEngine (fun _ => ()) 5 2 130 true out) := by
  have hs : SeedOK (nodeThreads exampleOmp 5 true) 12 ∧ SeedOK (nodeThreads exampleOmp 5 true) 130 := by
    constructor <;> exact Or.inr (by decide)
  constructor
  · obtain ⟨_, out, _, h, _⟩ := C26_executions exampleOmp exampleEngine (fun _ => ()) 5 (fin 2.5) 12 true hs.1
    exact ⟨out, (h out).2 rfl⟩
  · obtain ⟨_, out, _, h, _⟩ := C27_executions exampleOmp exampleEngine (fun _ => ()) 5 2 130 true hs.2
    exact ⟨out, (h out).2 rfl⟩

end Girgs.Props
