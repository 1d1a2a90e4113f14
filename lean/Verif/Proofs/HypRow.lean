import Verif.Proofs.HypNode
/-
The expected sum of the connection probabilities of a sampled point, given its radius.
-/
namespace Girgs.HypDeg
open MeasureTheory Spec Props Set
open Real (exp)
open scoped ENNReal

variable {Ω : Type} [MeasurableSpace Ω] {P : Measure Ω} {n : ℕ} {α R T γ : ℝ} {ρ φ : Fin n → Ω → ℝ}

/-- sum over all other nodes -/
noncomputable def rowSum (ρ φ : Fin n → Ω → ℝ) (R : ℝ) (h : ℝ → ℝ) (u : Fin n) (ω : Ω) : ℝ := ∑ v : Fin n, if u = v then 0 else h (gap ρ φ R ω u v)

theorem rowSum_nonneg {h : ℝ → ℝ} (h0 : ∀ v, 0 < v → 0 ≤ h v) (u : Fin n) (ω : Ω) : 0 ≤ rowSum ρ φ R h u ω := by
  refine Finset.sum_nonneg fun v _ => ?_
  split
  · rfl
  · exact h0 _ (gap_pos ω u v)

/-- the points with radius in `A` -/
theorem row_sets (hp : RandomPoints P n α R ρ φ) (u : Fin n) {A : Set ℝ} (hA : MeasurableSet A) : MeasurableSet {ω | ρ u ω ∈ A} := hp.measR u hA

theorem row_indicator (u : Fin n) (A : Set ℝ) (hp : RandomPoints P n α R ρ φ) (hA : MeasurableSet A) (G : Ω → ℝ≥0∞) :
    ∫⁻ ω in {ω | ρ u ω ∈ A}, G ω ∂P = ∫⁻ ω, A.indicator 1 (ρ u ω) * G ω ∂P := by
  rw [← lintegral_indicator (row_sets hp u hA)]
  refine lintegral_congr fun ω => ?_
  by_cases h : ρ u ω ∈ A
  · rw [indicator_of_mem (by exact h), indicator_of_mem h]; simp
  · rw [indicator_of_notMem (by exact h), indicator_of_notMem h]; simp

theorem indicator_meas {A : Set ℝ} (hA : MeasurableSet A) : Measurable (A.indicator (1 : ℝ → ℝ≥0∞)) := measurable_one.indicator hA

/-- a function of the radius of one point, as an integral over two points -/
theorem row_radius (hp : RandomPoints P n α R ρ φ) {u v : Fin n} (huv : u ≠ v) (hαR : 1 ≤ α * R) {A : Set ℝ} (hA : MeasurableSet A) {k : ℝ → ℝ≥0∞} (hk : Measurable k) :
    ∫⁻ ω, A.indicator 1 (ρ u ω) * k (ρ u ω) ∂P = ∫⁻ p, A.indicator 1 p.1 * k p.1 ∂pointLaw α R := by
  haveI := radialLaw_prob hαR
  haveI : IsProbabilityMeasure (pointLaw α R) := by unfold pointLaw; infer_instance
  have hm : Measurable fun x : (ℝ × ℝ) × (ℝ × ℝ) => A.indicator 1 x.1.1 * k x.1.1 :=
    ((indicator_meas hA).comp measurable_fst.fst).mul (hk.comp measurable_fst.fst)
  rw [hp.pair u v huv (fun x => A.indicator 1 x.1.1 * k x.1.1) hm]
  simp

theorem row_pair (hp : RandomPoints P n α R ρ φ) {u v : Fin n} (huv : u ≠ v) (hαR : 1 ≤ α * R) {A : Set ℝ} (hA : MeasurableSet A) {h : ℝ → ℝ} (hm : Measurable h) :
    ∫⁻ ω, A.indicator 1 (ρ u ω) * ENNReal.ofReal (h (gap ρ φ R ω u v)) ∂P =
      ∫⁻ p, A.indicator 1 p.1 * ∫⁻ q, ENNReal.ofReal (h (exp ((hypDist p.1 p.2 q.1 q.2 - R) / 2))) ∂pointLaw α R ∂pointLaw α R := by
  obtain ⟨F, hFe⟩ : ∃ F : (ℝ × ℝ) × (ℝ × ℝ) → ℝ≥0∞, F = fun x => ENNReal.ofReal (h (exp ((hypDist x.1.1 x.1.2 x.2.1 x.2.2 - R) / 2))) := ⟨_, rfl⟩
  have hF : Measurable F := by
    rw [hFe]
    exact (hm.comp (((measurable_hypDist.sub_const R).div_const 2).exp)).ennreal_ofReal
  have hG : Measurable fun x : (ℝ × ℝ) × (ℝ × ℝ) => A.indicator 1 x.1.1 * F x := ((indicator_meas hA).comp measurable_fst.fst).mul hF
  have e := hp.pair u v huv _ hG
  have e2 : ∀ ω, A.indicator 1 (ρ u ω) * ENNReal.ofReal (h (gap ρ φ R ω u v)) = A.indicator 1 (ρ u ω) * F ((ρ u ω, φ u ω), (ρ v ω, φ v ω)) := by
    intro ω
    rw [hFe]; rfl
  simp only [e2, e]
  refine lintegral_congr fun p => ?_
  have hFm : Measurable fun q => F (p, q) := hF.comp (measurable_const.prodMk measurable_id)
  rw [lintegral_const_mul _ hFm, hFe]

theorem row_split (hp : RandomPoints P n α R ρ φ) (u : Fin n) {A : Set ℝ} (hA : MeasurableSet A) {h : ℝ → ℝ} (h0 : ∀ v, 0 < v → 0 ≤ h v) (hm : Measurable h) :
    ∫⁻ ω in {ω | ρ u ω ∈ A}, ENNReal.ofReal (rowSum ρ φ R h u ω) ∂P =
      ∑ v : Fin n, if u = v then 0 else ∫⁻ ω, A.indicator 1 (ρ u ω) * ENNReal.ofReal (h (gap ρ φ R ω u v)) ∂P := by
  have hmeas : ∀ v : Fin n, Measurable fun ω => ENNReal.ofReal (h (gap ρ φ R ω u v)) := by
    intro v
    have h1 : Measurable fun ω => ((ρ u ω, φ u ω), (ρ v ω, φ v ω)) := ((hp.measR u).prodMk (hp.measA u)).prodMk ((hp.measR v).prodMk (hp.measA v))
    have h2 : Measurable fun ω => gap ρ φ R ω u v := (((measurable_hypDist.comp h1).sub_const R).div_const 2).exp
    exact (hm.comp h2).ennreal_ofReal
  have e1 : ∀ ω, ENNReal.ofReal (rowSum ρ φ R h u ω) = ∑ v : Fin n, if u = v then 0 else ENNReal.ofReal (h (gap ρ φ R ω u v)) := by
    intro ω
    unfold rowSum
    rw [ENNReal.ofReal_sum_of_nonneg]
    · refine Finset.sum_congr rfl fun v _ => ?_
      split <;> simp
    · intro v _
      split
      · rfl
      · exact h0 _ (gap_pos ω u v)
  simp only [e1]
  rw [lintegral_finsetSum]
  · refine Finset.sum_congr rfl fun v _ => ?_
    split_ifs with huv
    · simp
    · rw [row_indicator u A hp hA]
  · intro v _
    split_ifs
    · exact measurable_const
    · exact hmeas v

theorem row_const (u : Fin n) (M : ℝ≥0∞) : (∑ v : Fin n, if u = v then 0 else M) = ENNReal.ofReal ((n : ℝ) - 1) * M := by
  rw [Finset.sum_ite, Finset.sum_const_zero, zero_add, Finset.sum_const, nsmul_eq_mul]
  congr 1
  have h : Finset.univ.filter (fun v : Fin n => ¬ u = v) = Finset.univ.erase u := by
    ext v; simp [eq_comm]
  have h1 : 1 ≤ n := by have := u.2; omega
  rw [h, Finset.card_erase_of_mem (Finset.mem_univ _), ← ENNReal.ofReal_natCast, Finset.card_univ, Fintype.card_fin, Nat.cast_sub h1]
  simp

/-- from above -/
theorem row_le (hp : RandomPoints P n α R ρ φ) (hαR : 1 ≤ α * R) (u : Fin n) {A : Set ℝ} (hA : MeasurableSet A) {h : ℝ → ℝ} (h0 : ∀ v, 0 < v → 0 ≤ h v)
    (hm : Measurable h) {k : ℝ → ℝ} (hk : Measurable k)
    (hle : ∀ p : ℝ × ℝ, ∫⁻ q, ENNReal.ofReal (h (exp ((hypDist p.1 p.2 q.1 q.2 - R) / 2))) ∂pointLaw α R ≤ ENNReal.ofReal (k p.1)) :
    ∫⁻ ω in {ω | ρ u ω ∈ A}, ENNReal.ofReal (rowSum ρ φ R h u ω) ∂P ≤ ∫⁻ ω in {ω | ρ u ω ∈ A}, ENNReal.ofReal ((n - 1) * k (ρ u ω)) ∂P := by
  have h1n : (0 : ℝ) ≤ n - 1 := by have : (1 : ℝ) ≤ n := by exact_mod_cast (by have := u.2; omega : 1 ≤ n)
                                   linarith
  simp only [ENNReal.ofReal_mul h1n]
  rw [lintegral_const_mul' _ _ (by simp), row_split hp u hA h0 hm, ← row_const u]
  refine Finset.sum_le_sum fun v _ => ?_
  split_ifs with huv
  · exact le_rfl
  · rw [row_pair hp huv hαR hA hm, row_indicator u A hp hA, row_radius hp huv hαR hA hk.ennreal_ofReal]
    exact lintegral_mono fun p => mul_le_mul le_rfl (hle p) bot_le bot_le

/-- from below -/
theorem le_row (hp : RandomPoints P n α R ρ φ) (hαR : 1 ≤ α * R) (u : Fin n) {A : Set ℝ} (hA : MeasurableSet A) {h : ℝ → ℝ} (h0 : ∀ v, 0 < v → 0 ≤ h v)
    (hm : Measurable h) {k : ℝ → ℝ} (hk : Measurable k)
    (hle : ∀ p : ℝ × ℝ, 0 ≤ p.1 → p.1 ≤ R → ENNReal.ofReal (k p.1) ≤ ∫⁻ q, ENNReal.ofReal (h (exp ((hypDist p.1 p.2 q.1 q.2 - R) / 2))) ∂pointLaw α R) :
    ∫⁻ ω in {ω | ρ u ω ∈ A}, ENNReal.ofReal ((n - 1) * k (ρ u ω)) ∂P ≤ ∫⁻ ω in {ω | ρ u ω ∈ A}, ENNReal.ofReal (rowSum ρ φ R h u ω) ∂P := by
  have h1n : (0 : ℝ) ≤ n - 1 := by have : (1 : ℝ) ≤ n := by exact_mod_cast (by have := u.2; omega : 1 ≤ n)
                                   linarith
  have hset : {ω | ρ u ω ∈ A} = {ω | ρ u ω ∈ A ∩ Icc 0 R} := by
    ext ω
    simp only [mem_setOf_eq, mem_inter_iff, mem_Icc, iff_self_and]
    intro _
    exact ⟨(hp.rangeR u ω).1.le, (hp.rangeR u ω).2.le⟩
  have hA' : MeasurableSet (A ∩ Icc 0 R) := hA.inter measurableSet_Icc
  simp only [ENNReal.ofReal_mul h1n]
  rw [lintegral_const_mul' _ _ (by simp), hset, row_split hp u hA' h0 hm, ← row_const u]
  refine Finset.sum_le_sum fun v _ => ?_
  split_ifs with huv
  · exact le_rfl
  · rw [row_pair hp huv hαR hA' hm, row_indicator u _ hp hA', row_radius hp huv hαR hA' hk.ennreal_ofReal]
    refine lintegral_mono fun p => ?_
    beta_reduce
    by_cases h : p.1 ∈ A ∩ Icc 0 R
    · exact mul_le_mul le_rfl (hle p h.2.1 h.2.2) bot_le bot_le
    · rw [indicator_of_notMem h]; simp

end Girgs.HypDeg
