import Verif.Spec.Random
import Verif.Spec.UnitRng
import Mathlib.Probability.ProductMeasure
import Mathlib.Analysis.SpecialFunctions.Log.Basic
import Mathlib.MeasureTheory.Function.SpecialFunctions.Basic
import Mathlib.MeasureTheory.Function.Floor
/-
Ideal random numbers exist: a sequence of independent uniform numbers, of which every draw consumes one.
-/
namespace Girgs
open MeasureTheory Spec
open scoped ENNReal

/-- the uniform distribution on `[0,1)` -/
noncomputable def U01 : Measure ℝ := volume.restrict (Set.Ico 0 1)

instance : IsProbabilityMeasure U01 := ⟨by simp [U01]⟩

/-- independent uniform numbers -/
noncomputable def seqMeasure : Measure (ℕ → ℝ) := Measure.infinitePi fun _ => U01

instance : IsProbabilityMeasure seqMeasure := by unfold seqMeasure; infer_instance

def seqCons (x : ℝ × (ℕ → ℝ)) : ℕ → ℝ := fun i => Nat.casesOn i x.1 x.2

def seqSplit (g : ℕ → ℝ) : ℝ × (ℕ → ℝ) := (g 0, fun i => g (i + 1))

theorem measurable_seqSplit : Measurable seqSplit :=
  (measurable_pi_apply 0).prodMk (measurable_pi_iff.2 fun i => measurable_pi_apply (i + 1))

theorem measurable_seqCons : Measurable seqCons := by
  rw [measurable_pi_iff]
  intro i
  cases i with
  | zero => exact measurable_fst
  | succ i => exact (measurable_pi_apply i).comp measurable_snd

theorem split_cons (x : ℝ × (ℕ → ℝ)) : seqSplit (seqCons x) = x := rfl

theorem map_seqCons : (U01.prod seqMeasure).map seqCons = seqMeasure := by
  apply Measure.eq_infinitePi
  intro s t ht
  classical
  obtain ⟨n, hn⟩ : ∃ n, ∀ i ∈ s, i < n + 1 := ⟨s.sup id, fun i hi => Nat.lt_succ_of_le (Finset.le_sup (f := id) hi)⟩
  set t' : ℕ → Set ℝ := fun i => if i ∈ s then t i else Set.univ with ht'
  have hm : ∀ i, MeasurableSet (t' i) := by
    intro i; simp only [ht']; split
    · exact ht i
    · exact MeasurableSet.univ
  have e1 : Set.pi (s : Set ℕ) t = Set.pi (Finset.range (n + 1) : Set ℕ) t' := by
    ext g
    simp only [Set.mem_pi, Finset.mem_coe, Finset.mem_range, ht']
    constructor
    · intro h i _
      split
      · exact h i ‹_›
      · trivial
    · intro h i hi
      have := h i (hn i hi)
      rwa [if_pos hi] at this
  have e2 : ∏ i ∈ s, U01 (t i) = ∏ i ∈ Finset.range (n + 1), U01 (t' i) := by
    have hsub : s ⊆ Finset.range (n + 1) := fun i hi => Finset.mem_range.2 (hn i hi)
    rw [← Finset.prod_subset (f := fun i => U01 (t' i)) hsub (by
      intro i _ hi
      simp [ht', hi])]
    apply Finset.prod_congr rfl
    intro i hi
    simp [ht', hi]
  have e3 : seqCons ⁻¹' (Set.pi (Finset.range (n + 1) : Set ℕ) t') = t' 0 ×ˢ Set.pi (Finset.range n : Set ℕ) (fun i => t' (i + 1)) := by
    ext ⟨a, g⟩
    simp only [Set.mem_preimage, Set.mem_pi, Finset.mem_coe, Finset.mem_range, Set.mem_prod]
    constructor
    · intro h
      exact ⟨h 0 (by omega), fun i hi => h (i + 1) (by omega)⟩
    · rintro ⟨h1, h2⟩ i hi
      cases i with
      | zero => exact h1
      | succ i => exact h2 i (by omega)
  rw [e1, e2, Measure.map_apply measurable_seqCons (MeasurableSet.pi (Finset.countable_toSet _) fun i _ => hm i), e3, Measure.prod_prod,
    seqMeasure, Measure.infinitePi_pi _ (fun i _ => hm (i + 1)), Finset.prod_range_succ', mul_comm]

theorem map_seqSplit : seqMeasure.map seqSplit = U01.prod seqMeasure := by
  conv_lhs => rw [← map_seqCons]
  rw [Measure.map_map measurable_seqSplit measurable_seqCons]
  have : seqSplit ∘ seqCons = id := funext split_cons
  rw [this, Measure.map_id]

theorem map_draw {β : Type} [MeasurableSpace β] {f : ℝ → β} (hf : Measurable f) :
    seqMeasure.map (fun g => (f (seqSplit g).1, (seqSplit g).2)) = (U01.map f).prod seqMeasure := by
  have h1 : (fun g => (f (seqSplit g).1, (seqSplit g).2)) = Prod.map f id ∘ seqSplit := rfl
  have : SFinite (U01.map f) := inferInstance
  rw [h1, ← Measure.map_map (hf.prodMap measurable_id) measurable_seqSplit, map_seqSplit, ← Measure.map_prod_map _ _ hf measurable_id, Measure.map_id]

/-- inversion for the geometric distribution -/
noncomputable def geoInv (p u : ℝ) : ℕ := ⌊Real.log (1 - u) / Real.log (1 - p)⌋₊

theorem measurable_geoInv (p : ℝ) : Measurable (geoInv p) := by
  apply Nat.measurable_floor.comp
  exact (Real.measurable_log.comp (measurable_const.sub measurable_id)).div_const _

theorem geoInv_eq {p u : ℝ} (h0 : 0 < p) (h1 : p < 1) (hu0 : 0 ≤ u) (hu1 : u < 1) (k : ℕ) :
    geoInv p u = k ↔ 1 - (1 - p) ^ k ≤ u ∧ u < 1 - (1 - p) ^ (k + 1) := by
  have hl : Real.log (1 - p) < 0 := Real.log_neg (by linarith) (by linarith)
  have hL : Real.log (1 - u) ≤ 0 := Real.log_nonpos (by linarith) (by linarith)
  have hk : ∀ k : ℕ, Real.log ((1 - p) ^ k) = k * Real.log (1 - p) := fun k => Real.log_pow _ k
  have hp : ∀ k : ℕ, 0 < (1 - p) ^ k := fun k => pow_pos (by linarith) k
  unfold geoInv
  rw [Nat.floor_eq_iff (div_nonneg_of_nonpos hL hl.le), le_div_iff_of_neg hl, div_lt_iff_of_neg hl, ← hk, ← Nat.cast_succ, ← hk,
    Real.log_le_log_iff (by linarith) (hp k), Real.log_lt_log_iff (hp _) (by linarith), Nat.succ_eq_add_one]
  constructor
  · rintro ⟨a, b⟩; exact ⟨by linarith, by linarith⟩
  · rintro ⟨a, b⟩; exact ⟨by linarith, by linarith⟩

theorem map_geoInv {p : ℝ} (h0 : 0 < p) (h1 : p ≤ 1) : U01.map (geoInv p) = (geoPMF p h0 h1).toMeasure := by
  apply Measure.ext_of_singleton
  intro k
  rw [Measure.map_apply (measurable_geoInv p) (measurableSet_singleton k), PMF.toMeasure_apply_singleton _ _ (measurableSet_singleton k)]
  show U01 _ = ENNReal.ofReal ((1 - p) ^ k * p)
  unfold U01
  rw [Measure.restrict_apply ((measurable_geoInv p) (measurableSet_singleton k))]
  rcases h1.lt_or_eq with hlt | rfl
  · have hp : ∀ k : ℕ, 0 < (1 - p) ^ k := fun k => pow_pos (by linarith) k
    have hp1 : ∀ k : ℕ, (1 - p) ^ k ≤ 1 := fun k => pow_le_one₀ (by linarith) (by linarith)
    have : geoInv p ⁻¹' {k} ∩ Set.Ico 0 1 = Set.Ico (1 - (1 - p) ^ k) (1 - (1 - p) ^ (k + 1)) := by
      ext u
      simp only [Set.mem_inter_iff, Set.mem_preimage, Set.mem_singleton_iff, Set.mem_Ico]
      constructor
      · rintro ⟨h, hu0, hu1⟩
        exact (geoInv_eq h0 hlt hu0 hu1 k).1 h
      · rintro ⟨ha, hb⟩
        have hu0 : 0 ≤ u := by have := hp1 k; linarith
        have hu1 : u < 1 := by have := hp (k + 1); linarith
        exact ⟨(geoInv_eq h0 hlt hu0 hu1 k).2 ⟨ha, hb⟩, hu0, hu1⟩
    rw [this, Real.volume_Ico]
    congr 1
    ring
  · have : ∀ u, geoInv 1 u = 0 := by intro u; simp [geoInv]
    cases k with
    | zero =>
      have : geoInv 1 ⁻¹' {0} ∩ Set.Ico 0 1 = Set.Ico 0 1 := by ext u; simp [this]
      rw [this]; simp
    | succ k =>
      have : geoInv 1 ⁻¹' {k + 1} ∩ Set.Ico 0 1 = ∅ := by ext u; simp [this]
      rw [this]; simp

theorem map_scale {b : ℝ} (hb : 0 < b) : U01.map (fun u => b * u) = (ENNReal.ofReal b)⁻¹ • volume.restrict (Set.Ico 0 b) := by
  have hm : Measurable fun u : ℝ => b * u := measurable_const_mul b
  ext s hs
  rw [Measure.map_apply hm hs, Measure.smul_apply, U01, Measure.restrict_apply (hm hs), Measure.restrict_apply hs]
  have e : (fun u => b * u) ⁻¹' s ∩ Set.Ico 0 1 = (fun u => b * u) ⁻¹' (s ∩ Set.Ico 0 b) := by
    ext u
    simp only [Set.mem_inter_iff, Set.mem_preimage, Set.mem_Ico]
    have h1 : 0 ≤ b * u ↔ 0 ≤ u := by constructor <;> intro h <;> nlinarith
    have h2 : b * u < b ↔ u < 1 := by constructor <;> intro h <;> nlinarith
    rw [h1, h2]
  rw [e, Real.volume_preimage_mul_left hb.ne', smul_eq_mul, abs_of_pos (inv_pos.2 hb), ENNReal.ofReal_inv_of_pos hb]

theorem map_fract : U01.map Int.fract = U01 := by
  have : Measure.map Int.fract U01 = Measure.map id U01 := by
    apply Measure.map_congr
    unfold U01
    filter_upwards [ae_restrict_mem measurableSet_Ico] with u hu
    exact Int.fract_eq_self.2 hu
  rw [this, Measure.map_id]

/-- a generator of ideal random numbers (reduced modulo 1, so that all draws are in range, not only almost all) -/
noncomputable def idealRng : Tree.Rng XR where
  G := ℕ → ℝ
  uniform g := (XR.fin (Int.fract (seqSplit g).1), (seqSplit g).2)
  uniformTo b g := match b with
    | XR.fin b => (XR.fin (b * Int.fract (seqSplit g).1), (seqSplit g).2)
    | _ => (XR.nan, g)
  geo p g := match p with
    | XR.fin p => (min (geoInv p (seqSplit g).1) 9223372036854775807, (seqSplit g).2)
    | _ => (0, g)

noncomputable instance : MeasurableSpace idealRng.G := inferInstanceAs (MeasurableSpace (ℕ → ℝ))

theorem idealRng_ideal : IdealRng idealRng seqMeasure where
  prob := inferInstanceAs (IsProbabilityMeasure seqMeasure)
  uniform := ⟨fun g => (Int.fract (seqSplit g).1, (seqSplit g).2),
    (measurable_fract.comp (measurable_fst.comp measurable_seqSplit)).prodMk (measurable_snd.comp measurable_seqSplit), fun _ => rfl, by
      rw [← U01, ← map_fract]; exact map_draw measurable_fract⟩
  uniformTo b hb := ⟨fun g => (b * Int.fract (seqSplit g).1, (seqSplit g).2),
    ((measurable_const_mul b).comp (measurable_fract.comp (measurable_fst.comp measurable_seqSplit))).prodMk (measurable_snd.comp measurable_seqSplit), fun _ => rfl, by
      have hm : Measurable fun u : ℝ => b * Int.fract u := (measurable_const_mul b).comp measurable_fract
      have e : U01.map (fun u => b * u) = U01.map (fun u => b * Int.fract u) := by
        conv_lhs => rw [← map_fract]
        rw [Measure.map_map (measurable_const_mul b) measurable_fract]
        rfl
      rw [← map_scale hb, e]; exact map_draw hm⟩
  geo p h0 h1 := ⟨fun g => (geoInv p (seqSplit g).1, (seqSplit g).2),
    ((measurable_geoInv p).comp (measurable_fst.comp measurable_seqSplit)).prodMk (measurable_snd.comp measurable_seqSplit), fun _ => rfl, by
      rw [← map_geoInv h0 h1]; exact map_draw (measurable_geoInv p)⟩
  bounded := by
    intro p g
    unfold idealRng
    cases p with
    | fin p =>
      show min _ 9223372036854775807 < _
      omega
    | _ => show 0 < _; omega

/-- and all its draws are in range -/
theorem idealRng_unit : UnitRng idealRng where
  uniform g := ⟨_, rfl, Int.fract_nonneg _, Int.fract_lt_one _⟩
  uniformTo b g hb := ⟨_, rfl, mul_nonneg hb.le (Int.fract_nonneg _), by
    have := Int.fract_lt_one (seqSplit g).1
    nlinarith⟩
  geo := idealRng_ideal.bounded

end Girgs
