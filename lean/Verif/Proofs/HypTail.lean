import Verif.Proofs.RowProd
import Verif.Proofs.HypRow
/-
Exponential moments of the degree of a sampled point, given its radius.
-/
namespace Girgs.HypDeg
open MeasureTheory Spec Props Set
open Real (exp)
open scoped ENNReal

variable {Ω : Type} [MeasurableSpace Ω] {P : Measure Ω} {n : ℕ} {α R T γ : ℝ} {ρ φ : Fin n → Ω → ℝ}

theorem prod_others (u : Fin n) {a c : ℝ} (h : a ≤ c) :
    ∏ v : Fin n, (if u = v then 1 else ENNReal.ofReal (exp a)) ≤ ENNReal.ofReal (exp ((n - 1) * c)) := by
  have h1 : 1 ≤ n := by have := u.2; omega
  have e : ∏ v : Fin n, (if u = v then 1 else ENNReal.ofReal (exp a)) = ENNReal.ofReal (exp a) ^ (n - 1) := by
    rw [Finset.prod_ite, Finset.prod_const_one, one_mul, Finset.prod_const]
    congr 1
    have h : Finset.univ.filter (fun v : Fin n => ¬ u = v) = Finset.univ.erase u := by
      ext v; simp [eq_comm]
    rw [h, Finset.card_erase_of_mem (Finset.mem_univ _), Finset.card_univ, Fintype.card_fin]
  rw [e, ← ENNReal.ofReal_pow (Real.exp_pos _).le, ← Real.exp_nat_mul, Nat.cast_sub h1, Nat.cast_one]
  refine ENNReal.ofReal_le_ofReal (Real.exp_le_exp.2 (mul_le_mul_of_nonneg_left h ?_))
  have : (1 : ℝ) ≤ n := by exact_mod_cast h1
  linarith

/-- the exponential moment of a sum over the other points, given that the radius of the own point is in `A` -/
theorem row_exp (hp : RandomPoints P n α R ρ φ) (hαR : 1 ≤ α * R) (u : Fin n) {A : Set ℝ} (hA : MeasurableSet A) {h : ℝ → ℝ} (h0 : ∀ v, 0 < v → 0 ≤ h v)
    (h1 : ∀ v, 0 < v → h v ≤ 1) (hm : Measurable h) {s K : ℝ}
    (hK : ∀ p : ℝ × ℝ, p.1 ∈ A → 0 ≤ p.1 → p.1 ≤ R →
      (0 ≤ s ∧ 0 ≤ K ∧ ∫⁻ q, ENNReal.ofReal (h (exp ((hypDist p.1 p.2 q.1 q.2 - R) / 2))) ∂pointLaw α R ≤ ENNReal.ofReal K) ∨
      (s ≤ 0 ∧ ENNReal.ofReal K ≤ ∫⁻ q, ENNReal.ofReal (h (exp ((hypDist p.1 p.2 q.1 q.2 - R) / 2))) ∂pointLaw α R)) :
    ∫⁻ ω in {ω | ρ u ω ∈ A}, ∏ v, (if u = v then 1 else ENNReal.ofReal (1 + h (gap ρ φ R ω u v) * (exp s - 1))) ∂P ≤
      P {ω | ρ u ω ∈ A} * ENNReal.ofReal (exp ((n - 1) * ((exp s - 1) * K))) := by
  haveI := hp.prob
  haveI := radialLaw_prob hαR
  haveI : IsProbabilityMeasure (pointLaw α R) := by unfold pointLaw; infer_instance
  obtain ⟨G, hGe⟩ : ∃ G : (ℝ × ℝ) × (ℝ × ℝ) → ℝ, G = fun x => h (exp ((hypDist x.1.1 x.1.2 x.2.1 x.2.2 - R) / 2)) := ⟨_, rfl⟩
  have hG : Measurable G := by
    rw [hGe]
    exact hm.comp (((measurable_hypDist.sub_const R).div_const 2).exp)
  have hG0 : ∀ x, 0 ≤ G x ∧ G x ≤ 1 := by
    intro x; rw [hGe]; exact ⟨h0 _ (Real.exp_pos _), h1 _ (Real.exp_pos _)⟩
  have hset : {ω | ρ u ω ∈ A} = {ω | ρ u ω ∈ A ∩ Icc 0 R} := by
    ext ω
    simp only [mem_setOf_eq, mem_inter_iff, mem_Icc, iff_self_and]
    intro _
    exact ⟨(hp.rangeR u ω).1.le, (hp.rangeR u ω).2.le⟩
  have hA' : MeasurableSet (A ∩ Icc 0 R) := hA.inter measurableSet_Icc
  have hS : MeasurableSet {q : ℝ × ℝ | q.1 ∈ A ∩ Icc 0 R} := measurable_fst hA'
  obtain ⟨g, hge⟩ : ∃ g : (ℝ × ℝ) → (ℝ × ℝ) → ℝ≥0∞, g = fun p q => ENNReal.ofReal (1 + G (p, q) * (exp s - 1)) := ⟨_, rfl⟩
  have hg : Measurable fun z : (ℝ × ℝ) × (ℝ × ℝ) => g z.1 z.2 := by
    rw [hge]
    exact (measurable_const.add (hG.mul_const _)).ennreal_ofReal
  have hX : Measurable fun ω (i : Fin n) => (ρ i ω, φ i ω) := measurable_pi_lambda _ fun i => (hp.measR i).prodMk (hp.measA i)
  have hXS : MeasurableSet {x : Fin n → ℝ × ℝ | x u ∈ {q : ℝ × ℝ | q.1 ∈ A ∩ Icc 0 R}} := measurable_pi_apply u hS
  have hF : Measurable fun x : Fin n → ℝ × ℝ => ∏ v, (if u = v then 1 else g (x u) (x v)) := by
    refine Finset.measurable_prod _ fun v _ => ?_
    split_ifs
    · exact measurable_const
    · have h : Measurable fun x : Fin n → ℝ × ℝ => (x u, x v) := by fun_prop
      exact hg.comp h
  have e1 : ∫⁻ ω in {ω | ρ u ω ∈ A}, ∏ v, (if u = v then 1 else ENNReal.ofReal (1 + h (gap ρ φ R ω u v) * (exp s - 1))) ∂P =
      ∫⁻ q in {q : ℝ × ℝ | q.1 ∈ A ∩ Icc 0 R}, ∏ v, (if u = v then 1 else ∫⁻ p, g q p ∂pointLaw α R) ∂pointLaw α R := by
    have := row_prod_set (pointLaw α R) u (g := fun _ => g) (fun _ => hg) hS
    rw [← this, ← hp.joint, setLIntegral_map hXS hF hX, hset]
    refine lintegral_congr fun ω => Finset.prod_congr rfl fun v _ => ?_
    split_ifs
    · rfl
    · rw [hge, hGe]; rfl
  have e2 : P {ω | ρ u ω ∈ A} = pointLaw α R {q : ℝ × ℝ | q.1 ∈ A ∩ Icc 0 R} := by
    have h2 : pointLaw α R {q : ℝ × ℝ | q.1 ∈ A ∩ Icc 0 R} = Measure.pi (fun _ : Fin n => pointLaw α R) {x | x u ∈ {q : ℝ × ℝ | q.1 ∈ A ∩ Icc 0 R}} :=
      ((measurePreserving_eval (fun _ : Fin n => pointLaw α R) u).measure_preimage hS.nullMeasurableSet).symm
    rw [h2, ← hp.joint, Measure.map_apply hX hXS, hset]
    rfl
  rw [e1, e2, mul_comm, ← setLIntegral_const]
  refine setLIntegral_mono' hS fun q hq => ?_
  have hGq : Measurable fun p => G (q, p) := hG.comp (measurable_const.prodMk measurable_id)
  have hint : Integrable (fun p => G (q, p)) (pointLaw α R) := by
    refine Integrable.of_bound hGq.aestronglyMeasurable 1 (Filter.Eventually.of_forall fun p => ?_)
    rw [Real.norm_eq_abs, abs_of_nonneg (hG0 _).1]
    exact (hG0 _).2
  have eJ : ENNReal.ofReal (∫ p, G (q, p) ∂pointLaw α R) = ∫⁻ p, ENNReal.ofReal (h (exp ((hypDist q.1 q.2 p.1 p.2 - R) / 2))) ∂pointLaw α R := by
    rw [ofReal_integral_eq_lintegral_ofReal hint (Filter.Eventually.of_forall fun p => (hG0 _).1), hGe]
  have hJ0 : 0 ≤ ∫ p, G (q, p) ∂pointLaw α R := integral_nonneg fun p => (hG0 _).1
  have hJ : (exp s - 1) * (∫ p, G (q, p) ∂pointLaw α R) ≤ (exp s - 1) * K := by
    rcases hK q hq.1 hq.2.1 hq.2.2 with ⟨k1, k2, k3⟩ | ⟨k1, k3⟩
    · rw [← eJ] at k3
      exact mul_le_mul_of_nonneg_left ((ENNReal.ofReal_le_ofReal_iff k2).1 k3) (by linarith [Real.one_le_exp k1])
    · rw [← eJ] at k3
      exact mul_le_mul_of_nonpos_left ((ENNReal.ofReal_le_ofReal_iff hJ0).1 k3) (by linarith [Real.exp_le_one_iff.2 k1])
  have hg1 : ∫⁻ p, g q p ∂pointLaw α R ≤ ENNReal.ofReal (exp ((exp s - 1) * ∫ p, G (q, p) ∂pointLaw α R)) := by
    have hi : Integrable (fun p => 1 + G (q, p) * (exp s - 1)) (pointLaw α R) := (integrable_const 1).add (hint.mul_const _)
    have hpos : ∀ p, 0 ≤ 1 + G (q, p) * (exp s - 1) := by
      intro p
      have := hG0 (q, p)
      nlinarith [Real.exp_pos s]
    rw [hge, ← ofReal_integral_eq_lintegral_ofReal hi (Filter.Eventually.of_forall hpos), integral_add (integrable_const 1) (hint.mul_const _), integral_mul_const]
    refine ENNReal.ofReal_le_ofReal ?_
    have := Real.add_one_le_exp ((exp s - 1) * ∫ p, G (q, p) ∂pointLaw α R)
    simp only [integral_const, smul_eq_mul, mul_one, probReal_univ]
    linarith
  refine (Finset.prod_le_prod' fun v _ => ?_).trans (prod_others u hJ)
  split_ifs
  · exact le_rfl
  · exact hg1

end Girgs.HypDeg
