import Verif.Proofs.HypMean
/-
The joint distribution of two sampled points.
-/
namespace Girgs.HypDeg
open MeasureTheory ProbabilityTheory Spec Props
open XR (fin)
open scoped ENNReal

variable {Ω : Type} [MeasurableSpace Ω] {P : Measure Ω} {n : ℕ} {α R : ℝ}

/-- random points of the disk, independent and distributed like `pointLaw` -/
structure RandomPoints (P : Measure Ω) (n : ℕ) (α R : ℝ) (ρ φ : Fin n → Ω → ℝ) : Prop where
  prob : IsProbabilityMeasure P
  measR : ∀ i, Measurable (ρ i)
  measA : ∀ i, Measurable (φ i)
  rangeR : ∀ i ω, 0 < ρ i ω ∧ ρ i ω < R
  rangeA : ∀ i ω, 0 ≤ φ i ω ∧ φ i ω < 2 * Real.pi
  pair : ∀ u v, u ≠ v → ∀ F : (ℝ × ℝ) × (ℝ × ℝ) → ℝ≥0∞, Measurable F →
    ∫⁻ ω, F ((ρ u ω, φ u ω), (ρ v ω, φ v ω)) ∂P = ∫⁻ p, ∫⁻ q, F (p, q) ∂pointLaw α R ∂pointLaw α R
  joint : P.map (fun ω i => (ρ i ω, φ i ω)) = Measure.pi fun _ => pointLaw α R

/-- the distribution of the radii from the distribution function -/
theorem radii_law (hα : 0 < α) (hR : 0 < R) (hαR : 1 ≤ α * R) [IsProbabilityMeasure P] {ρ : Ω → ℝ} (hm : Measurable ρ) (hr : ∀ ω, 0 < ρ ω ∧ ρ ω < R)
    (h : ∀ r : ℝ, 0 ≤ r → r ≤ R → P {ω | ρ ω ≤ r} =
        ENNReal.ofReal ((Real.cosh (α * r) - (1 + 1 / 2 ^ 52)) / (Real.cosh (α * R) - (1 + 1 / 2 ^ 52)))) : P.map ρ = radialLaw α R := by
  haveI := radialLaw_prob hαR
  haveI := Measure.isProbabilityMeasure_map (μ := P) hm.aemeasurable
  have hc := cosh_gap hαR
  have hrange := radialLaw_range hα hR hαR
  refine Measure.ext_of_Iic _ _ fun r => ?_
  rw [Measure.map_apply hm measurableSet_Iic]
  have e : ρ ⁻¹' Set.Iic r = {ω | ρ ω ≤ r} := rfl
  rw [e]
  rcases lt_or_ge r 0 with h0 | h0
  · have e1 : {ω | ρ ω ≤ r} = ∅ := by
      ext ω
      simp only [Set.mem_setOf_eq, Set.mem_empty_iff_false, iff_false, not_le]
      linarith [(hr ω).1]
    rw [e1, measure_empty]
    symm
    refine measure_mono_null (t := {r | ¬ (0 ≤ r ∧ r ≤ R)}) (fun x hx => ?_) (ae_iff.1 hrange)
    simp only [Set.mem_Iic] at hx
    simp only [Set.mem_setOf_eq, not_and]
    intro h; linarith
  · rcases le_or_gt r R with h1 | h1
    · rw [h r h0 h1]
      unfold radialLaw
      rw [Measure.map_apply (radiusVal_meas α) measurableSet_Iic, radiusVal_law hα hc h0 h1]
    · have e1 : {ω | ρ ω ≤ r} = Set.univ := by
        ext ω
        simp only [Set.mem_setOf_eq, Set.mem_univ, iff_true]
        linarith [(hr ω).2]
      rw [e1, measure_univ]
      symm
      refine le_antisymm prob_le_one ?_
      rw [← measure_univ (μ := radialLaw α R)]
      refine measure_mono_ae (hrange.mono fun x hx _ => ?_)
      exact hx.2.trans h1.le

theorem mem_ofFn_fin {n : ℕ} {f : Fin n → ℝ} (i : Fin n) : fin (f i) ∈ List.ofFn fun i => fin (f i) := by
  rw [List.mem_ofFn]; exact ⟨i, rfl⟩

variable {omp : Omp} {eng : Engine XR} [MeasurableSpace eng.G] {μ : Measure eng.G} {σ : ℤ → Ω → eng.G} {device : ℕ → Ω → eng.G}
  {radii angles : Ω → List XR}

/-- sampled points are random points -/
theorem sampled_random (hs : SampledPoints P omp eng μ σ device n α R radii angles) (hn : 1 ≤ n) (hα : 0 < α) (hR : 0 < R) (hαR : 1 ≤ α * R) :
    ∃ ρ φ : Fin n → Ω → ℝ, RandomPoints P n α R ρ φ ∧ ∀ ω, radii ω = (List.ofFn fun i => fin (ρ i ω)) ∧ angles ω = List.ofFn fun i => fin (φ i ω) := by
  obtain ⟨he, hs⟩ := hs
  have hc := cosh_gap hαR
  haveI := radialLaw_prob hαR
  rcases hs with ⟨seed, parallel, threads, ht, hst, hout⟩ | ⟨rseed, aseed, rpar, apar, rt, at', hrt, hat, hσ, hr, ha, hd, hout⟩
  · obtain ⟨ρ, φ, h1, hind, hmR, hmA, hRA, hlR, hlA⟩ := C92_points (n := n) he hn hα hc ht hst
    haveI : IsProbabilityMeasure P := hind.isProbabilityMeasure
    have rg := fun ω => (C50_range (eng := withSeeds eng fun s => σ s ω) he.range hα hR hc).2.2 _ _ ((h1 ω _ _).2 ⟨rfl, rfl⟩)
    have rR : ∀ i ω, 0 < ρ i ω ∧ ρ i ω < R := by
      intro i ω
      obtain ⟨v, hv, q⟩ := (rg ω).2.2.1 (fin (ρ i ω)) (mem_ofFn_fin (f := fun i => ρ i ω) i)
      rw [XR.fin.inj hv]; exact q
    have rA : ∀ i ω, 0 ≤ φ i ω ∧ φ i ω < 2 * Real.pi := by
      intro i ω
      obtain ⟨v, hv, q⟩ := (rg ω).2.2.2 (fin (φ i ω)) (mem_ofFn_fin (f := fun i => φ i ω) i)
      rw [XR.fin.inj hv]; exact q
    have law : ∀ i, P.map (fun ω => (ρ i ω, φ i ω)) = pointLaw α R := by
      intro i
      have := (indepFun_iff_map_prod_eq_prod_map_map (hmR i).aemeasurable (hmA i).aemeasurable).1 (hRA i)
      rw [this, radii_law hα hR hαR (hmR i) (rR i) (hlR i), hlA i]
      rfl
    refine ⟨ρ, φ, ⟨inferInstance, hmR, hmA, rR, rA, ?_, ?_⟩, fun ω => (h1 ω _ _).1 (hout ω)⟩
    swap
    · rw [(iIndepFun_iff_map_fun_eq_pi_map fun i => ((hmR i).prodMk (hmA i)).aemeasurable).1 hind]
      simp only [law]
    intro u v huv F hF
    have m := fun i => (hmR i).prodMk (hmA i)
    haveI : SFinite (pointLaw α R) := by unfold pointLaw; infer_instance
    have hp := (indepFun_iff_map_prod_eq_prod_map_map (m u).aemeasurable (m v).aemeasurable).1 (hind.indepFun huv)
    rw [law u, law v] at hp
    have hmm : Measurable fun ω => ((ρ u ω, φ u ω), (ρ v ω, φ v ω)) := (m u).prodMk (m v)
    rw [← lintegral_map (f := F) hF hmm, hp, lintegral_prod _ hF.aemeasurable]
  · obtain ⟨ρ, h1, hiR, hmR, rR, hlR⟩ := C92_radii (P := P) (n := n) (device := device) he hn hα hR hc hrt (Or.inl ⟨hr.1, hr.2, hσ⟩)
    obtain ⟨φ, h2, hiA, hmA, hlA⟩ := C92_angles (P := P) (n := n) (device := device) he hn hat (Or.inl ⟨ha.1, ha.2, hσ⟩)
    haveI : IsProbabilityMeasure P := hiR.isProbabilityMeasure
    have hRA : IndepFun (fun ω i => ρ i ω) (fun ω i => φ i ω) P :=
      C92_polar (device := device) he hσ hn hα hc hrt hat hr ha hd (fun ω => (h1 ω _).2 rfl) (fun ω => (h2 ω _).2 rfl)
    have rA : ∀ i ω, 0 ≤ φ i ω ∧ φ i ω < 2 * Real.pi := by
      intro i ω
      obtain ⟨v, hv, q⟩ := ((C50_range (eng := withSeeds eng fun s => σ s ω) he.range hα hR hc).2.1 _ ((h2 ω _).2 rfl)).2 (fin (φ i ω))
        (mem_ofFn_fin (f := fun i => φ i ω) i)
      rw [XR.fin.inj hv]; exact q
    have lR := fun i => radii_law hα hR hαR (hmR i) (rR i) (hlR i)
    refine ⟨ρ, φ, ⟨inferInstance, hmR, hmA, rR, rA, ?_, ?_⟩, fun ω => ⟨(h1 ω _).1 (hout ω).1, (h2 ω _).1 (hout ω).2⟩⟩
    swap
    · have mR : Measurable fun ω i => ρ i ω := measurable_pi_lambda _ hmR
      have mA : Measurable fun ω i => φ i ω := measurable_pi_lambda _ hmA
      have pR := (iIndepFun_iff_map_fun_eq_pi_map fun i => (hmR i).aemeasurable).1 hiR
      have pA := (iIndepFun_iff_map_fun_eq_pi_map fun i => (hmA i).aemeasurable).1 hiA
      simp only [lR] at pR
      simp only [hlA] at pA
      have hp := (indepFun_iff_map_prod_eq_prod_map_map mR.aemeasurable mA.aemeasurable).1 hRA
      rw [pR, pA] at hp
      have mp := measurePreserving_arrowProdEquivProdArrow ℝ ℝ (Fin n) (fun _ => radialLaw α R) (fun _ => angleLaw)
      have mp' := mp.symm
      have e : (fun ω i => (ρ i ω, φ i ω)) = (MeasurableEquiv.arrowProdEquivProdArrow ℝ ℝ (Fin n)).symm ∘ fun ω => ((fun i => ρ i ω), fun i => φ i ω) := rfl
      rw [e, ← Measure.map_map mp'.measurable (mR.prodMk mA), hp]
      exact mp'.map_eq
    intro u v huv F hF
    have mR : Measurable fun ω => (ρ u ω, ρ v ω) := (hmR u).prodMk (hmR v)
    have mA : Measurable fun ω => (φ u ω, φ v ω) := (hmA u).prodMk (hmA v)
    have pR := (indepFun_iff_map_prod_eq_prod_map_map (hmR u).aemeasurable (hmR v).aemeasurable).1 (hiR.indepFun huv)
    have pA := (indepFun_iff_map_prod_eq_prod_map_map (hmA u).aemeasurable (hmA v).aemeasurable).1 (hiA.indepFun huv)
    rw [lR u, lR v] at pR
    rw [hlA u, hlA v] at pA
    have hind : IndepFun (fun ω => (ρ u ω, ρ v ω)) (fun ω => (φ u ω, φ v ω)) P :=
      hRA.comp (φ := fun f : Fin n → ℝ => (f u, f v)) (ψ := fun f : Fin n → ℝ => (f u, f v)) (by fun_prop) (by fun_prop)
    have hp := (indepFun_iff_map_prod_eq_prod_map_map mR.aemeasurable mA.aemeasurable).1 hind
    rw [pR, pA] at hp
    have hmm : Measurable fun ω => ((ρ u ω, ρ v ω), (φ u ω, φ v ω)) := mR.prodMk mA
    have hG : Measurable fun x : (ℝ × ℝ) × (ℝ × ℝ) => F ((x.1.1, x.2.1), (x.1.2, x.2.2)) := hF.comp (by fun_prop)
    have e1 : ∫⁻ ω, F ((ρ u ω, φ u ω), (ρ v ω, φ v ω)) ∂P =
        ∫⁻ r, ∫⁻ s, ∫⁻ a, ∫⁻ b, F ((r, a), (s, b)) ∂angleLaw ∂angleLaw ∂radialLaw α R ∂radialLaw α R := by
      rw [← lintegral_map (f := fun x : (ℝ × ℝ) × (ℝ × ℝ) => F ((x.1.1, x.2.1), (x.1.2, x.2.2))) hG hmm, hp, lintegral_prod _ hG.aemeasurable]
      have hK : Measurable fun x : ℝ × ℝ => ∫⁻ y, F ((x.1, y.1), (x.2, y.2)) ∂(angleLaw.prod angleLaw) := hG.lintegral_prod_right'
      rw [lintegral_prod _ hK.aemeasurable]
      refine lintegral_congr fun r => lintegral_congr fun s => ?_
      have hL : Measurable fun y : ℝ × ℝ => F ((r, y.1), (s, y.2)) := hF.comp (by fun_prop)
      rw [lintegral_prod _ hL.aemeasurable]
    have hG2 : Measurable fun p => ∫⁻ q, F (p, q) ∂(radialLaw α R).prod angleLaw := hF.lintegral_prod_right'
    have e2 : ∫⁻ p, ∫⁻ q, F (p, q) ∂pointLaw α R ∂pointLaw α R =
        ∫⁻ r, ∫⁻ a, ∫⁻ s, ∫⁻ b, F ((r, a), (s, b)) ∂angleLaw ∂radialLaw α R ∂angleLaw ∂radialLaw α R := by
      unfold pointLaw
      rw [lintegral_prod _ hG2.aemeasurable]
      refine lintegral_congr fun r => lintegral_congr fun a => ?_
      have hL : Measurable fun q : ℝ × ℝ => F ((r, a), q) := hF.comp (by fun_prop)
      rw [lintegral_prod _ hL.aemeasurable]
    rw [e1, e2]
    refine lintegral_congr fun r => ?_
    refine lintegral_lintegral_swap ?_
    have hL : Measurable fun x : (ℝ × ℝ) × ℝ => F ((r, x.1.2), (x.1.1, x.2)) := hF.comp (by fun_prop)
    exact (hL.lintegral_prod_right').aemeasurable

end Girgs.HypDeg
