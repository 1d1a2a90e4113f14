import Verif.Props.HyperLaw
/-
C61: the exception is real.  Two points on opposite sides of the disk with a positive documented connection probability
which are never connected, because the code skips pairs of cells with less than 10^-6 expected edges.
-/
namespace Girgs.Props
open MeasureTheory Spec CFloat Angle Real

/-- the two points -/
theorem skipHyp : HypInput [11 / 2, 11 / 2] [0, π] (1 / 20) 6 := by
  have := pi_pos
  refine ⟨rfl, by norm_num, by norm_num, ?_, ?_, by norm_num, Or.inr (by norm_num)⟩
  · intro r hr; simp at hr; subst hr; norm_num
  · intro a ha
    simp at ha
    rcases ha with rfl | rfl
    · exact ⟨le_rfl, by linarith⟩
    · exact ⟨by linarith, by linarith⟩

/-- a type I call compares the layers on their comparison level -/
theorem hvisit_typeI {layers levels : ℕ} {pbl : ℕ → ℕ → ℕ} {full : Bool} : ∀ (k A B l : ℕ), ∀ t ∈ hvisit layers levels pbl full k A B l,
    t.two = false → pbl t.i t.j = t.level := by
  intro k
  induction k with
  | zero => intro A B l t ht; simp [hvisit] at ht
  | succ k ih =>
    intro A B l t ht h2
    unfold hvisit at ht
    split at ht
    · split at ht
      · have := (mem_htasksII.1 ht).1
        rw [h2] at this; cases this
      · simp at ht
    · rw [List.mem_append] at ht
      rcases ht with ht | ht
      · obtain ⟨_, _, _, h, _, _, h', _⟩ := mem_htasksI.1 ht
        rw [h, h']
      · split at ht
        · simp at ht
        · rw [List.mem_flatMap] at ht
          obtain ⟨p, _, ht⟩ := ht
          exact ih _ _ _ _ ht h2

theorem hrunTasks_mem {H : HTree XR} {rng : Tree.Rng XR} {e : ℕ × ℕ} : ∀ (ts : List Task) (g : rng.G) (r : List (ℕ × ℕ) × rng.G),
    HTree.runTasks H rng ts g = some r → e ∈ r.1 → ∃ t ∈ ts, ∃ g' x, HTree.runTask H rng t g' = some x ∧ e ∈ x.1 := by
  intro ts
  induction ts with
  | nil =>
    intro g r h he
    obtain rfl : ([], g) = r := Option.some.inj h
    simp at he
  | cons t ts ih =>
    intro g r h he
    unfold HTree.runTasks at h
    simp only [Option.bind_eq_bind, Option.bind_eq_some_iff, Option.some.injEq] at h
    obtain ⟨x, h1, y, h2, rfl⟩ := h
    rcases List.mem_append.1 he with he | he
    · exact ⟨t, by simp, g, x, h1, he⟩
    · obtain ⟨t', h3, h4⟩ := ih _ _ h2 he
      exact ⟨t', by simp [h3], h4⟩

theorem hc_quarter : Real.cosh 9 < hc 5 5 (π / 2) := by
  unfold hc
  rw [cos_pi_div_two, sub_self, cosh_zero]
  have h1 : Real.cosh 10 = 2 * Real.sinh 5 ^ 2 + 1 := by
    rw [show (10 : ℝ) = 2 * 5 by norm_num, Real.cosh_two_mul, Real.cosh_sq]; ring
  have h2 : 2 * Real.cosh 9 ≤ Real.cosh 10 := by
    rw [show (10 : ℝ) = 9 + 1 by norm_num, Real.cosh_add]
    have h3 : Real.cosh (9 : ℝ) - Real.sinh 9 ≤ Real.sinh 9 := by
      rw [Real.cosh_sub_sinh]
      have : Real.exp (-9) ≤ 1 := Real.exp_le_one_iff.2 (by norm_num)
      have := Real.self_le_sinh_iff.2 (show (0 : ℝ) ≤ 9 by norm_num)
      linarith
    have h4 : (1.5 : ℝ) ≤ Real.cosh 1 := by
      have := Real.exp_one_gt_d9
      rw [Real.cosh_eq]
      have := Real.exp_pos (-1)
      have h5 : Real.exp (-1) = (Real.exp 1)⁻¹ := Real.exp_neg 1
      have h6 : Real.exp 1 < 2.7182818286 := Real.exp_one_lt_d9
      have h7 : (2.7182818286 : ℝ)⁻¹ ≤ (Real.exp 1)⁻¹ := inv_anti₀ (Real.exp_pos 1) h6.le
      have h8 : (0.36 : ℝ) ≤ (2.7182818286 : ℝ)⁻¹ := by norm_num
      linarith
    have h5 : (1 : ℝ) ≤ Real.sinh 1 := Real.self_le_sinh_iff.2 (by norm_num)
    have h6 : 0 < Real.cosh (9 : ℝ) := Real.cosh_pos 9
    nlinarith
  nlinarith

/-- the cells of the two points -/
theorem arcs_opposite {l A B : ℕ} (hl : 1 ≤ l) (hA : OnLv l A) (hB : OnLv l B) (h0 : InArc l A 0) (h1 : InArc l B π) :
    B = A + 2 ^ (l - 1) := by
  obtain ⟨m, rfl⟩ : ∃ m, l = m + 1 := ⟨l - 1, by omega⟩
  have hp := pi_pos
  have h2 : (0 : ℝ) < 2 ^ m := by positivity
  have hw : 2 * π / (2 : ℝ) ^ (m + 1) = π / 2 ^ m := by rw [pow_succ]; field_simp
  have hw0 : 0 < π / (2 : ℝ) ^ m := by positivity
  have hN : (2 : ℝ) ^ m * (π / 2 ^ m) = π := by field_simp
  unfold InArc at h0 h1
  rw [hw] at h0 h1
  rw [onLv_iff] at hA hB
  have e1 : A + 1 = 2 ^ (m + 1) := by
    have : (A : ℝ) + 1 - 2 ^ (m + 1) ≤ 0 := by
      by_contra hc
      have := mul_pos (not_le.1 hc) hw0
      linarith [h0.1]
    have h3 : ((A + 1 : ℕ) : ℝ) ≤ ((2 ^ (m + 1) : ℕ) : ℝ) := by push_cast; linarith
    have h4 : A + 1 ≤ 2 ^ (m + 1) := by exact_mod_cast h3
    omega
  have f1 : (B : ℝ) + 1 - 2 ^ (m + 1) ≤ 2 ^ m := by
    by_contra hc
    have := mul_lt_mul_of_pos_right (not_le.1 hc) hw0
    linarith [h1.1]
  have f2 : (2 : ℝ) ^ m < (B : ℝ) + 2 - 2 ^ (m + 1) := by
    by_contra hc
    have := mul_le_mul_of_nonneg_right (not_lt.1 hc) hw0.le
    linarith [h1.2]
  have g1 : B + 1 ≤ 2 ^ m + 2 ^ (m + 1) := by
    have : ((B + 1 : ℕ) : ℝ) ≤ ((2 ^ m + 2 ^ (m + 1) : ℕ) : ℝ) := by push_cast; linarith
    exact_mod_cast this
  have g2 : 2 ^ m + 2 ^ (m + 1) < B + 2 := by
    have : ((2 ^ m + 2 ^ (m + 1) : ℕ) : ℝ) < ((B + 2 : ℕ) : ℝ) := by push_cast; linarith
    exact_mod_cast this
  rw [Nat.add_sub_cancel]
  omega

/-- C61 (the exception is real).  Two points of radius 5.5 on opposite sides of a disk of radius 6, temperature 1/20: their documented
connection probability is `1 / (1 + exp 50) > 0`, but whatever the random numbers, the number of threads and the schedule, they are never
connected. -/
theorem C61_skipped_pair : hypPairProb [11 / 2, 11 / 2] [0, π] 6 (1 / 20) 0 1 = 1 / (1 + Real.exp 50) ∧
    ∀ (env : HEnv) (rng : Tree.Rng XR) (gens : ℕ → rng.G), UnitRng rng → ∀ out,
      HGenerateEdges env rng gens (xw [11 / 2, 11 / 2]) (xw [0, π]) (XR.fin (1 / 20)) (XR.fin 6) out → out = [] := by
  refine ⟨?_, ?_⟩
  · show hypProb (hypDist (11 / 2) 0 (11 / 2) π) 6 (1 / 20) = _
    have hd : hypDist (11 / 2) 0 (11 / 2) π = 11 := by
      unfold hypDist hypCosh
      rw [show Real.cos (0 - π) = -1 by rw [zero_sub, Real.cos_neg, Real.cos_pi]]
      rw [show Real.cosh (11 / 2 : ℝ) * Real.cosh (11 / 2) - Real.sinh (11 / 2) * Real.sinh (11 / 2) * -1 = Real.cosh (11 / 2 + 11 / 2) by
        rw [Real.cosh_add]; ring]
      rw [arcosh_cosh (by norm_num)]; norm_num
    rw [hd]
    unfold hypProb
    norm_num
  intro env rng gens ur out h
  have hin := skipHyp
  have h0 := h
  obtain ⟨H, hH, calls, hcl, ho⟩ := h
  have b := hH.builtX hin
  have ok := b.ok
  have st := hstartOK_XR env
  have h1f : 1 ≤ startLevel env.threads := le_trans (by norm_num) st.two
  have hT0 : (0 : ℝ) < 1 / 20 := by norm_num
  have p1 := ok.generate_perm ur.geo (b.draws hin.temp ur) b.fo st gens hcl
  have p2 := EdgeBuffer.IsMerge.perm (ho.isMerge (by unfold blockSize; omega))
  rw [List.eq_nil_iff_forall_not_mem]
  intro e he
  have he0 := he
  rw [(p2.trans p1).mem_iff, List.mem_flatMap] at he
  obtain ⟨k, hk, he⟩ := he
  rw [List.mem_range] at hk
  unfold unitEdges at he
  obtain ⟨r, hr1, hr2⟩ : ∃ r, HTree.runTasks H rng ((hUnits env H (hpair 6) (startLevel env.threads)).getD k []) (gens k) = some r ∧ e ∈ r.1 := by
    cases hc : HTree.runTasks H rng ((hUnits env H (hpair 6) (startLevel env.threads)).getD k []) (gens k) with
    | none => rw [hc] at he; simp at he
    | some r => rw [hc] at he; exact ⟨r, rfl, by simpa using he⟩
  obtain ⟨t, ht, g, x, hx, hex⟩ := hrunTasks_mem _ _ _ hr1 hr2
  have htv : t ∈ hvisit H.layers H.levels (hpair 6) true H.levels 0 0 0 := by
    refine (ok.units_subperm env h1f).subset (List.mem_flatten.2 ⟨_, ?_, ht⟩)
    rw [List.getD_eq_getElem?_getD, List.getElem?_eq_getElem hk]
    exact List.getElem_mem hk
  obtain ⟨htok, hbw⟩ := hgood_root htv
  -- the pair
  obtain ⟨cs, es, g', hcs, hrun, hsub⟩ := hrunTask_spec ur.geo (b.draws hin.temp ur) ok b.fo htok g
  rw [hx, Option.some.injEq] at hrun
  subst hrun
  obtain ⟨⟨p, q⟩, hpq, rfl⟩ := List.mem_map.1 (hsub.subset hex)
  obtain ⟨ra, rb, hr'⟩ := ok.ranges_ok htok
  rw [hr'.candidates_eq, Option.some.injEq] at hcs
  subst hcs
  have hbnd : (ra.1 ≤ p ∧ p < ra.2) ∧ (rb.1 ≤ q ∧ q < rb.2) := by
    unfold candList at hpq
    split at hpq
    · exact mem_pairListII.1 hpq
    · exact ⟨(hr'.mem_pairListI.1 hpq).1, (hr'.mem_pairListI.1 hpq).2.1⟩
  have hn : H.n = 2 := by rw [b.n_eq]; rfl
  have hnA := hr'.nA
  have hnB := hr'.nB
  rw [hn] at hnA hnB
  have hpn : p < H.points.length := by rw [ok.length_points, hn]; omega
  have hqn : q < H.points.length := by rw [ok.length_points, hn]; omega
  have ep : H.points[p]? = some H.points[p] := List.getElem?_eq_getElem hpn
  have eq : H.points[q]? = some H.points[q] := List.getElem?_eq_getElem hqn
  obtain ⟨r1, a1, d1, d2, _, _, _, _, _, d3⟩ := b.point_data hin (List.mem_of_getElem? ep)
  obtain ⟨r2, a2, e1, e2, _, _, _, _, _, e3⟩ := b.point_data hin (List.mem_of_getElem? eq)
  obtain ⟨f1, f2, f3⟩ := d3 _ _ _ ((hr'.memA _ _ ep).1 hbnd.1)
  obtain ⟨k1, k2, k3⟩ := e3 _ _ _ ((hr'.memB _ _ eq).1 hbnd.2)
  have hsim := (C49_simple_graph hin env rng ur gens out h0).1 _ he0
  have hi1 : H.idx p = H.points[p].id := HTree.idx_eq ep
  have hi2 : H.idx q = H.points[q].id := HTree.idx_eq eq
  have hids : H.points[p].id < 2 ∧ H.points[q].id < 2 ∧ H.points[p].id ≠ H.points[q].id := by
    have := hsim
    simp only [HTree.idxPair, hi1, hi2] at this
    simpa using this
  -- the layer
  have hr12 : r1 = 11 / 2 ∧ r2 = 11 / 2 ∧ (a1 = 0 ∧ a2 = π ∨ a1 = π ∧ a2 = 0) := by
    revert d1 d2 e1 e2
    generalize H.points[p].id = u at *
    generalize H.points[q].id = v at *
    obtain ⟨i1, i2, i3⟩ := hids
    have : (u = 0 ∧ v = 1) ∨ (u = 1 ∧ v = 0) := by omega
    rcases this with ⟨rfl, rfl⟩ | ⟨rfl, rfl⟩ <;> intro d1 d2 e1 e2 <;> simp at d1 d2 e1 e2 <;> subst d1 d2 e1 e2 <;> simp
  obtain ⟨rfl, rfl, hang⟩ := hr12
  have ti : t.i = 0 := by
    have : (t.i : ℝ) < 1 := by linarith
    have : t.i < 1 := by exact_mod_cast this
    omega
  have tj : t.j = 0 := by
    have : (t.j : ℝ) < 1 := by linarith
    have : t.j < 1 := by exact_mod_cast this
    omega
  have hq9 := hc_quarter
  have h96 : Real.cosh 6 < Real.cosh 9 := Real.cosh_lt_cosh.2 (by rw [abs_of_pos, abs_of_pos] <;> norm_num)
  -- the level
  have hpl : 2 ≤ hpair 6 0 0 := by
    unfold hpair
    refine le_hpbl (hc_exists (by norm_num)) ?_
    intro k hk
    have e5 : (6 : ℝ) - (0 : ℕ) - 1 = 5 := by norm_num
    rw [e5]
    have h10 : hc 5 5 (π / 2) ≤ hc 5 5 π := by
      unfold hc
      rw [cos_pi_div_two, cos_pi]
      have := mul_self_nonneg (Real.sinh 5)
      nlinarith
    have : k = 0 ∨ k = 1 := by omega
    rcases this with rfl | rfl
    · rw [pow_zero, div_one]; linarith
    · rw [pow_one]; linarith
  have hmm : ∀ A B d : ℕ, B = A + d → max A B - min A B = d ∧ max B A - min B A = d := by
    intro A B d h; subst h; constructor <;> simp
  have hdiff : 1 ≤ t.level → max t.cellA t.cellB - min t.cellA t.cellB = 2 ^ (t.level - 1) := by
    intro hl
    rcases hang with ⟨rfl, rfl⟩ | ⟨rfl, rfl⟩
    · exact (hmm _ _ _ (arcs_opposite hl htok.hA htok.hB f3 k3)).1
    · exact (hmm _ _ _ (arcs_opposite hl htok.hB htok.hA k3 f3)).2
  have hpow : ∀ l, 1 ≤ l → 2 ^ l = 2 * 2 ^ (l - 1) := by
    intro l hl
    obtain ⟨m, rfl⟩ : ∃ m, l = m + 1 := ⟨l - 1, by omega⟩
    rw [Nat.add_sub_cancel, pow_succ]; ring
  have h2 : t.two = true := by
    by_contra hc
    have hf : t.two = false := by simpa using hc
    have hlev := hvisit_typeI _ _ _ _ _ htv hf
    rw [ti, tj] at hlev
    have htouch := htok.one hf
    unfold touchN at htouch
    have h3 := hpow t.level (by omega)
    have h4 := hpow (t.level - 1) (by omega)
    have h5 : 1 ≤ 2 ^ (t.level - 1 - 1) := Nat.one_le_two_pow
    rw [hdiff (by omega), decide_eq_true_eq] at htouch
    omega
  have hl2 := two_le_level htok.hA htok.hB (htok.two h2)
  have hlev : t.level = 2 := by
    have h3 := hbw h2
    unfold betweenN at h3
    rw [hdiff (by omega), hpow t.level (by omega)] at h3
    by_contra hc
    have h4 : 2 ^ 2 ≤ 2 ^ (t.level - 1) := Nat.pow_le_pow_right (by norm_num) (by omega)
    omega
  have hb1 : betweenN t.level t.cellA t.cellB = 1 := by
    unfold betweenN
    rw [hdiff (by omega), hlev]
    norm_num
  -- the bound
  have hcd : 9 < classDist 6 t := by
    unfold classDist
    rw [lt_arcosh_iff (by norm_num), hb1, hlev, ti, tj]
    have : (6 : ℝ) - (0 : ℕ) - 1 = 5 := by norm_num
    rw [this, show ((1 : ℕ) : ℝ) * (2 * π / 2 ^ 2) = π / 2 by push_cast; ring]
    exact hq9
  have hbd : hypProb (classDist 6 t) 6 (1 / 20) ≤ 1 / 2 ^ 30 := by
    unfold hypProb
    apply one_div_le_one_div_of_le (by positivity)
    have e30 : Real.exp 30 = Real.exp 1 ^ 30 := by rw [← Real.exp_nat_mul]; norm_num
    have h3 : (2 : ℝ) ^ 30 ≤ Real.exp 1 ^ 30 := pow_le_pow_left₀ (by norm_num) (by have := Real.exp_one_gt_d9; linarith) 30
    have h4 : Real.exp 30 ≤ Real.exp ((classDist 6 t - 6) / (2 * (1 / 20))) := by
      apply Real.exp_le_exp.2
      rw [le_div_iff₀ (by norm_num)]; linarith
    linarith
  have hpos := hProb_pos (classDist 6 t) 6 (1 / 20)
  have hf := b.filterFor_eq hT0 htok h2 (hbw h2)
  have hz : H.tZero = false := by rw [b.tZero_iff]; simp
  have hmp : (DistFilter.make (XR.fin (hypProb (classDist 6 t) 6 (1 / 20))) (XR.fin 6) (XR.fin (1 / 20))).maxProb =
    XR.fin (hypProb (classDist 6 t) 6 (1 / 20)) := rfl
  generalize hypProb (classDist 6 t) 6 (1 / 20) = bd at *
  unfold HTree.runTask at hx
  rw [if_pos h2] at hx
  unfold HTree.sampleTypeII at hx
  rw [obind hr'.sizes] at hx
  have hne : (H.tZero || ra.2 - ra.1 == 0 || rb.2 - rb.1 == 0) = false := by
    rw [hz, Bool.false_or, Bool.or_eq_false_iff]
    constructor <;> simp <;> omega
  simp only [hne, Bool.false_eq_true, if_false] at hx
  rw [obind hf, hmp, XR.ofRat_eq, XR.lt_fin, if_neg (by simp only [decide_eq_true_eq]; push_cast; norm_num at hbd; linarith)] at hx
  have hN : (ra.2 - ra.1) * (rb.2 - rb.1) ≤ 2 * 2 := Nat.mul_le_mul (by omega) (by omega)
  have hN' : ((((ra.2 - ra.1) * (rb.2 - rb.1) : ℕ)) : ℝ) ≤ 4 := by exact_mod_cast hN
  rw [XR.ofNat_eq, XR.mul_fin, XR.ofRat_eq, XR.lt_fin, if_pos (by
    simp only [decide_eq_true_eq]
    have := mul_le_mul_of_nonneg_right hN' hpos.le
    push_cast at this ⊢
    norm_num at hbd
    linarith)] at hx
  have he1 : ([], g) = (es, g') := Option.some.inj hx
  have he2 : es = [] := (congrArg Prod.fst he1).symm
  rw [he2] at hex
  simp at hex

/-- the call of C61_skipped_pair returns (with an empty list): one thread, constant random numbers -/
example : HGenerateEdges (exampleHEnv true 1 (by norm_num) (by norm_num)) exampleRng (fun _ => ()) (xw [11 / 2, 11 / 2]) (xw [0, π])
    (XR.fin (1 / 20)) (XR.fin 6) [] := by
  obtain ⟨out, h⟩ := (C44_returns_iff skipHyp (exampleHEnv true 1 (by norm_num) (by norm_num)) exampleRng exampleRng_unit
    (fun _ => ())).2 (Or.inl rfl)
  rwa [C61_skipped_pair.2 _ _ _ exampleRng_unit _ h] at h

end Girgs.Props
