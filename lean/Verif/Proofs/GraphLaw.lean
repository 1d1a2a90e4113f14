import Verif.Proofs.SampleLaw
import Verif.Proofs.Threshold
import Verif.Proofs.FlipLaw
/-
The distribution of the graph, with ideal random numbers.
-/
namespace Girgs
open MeasureTheory Spec CFloat Tree
open scoped ENNReal

variable {D : Nat} {ndebug : Bool} {w : List ℝ} {x : List (Fin D → ℝ)} {a : ℝ} {T : Tree XR D} {m : ℝ}

theorem girgProb_comm (u v : Nat) : girgProb w x a u v = girgProb w x a v u := by
  unfold girgProb
  rcases w[u]? with _ | p <;> rcases w[v]? with _ | q <;> rcases x[u]? with _ | r <;> rcases x[v]? with _ | s <;>
    simp only [torusDist_comm, mul_comm] <;> try rfl

theorem girgProb_nonneg (s : SupportedInput D w x) (u v : Nat) : 0 ≤ girgProb w x a u v ∧ girgProb w x a u v ≤ 1 := by
  unfold girgProb
  split
  · rename_i p q y z h1 h2 h3 h4
    have hp := s.wpos p (List.mem_of_getElem? h1)
    have hq := s.wpos q (List.mem_of_getElem? h2)
    have hW : 0 < w.sum := lt_of_lt_of_le hp (sum_ge_mem s.wpos (List.mem_of_getElem? h1))
    split
    · norm_num
    · refine ⟨le_min (by norm_num) (Real.rpow_nonneg ?_ _), min_le_left _ _⟩
      have := torusDist_nonneg y z
      positivity
  · norm_num

/-- what the code computes for a pair is the documented probability -/
theorem BuiltX.pairProb_girg (b : BuiltX D ndebug w x (XR.fin a) T m) (s : SupportedInput D w x) (ha : 0 < a) {c : Nat × Nat}
    (h1 : c.1 < T.nodes.length) (h2 : c.2 < T.nodes.length) : pairProb T c = girgProb w x a (T.idx c.1) (T.idx c.2) := by
  have e1 : T.nodes[c.1]? = some T.nodes[c.1] := List.getElem?_eq_getElem h1
  have e2 : T.nodes[c.2]? = some T.nodes[c.2] := List.getElem?_eq_getElem h2
  rw [pairProb_eq e1 e2]
  obtain ⟨u, p, f1, f2, f3, f4⟩ := b.lookup e1
  obtain ⟨v, q, g1, g2, g3, g4⟩ := b.lookup e2
  obtain ⟨t1, t2⟩ := b.terms s f3 g3 f4 g4
  have hu := s.wpos u (List.mem_of_getElem? f1)
  have hv := s.wpos v (List.mem_of_getElem? g1)
  have hW := b.W_pos s
  have hd := torusDist_nonneg p q
  unfold girgProb edgeProb
  rw [Tree.idx_eq e1, Tree.idx_eq e2, f1, f2, g1, g2, t1, t2, b.alpha_eq]
  simp only
  split
  · rename_i h0
    rw [h0, zero_pow (by have := s.D1; omega), XR.div_zero_pos _ (by positivity)]
    have : CFloat.pow XR.pinf (XR.fin a) = XR.pinf := by
      show XR.pow _ _ = _
      unfold XR.pow
      simp [ha.ne', ha]
    rw [this]; rfl
  · rename_i h0
    have hd' : 0 < torusDist p q := lt_of_le_of_ne hd (Ne.symm h0)
    have hr : 0 < u * v / w.sum / torusDist p q ^ D := by positivity
    rw [XR.div_fin _ _ (by positivity), XR.pow_fin _ _ hr]
    show unit _ = _
    unfold unit
    rw [max_eq_right (le_min (Real.rpow_nonneg hr.le _) (by norm_num)), min_comm]

/-- the bound of a type II call -/
theorem BuiltX.boundII (b : BuiltX D ndebug w x (XR.fin a) T m) (s : SupportedInput D w x) (ha : 0 < a) {t : Task} (ht : TaskOK T t)
    (h2 : t.two = true) {ra rb : Nat × Nat} (hr : RangesOK T t ra rb) : ∃ bd : ℝ, T.maxProb t = some (XR.fin bd) ∧ 0 < bd ∧ bd ≤ 1 ∧
      ∀ c ∈ pairListII ra rb, ∀ y z, T.nodes[c.1]? = some y → T.nodes[c.2]? = some z →
        T.edgeProb y z = XR.fin (pairProb T c) ∧ 0 ≤ pairProb T c ∧ pairProb T c ≤ bd := by
  have ok := b.ok
  obtain ⟨r, wu, hb⟩ := b.typeII s ht h2
  have hpos := hb.ratio_pos
  have hle := hb.ratio_le
  have hW := b.W_pos s
  have hbd1 : (wu / r ^ D) ^ a ≤ 1 := Real.rpow_le_one hpos.le hle ha.le
  refine ⟨(wu / r ^ D) ^ a, ?_, Real.rpow_pos_of_pos hpos a, hbd1, ?_⟩
  · rw [hb.maxProb, b.alpha_eq, XR.pow_fin _ _ hpos, XR.fmin_fin, min_eq_left hbd1]
  · intro c hc y z hy hz
    obtain ⟨i, j⟩ := c
    have hhit : Hit T t i j := mem_pair_hit ok hr ((hr.pairLists_perm (ht.two h2).1).mem_iff.2 hc)
    obtain ⟨y', z', hy', hz', h3, h4, _⟩ := hhit
    rw [hy, Option.some.injEq] at hy'
    rw [hz, Option.some.injEq] at hz'
    subst hy' hz'
    obtain ⟨u, p, e1, e2, e3, e4⟩ := b.lookup hy
    obtain ⟨v, q, f1, f2, f3, f4⟩ := b.lookup hz
    obtain ⟨h5, h6⟩ := hb.pair y (List.mem_of_getElem? hy) z (List.mem_of_getElem? hz) u v p q e1 f1 e2 f2 h3 h4
    have hd : 0 < torusDist p q := lt_of_lt_of_le hb.rpos h6
    have hu0 := s.wpos u (List.mem_of_getElem? e1)
    have hv0 := s.wpos v (List.mem_of_getElem? f1)
    have hratio : 0 < u * v / w.sum / torusDist p q ^ D := by positivity
    have hep : T.edgeProb y z = XR.fin ((u * v / w.sum / torusDist p q ^ D) ^ a) := by
      obtain ⟨g1, g2⟩ := b.terms s e3 f3 e4 f4
      unfold edgeProb
      rw [g1, g2, XR.div_fin _ _ (by positivity), b.alpha_eq, XR.pow_fin _ _ hratio]
    have hle2 : (u * v / w.sum / torusDist p q ^ D) ^ a ≤ (wu / r ^ D) ^ a := by
      apply Real.rpow_le_rpow hratio.le _ ha.le
      exact div_le_div₀ hb.wpos.le h5.le (pow_pos hb.rpos D) (pow_le_pow_left₀ hb.rpos.le h6 D)
    have hnn : 0 ≤ (u * v / w.sum / torusDist p q ^ D) ^ a := Real.rpow_nonneg hratio.le _
    have hpp : pairProb T (i, j) = (u * v / w.sum / torusDist p q ^ D) ^ a := by
      rw [pairProb_eq hy hz, hep, xunit, unit_eq hnn (hle2.trans hbd1)]
    rw [hep, hpp]
    exact ⟨rfl, hnn, hle2⟩

/-- the coins of a sampling call: the pairs it examines with the probabilities with which it emits them -/
noncomputable def taskCoins (T : Tree XR D) (t : Task) : List ((Nat × Nat) × ℝ) :=
  match T.ranges t, T.maxProb t with
  | some (ra, rb), some mp =>
    if t.two then
      if ofRat (1 / 5) <. mp then coins T (pairListI t ra rb)
      else if (ofNat ((ra.2 - ra.1) * (rb.2 - rb.1)) *. mp) <. ofRat (1 / 1000000) then (pairListII ra rb).map fun c => (T.idxPair c, 0)
      else coins T (pairListII ra rb)
    else coins T (pairListI t ra rb)
  | _, _ => []

theorem flips_zero {E : Type} (L : List E) : flips (L.map fun e => (e, (0 : ℝ))) = PMF.pure [] := by
  induction L with
  | nil => rfl
  | cons e L ih =>
    rw [List.map_cons, flips, ih, coin_eq_pure (b := false) (by rw [unit_eq] <;> norm_num), PMF.pure_bind]
    simp [PMF.pure_map]

section
variable {rng : Rng XR} [MeasurableSpace rng.G] {μ : Measure rng.G}

/-- the skipping loop with its first jump -/
theorem skip_law (id : IdealRng rng μ) {ra rb : Nat × Nat} (hA : ra.2 ≤ T.nodes.length) (hB : rb.2 ≤ T.nodes.length)
    (hn : T.nodes.length < 2147483648) {bd : ℝ} (h0 : 0 < bd) (h1 : bd ≤ 1)
    (hprob : ∀ c ∈ pairListII ra rb, ∀ u v, T.nodes[c.1]? = some u → T.nodes[c.2]? = some v →
      T.edgeProb u v = XR.fin (pairProb T c)) (hle : ∀ c ∈ pairListII ra rb, 0 ≤ pairProb T c ∧ pairProb T c ≤ bd) :
    LawO μ (fun g => loopII T rng ra rb (XR.fin bd) ((ra.2 - ra.1) * (rb.2 - rb.1) + 1) (rng.geo (XR.fin bd) g).1 (rng.geo (XR.fin bd) g).2)
      (flips (coins T (pairListII ra rb))) := by
  have hprobm := id.prob
  rw [← skip_eq_flips h0 h1 _ (by
    intro e he
    obtain ⟨c, hc, rfl⟩ := List.mem_map.1 he
    exact hle c hc)]
  obtain ⟨k, hk, hke, hkmap⟩ := id.geo bd h0 h1
  have lawK := Law.ofDiscrete hk hkmap
  have hloop : ∀ j : Nat, LawO μ (loopII T rng ra rb (XR.fin bd) ((ra.2 - ra.1) * (rb.2 - rb.1) + 1) (min j 9223372036854775807))
      (skipFrom bd h0 h1 j (coins T (pairListII ra rb))) := by
    intro j
    have hlen : (coins T (pairListII ra rb)).length = (ra.2 - ra.1) * (rb.2 - rb.1) := by simp [coins, pairListII]
    have hNlt : (ra.2 - ra.1) * (rb.2 - rb.1) < 4611686018427387904 := by
      have h1 : ra.2 - ra.1 ≤ 2147483647 := by omega
      have h2 : rb.2 - rb.1 ≤ 2147483647 := by omega
      have := Nat.mul_le_mul h1 h2
      omega
    rw [skipFrom_drop]
    have hd : (coins T (pairListII ra rb)).drop j = (coins T (pairListII ra rb)).drop (min j 9223372036854775807) := by
      rcases le_total j 9223372036854775807 with h | h
      · rw [min_eq_left h]
      · rw [min_eq_right h, List.drop_eq_nil_of_le (by omega), List.drop_eq_nil_of_le (by omega)]
    rw [hd]
    exact loopII_law id hA hB hn h0 h1 hprob _ _ (by omega) (by omega)
  choose rest hrest1 hrest2 using hloop
  refine ⟨_, fun g => ?_, lawK.bind hrest2⟩
  simp only [hke]
  exact hrest1 _ _

theorem runTask_law (id : IdealRng rng μ) (b : BuiltX D ndebug w x (XR.fin a) T m) (s : SupportedInput D w x) (ha : 0 < a)
    {t : Task} (ht : TaskOK T t) : LawO μ (runTask T rng t) (flips (taskCoins T t)) := by
  have ok := b.ok
  have hprobm := id.prob
  have hth : T.isThreshold = false := by unfold Tree.isThreshold; rw [b.alpha_eq]; rfl
  obtain ⟨ra, rb, hr⟩ := ok.ranges_ok ht
  obtain ⟨mp, hmp⟩ := ok.maxProb_some ht
  unfold taskCoins runTask
  rw [hr.eq, hmp]
  simp only
  by_cases h2 : t.two = true
  swap
  · simp only [h2, Bool.false_eq_true, if_false]
    exact sampleTypeI_law id hth ok hr
  simp only [h2, if_true]
  obtain ⟨bd, h3, h0, h1, hpair⟩ := b.boundII s ha ht h2 hr
  obtain rfl : mp = XR.fin bd := by rw [hmp, Option.some.injEq] at h3; exact h3
  have hnodes : T.nodes.length < 2147483648 := by rw [ok.length_nodes, b.n_eq]; exact s.small
  have hA : ra.2 ≤ T.nodes.length := by rw [ok.length_nodes]; exact hr.nA
  have hB : rb.2 ≤ T.nodes.length := by rw [ok.length_nodes]; exact hr.nB
  by_cases hemp : ra.1 = ra.2 ∨ rb.1 = rb.2
  · have e1 : pairListI t ra rb = [] := by
      rw [List.eq_nil_iff_forall_not_mem]
      rintro ⟨p, q⟩ hm
      have := hr.mem_pairListI.1 hm
      omega
    have e2 : pairListII ra rb = [] := by
      rw [List.eq_nil_iff_forall_not_mem]
      rintro ⟨p, q⟩ hm
      have := mem_pairListII.1 hm
      omega
    rw [e1, e2]
    simp only [coins, List.map_nil, ite_self]
    refine ⟨fun g => ([], g), fun g => ?_, Law.pure _⟩
    unfold sampleTypeII
    refine (obind hr.eq _).trans ?_
    simp [hemp]
  by_cases h5 : (ofRat (1 / 5) <. XR.fin bd) = true
  · simp only [h5, if_true]
    obtain ⟨r, g1, g2⟩ := sampleTypeI_law id hth ok hr
    refine ⟨r, fun g => ?_, g2⟩
    unfold sampleTypeII
    refine (obind hr.eq _).trans ?_
    simp only [hemp, if_false]
    refine (obind hmp _).trans ?_
    simp only [h5, if_true]
    exact g1 g
  by_cases h6 : ((ofNat ((ra.2 - ra.1) * (rb.2 - rb.1)) *. XR.fin bd) <. ofRat (1 / 1000000)) = true
  · simp only [h5, h6, if_true, Bool.false_eq_true, if_false]
    have : (pairListII ra rb).map (fun c => (T.idxPair c, (0 : ℝ))) = ((pairListII ra rb).map T.idxPair).map fun e => (e, 0) := by
      rw [List.map_map]; rfl
    rw [this, flips_zero]
    refine ⟨fun g => ([], g), fun g => ?_, Law.pure _⟩
    unfold sampleTypeII
    refine (obind hr.eq _).trans ?_
    simp only [hemp, if_false]
    refine (obind hmp _).trans ?_
    simp only [h5, h6, if_true, Bool.false_eq_true, if_false]
  · simp only [h5, h6, Bool.false_eq_true, if_false]
    have hnd : ∀ c ∈ pairListII ra rb, c.1 < T.nodes.length ∧ c.2 < T.nodes.length := by
      intro c hc
      obtain ⟨m1, m2⟩ := mem_pairListII.1 (show (c.1, c.2) ∈ pairListII ra rb from hc)
      exact ⟨by omega, by omega⟩
    obtain ⟨r, g1, g2⟩ := skip_law id hA hB hnodes h0 h1 (fun c hc u v hu hv => (hpair c hc u v hu hv).1) (fun c hc =>
      (hpair c hc _ _ (List.getElem?_eq_getElem (hnd c hc).1) (List.getElem?_eq_getElem (hnd c hc).2)).2)
    refine ⟨r, fun g => ?_, g2⟩
    unfold sampleTypeII
    refine (obind hr.eq _).trans ?_
    simp only [hemp, if_false]
    refine (obind hmp _).trans ?_
    simp only [h5, h6, Bool.false_eq_true, if_false]
    exact g1 g

theorem runTasks_law (id : IdealRng rng μ) (b : BuiltX D ndebug w x (XR.fin a) T m) (s : SupportedInput D w x) (ha : 0 < a)
    (ts : List Task) (hts : ∀ t ∈ ts, TaskOK T t) : LawO μ (runTasks T rng ts) (flips (ts.flatMap (taskCoins T))) := by
  induction ts with
  | nil => exact ⟨fun g => ([], g), fun g => rfl, Law.pure _⟩
  | cons t ts ih =>
    obtain ⟨r1, h1, h2⟩ := runTask_law id b s ha (hts t (by simp))
    obtain ⟨r2, h3, h4⟩ := ih (fun t ht => hts t (by simp [ht]))
    refine ⟨_, fun g => ?_, (h2.bind (run2 := fun es g => (es ++ (r2 g).1, (r2 g).2))
      (Q := fun es => (flips (ts.flatMap (taskCoins T))).map fun fs => es ++ fs) (fun es => h4.map fun fs => es ++ fs)).congr (fun _ => rfl) ?_⟩
    · unfold runTasks
      refine (obind (h1 g) _).trans ?_
      exact (obind (h3 _) _).trans rfl
    · rw [List.flatMap_cons, flips_append]

/-- threads with independent generators -/
theorem threads_law (id : IdealRng rng μ) (b : BuiltX D ndebug w x (XR.fin a) T m) (s : SupportedInput D w x) (ha : 0 < a) {n : Nat} :
    ∀ (tss : List (List Task)) (j : Nat), (∀ t ∈ tss.flatten, TaskOK T t) → j + tss.length ≤ n →
    ∃ r : (Fin n → rng.G) → List (Nat × Nat) × (Fin n → rng.G), Law (Measure.pi fun _ : Fin n => μ) r (flips (tss.flatten.flatMap (taskCoins T))) ∧
      ∀ (gens : Fin n → rng.G) (calls : List (List (Nat × Nat))), calls.length = tss.length →
        (∀ (k : Nat) (ts : List Task), tss[k]? = some ts → ∀ h : j + k < n, ∃ r', runTasks T rng ts (gens ⟨j + k, h⟩) = some r' ∧ calls[k]? = some r'.1) →
        (r gens).1 = calls.flatten := by
  have hprobm := id.prob
  intro tss
  induction tss with
  | nil =>
    intro j _ _
    refine ⟨fun g => ([], g), Law.pure _, ?_⟩
    intro gens calls h _
    obtain rfl : calls = [] := List.length_eq_zero_iff.1 h
    rfl
  | cons ts tss ih =>
    intro j hok hj
    rw [List.length_cons] at hj
    obtain ⟨r1, h1, h2⟩ := runTasks_law id b s ha ts (fun t ht => hok t (by rw [List.flatten_cons]; exact List.mem_append_left _ ht))
    obtain ⟨r2, h3, h4⟩ := ih (j + 1) (fun t ht => hok t (by rw [List.flatten_cons]; exact List.mem_append_right _ ht)) (by omega)
    have hjn : j < n := by omega
    have hc := Law.coord (⟨j, hjn⟩ : Fin n) h2
    refine ⟨_, (hc.bind (run2 := fun es g => (es ++ (r2 g).1, (r2 g).2))
      (Q := fun es => (flips (tss.flatten.flatMap (taskCoins T))).map fun fs => es ++ fs) (fun es => h3.map fun fs => es ++ fs)).congr (fun _ => rfl) ?_, ?_⟩
    · rw [List.flatten_cons, List.flatMap_append, flips_append]
    · intro gens calls hlen hcalls
      cases calls with
      | nil => simp at hlen
      | cons c calls =>
        obtain ⟨r', e1, e2⟩ := hcalls 0 ts rfl (by omega)
        simp only [Nat.add_zero, List.getElem?_cons_zero, Option.some.injEq] at e1 e2
        rw [h1, Option.some.injEq] at e1
        subst e1
        rw [List.flatten_cons]
        simp only
        congr 1
        · exact e2.symm
        · apply h4 _ calls (by simpa using hlen)
          intro k ts' hk h
          obtain ⟨r', e3, e4⟩ := hcalls (k + 1) ts' (by simpa using hk) (by omega)
          refine ⟨r', ?_, by simpa using e4⟩
          rw [← e3]
          congr 1
          rw [Function.update_of_ne (by simp only [ne_eq, Fin.mk.injEq]; omega)]
          congr 1
          simp only [Fin.mk.injEq]
          omega

end

/-! ### the coins of all calls -/

theorem TreeOK.taskCoins_fst (ok : TreeOK T) {t : Task} (ht : TaskOK T t) {cs : List (Nat × Nat)} (hcs : T.candidates t = some cs) :
    ((taskCoins T t).map Prod.fst).Perm (cs.map T.idxPair) := by
  obtain ⟨ra, rb, hr⟩ := ok.ranges_ok ht
  obtain ⟨mp, hmp⟩ := ok.maxProb_some ht
  rw [hr.candidates_eq, Option.some.injEq] at hcs
  subst hcs
  have hc : ∀ L : List (Nat × Nat), (coins T L).map Prod.fst = L.map T.idxPair := by
    intro L; unfold coins; rw [List.map_map]; rfl
  unfold taskCoins candList
  rw [hr.eq, hmp]
  simp only
  by_cases h2 : t.two = true
  · simp only [h2, if_true]
    split
    · rw [hc]; exact (hr.pairLists_perm (ht.two h2).1).map _
    · split
      · rw [List.map_map]; exact List.Perm.refl _
      · rw [hc]
  · simp only [h2, Bool.false_eq_true, if_false]
    rw [hc]

theorem TreeOK.allCoins_fst (ok : TreeOK T) : ∀ (ts : List Task), (∀ t ∈ ts, TaskOK T t) → ∀ cs, T.allCandidates ts = some cs →
    ((ts.flatMap (taskCoins T)).map Prod.fst).Perm (cs.map T.idxPair) := by
  intro ts
  induction ts with
  | nil =>
    intro _ cs h
    simp only [Tree.allCandidates, Tree.concatM, Option.some.injEq] at h
    subst h; simp
  | cons t ts ih =>
    intro hok cs h
    have ht := hok t (by simp)
    obtain ⟨ra, rb, hr⟩ := ok.ranges_ok ht
    obtain ⟨cs', h1, _⟩ := ok.allCandidates_count ts (fun t ht => hok t (by simp [ht]))
    have h2 := ih (fun t ht => hok t (by simp [ht])) cs' h1
    have h3 := ok.taskCoins_fst ht hr.candidates_eq
    unfold Tree.allCandidates Tree.concatM at h
    rw [obind hr.candidates_eq] at h
    rw [obind (show Tree.concatM ts T.candidates = some cs' from h1)] at h
    simp only [Option.some.injEq] at h
    subst h
    rw [List.flatMap_cons, List.map_append, List.map_append]
    exact h3.append h2

/-- the probabilities of the coins -/
theorem BuiltX.coin_prob (b : BuiltX D ndebug w x (XR.fin a) T m) (s : SupportedInput D w x) (ha : 0 < a) {t : Task} (ht : TaskOK T t)
    {c : (Nat × Nat) × ℝ} (hc : c ∈ taskCoins T t) : c.2 = girgProb w x a c.1.1 c.1.2 ∨
      (c.2 = 0 ∧ girgProb w x a c.1.1 c.1.2 < 1 / 1000000) := by
  have ok := b.ok
  obtain ⟨ra, rb, hr⟩ := ok.ranges_ok ht
  obtain ⟨mp, hmp⟩ := ok.maxProb_some ht
  have hA : ra.2 ≤ T.nodes.length := by rw [ok.length_nodes]; exact hr.nA
  have hB : rb.2 ≤ T.nodes.length := by rw [ok.length_nodes]; exact hr.nB
  have coinsI : c ∈ coins T (pairListI t ra rb) → c.2 = girgProb w x a c.1.1 c.1.2 := by
    intro h
    obtain ⟨⟨p, q⟩, h1, rfl⟩ := List.mem_map.1 h
    have := hr.mem_pairListI.1 h1
    exact b.pairProb_girg s ha (by simp only; omega) (by simp only; omega)
  have coinsII : c ∈ coins T (pairListII ra rb) → c.2 = girgProb w x a c.1.1 c.1.2 := by
    intro h
    obtain ⟨⟨p, q⟩, h1, rfl⟩ := List.mem_map.1 h
    have := mem_pairListII.1 h1
    exact b.pairProb_girg s ha (by simp only; omega) (by simp only; omega)
  unfold taskCoins at hc
  rw [hr.eq, hmp] at hc
  simp only at hc
  by_cases h2 : t.two = true
  · simp only [h2, if_true] at hc
    obtain ⟨bd, h3, h0, h1, hpair⟩ := b.boundII s ha ht h2 hr
    rw [hmp, Option.some.injEq] at h3
    subst h3
    split at hc
    · exact Or.inl (coinsI hc)
    · split at hc
      · rename_i h6
        right
        obtain ⟨⟨p, q⟩, g1, rfl⟩ := List.mem_map.1 hc
        have hm := mem_pairListII.1 g1
        have hp1 : p < T.nodes.length := by omega
        have hq1 : q < T.nodes.length := by omega
        have hle := (hpair (p, q) g1 _ _ (List.getElem?_eq_getElem hp1) (List.getElem?_eq_getElem hq1)).2.2
        rw [b.pairProb_girg s ha hp1 hq1] at hle
        refine ⟨rfl, lt_of_le_of_lt hle ?_⟩
        simp only [XR.ofNat_eq, XR.mul_fin, XR.ofRat_eq, XR.lt_fin, decide_eq_true_eq] at h6
        have hN : 1 ≤ (ra.2 - ra.1) * (rb.2 - rb.1) := Nat.mul_pos (by omega) (by omega)
        have hN' : (1 : ℝ) ≤ (((ra.2 - ra.1) * (rb.2 - rb.1) : Nat) : ℝ) := by exact_mod_cast hN
        have := mul_le_mul_of_nonneg_right hN' h0.le
        rw [one_mul] at this
        refine lt_of_le_of_lt this ?_
        push_cast at h6 ⊢
        exact h6
      · exact Or.inl (coinsII hc)
  · simp only [h2, Bool.false_eq_true, if_false] at hc
    exact Or.inl (coinsI hc)

/-! ### graphs -/

theorem IsGraphOf.perm {n : Nat} {R : Nat → Nat → Prop} {es fs : List (Nat × Nat)} (h : es.Perm fs) (hg : IsGraphOf n R fs) : IsGraphOf n R es := by
  have hs := perm_simple h (show IsSimpleGraph n fs from ⟨hg.1, hg.2.1⟩)
  refine ⟨hs.1, hs.2, ?_⟩
  intro u v hu hv huv
  rw [h.mem_iff, h.mem_iff]
  exact hg.2.2 u v hu hv huv

theorem eachPairOnce_perm {n : Nat} {es fs : List (Nat × Nat)} (h : es.Perm fs) (hg : EachPairOnce n fs) : EachPairOnce n es := by
  refine ⟨fun e he => hg.1 e (h.mem_iff.1 he), ?_⟩
  intro u v hu hv huv
  have := hg.2 u v hu hv huv
  unfold occurrences at *
  rw [h.count_eq, h.count_eq]
  exact this

theorem EachPairOnce.not_swap {n : Nat} {M : List (Nat × Nat)} (h : EachPairOnce n M) {u v : Nat} (hm : (u, v) ∈ M) : (v, u) ∉ M := by
  intro hm'
  have h1 := h.1 _ hm
  simp only at h1
  have h2 := h.2 u v h1.1 h1.2.1 h1.2.2
  have := List.count_pos_iff.2 hm
  have := List.count_pos_iff.2 hm'
  unfold occurrences at h2
  omega

theorem EachPairOnce.mem_or {n : Nat} {M : List (Nat × Nat)} (h : EachPairOnce n M) {u v : Nat} (hu : u < n) (hv : v < n) (huv : u ≠ v) :
    (u, v) ∈ M ∨ (v, u) ∈ M := by
  have h2 := h.2 u v hu hv huv
  unfold occurrences at h2
  by_contra hc
  rw [not_or] at hc
  rw [List.count_eq_zero.2 hc.1, List.count_eq_zero.2 hc.2] at h2
  omega

open Classical in
theorem graph_iff_filter {n : Nat} {M es : List (Nat × Nat)} (h : EachPairOnce n M) (hs : es.Sublist M) {R : Nat → Nat → Prop}
    (hR : ∀ u v, R u v → R v u) : IsGraphOf n R es ↔ es = M.filter fun e => decide (R e.1 e.2) := by
  have hsimM : IsSimpleGraph n M := EachPairOnce.simple h (List.Subperm.refl _)
  have hnd : M.Nodup := hsimM.2.imp fun h => h.1
  constructor
  · intro hg
    rw [sublist_eq_filter hs hnd]
    apply List.filter_congr
    rintro ⟨u, v⟩ hm
    simp only [decide_eq_decide]
    have h1 := h.1 _ hm
    simp only at h1
    rw [← hg.2.2 u v h1.1 h1.2.1 h1.2.2]
    have : (v, u) ∉ es := fun h2 => EachPairOnce.not_swap h hm (hs.subset h2)
    tauto
  · rintro rfl
    have hsim : IsSimpleGraph n (M.filter fun e => decide (R e.1 e.2)) := EachPairOnce.simple h hs.subperm
    refine ⟨hsim.1, hsim.2, ?_⟩
    intro u v hu hv huv
    simp only [List.mem_filter, decide_eq_true_eq]
    constructor
    · rintro (h1 | h1)
      · exact h1.2
      · exact hR _ _ h1.2
    · intro h1
      rcases EachPairOnce.mem_or h hu hv huv with h2 | h2
      · exact Or.inl ⟨h2, h1⟩
      · exact Or.inr ⟨h2, hR _ _ h1⟩

/-! ### independence of the build type -/

theorem visitP_ndebug (hth : T.isThreshold = false) (nd : Bool) : ∀ (k A B l : Nat), visitP { T with ndebug := nd } k A B l = visitP T k A B l := by
  have hII : ∀ A B l, tasksII { T with ndebug := nd } A B l = tasksII T A B l := by
    intro A B l
    have hth' : Tree.isThreshold { T with ndebug := nd } = false := hth
    unfold tasksII
    rw [hth, hth', Bool.and_false, Bool.and_false]
    rfl
  intro k
  induction k with
  | zero => intro A B l; rfl
  | succ k ih =>
    intro A B l
    unfold visitP
    rw [hII]
    simp only [ih]
    rfl

theorem Constructed.setDebug {F : Type} [CFloat F] {D : Nat} {nd : Bool} {weights : List F} {positions : List (Fin D → F)} {alpha : F} {T : Tree F D}
    (hc : Constructed nd weights positions alpha T) (nd' : Bool) : Constructed nd' weights positions alpha { T with ndebug := nd' } := by
  obtain ⟨h1, lp, fc, nodes0, wl, e1, e2, e3, e4, e5, maxCell, e6, omp, t, B0, nodes, threads, first, ht1, ht, hB, hrun,
    hth1, hth2, hidx, rfl⟩ := hc
  exact ⟨h1, lp, fc, nodes0, wl, e1, e2, e3, e4, e5, maxCell, e6, omp, t, B0, nodes, threads, first, ht1, ht, hB, hrun,
    hth1, hth2, hidx, rfl⟩

/-! ### the law of the result -/

/-- all coins of a run -/
noncomputable def allCoins (T : Tree XR D) : List ((Nat × Nat) × ℝ) := (visitP T T.levels 0 0 0).flatMap (taskCoins T)

open Classical in
/-- some number with a property, or 0 -/
noncomputable def pick (P : ℝ → Prop) : ℝ := if h : ∃ q, P q then h.choose else 0

/-- the probability with which a pair is connected -/
noncomputable def edgePr (T : Tree XR D) (u v : Nat) : ℝ := pick fun q => ((u, v), q) ∈ allCoins T ∨ ((v, u), q) ∈ allCoins T

theorem BuiltX.allCoins_once (b : BuiltX D ndebug w x (XR.fin a) T m) {ts : List Task} (hp : ts.Perm (visitP T T.levels 0 0 0)) :
    EachPairOnce w.length ((ts.flatMap (taskCoins T)).map Prod.fst) := by
  have ok := b.ok
  have hon : OnLevel D 0 0 := ⟨by simp [levelStart], by simp [levelStart]⟩
  have hth : T.isThreshold = false := by unfold Tree.isThreshold; rw [b.alpha_eq]; rfl
  obtain ⟨cs, h1, h2⟩ := ok.eachPairOnce (by rw [hth]; simp) hp
  rw [b.n_eq] at h2
  exact eachPairOnce_perm (ok.allCoins_fst ts (fun t ht => visitP_ok _ _ _ _ hon hon t (hp.mem_iff.1 ht)) cs h1) h2

theorem once_unique {n : Nat} {L : List ((Nat × Nat) × ℝ)} (h : EachPairOnce n (L.map Prod.fst)) {u v : Nat} {p q : ℝ}
    (h1 : ((u, v), p) ∈ L) (h2 : ((u, v), q) ∈ L ∨ ((v, u), q) ∈ L) : p = q := by
  have hnd : (L.map Prod.fst).Nodup := (EachPairOnce.simple h (List.Subperm.refl _)).2.imp fun h => h.1
  rcases h2 with h2 | h2
  · have := List.inj_on_of_nodup_map hnd h1 h2 rfl
    exact (Prod.mk.inj this).2
  · exact absurd (List.mem_map.2 ⟨_, h2, rfl⟩) (EachPairOnce.not_swap h (List.mem_map.2 ⟨_, h1, rfl⟩))

theorem BuiltX.edgePr_eq (b : BuiltX D ndebug w x (XR.fin a) T m) {u v : Nat} {q : ℝ} (h : ((u, v), q) ∈ allCoins T) :
    edgePr T u v = q := by
  have hex : ∃ q, ((u, v), q) ∈ allCoins T ∨ ((v, u), q) ∈ allCoins T := ⟨q, Or.inl h⟩
  unfold edgePr pick
  rw [dif_pos hex]
  exact (once_unique (b.allCoins_once (List.Perm.refl _)) h hex.choose_spec).symm

theorem edgePr_comm (u v : Nat) : edgePr T u v = edgePr T v u := by
  unfold edgePr
  have : (fun q : ℝ => ((u, v), q) ∈ allCoins T ∨ ((v, u), q) ∈ allCoins T) = fun q => ((v, u), q) ∈ allCoins T ∨ ((u, v), q) ∈ allCoins T := by
    funext q; rw [or_comm]
  rw [this]

theorem BuiltX.edgePr_spec (b : BuiltX D ndebug w x (XR.fin a) T m) (s : SupportedInput D w x) (ha : 0 < a) {u v : Nat}
    (hu : u < w.length) (hv : v < w.length) (huv : u ≠ v) :
    edgePr T u v = girgProb w x a u v ∨ (edgePr T u v = 0 ∧ girgProb w x a u v < 1 / 1000000) := by
  have hon : OnLevel D 0 0 := ⟨by simp [levelStart], by simp [levelStart]⟩
  have key : ∀ u v, (u, v) ∈ (allCoins T).map Prod.fst → edgePr T u v = girgProb w x a u v ∨ (edgePr T u v = 0 ∧ girgProb w x a u v < 1 / 1000000) := by
    intro u v hm
    obtain ⟨⟨e, q⟩, h1, rfl⟩ := List.mem_map.1 hm
    rw [b.edgePr_eq h1]
    obtain ⟨t, ht, h2⟩ := List.mem_flatMap.1 h1
    exact b.coin_prob s ha (visitP_ok _ _ _ _ hon hon t ht) h2
  rcases EachPairOnce.mem_or (b.allCoins_once (List.Perm.refl _)) hu hv huv with h | h
  · exact key u v h
  · rw [edgePr_comm, girgProb_comm]; exact key v u h

theorem edgePr_ndebug (hth : T.isThreshold = false) (nd : Bool) (u v : Nat) : edgePr { T with ndebug := nd } u v = edgePr T u v := by
  have : allCoins { T with ndebug := nd } = allCoins T := by
    unfold allCoins
    rw [visitP_ndebug hth]
    rfl
  unfold edgePr
  rw [this]

section
variable {rng : Rng XR} [MeasurableSpace rng.G] {μ : Measure rng.G}

/-- the edges of a run, as a random list -/
theorem run_law (id : IdealRng rng μ) (b : BuiltX D ndebug w x (XR.fin a) T m) (s : SupportedInput D w x) (ha : 0 < a) (env : Env) :
    ∃ (L : List ((Nat × Nat) × ℝ)) (r : (Fin env.threads → rng.G) → List (Nat × Nat) × (Fin env.threads → rng.G)),
      L.Perm (allCoins T) ∧ Law (Measure.pi fun _ : Fin env.threads => μ) r (flips L) ∧
      ∀ g, ∃ calls, treeCallbacks env T rng (gensOf env.threads_pos g) = some calls ∧ (r g).1 = calls.flatten := by
  have ok := b.ok
  have hon : OnLevel D 0 0 := ⟨by simp [levelStart], by simp [levelStart]⟩
  obtain ⟨tss, h1, h2⟩ := ok.callbacks_plan env (startOK_XR s.D1 s.D5 env) rng id.bounded
  obtain ⟨r, h3, h4⟩ := threads_law (n := env.threads) id b s ha tss 0
    (fun t ht => visitP_ok _ _ _ _ hon hon t (h2.perm.mem_iff.1 ht)) (by omega)
  refine ⟨_, r, h2.perm.flatMap_right _, h3, fun g => ?_⟩
  obtain ⟨calls, h5, h6, h7⟩ := h2.run (gensOf env.threads_pos g)
  refine ⟨calls, h5, h4 g calls h6 ?_⟩
  intro k ts hk hlt
  obtain ⟨r', h8, h9⟩ := h7 k ts hk
  refine ⟨r', ?_, h9⟩
  rw [← h8]
  congr 1
  unfold gensOf
  congr 1
  simp only [Fin.mk.injEq]
  omega

/-- events of the result -/
theorem result_event (id : IdealRng rng μ) {env : Env} (b : BuiltX D env.ndebug w x (XR.fin a) T m) (hT : Constructed env.ndebug (xw w) (xp x) (XR.fin a) T)
    (s : SupportedInput D w x) (ha : 0 < a) :
    ∃ L : List ((Nat × Nat) × ℝ), L.Perm (allCoins T) ∧ ∀ Q : List (Nat × Nat) → Prop, (∀ es fs, es.Perm fs → (Q es ↔ Q fs)) →
      (Measure.pi fun _ : Fin env.threads => μ) {g | ∃ out notice, GenerateEdges env rng (gensOf env.threads_pos g) (xw w) (xl x) (XR.fin a) out notice ∧ Q out} =
        ∑' es, flips L es * Set.indicator {es | Q es} 1 es := by
  have hprobm := id.prob
  obtain ⟨L, r, h1, h2, h3⟩ := run_law id b s ha env
  refine ⟨L, h1, fun Q hQ => ?_⟩
  rw [← h2.event {es | Q es}]
  congr 1
  ext g
  simp only [Set.mem_setOf_eq]
  obtain ⟨calls, h4, h5⟩ := h3 g
  rw [h5]
  constructor
  · rintro ⟨out, notice, h6, h7⟩
    obtain ⟨⟨T', hT', calls', h8, h9⟩, _⟩ := (generateEdges_xl s env rng _ (XR.fin a) out notice).1 h6
    obtain ⟨hd, m, hx⟩ := headerX_exists s
    obtain rfl := hT.unique hT' hx.eq (hx.inputOK s)
    rw [h4, Option.some.injEq] at h8
    subst h8
    exact (hQ _ _ (EdgeBuffer.IsMerge.perm (h9.isMerge (by unfold blockSize; omega)))).1 h7
  · intro h6
    obtain ⟨out, h7⟩ := EdgeBuffer.run_exists (block := blockSize) (by unfold blockSize; omega) calls
    refine ⟨out, .none, (generateEdges_xl s env rng _ (XR.fin a) out .none).2 ⟨⟨T, hT, calls, h4, h7⟩, rfl⟩, ?_⟩
    exact (hQ _ _ (EdgeBuffer.IsMerge.perm (h7.isMerge (by unfold blockSize; omega)))).2 h6

open Classical in
theorem graph_law (id : IdealRng rng μ) {env : Env} (b : BuiltX D env.ndebug w x (XR.fin a) T m) (hT : Constructed env.ndebug (xw w) (xp x) (XR.fin a) T)
    (s : SupportedInput D w x) (ha : 0 < a) (R : Nat → Nat → Prop) (hR : ∀ u v, R u v → R v u) :
    (Measure.pi fun _ : Fin env.threads => μ) {g | ∃ out notice, GenerateEdges env rng (gensOf env.threads_pos g) (xw w) (xl x) (XR.fin a) out notice ∧
        IsGraphOf w.length R out} =
      ∏ e ∈ (Finset.range w.length ×ˢ Finset.range w.length) with e.1 < e.2,
        if R e.1 e.2 then ENNReal.ofReal (edgePr T e.1 e.2) else ENNReal.ofReal (1 - edgePr T e.1 e.2) := by
  obtain ⟨L, h1, h2⟩ := result_event id b hT s ha
  have hfst : (L.map Prod.fst).Perm ((allCoins T).map Prod.fst) := h1.map _
  have honce : EachPairOnce w.length (L.map Prod.fst) := eachPairOnce_perm hfst (b.allCoins_once (List.Perm.refl _))
  have hsim := EachPairOnce.simple honce (List.Subperm.refl _)
  have hnd : (L.map Prod.fst).Nodup := hsim.2.imp fun h => h.1
  rw [h2 _ (fun es fs h => ⟨fun h' => IsGraphOf.perm h.symm h', fun h' => IsGraphOf.perm h h'⟩)]
  rw [tsum_eq_single ((L.map Prod.fst).filter fun e => decide (R e.1 e.2))]
  · rw [flips_result (fun e : Nat × Nat => R e.1 e.2) L hnd]
    have hin : (L.map Prod.fst).filter (fun e => decide (R e.1 e.2)) ∈ {es | IsGraphOf w.length R es} :=
      (graph_iff_filter honce (List.filter_sublist) hR).2 rfl
    rw [Set.indicator_of_mem hin, Pi.one_apply, mul_one,
      ← prod_eachPair honce hsim (fun u v => if R u v then ENNReal.ofReal (edgePr T u v) else ENNReal.ofReal (1 - edgePr T u v))
        (fun u v => by rw [edgePr_comm u v]; have : R u v ↔ R v u := ⟨hR _ _, hR _ _⟩; simp only [this]), List.map_map]
    congr 1
    apply List.map_congr_left
    rintro ⟨⟨u, v⟩, q⟩ hm
    have hm' := h1.mem_iff.1 hm
    have hin := honce.1 _ (List.mem_map.2 ⟨_, hm, rfl⟩)
    simp only at hin
    have e1 := b.edgePr_eq hm'
    have hq : unit q = q := by
      rw [← e1]
      have h3 := girgProb_nonneg (a := a) s u v
      rcases b.edgePr_spec s ha hin.1 hin.2.1 hin.2.2 with h | h
      · rw [h]; exact unit_eq h3.1 h3.2
      · rw [h.1]; exact unit_eq (by norm_num) (by norm_num)
    simp only [Function.comp, e1, hq]
  · intro es hes
    by_cases h3 : flips L es = 0
    · rw [h3, zero_mul]
    · rw [Set.indicator_of_notMem, mul_zero]
      intro h4
      exact hes ((graph_iff_filter honce (flips_sublist L es h3) hR).1 h4)

open Classical in
theorem edge_law (id : IdealRng rng μ) {env : Env} (b : BuiltX D env.ndebug w x (XR.fin a) T m) (hT : Constructed env.ndebug (xw w) (xp x) (XR.fin a) T)
    (s : SupportedInput D w x) (ha : 0 < a) {u v : Nat} (hu : u < w.length) (hv : v < w.length) (huv : u ≠ v) :
    (Measure.pi fun _ : Fin env.threads => μ) {g | ∃ out notice, GenerateEdges env rng (gensOf env.threads_pos g) (xw w) (xl x) (XR.fin a) out notice ∧
        ((u, v) ∈ out ∨ (v, u) ∈ out)} = ENNReal.ofReal (edgePr T u v) := by
  obtain ⟨L, h1, h2⟩ := result_event id b hT s ha
  have hfst : (L.map Prod.fst).Perm ((allCoins T).map Prod.fst) := h1.map _
  have honce : EachPairOnce w.length (L.map Prod.fst) := eachPairOnce_perm hfst (b.allCoins_once (List.Perm.refl _))
  have hsim := EachPairOnce.simple honce (List.Subperm.refl _)
  have hnd : (L.map Prod.fst).Nodup := hsim.2.imp fun h => h.1
  have key : ∀ u v, (u, v) ∈ L.map Prod.fst → 
      ∑' es, flips L es * Set.indicator {es | (u, v) ∈ es ∨ (v, u) ∈ es} 1 es = ENNReal.ofReal (edgePr T u v) := by
    intro u v hm
    obtain ⟨⟨e, q⟩, h3, h4⟩ := List.mem_map.1 hm
    obtain rfl : e = (u, v) := h4
    have hin := honce.1 _ hm
    simp only at hin
    have e1 := b.edgePr_eq (h1.mem_iff.1 h3)
    have hq : unit q = q := by
      rw [← e1]
      have h3 := girgProb_nonneg (a := a) s u v
      rcases b.edgePr_spec s ha hin.1 hin.2.1 hin.2.2 with h | h
      · rw [h]; exact unit_eq h3.1 h3.2
      · rw [h.1]; exact unit_eq (by norm_num) (by norm_num)
    rw [e1, ← hq, ← flips_mem (u, v) q L hnd h3]
    congr 1
    funext es
    by_cases h5 : flips L es = 0
    · rw [h5, zero_mul, zero_mul]
    · congr 1
      have : (v, u) ∉ es := fun h6 => EachPairOnce.not_swap honce hm ((flips_sublist L es h5).subset h6)
      simp only [Set.indicator, Set.mem_setOf_eq, this, or_false, Pi.one_apply]
      by_cases h7 : (u, v) ∈ es <;> simp [h7]
  rw [h2 (fun es => (u, v) ∈ es ∨ (v, u) ∈ es) (fun es fs h => by rw [h.mem_iff, h.mem_iff])]
  rcases EachPairOnce.mem_or honce hu hv huv with h | h
  · exact key u v h
  · rw [edgePr_comm, ← key v u h]
    have : {es : List (Nat × Nat) | (u, v) ∈ es ∨ (v, u) ∈ es} = {es | (v, u) ∈ es ∨ (u, v) ∈ es} := by
      ext es; exact or_comm
    rw [this]

end
end Girgs
