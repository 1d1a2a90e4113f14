import Verif.Proofs.HSampleLaw
/-!
Hyperbolic sampler: the distribution of the graph, with ideal random numbers.
-/
namespace Girgs
open MeasureTheory Spec CFloat Angle
open scoped ENNReal

/-! ### independent coins for all pairs -/

open Classical in
theorem flips_graph {n : ℕ} {L : List ((ℕ × ℕ) × ℝ)} (honce : EachPairOnce n (L.map Prod.fst)) {pr : ℕ → ℕ → ℝ} (hsym : ∀ u v, pr u v = pr v u)
    (hpr : ∀ u v q, ((u, v), q) ∈ L → pr u v = q ∧ unit q = q) {E : ℕ → ℕ → Prop} (hE : ∀ u v, E u v → E v u) :
    ∑' es, flips L es * Set.indicator {es | IsGraphOf n E es} 1 es =
      ∏ e ∈ (Finset.range n ×ˢ Finset.range n) with e.1 < e.2,
        if E e.1 e.2 then ENNReal.ofReal (pr e.1 e.2) else ENNReal.ofReal (1 - pr e.1 e.2) := by
  have hsim := EachPairOnce.simple honce (List.Subperm.refl _)
  have hnd : (L.map Prod.fst).Nodup := hsim.2.imp fun h => h.1
  rw [tsum_eq_single ((L.map Prod.fst).filter fun e => decide (E e.1 e.2))]
  · rw [flips_result (fun e : ℕ × ℕ => E e.1 e.2) L hnd]
    have hin : (L.map Prod.fst).filter (fun e => decide (E e.1 e.2)) ∈ {es | IsGraphOf n E es} :=
      (graph_iff_filter honce (List.filter_sublist) hE).2 rfl
    rw [Set.indicator_of_mem hin, Pi.one_apply, mul_one,
      ← prod_eachPair honce hsim (fun u v => if E u v then ENNReal.ofReal (pr u v) else ENNReal.ofReal (1 - pr u v))
        (fun u v => by rw [hsym u v]; have : E u v ↔ E v u := ⟨hE _ _, hE _ _⟩; simp only [this]), List.map_map]
    congr 1
    apply List.map_congr_left
    rintro ⟨⟨u, v⟩, q⟩ hm
    obtain ⟨e1, hq⟩ := hpr u v q hm
    simp only [Function.comp, e1, hq]
  · intro es hes
    by_cases h3 : flips L es = 0
    · rw [h3, zero_mul]
    · rw [Set.indicator_of_notMem, mul_zero]
      intro h4
      exact hes ((graph_iff_filter honce (flips_sublist L es h3) hE).1 h4)

open Classical in
theorem flips_edge {n : ℕ} {L : List ((ℕ × ℕ) × ℝ)} (honce : EachPairOnce n (L.map Prod.fst)) {pr : ℕ → ℕ → ℝ} (hsym : ∀ u v, pr u v = pr v u)
    (hpr : ∀ u v q, ((u, v), q) ∈ L → pr u v = q ∧ unit q = q) {u v : ℕ} (hu : u < n) (hv : v < n) (huv : u ≠ v) :
    ∑' es, flips L es * Set.indicator {es | (u, v) ∈ es ∨ (v, u) ∈ es} 1 es = ENNReal.ofReal (pr u v) := by
  have hsim := EachPairOnce.simple honce (List.Subperm.refl _)
  have hnd : (L.map Prod.fst).Nodup := hsim.2.imp fun h => h.1
  have key : ∀ u v, (u, v) ∈ L.map Prod.fst →
      ∑' es, flips L es * Set.indicator {es | (u, v) ∈ es ∨ (v, u) ∈ es} 1 es = ENNReal.ofReal (pr u v) := by
    intro u v hm
    obtain ⟨⟨e, q⟩, h3, h4⟩ := List.mem_map.1 hm
    obtain rfl : e = (u, v) := h4
    obtain ⟨e1, hq⟩ := hpr u v q h3
    rw [e1, ← hq, ← flips_mem (u, v) q L hnd h3]
    congr 1
    funext es
    by_cases h5 : flips L es = 0
    · rw [h5, zero_mul, zero_mul]
    · congr 1
      have : (v, u) ∉ es := fun h6 => EachPairOnce.not_swap honce hm ((flips_sublist L es h5).subset h6)
      simp only [Set.indicator, Set.mem_setOf_eq, this, or_false, Pi.one_apply]
      by_cases h7 : (u, v) ∈ es <;> simp [h7]
  rcases EachPairOnce.mem_or honce hu hv huv with h | h
  · exact key u v h
  · rw [hsym, ← key v u h]
    have : {es : List (ℕ × ℕ) | (u, v) ∈ es ∨ (v, u) ∈ es} = {es | (v, u) ∈ es ∨ (u, v) ∈ es} := by
      ext es; exact or_comm
    rw [this]

/-! ### the coins of the sampling calls -/

variable {ndebug : Bool} {radii angles : List ℝ} {T R : ℝ} {H : HTree XR}

/-- the coins of a sampling call: the pairs it examines with the probabilities with which it emits them -/
noncomputable def htaskCoins (H : HTree XR) (radii angles : List ℝ) (R T : ℝ) (t : Task) : List ((ℕ × ℕ) × ℝ) :=
  match H.ranges t with
  | some (ra, rb) =>
    if t.two then
      if ofRat (1 / 5) <. XR.fin (hypProb (classDist R t) R T) then hcoins H radii angles R T (pairListI t ra rb)
      else if (ofNat ((ra.2 - ra.1) * (rb.2 - rb.1)) *. XR.fin (hypProb (classDist R t) R T)) <. ofRat (1 / 1000000) then
        (pairListII ra rb).map fun c => (H.idxPair c, 0)
      else hcoins H radii angles R T (pairListII ra rb)
    else hcoins H radii angles R T (pairListI t ra rb)
  | none => []

/-- what the recursion guarantees for its calls -/
def HGood (H : HTree XR) (R : ℝ) (t : Task) : Prop :=
  HTaskOK H (hpair R) t ∧ (t.two = true → betweenN t.level t.cellA t.cellB ≤ 2)

theorem hgood_root {full : Bool} {t : Task} (ht : t ∈ hvisit H.layers H.levels (hpair R) full H.levels 0 0 0) : HGood H R t :=
  ⟨hvisit_ok _ _ _ _ onLv_zero onLv_zero t ht, fun h2 => hvisit_root_between ht h2⟩

/-- the bound of a type II call -/
theorem HBuiltX.pairs_le (b : HBuiltX ndebug radii angles T R H) (hin : HypInput radii angles T R) (hT : 0 < T) {t : Task}
    (ht : HTaskOK H (hpair R) t) (h2 : t.two = true) {ra rb : ℕ × ℕ} (hr : HRangesOK H (htgt R) ⌈R⌉.toNat t ra rb) {c : ℕ × ℕ}
    (hc : c ∈ pairListII ra rb) : 0 ≤ hypPairProb radii angles R T (H.idx c.1) (H.idx c.2) ∧
      hypPairProb radii angles R T (H.idx c.1) (H.idx c.2) ≤ hypProb (classDist R t) R T := by
  obtain ⟨p, q⟩ := c
  have hm := mem_pairListII.1 hc
  have hp : p < H.points.length := by rw [b.ok.length_points]; have := hr.nA; omega
  have hq : q < H.points.length := by rw [b.ok.length_points]; have := hr.nB; omega
  have ep : H.points[p]? = some H.points[p] := List.getElem?_eq_getElem hp
  have eq : H.points[q]? = some H.points[q] := List.getElem?_eq_getElem hq
  have hh : HHit H (htgt R) ⌈R⌉.toNat t p q :=
    ⟨_, _, ep, eq, (hr.memA _ _ ep).1 hm.1, (hr.memB _ _ eq).1 hm.2, fun h => absurd h.1 (ht.ne h2)⟩
  obtain ⟨r, a, s, c, h3, h4, h5, h6, _, _, _, h7⟩ := b.classDist_le hin ht h2 hh
  have e : hypPairProb radii angles R T (H.idx p) (H.idx q) = hypProb (hypDist r a s c) R T := by
    unfold hypPairProb; rw [h3, h4, h5, h6]
  rw [e]
  exact ⟨(hProb_pos _ _ _).le, hProb_anti hT h7⟩

section
variable {rng : Tree.Rng XR} [MeasurableSpace rng.G] {μ : Measure rng.G}

theorem hrunTask_law (id : IdealRng rng μ) (ur : UnitRng rng) (b : HBuiltX ndebug radii angles T R H) (hin : HypInput radii angles T R)
    (hT : 1 / 4503599627370496 < T) (hfil : 2 * T * Real.log 99 ≤ R) {t : Task} (hg : HGood H R t) :
    LawO μ (HTree.runTask H rng t) (flips (htaskCoins H radii angles R T t)) := by
  have ok := b.ok
  have hprobm := id.prob
  have hT0 : 0 < T := lt_trans (by norm_num) hT
  obtain ⟨ht, hbw⟩ := hg
  obtain ⟨ra, rb, hr⟩ := ok.ranges_ok ht
  unfold htaskCoins HTree.runTask
  rw [hr.eq]
  simp only
  by_cases h2 : t.two = true
  swap
  · simp only [h2, Bool.false_eq_true, if_false]
    exact hsampleTypeI_law id ur b hin hT hfil hr
  simp only [h2, if_true]
  have hf := b.filterFor_eq hT0 ht h2 (hbw h2)
  have hz : H.tZero = false := by rw [b.tZero_iff]; simp [hT0.ne']
  have h0 := hProb_pos (classDist R t) R T
  have h1 := (hProb_lt_one (classDist R t) R T).le
  have hle := fun c hc => b.pairs_le hin hT0 ht h2 hr (c := c) hc
  have hmp : (DistFilter.make (XR.fin (hypProb (classDist R t) R T)) (XR.fin R) (XR.fin T)).maxProb = XR.fin (hypProb (classDist R t) R T) := rfl
  set bd := hypProb (classDist R t) R T with hbd
  have hnodes : H.points.length < 2147483648 := by rw [ok.length_points]; exact ok.small
  have hA : ra.2 ≤ H.points.length := by rw [ok.length_points]; exact hr.nA
  have hB : rb.2 ≤ H.points.length := by rw [ok.length_points]; exact hr.nB
  by_cases hemp : (ra.2 - ra.1 == 0 || rb.2 - rb.1 == 0) = true
  · have hemp' : ra.2 - ra.1 = 0 ∨ rb.2 - rb.1 = 0 := by simpa using hemp
    have e1 : pairListI t ra rb = [] := by
      rw [List.eq_nil_iff_forall_not_mem]
      rintro ⟨p, q⟩ hm
      have := hr.mem_pairListI.1 hm
      omega
    have e2 : pairListII ra rb = [] := by
      rw [List.eq_nil_iff_forall_not_mem]
      rintro ⟨p, q⟩ hm
      have := mem_pairListII.1 hm
      omega
    rw [e1, e2]
    simp only [hcoins, List.map_nil, ite_self]
    refine ⟨fun g => ([], g), fun g => ?_, Law.pure _⟩
    unfold HTree.sampleTypeII
    refine (obind hr.sizes _).trans ?_
    rw [if_pos (by simp only [hz, Bool.false_or]; exact hemp)]
  have hne : (H.tZero || ra.2 - ra.1 == 0 || rb.2 - rb.1 == 0) = false := by
    rw [hz, Bool.false_or]; simpa using hemp
  by_cases h5 : (ofRat (1 / 5) <. XR.fin bd) = true
  · simp only [h5, if_true]
    obtain ⟨r, g1, g2⟩ := hsampleTypeI_law id ur b hin hT hfil hr
    refine ⟨r, fun g => ?_, g2⟩
    unfold HTree.sampleTypeII
    refine (obind hr.sizes _).trans ?_
    simp only [hne, Bool.false_eq_true, if_false]
    refine (obind hf _).trans ?_
    simp only [hmp, h5, if_true]
    exact g1 g
  by_cases h6 : ((ofNat ((ra.2 - ra.1) * (rb.2 - rb.1)) *. XR.fin bd) <. ofRat (1 / 1000000)) = true
  · simp only [h5, h6, if_true, Bool.false_eq_true, if_false]
    have : (pairListII ra rb).map (fun c => (H.idxPair c, (0 : ℝ))) = ((pairListII ra rb).map H.idxPair).map fun e => (e, 0) := by
      rw [List.map_map]; rfl
    rw [this, flips_zero]
    refine ⟨fun g => ([], g), fun g => ?_, Law.pure _⟩
    unfold HTree.sampleTypeII
    refine (obind hr.sizes _).trans ?_
    simp only [hne, Bool.false_eq_true, if_false]
    refine (obind hf _).trans ?_
    simp only [hmp, h5, h6, if_true, Bool.false_eq_true, if_false]
  · simp only [h5, h6, Bool.false_eq_true, if_false]
    have hbd5 : bd ≤ 1 / 5 := by
      simp only [XR.ofRat_eq, XR.lt_fin, decide_eq_true_eq, not_lt] at h5
      push_cast at h5
      exact h5
    have hdec : ∀ c ∈ pairListII ra rb, ∀ u v, H.points[c.1]? = some u → H.points[c.2]? = some v → ∀ x, 0 ≤ x → x < bd →
        HTree.decideProb H (DistFilter.make (XR.fin bd) (XR.fin R) (XR.fin T)) u v (XR.fin x) =
          some (decide (x < hypPairProb radii angles R T (H.idx c.1) (H.idx c.2))) := by
      intro c _ u v hu hv x hx0 hx1
      obtain ⟨d, hd, hdc, hpr⟩ := b.pair_data hin hu hv
      rw [hpr]
      exact decideProb_XR b.R_eq b.T_eq rfl hdc hT0 h0 h1 hx0 hx1 hd (invProb_nonneg_small (HypInput.R_pos hin).le hT0.le h0 hbd5)
    obtain ⟨r, g1, g2⟩ := hskip_law (radii := radii) (angles := angles) (R := R) (T := T) id hA hB hnodes h0 h1 hmp ur hdec hle
    refine ⟨r, fun g => ?_, g2⟩
    unfold HTree.sampleTypeII
    refine (obind hr.sizes _).trans ?_
    simp only [hne, Bool.false_eq_true, if_false]
    refine (obind hf _).trans ?_
    simp only [hmp, h5, h6, Bool.false_eq_true, if_false]
    refine (obind hr.starts _).trans ?_
    exact g1 g

theorem hrunTasks_law (id : IdealRng rng μ) (ur : UnitRng rng) (b : HBuiltX ndebug radii angles T R H) (hin : HypInput radii angles T R)
    (hT : 1 / 4503599627370496 < T) (hfil : 2 * T * Real.log 99 ≤ R) (ts : List Task) (hts : ∀ t ∈ ts, HGood H R t) :
    LawO μ (HTree.runTasks H rng ts) (flips (ts.flatMap (htaskCoins H radii angles R T))) := by
  induction ts with
  | nil => exact ⟨fun g => ([], g), fun g => rfl, Law.pure _⟩
  | cons t ts ih =>
    obtain ⟨r1, h1, h2⟩ := hrunTask_law id ur b hin hT hfil (hts t (by simp))
    obtain ⟨r2, h3, h4⟩ := ih (fun t ht => hts t (by simp [ht]))
    refine ⟨_, fun g => ?_, (h2.bind (run2 := fun es g => (es ++ (r2 g).1, (r2 g).2))
      (Q := fun es => (flips (ts.flatMap (htaskCoins H radii angles R T))).map fun fs => es ++ fs) (fun es => h4.map fun fs => es ++ fs)).congr (fun _ => rfl) ?_⟩
    · unfold HTree.runTasks
      refine (obind (h1 g) _).trans ?_
      exact (obind (h3 _) _).trans rfl
    · rw [List.flatMap_cons, flips_append]

/-- units with independent generators -/
theorem hunits_law (id : IdealRng rng μ) (ur : UnitRng rng) (b : HBuiltX ndebug radii angles T R H) (hin : HypInput radii angles T R)
    (hT : 1 / 4503599627370496 < T) (hfil : 2 * T * Real.log 99 ≤ R) {n : ℕ} :
    ∀ (tss : List (List Task)) (j : ℕ), (∀ t ∈ tss.flatten, HGood H R t) → j + tss.length ≤ n →
    ∃ r : (Fin n → rng.G) → List (ℕ × ℕ) × (Fin n → rng.G),
      Law (Measure.pi fun _ : Fin n => μ) r (flips (tss.flatten.flatMap (htaskCoins H radii angles R T))) ∧
      ∀ (gens : Fin n → rng.G) (calls : List (List (ℕ × ℕ))), calls.length = tss.length →
        (∀ (k : ℕ) (ts : List Task), tss[k]? = some ts → ∀ h : j + k < n, ∃ r', HTree.runTasks H rng ts (gens ⟨j + k, h⟩) = some r' ∧ calls[k]? = some r'.1) →
        (r gens).1 = calls.flatten := by
  have hprobm := id.prob
  intro tss
  induction tss with
  | nil =>
    intro j _ _
    refine ⟨fun g => ([], g), Law.pure _, ?_⟩
    intro gens calls h _
    obtain rfl : calls = [] := List.length_eq_zero_iff.1 h
    rfl
  | cons ts tss ih =>
    intro j hok hj
    rw [List.length_cons] at hj
    obtain ⟨r1, h1, h2⟩ := hrunTasks_law id ur b hin hT hfil ts (fun t ht => hok t (by rw [List.flatten_cons]; exact List.mem_append_left _ ht))
    obtain ⟨r2, h3, h4⟩ := ih (j + 1) (fun t ht => hok t (by rw [List.flatten_cons]; exact List.mem_append_right _ ht)) (by omega)
    have hjn : j < n := by omega
    have hc := Law.coord (⟨j, hjn⟩ : Fin n) h2
    refine ⟨_, (hc.bind (run2 := fun es g => (es ++ (r2 g).1, (r2 g).2))
      (Q := fun es => (flips (tss.flatten.flatMap (htaskCoins H radii angles R T))).map fun fs => es ++ fs) (fun es => h3.map fun fs => es ++ fs)).congr (fun _ => rfl) ?_, ?_⟩
    · rw [List.flatten_cons, List.flatMap_append, flips_append]
    · intro gens calls hlen hcalls
      cases calls with
      | nil => simp at hlen
      | cons c calls =>
        obtain ⟨r', e1, e2⟩ := hcalls 0 ts rfl (by omega)
        simp only [Nat.add_zero, List.getElem?_cons_zero, Option.some.injEq] at e1 e2
        rw [h1, Option.some.injEq] at e1
        subst e1
        rw [List.flatten_cons]
        simp only
        congr 1
        · exact e2.symm
        · apply h4 _ calls (by simpa using hlen)
          intro k ts' hk h
          obtain ⟨r', e3, e4⟩ := hcalls (k + 1) ts' (by simpa using hk) (by omega)
          refine ⟨r', ?_, by simpa using e4⟩
          rw [← e3]
          congr 1
          rw [Function.update_of_ne (by simp only [ne_eq, Fin.mk.injEq]; omega)]
          congr 1
          simp only [Fin.mk.injEq]
          omega

end

/-! ### the coins of all calls -/

theorem HBuiltX.taskCoins_fst (b : HBuiltX ndebug radii angles T R H) {t : Task} (ht : HTaskOK H (hpair R) t) {cs : List (ℕ × ℕ)}
    (hcs : H.candidates t = some cs) : ((htaskCoins H radii angles R T t).map Prod.fst).Perm (cs.map H.idxPair) := by
  obtain ⟨ra, rb, hr⟩ := b.ok.ranges_ok ht
  rw [hr.candidates_eq, Option.some.injEq] at hcs
  subst hcs
  have hc : ∀ L : List (ℕ × ℕ), (hcoins H radii angles R T L).map Prod.fst = L.map H.idxPair := by
    intro L; unfold hcoins; rw [List.map_map]; rfl
  unfold htaskCoins candList
  rw [hr.eq]
  simp only
  by_cases h2 : t.two = true
  · simp only [h2, if_true]
    split
    · rw [hc]; exact (hr.pairLists_perm (ht.ne h2)).map _
    · split
      · rw [List.map_map]; exact List.Perm.refl _
      · rw [hc]
  · simp only [h2, Bool.false_eq_true, if_false]
    rw [hc]

theorem HBuiltX.allCoins_fst (b : HBuiltX ndebug radii angles T R H) : ∀ (ts : List Task), (∀ t ∈ ts, HTaskOK H (hpair R) t) →
    ∀ cs, H.allCandidates ts = some cs → ((ts.flatMap (htaskCoins H radii angles R T)).map Prod.fst).Perm (cs.map H.idxPair) := by
  intro ts
  induction ts with
  | nil =>
    intro _ cs h
    simp only [HTree.allCandidates, Tree.concatM, Option.some.injEq] at h
    subst h; simp
  | cons t ts ih =>
    intro hok cs h
    have ht := hok t (by simp)
    obtain ⟨ra, rb, hr⟩ := b.ok.ranges_ok ht
    obtain ⟨cs', h1, _⟩ := b.ok.allCandidates_count ts (fun t ht => hok t (by simp [ht]))
    have h2 := ih (fun t ht => hok t (by simp [ht])) cs' h1
    have h3 := b.taskCoins_fst ht hr.candidates_eq
    unfold HTree.allCandidates Tree.concatM at h
    rw [obind hr.candidates_eq] at h
    rw [obind (show Tree.concatM ts H.candidates = some cs' from h1)] at h
    simp only [Option.some.injEq] at h
    subst h
    rw [List.flatMap_cons, List.map_append, List.map_append]
    exact h3.append h2

/-- the probabilities of the coins -/
theorem HBuiltX.coin_prob (b : HBuiltX ndebug radii angles T R H) (hin : HypInput radii angles T R) (hT : 0 < T) {t : Task}
    (ht : HTaskOK H (hpair R) t) {c : (ℕ × ℕ) × ℝ} (hc : c ∈ htaskCoins H radii angles R T t) :
    c.2 = hypPairProb radii angles R T c.1.1 c.1.2 ∨ (c.2 = 0 ∧ hypPairProb radii angles R T c.1.1 c.1.2 < 1 / 1000000) := by
  obtain ⟨ra, rb, hr⟩ := b.ok.ranges_ok ht
  have hco : ∀ L, c ∈ hcoins H radii angles R T L → c.2 = hypPairProb radii angles R T c.1.1 c.1.2 := by
    intro L h
    obtain ⟨⟨p, q⟩, h1, rfl⟩ := List.mem_map.1 h
    rfl
  unfold htaskCoins at hc
  rw [hr.eq] at hc
  simp only at hc
  by_cases h2 : t.two = true
  · simp only [h2, if_true] at hc
    split at hc
    · exact Or.inl (hco _ hc)
    · split at hc
      · rename_i h6
        right
        obtain ⟨⟨p, q⟩, g1, rfl⟩ := List.mem_map.1 hc
        have hm := mem_pairListII.1 g1
        have hle := (b.pairs_le hin hT ht h2 hr g1).2
        have h0 := hProb_pos (classDist R t) R T
        refine ⟨rfl, lt_of_le_of_lt hle ?_⟩
        simp only [XR.ofNat_eq, XR.mul_fin, XR.ofRat_eq, XR.lt_fin, decide_eq_true_eq] at h6
        have hN : 1 ≤ (ra.2 - ra.1) * (rb.2 - rb.1) := Nat.mul_pos (by omega) (by omega)
        have hN' : (1 : ℝ) ≤ (((ra.2 - ra.1) * (rb.2 - rb.1) : ℕ) : ℝ) := by exact_mod_cast hN
        have := mul_le_mul_of_nonneg_right hN' h0.le
        rw [one_mul] at this
        refine lt_of_le_of_lt this ?_
        push_cast at h6 ⊢
        exact h6
      · exact Or.inl (hco _ hc)
  · simp only [h2, Bool.false_eq_true, if_false] at hc
    exact Or.inl (hco _ hc)

/-! ### the law of the result -/

/-- all coins of a run -/
noncomputable def hallCoins (H : HTree XR) (radii angles : List ℝ) (R T : ℝ) : List ((ℕ × ℕ) × ℝ) :=
  (hvisit H.layers H.levels (hpair R) true H.levels 0 0 0).flatMap (htaskCoins H radii angles R T)

/-- the probability with which a pair is connected -/
noncomputable def hedgePr (H : HTree XR) (radii angles : List ℝ) (R T : ℝ) (u v : ℕ) : ℝ :=
  pick fun q => ((u, v), q) ∈ hallCoins H radii angles R T ∨ ((v, u), q) ∈ hallCoins H radii angles R T

theorem hedgePr_comm (u v : ℕ) : hedgePr H radii angles R T u v = hedgePr H radii angles R T v u := by
  unfold hedgePr
  have : (fun q : ℝ => ((u, v), q) ∈ hallCoins H radii angles R T ∨ ((v, u), q) ∈ hallCoins H radii angles R T) =
      fun q => ((v, u), q) ∈ hallCoins H radii angles R T ∨ ((u, v), q) ∈ hallCoins H radii angles R T := by
    funext q; rw [or_comm]
  rw [this]

theorem HBuiltX.allCoins_once (b : HBuiltX ndebug radii angles T R H) {ts : List Task}
    (hp : ts.Perm (hvisit H.layers H.levels (hpair R) true H.levels 0 0 0)) :
    EachPairOnce radii.length ((ts.flatMap (htaskCoins H radii angles R T)).map Prod.fst) := by
  obtain ⟨cs, h1, h2⟩ := b.ok.eachPairOnce hp
  rw [b.n_eq, xw, List.length_map] at h2
  exact eachPairOnce_perm (b.allCoins_fst ts (fun t ht => hvisit_ok _ _ _ _ onLv_zero onLv_zero t (hp.mem_iff.1 ht)) cs h1) h2

theorem HBuiltX.edgePr_eq (b : HBuiltX ndebug radii angles T R H) {u v : ℕ} {q : ℝ} (h : ((u, v), q) ∈ hallCoins H radii angles R T) :
    hedgePr H radii angles R T u v = q := by
  have hex : ∃ q, ((u, v), q) ∈ hallCoins H radii angles R T ∨ ((v, u), q) ∈ hallCoins H radii angles R T := ⟨q, Or.inl h⟩
  unfold hedgePr pick
  rw [dif_pos hex]
  exact (once_unique (b.allCoins_once (List.Perm.refl _)) h hex.choose_spec).symm

theorem hypPairProb_comm (u v : ℕ) : hypPairProb radii angles R T u v = hypPairProb radii angles R T v u := by
  unfold hypPairProb
  rcases radii[u]? with _ | r <;> rcases radii[v]? with _ | s <;> rcases angles[u]? with _ | a <;> rcases angles[v]? with _ | c <;>
    first | rfl | (dsimp only; rw [hypDist_comm])

theorem hypPairProb_bounds (u v : ℕ) : 0 ≤ hypPairProb radii angles R T u v ∧ hypPairProb radii angles R T u v ≤ 1 := by
  unfold hypPairProb
  split
  · exact ⟨(hProb_pos _ _ _).le, (hProb_lt_one _ _ _).le⟩
  · norm_num

theorem HBuiltX.edgePr_spec (b : HBuiltX ndebug radii angles T R H) (hin : HypInput radii angles T R) (hT : 0 < T) {u v : ℕ}
    (hu : u < radii.length) (hv : v < radii.length) (huv : u ≠ v) :
    hedgePr H radii angles R T u v = hypPairProb radii angles R T u v ∨
      (hedgePr H radii angles R T u v = 0 ∧ hypPairProb radii angles R T u v < 1 / 1000000) := by
  have key : ∀ u v, (u, v) ∈ (hallCoins H radii angles R T).map Prod.fst →
      hedgePr H radii angles R T u v = hypPairProb radii angles R T u v ∨
        (hedgePr H radii angles R T u v = 0 ∧ hypPairProb radii angles R T u v < 1 / 1000000) := by
    intro u v hm
    obtain ⟨⟨e, q⟩, h1, rfl⟩ := List.mem_map.1 hm
    rw [b.edgePr_eq h1]
    obtain ⟨t, ht, h2⟩ := List.mem_flatMap.1 h1
    exact b.coin_prob hin hT (hvisit_ok _ _ _ _ onLv_zero onLv_zero t ht) h2
  rcases EachPairOnce.mem_or (b.allCoins_once (List.Perm.refl _)) hu hv huv with h | h
  · exact key u v h
  · rw [hedgePr_comm, hypPairProb_comm]; exact key v u h

theorem HConstructed.setDebug {F : Type} [CFloat F] {nd : Bool} {radii angles : List F} {T R : F} {H : HTree F}
    (hc : HConstructed nd radii angles T R H) (nd' : Bool) : HConstructed nd' radii angles T R { H with ndebug := nd' } := by
  obtain ⟨points, first, rls, r0, lp, fil, hpart, hr0, hlp, hfil, rfl⟩ := hc
  exact ⟨points, first, rls, r0, lp, fil, hpart, hr0, hlp, hfil, rfl⟩

section
variable {rng : Tree.Rng XR} [MeasurableSpace rng.G] {μ : Measure rng.G}

/-- events of the result, however the threads are scheduled -/
theorem hresult_event (id : IdealRng rng μ) (ur : UnitRng rng) {env : HEnv} (b : HBuiltX env.ndebug radii angles T R H)
    (hH : HConstructed env.ndebug (xw radii) (xw angles) (XR.fin T) (XR.fin R) H) (hin : HypInput radii angles T R)
    (hT : 1 / 4503599627370496 < T) (hfil : 2 * T * Real.log 99 ≤ R) {n : ℕ} (hn : 1 ≤ n)
    (hun : (hUnits env H (hpair R) (startLevel env.threads)).length ≤ n)
    (result : (Fin n → rng.G) → List (ℕ × ℕ))
    (hres : ∀ g, HGenerateEdges env rng (gensOf hn g) (xw radii) (xw angles) (XR.fin T) (XR.fin R) (result g)) :
    ∃ L : List ((ℕ × ℕ) × ℝ), L.Perm (hallCoins H radii angles R T) ∧ ∀ Q : List (ℕ × ℕ) → Prop, (∀ es fs, es.Perm fs → (Q es ↔ Q fs)) →
      (Measure.pi fun _ : Fin n => μ) {g | Q (result g)} = ∑' es, flips L es * Set.indicator {es | Q es} 1 es := by
  have hprobm := id.prob
  have ok := b.ok
  have st := hstartOK_XR env
  have h1f : 1 ≤ startLevel env.threads := le_trans (by norm_num) st.two
  have hT0 : 0 < T := lt_trans (by norm_num) hT
  have hfull : H.full = true := by
    have hz : H.tZero = false := by rw [b.tZero_iff]; simp [hT0.ne']
    unfold HTree.full; rw [hz]; simp
  have hperm := ok.units_perm env h1f hfull
  have hgood : ∀ t ∈ (hUnits env H (hpair R) (startLevel env.threads)).flatten, HGood H R t :=
    fun t ht => hgood_root (hperm.mem_iff.1 ht)
  obtain ⟨r, h3, h4⟩ := hunits_law (n := n) id ur b hin hT hfil _ 0 hgood (by omega)
  refine ⟨_, hperm.flatMap_right _, fun Q hQ => ?_⟩
  rw [← h3.event {es | Q es}]
  congr 1
  ext g
  simp only [Set.mem_setOf_eq]
  apply hQ
  obtain ⟨H', hH', calls, hg, ho⟩ := hres g
  obtain rfl := hH.unique hH' (HypInput.inputOK hin)
  have q1 := EdgeBuffer.IsMerge.perm (ho.isMerge (by unfold blockSize; omega))
  have hd := b.draws hT0.le ur
  have q2 := ok.generate_perm ur.geo hd b.fo st (gensOf hn g) hg
  refine q1.trans (q2.trans ?_)
  rw [h4 g ((List.range (hUnits env H (hpair R) (startLevel env.threads)).length).map
    (unitEdges H rng (gensOf hn g) (hUnits env H (hpair R) (startLevel env.threads)))) (by simp) ?_, ← List.flatMap_def]
  intro k ts hk hlt
  obtain ⟨g', h5⟩ := ok.unit_run ur.geo hd b.fo st (gensOf hn g) hk
  have hkl : k < (hUnits env H (hpair R) (startLevel env.threads)).length := (List.getElem?_eq_some_iff.1 hk).1
  refine ⟨(unitEdges H rng (gensOf hn g) (hUnits env H (hpair R) (startLevel env.threads)) k, g'), ?_, ?_⟩
  · rw [← h5]
    congr 1
    unfold gensOf
    congr 1
    simp only [Fin.mk.injEq]
    omega
  · rw [List.getElem?_map, List.getElem?_range hkl]
    rfl

end
end Girgs
