import Verif.Model.Work
import Verif.Proofs.GraphLaw
/-
The distribution of the pairs that the sampling calls look at, with ideal random numbers.
-/
namespace Girgs
open MeasureTheory Spec CFloat Tree
open scoped ENNReal

variable {D : Nat} {T : Tree XR D} {ndebug : Bool} {w : List ℝ} {x : List (Fin D → ℝ)} {a m : ℝ}

/-- all entries with the same probability -/
noncomputable def constCoins (T : Tree XR D) (q : ℝ) (L : List (Nat × Nat)) : List ((Nat × Nat) × ℝ) := L.map fun c => (T.idxPair c, q)

theorem flips_one {E : Type} (L : List E) : flips (L.map fun e => (e, (1 : ℝ))) = PMF.pure L := by
  induction L with
  | nil => rfl
  | cons e L ih =>
    rw [List.map_cons, flips, ih, coin_eq_pure (b := true) (by rw [unit_eq] <;> norm_num), PMF.pure_bind]
    simp [PMF.pure_map]

theorem flips_constCoins_one (L : List (Nat × Nat)) : flips (constCoins T 1 L) = PMF.pure (L.map T.idxPair) := by
  rw [← flips_one, List.map_map]; rfl

/-- the pairs a sampling call may look at with the probabilities with which it looks at them -/
noncomputable def lookCoins (T : Tree XR D) (t : Task) : List ((Nat × Nat) × ℝ) :=
  match T.ranges t, T.maxProb t with
  | some (ra, rb), some mp =>
    if t.two then
      match mp with
      | .fin bd =>
        if 1 / 5 < bd then constCoins T 1 (pairListI t ra rb)
        else if ((ra.2 - ra.1) * (rb.2 - rb.1) : ℕ) * bd < 1 / 1000000 then constCoins T 0 (pairListII ra rb)
        else constCoins T bd (pairListII ra rb)
      | _ => []
    else constCoins T 1 (pairListI t ra rb)
  | _, _ => []

section
variable {rng : Rng XR} [MeasurableSpace rng.G] {μ : Measure rng.G}

theorem lookPairsI_law (id : IdealRng rng μ) : ∀ (L : List (Nat × Nat)),
    (∀ c ∈ L, c.1 < T.nodes.length ∧ c.2 < T.nodes.length) → LawO μ (lookPairsI T rng L) (flips (constCoins T 1 L)) := by
  have hprobm := id.prob
  intro L
  rw [flips_constCoins_one]
  induction L with
  | nil => intro _; exact ⟨fun g => ([], g), fun g => rfl, Law.pure _⟩
  | cons c L ih =>
    intro hL
    obtain ⟨hc1, hc2⟩ := hL c (by simp)
    obtain ⟨r, hr1, hr2⟩ := ih (fun c hc => hL c (by simp [hc]))
    have ea : T.nodes[c.1]? = some T.nodes[c.1] := List.getElem?_eq_getElem hc1
    have eb : T.nodes[c.2]? = some T.nodes[c.2] := List.getElem?_eq_getElem hc2
    have e : T.idxPair c = (T.nodes[c.1].index, T.nodes[c.2].index) := by
      unfold Tree.idxPair; rw [Tree.idx_eq ea, Tree.idx_eq eb]
    have lawD : Law μ (fun g => (true, (Tree.decideI T rng T.nodes[c.1] T.nodes[c.2] g).2)) (PMF.pure true) := by
      by_cases hth : T.isThreshold = true
      · refine (Law.pure true).congr (fun g => ?_) rfl
        unfold Tree.decideI; rw [if_pos hth]
      · have hth' : T.isThreshold = false := by simpa using hth
        refine ((Law.decideI id hth' T.nodes[c.1] T.nodes[c.2]).map fun _ => true).congr (fun _ => rfl) ?_
        exact (PMF.map_const _ _).symm
    refine ⟨_, fun g => ?_, (lawD.bind (run2 := fun _ g => (T.idxPair c :: (r g).1, (r g).2)) (Q := fun _ => PMF.pure (T.idxPair c :: L.map T.idxPair))
      (fun _ => (hr2.map fun es => T.idxPair c :: es).congr (fun _ => rfl) (by rw [PMF.pure_map]))).congr (fun _ => rfl) ?_⟩
    · obtain ⟨c1, c2⟩ := c
      unfold lookPairsI
      refine (obind (show rd T.nodes c1 = _ from ea) _).trans ?_
      refine (obind (show rd T.nodes c2 = _ from eb) _).trans ?_
      refine (obind (hr1 _) _).trans ?_
      rw [e]
    · rw [PMF.pure_bind]; rfl

theorem lookTypeI_law (id : IdealRng rng μ) (ok : TreeOK T) {t : Task} {ra rb : Nat × Nat}
    (hr : RangesOK T t ra rb) : LawO μ (lookTypeI T rng t) (flips (constCoins T 1 (pairListI t ra rb))) := by
  by_cases hc : ra.1 = ra.2 ∨ rb.1 = rb.2
  · have : pairListI t ra rb = [] := by
      rw [List.eq_nil_iff_forall_not_mem]
      rintro ⟨p, q⟩ hm
      have := hr.mem_pairListI.1 hm
      omega
    rw [this]
    refine ⟨fun g => ([], g), fun g => ?_, Law.pure _⟩
    unfold lookTypeI
    refine (obind hr.eq _).trans ?_
    simp [hc]
  · obtain ⟨r, g1, g2⟩ := lookPairsI_law (T := T) id (pairListI t ra rb) (by
      rintro ⟨p, q⟩ hm
      have := hr.mem_pairListI.1 hm
      have h1 := hr.nA
      have h2 := hr.nB
      rw [ok.length_nodes]
      exact ⟨by simp only; omega, by simp only; omega⟩)
    refine ⟨r, fun g => ?_, g2⟩
    unfold lookTypeI
    refine (obind hr.eq _).trans ?_
    simp only [hc, if_false]
    refine (obind hr.pairsI_eq _).trans ?_
    exact g1 g

theorem loopLook_law (id : IdealRng rng μ) {ra rb : Nat × Nat} (hA : ra.2 ≤ T.nodes.length) (hB : rb.2 ≤ T.nodes.length)
    (hn : T.nodes.length < 2147483648) {b : ℝ} (h0 : 0 < b) (h1 : b ≤ 1) :
    ∀ (fuel r : Nat), (ra.2 - ra.1) * (rb.2 - rb.1) + 1 ≤ fuel + r → 1 ≤ fuel →
    LawO μ (loopLook T rng ra rb (XR.fin b) fuel r) (skipFrom b h0 h1 0 ((constCoins T b (pairListII ra rb)).drop r)) := by
  have hprobm := id.prob
  set N := (ra.2 - ra.1) * (rb.2 - rb.1) with hN
  have hlen : (constCoins T b (pairListII ra rb)).length = N := by simp [constCoins, pairListII, hN]
  have hNlt : N < 4611686018427387904 := by
    have h1 : ra.2 - ra.1 ≤ 2147483647 := by omega
    have h2 : rb.2 - rb.1 ≤ 2147483647 := by omega
    have := Nat.mul_le_mul h1 h2
    omega
  intro fuel
  induction fuel with
  | zero => intro r _ h; omega
  | succ fuel ih =>
    intro r hf _
    by_cases hr : r < N
    · set c := decodeII ra rb r with hc
      have hcm : c ∈ pairListII ra rb := List.mem_map.2 ⟨r, List.mem_range.2 hr, rfl⟩
      obtain ⟨m1, m2⟩ := mem_pairListII.1 (show (c.1, c.2) ∈ pairListII ra rb from hcm)
      have hc1 : c.1 < T.nodes.length := by omega
      have hc2 : c.2 < T.nodes.length := by omega
      have ea : T.nodes[c.1]? = some T.nodes[c.1] := List.getElem?_eq_getElem hc1
      have eb : T.nodes[c.2]? = some T.nodes[c.2] := List.getElem?_eq_getElem hc2
      have e : T.idxPair c = (T.nodes[c.1].index, T.nodes[c.2].index) := by
        unfold Tree.idxPair; rw [Tree.idx_eq ea, Tree.idx_eq eb]
      obtain ⟨u, hu, hue, humap⟩ := id.uniformTo b h0
      obtain ⟨k, hk, hke, hkmap⟩ := id.geo b h0 h1
      have hcoin : coin (b / b) = PMF.pure true := coin_eq_pure (by rw [div_self h0.ne', unit_eq] <;> norm_num)
      have lawU : Law μ (fun g => (true, (u g).2)) (coin (b / b)) :=
        ((Law.uniform0b h0 hu humap b).map fun _ => true).congr (fun _ => rfl) (by rw [hcoin]; exact (PMF.map_const _ _).symm)
      have lawK := Law.ofDiscrete hk hkmap
      have hrest : ∀ j : Nat, LawO μ (loopLook T rng ra rb (XR.fin b) fuel ((r + 1 + min j 9223372036854775807) % 18446744073709551616))
          (skipFrom b h0 h1 j ((constCoins T b (pairListII ra rb)).drop (r + 1))) := by
        intro j
        have hmod : (r + 1 + min j 9223372036854775807) % 18446744073709551616 = r + 1 + min j 9223372036854775807 :=
          Nat.mod_eq_of_lt (by have := Nat.min_le_right j 9223372036854775807; omega)
        rw [hmod, skipFrom_drop, List.drop_drop]
        have hd : (constCoins T b (pairListII ra rb)).drop (r + 1 + j) = (constCoins T b (pairListII ra rb)).drop (r + 1 + min j 9223372036854775807) := by
          rcases le_total j 9223372036854775807 with h | h
          · rw [min_eq_left h]
          · rw [min_eq_right h, List.drop_eq_nil_of_le (by omega), List.drop_eq_nil_of_le (by omega)]
        rw [hd]
        exact ih _ (by omega) (by omega)
      choose rest hrest1 hrest2 using hrest
      have lawTail : ∀ d : Bool, Law μ (fun g => (if d then T.idxPair c :: (rest (k g).1 (k g).2).1 else (rest (k g).1 (k g).2).1, (rest (k g).1 (k g).2).2))
          (((geoPMF b h0 h1).bind fun j => skipFrom b h0 h1 j ((constCoins T b (pairListII ra rb)).drop (r + 1))).map
            fun es => if d then T.idxPair c :: es else es) :=
        fun d => (lawK.bind (run2 := rest) hrest2).map fun es => if d then T.idxPair c :: es else es
      refine ⟨_, ?_, (lawU.bind lawTail).congr (fun _ => rfl) ?_⟩
      · intro g
        unfold loopLook
        simp only [← hN, hr, if_true]
        refine (obind (show rd T.nodes (ra.1 + r % (ra.2 - ra.1)) = _ from ea) _).trans ?_
        refine (obind (show rd T.nodes (rb.1 + r / (ra.2 - ra.1)) = _ from eb) _).trans ?_
        simp only [hue, hke]
        refine (obind (hrest1 _ _) _).trans ?_
        rw [e]
      · have hdrop : (constCoins T b (pairListII ra rb)).drop r = (T.idxPair c, b) :: (constCoins T b (pairListII ra rb)).drop (r + 1) := by
          rw [List.drop_eq_getElem_cons (by omega)]
          congr 1
          simp [constCoins, pairListII, hc]
        rw [hdrop, skipFrom]
    · rw [List.drop_eq_nil_of_le (by omega), skipFrom]
      refine ⟨fun g => ([], g), fun g => ?_, Law.pure _⟩
      unfold loopLook
      simp [← hN, hr]

theorem skipLook_law (id : IdealRng rng μ) {ra rb : Nat × Nat} (hA : ra.2 ≤ T.nodes.length) (hB : rb.2 ≤ T.nodes.length)
    (hn : T.nodes.length < 2147483648) {bd : ℝ} (h0 : 0 < bd) (h1 : bd ≤ 1) :
    LawO μ (fun g => loopLook T rng ra rb (XR.fin bd) ((ra.2 - ra.1) * (rb.2 - rb.1) + 1) (rng.geo (XR.fin bd) g).1 (rng.geo (XR.fin bd) g).2)
      (flips (constCoins T bd (pairListII ra rb))) := by
  have hprobm := id.prob
  rw [← skip_eq_flips h0 h1 _ (by
    intro e he
    obtain ⟨c, hc, rfl⟩ := List.mem_map.1 he
    exact ⟨h0.le, le_rfl⟩)]
  obtain ⟨k, hk, hke, hkmap⟩ := id.geo bd h0 h1
  have lawK := Law.ofDiscrete hk hkmap
  have hloop : ∀ j : Nat, LawO μ (loopLook T rng ra rb (XR.fin bd) ((ra.2 - ra.1) * (rb.2 - rb.1) + 1) (min j 9223372036854775807))
      (skipFrom bd h0 h1 j (constCoins T bd (pairListII ra rb))) := by
    intro j
    have hlen : (constCoins T bd (pairListII ra rb)).length = (ra.2 - ra.1) * (rb.2 - rb.1) := by simp [constCoins, pairListII]
    have hNlt : (ra.2 - ra.1) * (rb.2 - rb.1) < 4611686018427387904 := by
      have h1 : ra.2 - ra.1 ≤ 2147483647 := by omega
      have h2 : rb.2 - rb.1 ≤ 2147483647 := by omega
      have := Nat.mul_le_mul h1 h2
      omega
    rw [skipFrom_drop]
    have hd : (constCoins T bd (pairListII ra rb)).drop j = (constCoins T bd (pairListII ra rb)).drop (min j 9223372036854775807) := by
      rcases le_total j 9223372036854775807 with h | h
      · rw [min_eq_left h]
      · rw [min_eq_right h, List.drop_eq_nil_of_le (by omega), List.drop_eq_nil_of_le (by omega)]
    rw [hd]
    exact loopLook_law id hA hB hn h0 h1 _ _ (by omega) (by omega)
  choose rest hrest1 hrest2 using hloop
  refine ⟨_, fun g => ?_, lawK.bind hrest2⟩
  simp only [hke]
  exact hrest1 _ _

theorem lookTask_law (id : IdealRng rng μ) (b : BuiltX D ndebug w x (XR.fin a) T m) (s : SupportedInput D w x) (ha : 0 < a)
    {t : Task} (ht : TaskOK T t) : LawO μ (lookTask T rng t) (flips (lookCoins T t)) := by
  have ok := b.ok
  have hprobm := id.prob
  obtain ⟨ra, rb, hr⟩ := ok.ranges_ok ht
  obtain ⟨mp, hmp⟩ := ok.maxProb_some ht
  unfold lookCoins lookTask
  rw [hr.eq, hmp]
  simp only
  by_cases h2 : t.two = true
  swap
  · simp only [h2, Bool.false_eq_true, if_false]
    exact lookTypeI_law id ok hr
  simp only [h2, if_true]
  obtain ⟨bd, h3, h0, h1, hpair⟩ := b.boundII s ha ht h2 hr
  obtain rfl : mp = XR.fin bd := by rw [hmp, Option.some.injEq] at h3; exact h3
  have hnodes : T.nodes.length < 2147483648 := by rw [ok.length_nodes, b.n_eq]; exact s.small
  have hA : ra.2 ≤ T.nodes.length := by rw [ok.length_nodes]; exact hr.nA
  have hB : rb.2 ≤ T.nodes.length := by rw [ok.length_nodes]; exact hr.nB
  by_cases hemp : ra.1 = ra.2 ∨ rb.1 = rb.2
  · have e1 : pairListI t ra rb = [] := by
      rw [List.eq_nil_iff_forall_not_mem]
      rintro ⟨p, q⟩ hm
      have := hr.mem_pairListI.1 hm
      omega
    have e2 : pairListII ra rb = [] := by
      rw [List.eq_nil_iff_forall_not_mem]
      rintro ⟨p, q⟩ hm
      have := mem_pairListII.1 hm
      omega
    rw [e1, e2]
    simp only [constCoins, List.map_nil, ite_self]
    refine ⟨fun g => ([], g), fun g => ?_, Law.pure _⟩
    unfold lookTypeII
    refine (obind hr.eq _).trans ?_
    simp [hemp]
  by_cases h5 : 1 / 5 < bd
  · have h5' : (ofRat (1 / 5) <. XR.fin bd) = true := by
      show (XR.fin _ <. XR.fin _) = true
      rw [XR.lt_fin]; push_cast; simpa using h5
    simp only [h5, if_true]
    obtain ⟨r, g1, g2⟩ := lookTypeI_law (T := T) id ok hr
    refine ⟨r, fun g => ?_, g2⟩
    unfold lookTypeII
    refine (obind hr.eq _).trans ?_
    simp only [hemp, if_false]
    refine (obind hmp _).trans ?_
    simp only [h5', if_true]
    exact g1 g
  have h5' : (ofRat (1 / 5) <. XR.fin bd) = false := by
    show (XR.fin _ <. XR.fin _) = false
    rw [XR.lt_fin]; push_cast; simpa using h5
  have e6 : ((ofNat ((ra.2 - ra.1) * (rb.2 - rb.1)) *. XR.fin bd) <. (ofRat (1 / 1000000) : XR)) =
      decide ((((ra.2 - ra.1) * (rb.2 - rb.1) : ℕ) : ℝ) * bd < 1 / 1000000) := by
    have : (ofNat ((ra.2 - ra.1) * (rb.2 - rb.1)) : XR) = XR.fin (((ra.2 - ra.1) * (rb.2 - rb.1) : ℕ) : ℝ) := by
      simp [CFloat.ofNat, CFloat.ofInt, CFloat.ofRat]
    rw [this, XR.mul_fin]
    show (XR.fin _ <. XR.fin _) = _
    rw [XR.lt_fin]; push_cast; rfl
  by_cases h6 : (((ra.2 - ra.1) * (rb.2 - rb.1) : ℕ) : ℝ) * bd < 1 / 1000000
  · simp only [h5, h6, if_true, if_false]
    have : constCoins T 0 (pairListII ra rb) = ((pairListII ra rb).map T.idxPair).map fun e => (e, 0) := by
      unfold constCoins; rw [List.map_map]; rfl
    rw [this, flips_zero]
    refine ⟨fun g => ([], g), fun g => ?_, Law.pure _⟩
    unfold lookTypeII
    refine (obind hr.eq _).trans ?_
    simp only [hemp, if_false]
    refine (obind hmp _).trans ?_
    simp only [h5', e6, decide_eq_true h6, if_true, Bool.false_eq_true, if_false]
  · simp only [h5, h6, if_false]
    obtain ⟨r, g1, g2⟩ := skipLook_law (T := T) id hA hB hnodes h0 h1
    refine ⟨r, fun g => ?_, g2⟩
    unfold lookTypeII
    refine (obind hr.eq _).trans ?_
    simp only [hemp, if_false]
    refine (obind hmp _).trans ?_
    simp only [h5', e6, decide_eq_false h6, Bool.false_eq_true, if_false]
    exact g1 g

/-- the expected number of entries that are kept -/
theorem flips_length {E : Type} : ∀ (L : List (E × ℝ)), ∑' es, flips L es * (es.length : ℝ≥0∞) = (L.map fun c => ENNReal.ofReal (unit c.2)).sum := by
  intro L
  induction L with
  | nil => rw [flips, tsum_pure]; simp
  | cons c L ih =>
    obtain ⟨e, p⟩ := c
    rw [tsum_flips_cons, List.map_cons, List.sum_cons, ← ih]
    simp only [List.length_cons, Nat.cast_add, Nat.cast_one, mul_add, mul_one, ENNReal.tsum_add, PMF.tsum_coe]
    rw [add_right_comm, ← add_mul, add_comm, ← ENNReal.ofReal_add (unit_nonneg _) (by have := unit_le_one p; linarith)]
    simp

/-- the expected number of pairs that a sequence of sampling calls looks at, whatever generator (with the ideal distribution) it starts with -/
theorem lookTasks_expected (id : IdealRng rng μ) {L : Task → List ((Nat × Nat) × ℝ)} : ∀ (ts : List Task),
    (∀ t ∈ ts, LawO μ (lookTask T rng t) (flips (L t))) → ∃ r : rng.G → List (Nat × Nat) × rng.G, (∀ g, lookTasks T rng ts g = some (r g)) ∧
      Law μ r (flips (ts.flatMap L)) ∧ ∫⁻ g, ((r g).1.length : ℝ≥0∞) ∂μ = ((ts.flatMap L).map fun c => ENNReal.ofReal (unit c.2)).sum := by
  have hprobm := id.prob
  intro ts hts
  have key : ∃ r : rng.G → List (Nat × Nat) × rng.G, (∀ g, lookTasks T rng ts g = some (r g)) ∧ Law μ r (flips (ts.flatMap L)) := by
    induction ts with
    | nil => exact ⟨fun g => ([], g), fun g => rfl, Law.pure _⟩
    | cons t ts ih =>
      obtain ⟨r1, h1, h2⟩ := hts t (by simp)
      obtain ⟨r2, h3, h4⟩ := ih (fun t ht => hts t (by simp [ht]))
      refine ⟨_, fun g => ?_, (h2.bind (run2 := fun es g => (es ++ (r2 g).1, (r2 g).2))
        (Q := fun es => (flips (ts.flatMap L)).map fun fs => es ++ fs) (fun es => h4.map fun fs => es ++ fs)).congr (fun _ => rfl) ?_⟩
      · unfold lookTasks
        refine (obind (h1 g) _).trans ?_
        exact (obind (h3 _) _).trans rfl
      · rw [List.flatMap_cons, flips_append]
  obtain ⟨r, h1, h2⟩ := key
  refine ⟨r, h1, h2, ?_⟩
  have := h2.int (fun l _ => (l.length : ℝ≥0∞)) (fun _ => measurable_const)
  simp only [lintegral_const, measure_univ, mul_one] at this
  rw [this, flips_length]

end
end Girgs
