import Verif.Proofs.AssertSample
/-
The assertions of complete sampling runs, and the pair counters.
-/
namespace Girgs
open CFloat Tree Spec

/-- every assertion of the list holds, except that if `Z` the one in SpatialTree.inl:245 may fail -/
def Mostly (Z : Prop) (L : List Check) : Prop := ∀ c ∈ L, c.holds = false → c = Asserts.tree 245 false ∧ Z

theorem AllHold.mostly {L : List Check} (h : AllHold L) (Z : Prop) : Mostly Z L := by
  intro c hc h2
  rw [h c hc] at h2; cases h2

theorem Mostly.mono {Z Z' : Prop} {L : List Check} (h : Mostly Z L) (hz : Z → Z') : Mostly Z' L :=
  fun c hc hf => ⟨(h c hc hf).1, hz (h c hc hf).2⟩

theorem Mostly.append {Z : Prop} {L M : List Check} (h : Mostly Z L) (h' : Mostly Z M) : Mostly Z (L ++ M) := by
  intro c hc
  rcases List.mem_append.1 hc with hc | hc
  · exact h c hc
  · exact h' c hc

theorem Mostly.concatM' {Z : Prop} {α : Type} {f : α → Option (List Check)} {L : List α} {Q : α → Prop} {c : Check}
    (h : ∀ a ∈ L, ∃ l, f a = some l ∧ Mostly Z l ∧ (Q a → c ∈ l)) :
    ∃ l, Tree.concatM L f = some l ∧ Mostly Z l ∧ ∀ a ∈ L, Q a → c ∈ l := by
  induction L with
  | nil => exact ⟨[], rfl, (by intro c hc; cases hc), by simp⟩
  | cons a L ih =>
    obtain ⟨l, h1, h2, h2'⟩ := h a (by simp)
    obtain ⟨l', h3, h4, h4'⟩ := ih (fun b hb => h b (by simp [hb]))
    refine ⟨l ++ l', ?_, h2.append h4, ?_⟩
    · show (f a >>= fun x => Tree.concatM L f >>= fun y => some (x ++ y)) = _
      rw [obind h1, obind h3]
    · intro b hb hq
      rcases List.mem_cons.1 hb with rfl | hb
      · exact List.mem_append_left _ (h2' hq)
      · exact List.mem_append_right _ (h4' b hb hq)

/-- total weight divided by the square of the smallest weight is a power of two -/
def PowerOfTwo (w : List ℝ) (m : ℝ) : Prop := ∃ k : Nat, w.sum = 2 ^ k * m ^ 2

section exact
variable {D : Nat} {ndebug : Bool} {w : List ℝ} {x : List (Fin D → ℝ)} {alpha : XR} {T : Tree XR D} {m : ℝ}

/-- the weight and distance bounds of a type II call only coincide if `W/w0^2` is a power of two -/
theorem BuiltX.tight (b : BuiltX D ndebug w x alpha T m) (s : SupportedInput D w x) {t : Task} (ht : TaskOK T t)
    (h2 : t.two = true) {r wu : ℝ} (hb : BoundsII D w x T t r wu) (he : wu = r ^ D) : PowerOfTwo w m := by
  have ok := b.ok
  have hm := b.m_pos s
  have hW := b.W_pos s
  have hd := ok.depth_le (ok.level_lt ht)
  have hi := ht.hi; have hj := ht.hj; have hly := ok.layers_le
  obtain ⟨r', h3, _, _, h6⟩ := Props.C07_cell_distance D t.level t.cellA t.cellB s.D1 s.D5 hd ht.hA ht.hB
  have hrr : r' = r := by
    have := h3.symm.trans hb.dist
    simpa using this
  have htouch : Coord.touching D t.cellA t.cellB t.level = some false := by
    rw [Coord.touching_eq ok.D1 ok.D5 hd ht.hA ht.hB]
    have := (ht.two h2).2
    unfold touchB at this
    rw [this]
  have hr := h6 htouch
  rw [hrr] at hr
  have hwu : wu = 2 ^ (t.i + 1) * m * (2 ^ (t.j + 1) * m) / w.sum := by
    have e := hb.wUpper
    unfold Tree.wUpper at e
    rw [obind (Coord.shl1_eq (show t.i + 1 ≤ 30 by omega)), obind (Coord.shl1_eq (show t.j + 1 ≤ 30 by omega)), b.w0, b.W] at e
    simp only [XR.ofInt_eq, XR.mul_fin] at e
    rw [XR.div_fin _ _ hW.ne', Option.some.injEq, XR.fin.injEq] at e
    rw [← e]
    push_cast
    ring
  have hl1 : 1 ≤ t.level := by
    by_contra hc
    have h0 : t.level = 0 := by omega
    have hA := ht.hA; have hB := ht.hB
    rw [h0] at hA hB
    have e1 : levelStart D 1 = 1 := by simp [levelStart]
    unfold OnLevel at hA hB
    rw [levelStart_zero] at hA hB
    simp only [Nat.zero_add, e1] at hA hB
    exact (ht.two h2).1 (by omega)
  have hpbl : 0 < partitioningBaseLevel D T.blc t.i t.j := by have := ht.hl; omega
  have h1 := Props.pbl_mul_le hpbl
  have hDl : 0 < D * partitioningBaseLevel D T.blc t.i t.j := Nat.mul_pos s.D1 hpbl
  have hblc : 0 < T.blc := by omega
  have hlow := b.blc_low hblc
  obtain ⟨N, hN⟩ : ∃ N : Nat, T.blc = N := ⟨T.blc.toNat, by omega⟩
  rw [hN, zpow_natCast] at hlow
  have hDl2 : D * t.level ≤ D * partitioningBaseLevel D T.blc t.i t.j := Nat.mul_le_mul_left _ ht.hl
  have hN2 : D * t.level + (t.i + 1) + (t.j + 1) ≤ N := by omega
  have h5 : 1 / (2 : ℝ) ^ (D * t.level) ≤ r ^ D := by
    have e : 1 / (2 : ℝ) ^ (D * t.level) = (1 / 2 ^ t.level) ^ D := by
      rw [div_pow, one_pow, ← pow_mul, Nat.mul_comm]
    rw [e]
    exact pow_le_pow_left₀ (by positivity) hr D
  have h7 : 1 / (2 : ℝ) ^ (D * t.level) ≤ 2 ^ (t.i + 1) * m * (2 ^ (t.j + 1) * m) / w.sum := by
    rw [← hwu, he]; exact h5
  rw [div_le_div_iff₀ (by positivity) hW, one_mul] at h7
  have hcalc : 2 ^ (t.i + 1) * m * (2 ^ (t.j + 1) * m) * 2 ^ (D * t.level) = 2 ^ (D * t.level + (t.i + 1) + (t.j + 1)) * m ^ 2 := by
    rw [pow_add (2 : ℝ) (D * t.level + (t.i + 1)) (t.j + 1), pow_add (2 : ℝ) (D * t.level) (t.i + 1)]; ring
  rw [hcalc] at h7
  refine ⟨D * t.level + (t.i + 1) + (t.j + 1), le_antisymm h7 ?_⟩
  calc (2 : ℝ) ^ (D * t.level + (t.i + 1) + (t.j + 1)) * m ^ 2 ≤ 2 ^ N * m ^ 2 :=
        mul_le_mul_of_nonneg_right (pow_le_pow_right₀ (by norm_num) hN2) (by positivity)
    _ ≤ w.sum := hlow

theorem BuiltX.loop_checks (b : BuiltX D ndebug w x alpha T m) (s : SupportedInput D w x) {t : Task} (ht : TaskOK T t)
    {r wu : ℝ} (hb : BoundsII D w x T t r wu) (rng : Tree.Rng XR) (hgeo : GeoBounded rng) {ra rb : Nat × Nat}
    (hr : RangesOK T t ra rb) (mp : XR) :
    ∀ (fuel k : Nat) (g : rng.G), k < 18446744073709551616 → (ra.2 - ra.1) * (rb.2 - rb.1) + 1 ≤ fuel + k → 1 ≤ fuel →
    ∃ L, T.loopChecks rng t (XR.fin wu) (XR.fin r) ra rb mp fuel k g = some L ∧ AllHold L := by
  have ok := b.ok
  have hA := hr.nA; have hB := hr.nB; have hsm := ok.small
  have hNb : (ra.2 - ra.1) * (rb.2 - rb.1) ≤ 4611686018427387904 := by
    calc (ra.2 - ra.1) * (rb.2 - rb.1) ≤ 2147483648 * 2147483648 := Nat.mul_le_mul (by omega) (by omega)
      _ = _ := by norm_num
  intro fuel
  induction fuel with
  | zero => intro k g _ _ h; omega
  | succ fuel ih =>
    intro k g hk hfuel _
    unfold Tree.loopChecks
    simp only
    by_cases hlt : k < (ra.2 - ra.1) * (rb.2 - rb.1)
    · rw [if_pos hlt]
      obtain ⟨hma, hmb⟩ := mem_pairListII.1 (List.mem_map.2 ⟨k, List.mem_range.2 hlt, rfl⟩ : decodeII ra rb k ∈ pairListII ra rb)
      have hpa : ra.1 + k % (ra.2 - ra.1) < T.nodes.length := by rw [ok.length_nodes]; omega
      have hpb : rb.1 + k / (ra.2 - ra.1) < T.nodes.length := by rw [ok.length_nodes]; omega
      have ea := List.getElem?_eq_getElem hpa
      have eb := List.getElem?_eq_getElem hpb
      have hj := hgeo mp (rng.uniformTo mp g).2
      have hmod : (k + 1 + (rng.geo mp (rng.uniformTo mp g).2).1) % 18446744073709551616 =
          k + 1 + (rng.geo mp (rng.uniformTo mp g).2).1 := Nat.mod_eq_of_lt (by omega)
      obtain ⟨L, h1, h2⟩ := ih (k + 1 + (rng.geo mp (rng.uniformTo mp g).2).1) (rng.geo mp (rng.uniformTo mp g).2).2
        (by omega) (by omega) (by omega)
      obtain ⟨P, h3, h4⟩ := b.pair_checksII s ht hb (List.mem_of_getElem? ea) (List.mem_of_getElem? eb)
        ((hr.memA _ _ ea).1 hma) ((hr.memB _ _ eb).1 hmb)
      refine ⟨P ++ L, ?_, h4.append h2⟩
      refine (obind ea _).trans ?_
      refine (obind eb _).trans ?_
      refine (obind h3 _).trans ?_
      simp only [hmod]
      refine (obind h1 _).trans ?_
      rfl
    · rw [if_neg hlt]
      exact ⟨[], rfl, allHold_nil⟩

/-- type II calls: all assertions hold except line 245, which fails iff `assertBound` says so -/
theorem BuiltX.checksII (b : BuiltX D ndebug w x alpha T m) (s : SupportedInput D w x) {t : Task} (ht : TaskOK T t)
    (h2 : t.two = true) (rng : Tree.Rng XR) (hgeo : GeoBounded rng) (g : rng.G) :
    ∃ L, T.checksII rng t g = some L ∧ Mostly (T.assertBound t = some false) L ∧
      (T.assertBound t = some false → Asserts.tree 245 false ∈ L) := by
  have ok := b.ok
  obtain ⟨L, h3, h4⟩ := ok.range_checks ht
  obtain ⟨ra, rb, hr⟩ := ok.ranges_ok ht
  obtain ⟨r, wu, hb⟩ := b.typeII s ht h2
  obtain ⟨mp, hmp⟩ := ok.maxProb_some ht
  have hown : AllHold (T.baseChecks t.i t.j ++
      [Asserts.tree 229 (decide (t.level ≤ partitioningBaseLevel D T.blc t.i t.j))] ++ L) := by
    refine (AllHold.append ((b.levelFacts s).base ht.hi ht.hj) ?_).append h4
    intro c hc
    simp only [List.mem_cons, List.not_mem_nil, or_false] at hc
    subst hc
    simpa [Asserts.tree] using ht.hl
  unfold Tree.checksII Tree.assertBound
  rw [obind h3, obind hr.eq, obind hr.eq]
  simp only
  split
  · exact ⟨_, rfl, hown.mostly _, by simp⟩
  · rw [obind hb.wUpper, obind hb.dist, obind hmp, obind hb.wUpper, obind hb.dist]
    generalize (XR.fin wu <. powToThe D (XR.fin r)) = bd
    have h245 : Mostly ((some bd : Option Bool) = some false) [Asserts.tree 245 bd] := by
      intro c hc hf
      simp only [List.mem_cons, List.not_mem_nil, or_false] at hc
      subst hc
      have hf' : bd = false := hf
      exact ⟨by rw [hf'], by rw [hf']⟩
    have hmem : ∀ M : List Check, (some bd : Option Bool) = some false →
        Asserts.tree 245 false ∈ (T.baseChecks t.i t.j ++
      [Asserts.tree 229 (decide (t.level ≤ partitioningBaseLevel D T.blc t.i t.j))] ++ L) ++ [Asserts.tree 245 bd] ++ M := by
      intro M he
      rw [Option.some.injEq] at he
      subst he
      simp
    split
    · obtain ⟨M, h5, h6⟩ := b.checksI s ht (Or.inr h2)
      rw [obind h5]
      exact ⟨_, rfl, ((hown.mostly _).append h245).append (h6.mostly _), hmem M⟩
    · split
      · exact ⟨_, rfl, (hown.mostly _).append h245, fun he => by simpa using hmem [] he⟩
      · obtain ⟨M, h5, h6⟩ := b.loop_checks s ht hb rng hgeo hr mp ((ra.2 - ra.1) * (rb.2 - rb.1) + 1) (rng.geo mp g).1 (rng.geo mp g).2
          (by have := hgeo mp g; omega) (by omega) (by omega)
        rw [obind h5]
        exact ⟨_, rfl, ((hown.mostly _).append h245).append (h6.mostly _), hmem M⟩

/-- line 245 only fails if `W/w0^2` is a power of two -/
theorem BuiltX.assertBound_powerOfTwo (b : BuiltX D ndebug w x alpha T m) (s : SupportedInput D w x) {t : Task}
    (ht : TaskOK T t) (h2 : t.two = true) (hf : T.assertBound t = some false) : PowerOfTwo w m := by
  obtain ⟨ra, rb, hr⟩ := b.ok.ranges_ok ht
  obtain ⟨r, wu, hb⟩ := b.typeII s ht h2
  unfold Tree.assertBound at hf
  rw [obind hr.eq] at hf
  simp only at hf
  split at hf
  · simp at hf
  · rw [obind hb.wUpper, obind hb.dist, Option.some.injEq, Props.C09_pow_to_the] at hf
    have hnlt : ¬ wu < r ^ D := by
      intro h
      have : (XR.fin wu <. XR.fin (r ^ D)) = true := XR.lt_fin _ _ ▸ decide_eq_true h
      rw [this] at hf; cases hf
    exact b.tight s ht h2 hb (le_antisymm hb.wle (not_lt.1 hnlt))

/-- some call of the recursion hits the failing case of line 245 -/
def Aborts (T : Tree XR D) : Prop := ∃ t ∈ visitP T T.levels 0 0 0, t.two = true ∧ T.assertBound t = some false

theorem BuiltX.task_checks (b : BuiltX D ndebug w x alpha T m) (s : SupportedInput D w x) {t : Task}
    (ht : t ∈ visitP T T.levels 0 0 0) (rng : Tree.Rng XR) (hgeo : GeoBounded rng) (g : rng.G) :
    ∃ L, T.taskChecks rng t g = some L ∧ Mostly (Aborts T) L ∧
      (t.two = true → T.assertBound t = some false → Asserts.tree 245 false ∈ L) := by
  have hon : OnLevel D 0 0 := ⟨by simp [levelStart], by simp [levelStart]⟩
  have htok := visitP_ok _ _ _ _ hon hon t ht
  unfold Tree.taskChecks
  cases h2 : t.two
  · obtain ⟨L, h3, h4⟩ := b.checksI s htok (Or.inl (visitP_level _ _ _ _ t ht h2))
    exact ⟨L, by simpa using h3, h4.mostly _, by simp⟩
  · obtain ⟨L, h3, h4, h5⟩ := b.checksII s htok h2 rng hgeo g
    exact ⟨L, by simpa using h3, h4.mono fun h => ⟨t, ht, h2, h⟩, fun _ => h5⟩

theorem BuiltX.tasks_checks (b : BuiltX D ndebug w x alpha T m) (s : SupportedInput D w x) (rng : Tree.Rng XR)
    (hgeo : GeoBounded rng) : ∀ (ts : List Task), (∀ t ∈ ts, t ∈ visitP T T.levels 0 0 0) → ∀ g : rng.G,
    ∃ L, T.tasksChecks rng ts g = some L ∧ Mostly (Aborts T) L ∧
      ∀ t ∈ ts, t.two = true → T.assertBound t = some false → Asserts.tree 245 false ∈ L := by
  have hon : OnLevel D 0 0 := ⟨by simp [levelStart], by simp [levelStart]⟩
  intro ts
  induction ts with
  | nil => intro _ g; exact ⟨[], rfl, allHold_nil.mostly _, by simp⟩
  | cons t ts ih =>
    intro hts g
    obtain ⟨L, h1, h2, h2'⟩ := b.task_checks s (hts t (by simp)) rng hgeo g
    obtain ⟨cs, es, g1, _, h3, _⟩ := runTask_spec rng hgeo b.ok (visitP_ok _ _ _ _ hon hon t (hts t (by simp))) g
    obtain ⟨M, h4, h5, h5'⟩ := ih (fun t ht => hts t (by simp [ht])) g1
    refine ⟨L ++ M, ?_, h2.append h5, ?_⟩
    · unfold Tree.tasksChecks
      rw [obind h1, obind h3, obind h4]
    · intro t' ht' h6 h7
      rcases List.mem_cons.1 ht' with rfl | ht'
      · exact List.mem_append_left _ (h2' h6 h7)
      · exact List.mem_append_right _ (h5' t' ht' h6 h7)

end exact

/-! ### the counters -/

section counters
variable {F : Type} [CFloat F] {D : Nat} {T : Tree F D}

theorem length_pairListII (ra rb : Nat × Nat) : (pairListII ra rb).length = (ra.2 - ra.1) * (rb.2 - rb.1) := by
  simp [pairListII]

theorem two_mul_sum_range_sub (n : Nat) : 2 * ((List.range n).map fun k => n - (k + 1)).sum = n * (n - 1) := by
  induction n with
  | zero => simp
  | succ n ih =>
    have e : ((List.range (n + 1)).map fun k => n + 1 - (k + 1)).sum = ((List.range n).map fun k => n - (k + 1)).sum + n := by
      rw [List.range_succ_eq_map, List.map_cons, List.sum_cons, List.map_map, Nat.add_comm]
      congr 1
      apply congrArg List.sum
      apply List.map_congr_left
      intro k _
      simp only [Function.comp]
      omega
    rw [e, Nat.mul_add, ih]
    cases n with
    | zero => rfl
    | succ n => simp only [Nat.add_sub_cancel]; ring

theorem length_pairListI_same {t : Task} {ra : Nat × Nat} (h : t.cellA = t.cellB ∧ t.i = t.j) :
    2 * (pairListI t ra ra).length = (ra.2 - ra.1) * (ra.2 - ra.1 - 1) := by
  unfold pairListI
  simp only [h, and_self, if_true, List.length_flatMap, List.length_map, List.length_range']
  rw [← two_mul_sum_range_sub]
  congr 2
  apply List.map_congr_left
  intro k _
  omega

theorem length_pairListI_diff {t : Task} {ra rb : Nat × Nat} (h : ¬ (t.cellA = t.cellB ∧ t.i = t.j)) :
    (pairListI t ra rb).length = (ra.2 - ra.1) * (rb.2 - rb.1) := by
  unfold pairListI
  simp only [h, if_false, List.length_flatMap, List.length_map, List.length_range', Nat.add_zero]
  simp

theorem RangesOK.countI {t : Task} {ra rb : Nat × Nat} (h : RangesOK T t ra rb) :
    T.countI t = some (2 * ((pairListI t ra rb).length : Int)) := by
  have hA := h.leA; have hB := h.leB
  have ea : ((ra.2 - ra.1 : Nat) : Int) = (ra.2 : Int) - ra.1 := by omega
  have eb : ((rb.2 - rb.1 : Nat) : Int) = (rb.2 : Int) - rb.1 := by omega
  unfold Tree.countI
  rw [obind h.eq]
  simp only
  by_cases hs : t.cellA = t.cellB ∧ t.i = t.j
  · have e := h.same hs
    subst e
    have hl := length_pairListI_same (ra := ra) hs
    have hl' : 2 * ((pairListI t ra ra).length : Int) = ((ra.2 - ra.1 : Nat) : Int) * ((ra.2 - ra.1 - 1 : Nat) : Int) := by
      exact_mod_cast hl
    split
    · rename_i h0
      have : ra.2 - ra.1 = 0 := by omega
      rw [hl', this]; simp
    · rename_i h0
      rw [hl', ea, show ((ra.2 - ra.1 - 1 : Nat) : Int) = (ra.2 : Int) - ra.1 - 1 by omega]
  · rw [length_pairListI_diff hs]
    push_cast
    rw [ea, eb]
    split
    · rename_i h0
      rcases h0 with h0 | h0
      · rw [h0]; simp
      · rw [h0]; simp
    · congr 1; ring

theorem TreeOK.counts_spec (ok : TreeOK T) {t : Task} (ht : TaskOK T t) :
    ∃ a b cs, T.counts t = some (a, b) ∧ T.candidates t = some cs ∧ a + b = 2 * (cs.length : Int) := by
  obtain ⟨ra, rb, h⟩ := ok.ranges_ok ht
  have hA := h.leA; have hB := h.leB
  have ea : ((ra.2 - ra.1 : Nat) : Int) = (ra.2 : Int) - ra.1 := by omega
  have eb : ((rb.2 - rb.1 : Nat) : Int) = (rb.2 : Int) - rb.1 := by omega
  unfold Tree.counts
  cases h2 : t.two
  · refine ⟨2 * ((pairListI t ra rb).length : Int), 0, _, ?_, h.candidates_eq, ?_⟩
    · simp only [Bool.false_eq_true, if_false]
      rw [h.countI]; rfl
    · rw [candList, h2]; simp
  · have hne := (ht.two h2).1
    have hlen : (pairListI t ra rb).length = (pairListII ra rb).length := (h.pairLists_perm hne).length_eq
    have hcand := h.candidates_eq
    rw [candList, h2] at hcand
    simp only [if_true] at hcand ⊢
    unfold Tree.countII
    rw [obind h.eq]
    simp only
    split
    · rename_i h0
      refine ⟨0, 0, _, rfl, hcand, ?_⟩
      have : (ra.2 - ra.1) * (rb.2 - rb.1) = 0 := by
        rcases h0 with h0 | h0
        · rw [h0]; simp
        · rw [h0]; simp
      rw [length_pairListII, this]; simp
    · obtain ⟨mp, hmp⟩ := ok.maxProb_some ht
      rw [obind hmp]
      split
      · refine ⟨2 * ((pairListI t ra rb).length : Int), 0, _, by rw [h.countI]; rfl, hcand, ?_⟩
        rw [hlen]; simp
      · refine ⟨0, 2 * ((ra.2 : Int) - ra.1) * ((rb.2 : Int) - rb.1), _, rfl, hcand, ?_⟩
        rw [length_pairListII]
        push_cast
        rw [ea, eb]; ring

theorem TreeOK.totals_spec (ok : TreeOK T) : ∀ (ts : List Task), (∀ t ∈ ts, TaskOK T t) →
    ∃ a b cs, T.totals ts = some (a, b) ∧ T.allCandidates ts = some cs ∧ a + b = 2 * (cs.length : Int) := by
  intro ts
  induction ts with
  | nil => intro _; exact ⟨0, 0, [], rfl, rfl, by simp⟩
  | cons t ts ih =>
    intro hts
    obtain ⟨a, b, cs, h1, h2, h3⟩ := ok.counts_spec (hts t (by simp))
    obtain ⟨a', b', cs', h4, h5, h6⟩ := ih (fun t ht => hts t (by simp [ht]))
    refine ⟨a + a', b + b', cs ++ cs', ?_, ?_, ?_⟩
    · unfold Tree.totals
      rw [obind h1, obind h4]
    · unfold Tree.allCandidates Tree.concatM
      unfold Tree.allCandidates at h5
      rw [h2, h5]; rfl
    · rw [List.length_append]; push_cast; linarith

end counters
end Girgs
