import Verif.Model.Work
import Verif.Proofs.Visit
import Mathlib.Data.Fintype.BigOperators
import Mathlib.Data.Fintype.Pi
/-
The number of calls of `visitCellPair` and of iterations of its loops.
-/
namespace Girgs
open Spec

variable {F : Type} [CFloat F] {D : Nat} {T : Tree F D}

/-! ### few cells touch a cell -/

theorem ring_neighbours {l a b : Nat} (ha : a < 2 ^ l) (hb : b < 2 ^ l) (h : ringDist l a b ≤ 1) :
    b = a ∨ b = (a + 1) % 2 ^ l ∨ b = (a + (2 ^ l - 1)) % 2 ^ l := by
  unfold ringDist at h
  have hN : 0 < 2 ^ l := by positivity
  have e : ((2 : Int) ^ l) = ((2 ^ l : Nat) : Int) := by push_cast; rfl
  rw [e] at h
  generalize 2 ^ l = N at *
  rcases min_le_iff.1 h with h | h
  · rw [abs_le] at h
    by_cases h1 : b = a
    · exact Or.inl h1
    · by_cases h2 : b = a + 1
      · exact Or.inr (Or.inl (by rw [← h2, Nat.mod_eq_of_lt hb]))
      · have h3 : b + 1 = a := by omega
        refine Or.inr (Or.inr ?_)
        rw [show a + (N - 1) = b + N by omega, Nat.add_mod_right, Nat.mod_eq_of_lt hb]
  · rcases abs_cases ((a : Int) - b) with h1 | h1
    · have : a = b + (N - 1) := by omega
      have hb0 : b = 0 := by omega
      subst hb0
      exact Or.inr (Or.inl (by rw [show a + 1 = N by omega, Nat.mod_self]))
    · have : b = a + (N - 1) := by omega
      exact Or.inr (Or.inr (by rw [← this, Nat.mod_eq_of_lt hb]))

theorem gridCoord_inj {l A B : Nat} (h1 : 1 ≤ D) (h5 : D ≤ 5) (hl : D * l ≤ 31) (hA : OnLevel D l A) (hB : OnLevel D l B)
    (h : ∀ d : Fin D, gridCoord D l A d = gridCoord D l B d) : A = B := by
  have h32 : 2 ^ (D * l) ≤ 2 ^ 32 := two_pow_le (by omega)
  have hA' := hA.local_lt
  have hB' := hB.local_lt
  have := coordN_inj h1 h5 (lt_of_lt_of_le hA' h32) (lt_of_lt_of_le hB' h32) (fun d => by
    rw [← gridCoord_eq h1 h5 (by omega) hA', ← gridCoord_eq h1 h5 (by omega) hB']; exact h d)
  have := hA.1; have := hB.1
  omega

/-- the cells of a level -/
def cellsOn (D l : Nat) : Finset Nat := Finset.Ico (levelStart D l) (levelStart D (l + 1))

theorem mem_cellsOn {l c : Nat} : c ∈ cellsOn D l ↔ OnLevel D l c := by
  unfold cellsOn OnLevel; rw [Finset.mem_Ico]

theorem card_cellsOn (l : Nat) : (cellsOn D l).card = 2 ^ (D * l) := by
  unfold cellsOn
  rw [Nat.card_Ico, levelStart_succ, Nat.add_sub_cancel_left]

/-- at most `3^D` cells of a level touch a given one -/
theorem card_touching {l A : Nat} (h1 : 1 ≤ D) (h5 : D ≤ 5) (hl : D * l ≤ 31) :
    ((cellsOn D l).filter fun B => touchB D l A B = true).card ≤ 3 ^ D := by
  let nb : Fin D → Finset Nat := fun d => {gridCoord D l A d, (gridCoord D l A d + 1) % 2 ^ l, (gridCoord D l A d + (2 ^ l - 1)) % 2 ^ l}
  have hcard : (Fintype.piFinset nb).card ≤ 3 ^ D := by
    rw [Fintype.card_piFinset]
    calc ∏ d, (nb d).card ≤ ∏ _d : Fin D, 3 := Finset.prod_le_prod (fun _ _ => by omega) (fun d _ => Finset.card_le_three)
      _ = 3 ^ D := by simp
  refine le_trans (Finset.card_le_card_of_injOn (fun B => fun d : Fin D => gridCoord D l B d) ?_ ?_) hcard
  · intro B hB
    rw [Finset.mem_coe, Finset.mem_filter] at hB
    rw [Finset.mem_coe, Fintype.mem_piFinset]
    intro d
    have ht := hB.2
    unfold touchB at ht
    rw [decide_eq_true_eq] at ht
    have := ring_neighbours (gridCoord_lt d) (gridCoord_lt d) (ht d)
    simp only [nb, Finset.mem_insert, Finset.mem_singleton]
    exact this
  · intro B hB B' hB' h
    rw [Finset.mem_coe, Finset.mem_filter, mem_cellsOn] at hB hB'
    exact gridCoord_inj h1 h5 hl hB.1 hB'.1 (fun d => congrFun h d)

theorem length_kids_le (A B : Nat) : (kids D A B).length ≤ 4 ^ D := by
  rw [← List.toFinset_card_of_nodup (nodup_kids D A B)]
  have hsub : (kids D A B).toFinset ⊆ (Finset.Ioc (2 ^ D * A) (2 ^ D * A + 2 ^ D)) ×ˢ (Finset.Ioc (2 ^ D * B) (2 ^ D * B + 2 ^ D)) := by
    rintro ⟨a, b⟩ h
    rw [List.mem_toFinset, mem_kids] at h
    rw [Finset.mem_product, Finset.mem_Ioc, Finset.mem_Ioc]
    exact ⟨⟨h.1.1, h.1.2⟩, h.2.1.1, h.2.1.2⟩
  refine le_trans (Finset.card_le_card hsub) ?_
  rw [Finset.card_product, Nat.card_Ioc, Nat.card_Ioc, Nat.add_sub_cancel_left, Nat.add_sub_cancel_left, ← Nat.mul_pow]

/-! ### the number of steps -/

/-- iterations of the loops of one call -/
def costP (T : Tree F D) (l : Nat) : Nat := 1 + ((List.range' l (T.levels - l)).map fun m => 1 + (layPairs T m).length).sum

/-- `visitSteps` without undefined behaviour -/
def stepsP (T : Tree F D) : Nat → Nat → Nat → Nat → Nat
  | 0, _, _, _ => 0
  | k + 1, A, B, l =>
    if touchB D l A B = false then if T.ndebug && T.isThreshold then 1 else costP T l
    else 1 + (layPairs T l).length + (if k = 0 then 0 else ((kids D A B).map fun p => stepsP T k p.1 p.2 (l + 1)).sum)

theorem sumM_some {α : Type} {L : List α} {f : α → Option Nat} {g : α → Nat} (h : ∀ a ∈ L, f a = some (g a)) :
    Tree.sumM L f = some (L.map g).sum := by
  induction L with
  | nil => rfl
  | cons a L ih =>
    unfold Tree.sumM
    rw [h a (by simp), ih (fun b hb => h b (by simp [hb]))]; simp

theorem TreeOK.steps_eq (ok : TreeOK T) : ∀ (k fuel A B l : Nat), k + 1 ≤ fuel → l + (k + 1) = T.levels →
    OnLevel D l A → OnLevel D l B → Tree.visitSteps T fuel A B l = some (stepsP T (k + 1) A B l) := by
  intro k
  induction k with
  | zero =>
    intro fuel A B l hf hl hA hB
    obtain ⟨fuel, rfl⟩ : ∃ f, fuel = f + 1 := ⟨fuel - 1, by omega⟩
    unfold Tree.visitSteps stepsP
    refine (obind (Coord.touching_eq ok.D1 ok.D5 (ok.depth_le (by omega)) hA hB) _).trans ?_
    show (if (!touchB D l A B) = true then _ else _) = _
    cases touchB D l A B
    · simp only [Bool.not_false, if_true]
      split
      · rfl
      · refine (obind (sumM_some (g := fun m => 1 + (layPairs T m).length) ?_) _).trans rfl
        intro m hm
        rw [List.mem_range'_1] at hm
        exact (obind (ok.rd_layerPairs (by omega)) _).trans rfl
    · refine (obind (ok.rd_layerPairs (by omega)) _).trans ?_
      have : l = subU T.levels 1 := by rw [ok.subU_levels]; omega
      simp [this]
  | succ k ih =>
    intro fuel A B l hf hl hA hB
    obtain ⟨fuel, rfl⟩ : ∃ f, fuel = f + 1 := ⟨fuel - 1, by omega⟩
    unfold Tree.visitSteps stepsP
    refine (obind (Coord.touching_eq ok.D1 ok.D5 (ok.depth_le (by omega)) hA hB) _).trans ?_
    show (if (!touchB D l A B) = true then _ else _) = _
    cases touchB D l A B
    · simp only [Bool.not_false, if_true]
      split
      · rfl
      · refine (obind (sumM_some (g := fun m => 1 + (layPairs T m).length) ?_) _).trans rfl
        intro m hm
        rw [List.mem_range'_1] at hm
        exact (obind (ok.rd_layerPairs (by omega)) _).trans rfl
    · refine (obind (ok.rd_layerPairs (by omega)) _).trans ?_
      have : ¬ (l = subU T.levels 1) := by rw [ok.subU_levels]; omega
      rw [if_neg this]
      refine (obind (childPairs_eq ok.D1 (ok.depth_le (by omega)) hA hB) _).trans ?_
      refine (obind (sumM_some (g := fun p => stepsP T (k + 1) p.1 p.2 (l + 1)) ?_) _).trans ?_
      · intro p hp
        have := kids_onLevel hA hB hp
        exact ih fuel p.1 p.2 (l + 1) (by omega) (by omega) this.1 this.2
      · simp

/-- the pairs of cells visited on the next level -/
def nextP (D : Nat) (V : List (Nat × Nat)) (l : Nat) : List (Nat × Nat) :=
  (V.filter fun p => touchB D l p.1 p.2).flatMap fun p => kids D p.1 p.2

def sumSteps (T : Tree F D) (k : Nat) (V : List (Nat × Nat)) (l : Nat) : Nat := (V.map fun p => stepsP T k p.1 p.2 l).sum

theorem costP_own {l : Nat} (hl : l < T.levels) : 1 + (layPairs T l).length ≤ costP T l := by
  unfold costP
  obtain ⟨r, hr⟩ : ∃ r, T.levels - l = r + 1 := ⟨T.levels - l - 1, by omega⟩
  rw [hr, List.range'_succ, List.map_cons, List.sum_cons]
  omega

theorem sumSteps_succ {k l : Nat} (hl : l < T.levels) (V : List (Nat × Nat)) :
    sumSteps T (k + 1) V l ≤ V.length * costP T l + sumSteps T k (nextP D V l) (l + 1) := by
  induction V with
  | nil => simp [sumSteps]
  | cons p V ih =>
    have hone : 1 ≤ costP T l := by unfold costP; omega
    have hown := costP_own hl
    have e : sumSteps T (k + 1) (p :: V) l = stepsP T (k + 1) p.1 p.2 l + sumSteps T (k + 1) V l := by simp [sumSteps]
    rw [e, List.length_cons, Nat.add_mul, Nat.one_mul]
    cases ht : touchB D l p.1 p.2
    · have : nextP D (p :: V) l = nextP D V l := by simp [nextP, List.filter_cons, ht]
      rw [this]
      have : stepsP T (k + 1) p.1 p.2 l ≤ costP T l := by
        unfold stepsP
        rw [ht, if_pos rfl]
        split <;> omega
      omega
    · have e2 : sumSteps T k (nextP D (p :: V) l) (l + 1) = ((kids D p.1 p.2).map fun q => stepsP T k q.1 q.2 (l + 1)).sum + sumSteps T k (nextP D V l) (l + 1) := by
        simp [nextP, List.filter_cons, ht, sumSteps]
      rw [e2]
      have : stepsP T (k + 1) p.1 p.2 l ≤ costP T l + ((kids D p.1 p.2).map fun q => stepsP T k q.1 q.2 (l + 1)).sum := by
        conv_lhs => unfold stepsP
        rw [ht, if_neg (by simp)]
        split
        · omega
        · omega
      omega

theorem kids_disjoint {p q : Nat × Nat} (hne : p ≠ q) : List.Disjoint (kids D p.1 p.2) (kids D q.1 q.2) := by
  rintro ⟨a, b⟩ hz hz'
  rw [mem_kids] at hz hz'
  have e1 : (a - 1) / 2 ^ D = p.1 := (parent_iff (le_trans (Nat.le_add_left 1 _) hz.1.1)).2 hz.1
  have e2 : (b - 1) / 2 ^ D = p.2 := (parent_iff (le_trans (Nat.le_add_left 1 _) hz.2.1.1)).2 hz.2.1
  have e3 : (a - 1) / 2 ^ D = q.1 := (parent_iff (le_trans (Nat.le_add_left 1 _) hz'.1.1)).2 hz'.1
  have e4 : (b - 1) / 2 ^ D = q.2 := (parent_iff (le_trans (Nat.le_add_left 1 _) hz'.2.1.1)).2 hz'.2.1
  exact hne (Prod.ext (e1.symm.trans e3) (e2.symm.trans e4))

theorem nodup_nextP {V : List (Nat × Nat)} (h : V.Nodup) (l : Nat) : (nextP D V l).Nodup := by
  unfold nextP
  rw [List.nodup_flatMap]
  have hf : (V.filter fun p => touchB D l p.1 p.2).Nodup := List.Nodup.filter _ h
  exact ⟨fun p _ => nodup_kids D p.1 p.2, List.Pairwise.imp (fun hne => kids_disjoint hne) hf⟩

theorem onLevel_nextP {V : List (Nat × Nat)} {l : Nat} (h : ∀ p ∈ V, OnLevel D l p.1 ∧ OnLevel D l p.2) :
    ∀ p ∈ nextP D V l, OnLevel D (l + 1) p.1 ∧ OnLevel D (l + 1) p.2 := by
  intro p hp
  unfold nextP at hp
  rw [List.mem_flatMap] at hp
  obtain ⟨q, hq, hp⟩ := hp
  rw [List.mem_filter] at hq
  exact kids_onLevel (h q hq.1).1 (h q hq.1).2 hp

theorem length_nextP {V : List (Nat × Nat)} {l : Nat} (h1 : 1 ≤ D) (h5 : D ≤ 5) (hl : D * l ≤ 31) (hn : V.Nodup)
    (h : ∀ p ∈ V, OnLevel D l p.1 ∧ OnLevel D l p.2) : (nextP D V l).length ≤ 6 ^ D * 2 ^ (D * (l + 1)) := by
  have hf : (V.filter fun p => touchB D l p.1 p.2).length ≤ 2 ^ (D * l) * 3 ^ D := by
    rw [← List.toFinset_card_of_nodup (hn.filter _)]
    have hsub : (V.filter fun p => touchB D l p.1 p.2).toFinset ⊆
        (cellsOn D l).biUnion fun A => ((cellsOn D l).filter fun B => touchB D l A B = true).image fun B => (A, B) := by
      rintro ⟨A, B⟩ hp
      rw [List.mem_toFinset, List.mem_filter] at hp
      have := h _ hp.1
      rw [Finset.mem_biUnion]
      refine ⟨A, mem_cellsOn.2 this.1, Finset.mem_image.2 ⟨B, Finset.mem_filter.2 ⟨mem_cellsOn.2 this.2, hp.2⟩, rfl⟩⟩
    refine le_trans (Finset.card_le_card hsub) (le_trans Finset.card_biUnion_le ?_)
    rw [← card_cellsOn, ← smul_eq_mul]
    exact Finset.sum_le_card_nsmul _ _ _ fun A _ => le_trans Finset.card_image_le (card_touching h1 h5 hl)
  have hk : (nextP D V l).length ≤ (V.filter fun p => touchB D l p.1 p.2).length * 4 ^ D := by
    unfold nextP
    generalize V.filter (fun p => touchB D l p.1 p.2) = U
    induction U with
    | nil => simp
    | cons p U ih =>
      rw [List.flatMap_cons, List.length_append, List.length_cons, Nat.add_mul, Nat.one_mul]
      have := length_kids_le (D := D) p.1 p.2
      omega
  refine le_trans hk (le_trans (Nat.mul_le_mul_right _ hf) (le_of_eq ?_))
  rw [Nat.mul_add, Nat.mul_one, pow_add, show (6 : Nat) = 3 * 2 by rfl, show (4 : Nat) = 2 * 2 by rfl, Nat.mul_pow, Nat.mul_pow]
  ring

theorem sumSteps_le (ok : TreeOK T) : ∀ (k l : Nat) (V : List (Nat × Nat)), l + k ≤ T.levels → V.Nodup →
    (∀ p ∈ V, OnLevel D l p.1 ∧ OnLevel D l p.2) → V.length ≤ 6 ^ D * 2 ^ (D * l) →
    sumSteps T k V l ≤ ∑ r ∈ Finset.range k, 6 ^ D * 2 ^ (D * (l + r)) * costP T (l + r) := by
  intro k
  induction k with
  | zero =>
    intro l V _ _ _ _
    have : sumSteps T 0 V l = 0 := by
      unfold sumSteps
      rw [List.sum_eq_zero]
      simp [stepsP]
    omega
  | succ k ih =>
    intro l V hl hn hV hlen
    have hd := ok.depth_le (show l < T.levels by omega)
    have hd' : D * l ≤ 31 := le_trans (Nat.mul_le_mul_left _ (by omega)) hd
    refine le_trans (sumSteps_succ (by omega) V) ?_
    rw [Finset.sum_range_succ', Nat.add_zero, Nat.add_comm]
    refine Nat.add_le_add ?_ (Nat.mul_le_mul_right _ hlen)
    refine le_trans (ih (l + 1) _ (by omega) (nodup_nextP hn l) (onLevel_nextP hV) (length_nextP ok.D1 ok.D5 hd' hn hV)) (le_of_eq ?_)
    refine Finset.sum_congr rfl fun r _ => ?_
    rw [show l + 1 + r = l + (r + 1) by omega]

/-- the whole recursion -/
theorem TreeOK.visitSteps_le (ok : TreeOK T) : ∃ s, Tree.visitSteps T T.levels 0 0 0 = some s ∧
    s ≤ ∑ l ∈ Finset.range T.levels, 6 ^ D * 2 ^ (D * l) * costP T l := by
  have hL := ok.levels_eq
  have h0 : OnLevel D 0 0 := by simp [OnLevel, levelStart]
  obtain ⟨k, hk⟩ : ∃ k, T.levels = k + 1 := ⟨T.levels - 1, by omega⟩
  refine ⟨_, ok.steps_eq k T.levels 0 0 0 (by omega) (by omega) h0 h0, ?_⟩
  have := sumSteps_le ok T.levels 0 [(0, 0)] (by omega) (by simp) (by simp [h0]) (by
    simpa using Nat.one_le_pow D 6 (by norm_num))
  rw [hk] at this ⊢
  simpa [sumSteps] using this

/-- the sum in terms of the layer pairs -/
theorem sum_layPairs_le (ok : TreeOK T) (g : Nat → Nat) (hg : ∀ l, ∑ m ∈ Finset.range (l + 1), g m ≤ 2 * g l) :
    ∑ l ∈ Finset.range T.levels, g l * costP T l ≤
      ∑ l ∈ Finset.range T.levels, g l * (1 + (T.levels - l)) +
      2 * ∑ i ∈ Finset.range T.layers, ∑ j ∈ Finset.range T.layers, g (partitioningBaseLevel D T.blc i j) := by
  have hcost : ∀ l, l ≤ T.levels → costP T l = 1 + (T.levels - l) + ∑ m ∈ Finset.Ico l T.levels, (layPairs T m).length := by
    intro l hl
    unfold costP
    have e : ∀ (s k : Nat), ((List.range' s k).map fun m => 1 + (layPairs T m).length).sum = k + ∑ m ∈ Finset.Ico s (s + k), (layPairs T m).length := by
      intro s k
      induction k with
      | zero => simp
      | succ k ih =>
        rw [List.range'_concat, List.map_append, List.sum_append, ih, ← Nat.add_assoc, Finset.sum_Ico_succ_top (by omega)]
        simp; omega
    rw [e, show l + (T.levels - l) = T.levels by omega]; omega
  have h1 : ∀ l ∈ Finset.range T.levels, g l * costP T l = g l * (1 + (T.levels - l)) + g l * ∑ m ∈ Finset.Ico l T.levels, (layPairs T m).length := by
    intro l hl
    rw [Finset.mem_range] at hl
    rw [hcost l hl.le, Nat.mul_add]
  rw [Finset.sum_congr rfl h1, Finset.sum_add_distrib]
  refine Nat.add_le_add_left ?_ _
  have h2 : ∑ l ∈ Finset.range T.levels, g l * ∑ m ∈ Finset.Ico l T.levels, (layPairs T m).length =
      ∑ m ∈ Finset.range T.levels, (∑ l ∈ Finset.range (m + 1), g l) * (layPairs T m).length := by
    simp_rw [Finset.mul_sum, Finset.sum_mul]
    refine Finset.sum_comm' ?_
    intro l m
    simp only [Finset.mem_range, Finset.mem_Ico]; omega
  rw [h2]
  refine le_trans (Finset.sum_le_sum fun m _ => Nat.mul_le_mul_right _ (hg m)) ?_
  rw [← Finset.sum_product', Finset.mul_sum]
  have h3 : ∀ m, 2 * g m * (layPairs T m).length = ∑ p ∈ (Finset.range T.layers ×ˢ Finset.range T.layers) with partitioningBaseLevel D T.blc p.1 p.2 = m, 2 * g (partitioningBaseLevel D T.blc p.1 p.2) := by
    intro m
    rw [Finset.sum_congr rfl (g := fun _ => 2 * g m) (by intro p hp; rw [(Finset.mem_filter.1 hp).2]), Finset.sum_const, smul_eq_mul, Nat.mul_comm]
    congr 1
    unfold layPairs
    rw [← List.toFinset_card_of_nodup ((nodup_allLayerPairs _).filter _)]
    congr 1
    ext ⟨i, j⟩
    simp [mem_allLayerPairs]
  rw [Finset.sum_congr rfl fun m _ => h3 m]
  refine le_of_eq (Finset.sum_fiberwise_of_maps_to ?_ _)
  intro p _
  have := pbl_le_zero (D := D) (blc := T.blc) p.1 p.2
  have := ok.levels_eq
  rw [Finset.mem_range]; omega

end Girgs
