import Verif.Model.HyperWork
import Verif.Proofs.HVisit
import Verif.Proofs.WorkVisits
/-
The number of calls of `visitCellPair` of the hyperbolic sampler and of iterations of its loops.
-/
namespace Girgs
open Angle

variable {F : Type} [CFloat F] {H : HTree F} {tgt : Nat → Nat} {pbl : Nat → Nat → Nat} {nl : Nat}

/-- the cells of a level -/
def hcellsOn (l : Nat) : Finset Nat := Finset.Ico (2 ^ l - 1) (2 ^ (l + 1) - 1)

theorem mem_hcellsOn {l c : Nat} : c ∈ hcellsOn l ↔ OnLv l c := by
  unfold hcellsOn OnLv; rw [Finset.mem_Ico]

theorem card_hcellsOn (l : Nat) : (hcellsOn l).card = 2 ^ l := by
  unfold hcellsOn
  rw [Nat.card_Ico]
  have : 2 ^ (l + 1) = 2 * 2 ^ l := by ring
  have := Nat.one_le_two_pow (n := l)
  omega

/-- at most three cells of a level touch a given one -/
theorem card_htouching {l A : Nat} (hA : OnLv l A) : ((hcellsOn l).filter fun B => touchN l A B = true).card ≤ 3 := by
  have hsub : ((hcellsOn l).filter fun B => touchN l A B = true) ⊆
      {A, if A + 2 = 2 ^ (l + 1) then 2 ^ l - 1 else A + 1, if A + 1 = 2 ^ l then 2 ^ (l + 1) - 2 else A - 1} := by
    intro B hB
    rw [Finset.mem_filter, mem_hcellsOn] at hB
    obtain ⟨hB, ht⟩ := hB
    unfold touchN at ht
    rw [decide_eq_true_eq] at ht
    simp only [Finset.mem_insert, Finset.mem_singleton]
    unfold OnLv at hA hB
    have : 2 ^ (l + 1) = 2 * 2 ^ l := by ring
    have := Nat.one_le_two_pow (n := l)
    generalize 2 ^ l = x at *
    generalize 2 ^ (l + 1) = y at *
    split <;> split <;> omega
  exact le_trans (Finset.card_le_card hsub) Finset.card_le_three

theorem length_hkids_le (A B : Nat) : (hkids A B).length ≤ 4 := by
  unfold hkids; split <;> simp

/-- iterations of the loops of one call -/
def hcostP (H : HTree F) (pbl : Nat → Nat → Nat) (l : Nat) : Nat :=
  1 + ((List.range' l (H.levels - l)).map fun m => 1 + (hlayPairs H.layers pbl m).length).sum

/-- `visitSteps` without undefined behaviour -/
def hstepsP (H : HTree F) (pbl : Nat → Nat → Nat) : Nat → Nat → Nat → Nat → Nat
  | 0, _, _, _ => 0
  | k + 1, A, B, l =>
    if touchN l A B = false then if H.ndebug && H.tZero then 1 else hcostP H pbl l
    else 1 + (hlayPairs H.layers pbl l).length + (if k = 0 then 0 else ((hkids A B).map fun p => hstepsP H pbl k p.1 p.2 (l + 1)).sum)

theorem HTreeOK.steps_eq (ok : HTreeOK H tgt pbl nl) : ∀ (k fuel A B l : Nat), k + 1 ≤ fuel → l + (k + 1) = H.levels →
    OnLv l A → OnLv l B → HTree.visitSteps H fuel A B l = some (hstepsP H pbl (k + 1) A B l) := by
  have hlv := ok.levels_le
  have hII : ∀ l, Tree.sumM (List.range' l (H.levels - l)) (fun m => do
      let ps ← rd H.layerPairs m
      some (1 + ps.length)) = some ((List.range' l (H.levels - l)).map fun m => 1 + (hlayPairs H.layers pbl m).length).sum := by
    intro l
    refine sumM_some ?_
    intro m hm
    rw [List.mem_range'_1] at hm
    exact (obind (ok.rd_layerPairs (by omega)) _).trans rfl
  intro k
  induction k with
  | zero =>
    intro fuel A B l hf hl hA hB
    obtain ⟨fuel, rfl⟩ : ∃ f, fuel = f + 1 := ⟨fuel - 1, by omega⟩
    unfold HTree.visitSteps hstepsP
    refine (obind (touching_eq (by omega) hA hB) _).trans ?_
    show (if (!touchN l A B) = true then _ else _) = _
    cases touchN l A B
    · simp only [Bool.not_false, if_true]
      split
      · rfl
      · exact (obind (hII l) _).trans rfl
    · refine (obind (ok.rd_layerPairs (by omega)) _).trans ?_
      have : l = subU H.levels 1 := by rw [ok.subU_levels]; omega
      simp [this]
  | succ k ih =>
    intro fuel A B l hf hl hA hB
    obtain ⟨fuel, rfl⟩ : ∃ f, fuel = f + 1 := ⟨fuel - 1, by omega⟩
    unfold HTree.visitSteps hstepsP
    refine (obind (touching_eq (by omega) hA hB) _).trans ?_
    show (if (!touchN l A B) = true then _ else _) = _
    cases touchN l A B
    · simp only [Bool.not_false, if_true]
      split
      · rfl
      · exact (obind (hII l) _).trans rfl
    · refine (obind (ok.rd_layerPairs (by omega)) _).trans ?_
      have : ¬ (l = subU H.levels 1) := by rw [ok.subU_levels]; omega
      rw [if_neg this, hchildPairs_eq (by omega) hA hB]
      refine (obind (sumM_some (g := fun p => hstepsP H pbl (k + 1) p.1 p.2 (l + 1)) ?_) _).trans ?_
      · intro p hp
        have := hkids_onLv hA hB hp
        exact ih fuel p.1 p.2 (l + 1) (by omega) (by omega) this.1 this.2
      · simp

/-- the pairs of cells visited on the next level -/
def hnextP (V : List (Nat × Nat)) (l : Nat) : List (Nat × Nat) := (V.filter fun p => touchN l p.1 p.2).flatMap fun p => hkids p.1 p.2

def hsumSteps (H : HTree F) (pbl : Nat → Nat → Nat) (k : Nat) (V : List (Nat × Nat)) (l : Nat) : Nat := (V.map fun p => hstepsP H pbl k p.1 p.2 l).sum

theorem hcostP_own {l : Nat} (hl : l < H.levels) : 1 + (hlayPairs H.layers pbl l).length ≤ hcostP H pbl l := by
  unfold hcostP
  obtain ⟨r, hr⟩ : ∃ r, H.levels - l = r + 1 := ⟨H.levels - l - 1, by omega⟩
  rw [hr, List.range'_succ, List.map_cons, List.sum_cons]
  omega

theorem hsumSteps_succ {k l : Nat} (hl : l < H.levels) (V : List (Nat × Nat)) :
    hsumSteps H pbl (k + 1) V l ≤ V.length * hcostP H pbl l + hsumSteps H pbl k (hnextP V l) (l + 1) := by
  induction V with
  | nil => simp [hsumSteps]
  | cons p V ih =>
    have hone : 1 ≤ hcostP H pbl l := by unfold hcostP; omega
    have hown := hcostP_own (pbl := pbl) hl
    have e : hsumSteps H pbl (k + 1) (p :: V) l = hstepsP H pbl (k + 1) p.1 p.2 l + hsumSteps H pbl (k + 1) V l := by simp [hsumSteps]
    rw [e, List.length_cons, Nat.add_mul, Nat.one_mul]
    cases ht : touchN l p.1 p.2
    · have : hnextP (p :: V) l = hnextP V l := by simp [hnextP, List.filter_cons, ht]
      rw [this]
      have : hstepsP H pbl (k + 1) p.1 p.2 l ≤ hcostP H pbl l := by
        unfold hstepsP
        rw [ht, if_pos rfl]
        split <;> omega
      omega
    · have e2 : hsumSteps H pbl k (hnextP (p :: V) l) (l + 1) =
          ((hkids p.1 p.2).map fun q => hstepsP H pbl k q.1 q.2 (l + 1)).sum + hsumSteps H pbl k (hnextP V l) (l + 1) := by
        simp [hnextP, List.filter_cons, ht, hsumSteps]
      rw [e2]
      have : hstepsP H pbl (k + 1) p.1 p.2 l ≤ hcostP H pbl l + ((hkids p.1 p.2).map fun q => hstepsP H pbl k q.1 q.2 (l + 1)).sum := by
        conv_lhs => unfold hstepsP
        rw [ht, if_neg (by simp)]
        split
        · omega
        · omega
      omega

theorem hkids_disjoint {p q : Nat × Nat} (hne : p ≠ q) : List.Disjoint (hkids p.1 p.2) (hkids q.1 q.2) := by
  rintro ⟨a, b⟩ hz hz'
  rw [mem_hkids] at hz hz'
  exact hne (Prod.ext (by omega) (by omega))

theorem nodup_hnextP {V : List (Nat × Nat)} (h : V.Nodup) (l : Nat) : (hnextP V l).Nodup := by
  unfold hnextP
  rw [List.nodup_flatMap]
  have hf : (V.filter fun p => touchN l p.1 p.2).Nodup := List.Nodup.filter _ h
  exact ⟨fun p _ => nodup_hkids p.1 p.2, List.Pairwise.imp (fun hne => hkids_disjoint hne) hf⟩

theorem onLv_hnextP {V : List (Nat × Nat)} {l : Nat} (h : ∀ p ∈ V, OnLv l p.1 ∧ OnLv l p.2) :
    ∀ p ∈ hnextP V l, OnLv (l + 1) p.1 ∧ OnLv (l + 1) p.2 := by
  intro p hp
  unfold hnextP at hp
  rw [List.mem_flatMap] at hp
  obtain ⟨q, hq, hp⟩ := hp
  rw [List.mem_filter] at hq
  exact hkids_onLv (h q hq.1).1 (h q hq.1).2 hp

theorem length_hnextP {V : List (Nat × Nat)} {l : Nat} (hn : V.Nodup)
    (h : ∀ p ∈ V, OnLv l p.1 ∧ OnLv l p.2) : (hnextP V l).length ≤ 6 * 2 ^ (l + 1) := by
  have hf : (V.filter fun p => touchN l p.1 p.2).length ≤ 2 ^ l * 3 := by
    rw [← List.toFinset_card_of_nodup (hn.filter _)]
    have hsub : (V.filter fun p => touchN l p.1 p.2).toFinset ⊆
        (hcellsOn l).biUnion fun A => ((hcellsOn l).filter fun B => touchN l A B = true).image fun B => (A, B) := by
      rintro ⟨A, B⟩ hp
      rw [List.mem_toFinset, List.mem_filter] at hp
      have := h _ hp.1
      rw [Finset.mem_biUnion]
      refine ⟨A, mem_hcellsOn.2 this.1, Finset.mem_image.2 ⟨B, Finset.mem_filter.2 ⟨mem_hcellsOn.2 this.2, hp.2⟩, rfl⟩⟩
    refine le_trans (Finset.card_le_card hsub) (le_trans Finset.card_biUnion_le ?_)
    rw [← card_hcellsOn, ← smul_eq_mul]
    exact Finset.sum_le_card_nsmul _ _ _ fun A hA => le_trans Finset.card_image_le (card_htouching (mem_hcellsOn.1 hA))
  have hk : (hnextP V l).length ≤ (V.filter fun p => touchN l p.1 p.2).length * 4 := by
    unfold hnextP
    generalize V.filter (fun p => touchN l p.1 p.2) = U
    induction U with
    | nil => simp
    | cons p U ih =>
      rw [List.flatMap_cons, List.length_append, List.length_cons, Nat.add_mul, Nat.one_mul]
      have := length_hkids_le p.1 p.2
      omega
  have : 2 ^ (l + 1) = 2 * 2 ^ l := by ring
  omega

theorem hsumSteps_le : ∀ (k l : Nat) (V : List (Nat × Nat)), l + k ≤ H.levels → V.Nodup →
    (∀ p ∈ V, OnLv l p.1 ∧ OnLv l p.2) → V.length ≤ 6 * 2 ^ l →
    hsumSteps H pbl k V l ≤ ∑ r ∈ Finset.range k, 6 * 2 ^ (l + r) * hcostP H pbl (l + r) := by
  intro k
  induction k with
  | zero =>
    intro l V _ _ _ _
    have : hsumSteps H pbl 0 V l = 0 := by
      unfold hsumSteps
      rw [List.sum_eq_zero]
      simp [hstepsP]
    omega
  | succ k ih =>
    intro l V hl hn hV hlen
    refine le_trans (hsumSteps_succ (by omega) V) ?_
    rw [Finset.sum_range_succ', Nat.add_zero, Nat.add_comm]
    refine Nat.add_le_add ?_ (Nat.mul_le_mul_right _ hlen)
    refine le_trans (ih (l + 1) _ (by omega) (nodup_hnextP hn l) (onLv_hnextP hV) (length_hnextP hn hV)) (le_of_eq ?_)
    refine Finset.sum_congr rfl fun r _ => ?_
    rw [show l + 1 + r = l + (r + 1) by omega]

/-- the whole recursion -/
theorem HTreeOK.visitSteps_le (ok : HTreeOK H tgt pbl nl) : ∃ s, HTree.visitSteps H H.levels 0 0 0 = some s ∧
    s ≤ ∑ l ∈ Finset.range H.levels, 6 * 2 ^ l * hcostP H pbl l := by
  have hL := ok.levels_eq
  obtain ⟨k, hk⟩ : ∃ k, H.levels = k + 1 := ⟨H.levels - 1, by omega⟩
  refine ⟨_, ok.steps_eq k H.levels 0 0 0 (by omega) (by omega) onLv_zero onLv_zero, ?_⟩
  have := hsumSteps_le (H := H) (pbl := pbl) H.levels 0 [(0, 0)] (by omega) (by simp) (by simp [onLv_zero]) (by simp)
  rw [hk] at this ⊢
  simpa [hsumSteps] using this

/-- the sum in terms of the layer pairs -/
theorem sum_hlayPairs_le (ok : HTreeOK H tgt pbl nl) (g : Nat → Nat) (hg : ∀ l, ∑ m ∈ Finset.range (l + 1), g m ≤ 2 * g l) :
    ∑ l ∈ Finset.range H.levels, g l * hcostP H pbl l ≤
      ∑ l ∈ Finset.range H.levels, g l * (1 + (H.levels - l)) +
      2 * ∑ i ∈ Finset.range H.layers, ∑ j ∈ Finset.range H.layers, g (pbl i j) := by
  have hcost : ∀ l, l ≤ H.levels → hcostP H pbl l = 1 + (H.levels - l) + ∑ m ∈ Finset.Ico l H.levels, (hlayPairs H.layers pbl m).length := by
    intro l hl
    unfold hcostP
    have e : ∀ (s k : Nat), ((List.range' s k).map fun m => 1 + (hlayPairs H.layers pbl m).length).sum = k + ∑ m ∈ Finset.Ico s (s + k), (hlayPairs H.layers pbl m).length := by
      intro s k
      induction k with
      | zero => simp
      | succ k ih =>
        rw [List.range'_concat, List.map_append, List.sum_append, ih, ← Nat.add_assoc, Finset.sum_Ico_succ_top (by omega)]
        simp; omega
    rw [e, show l + (H.levels - l) = H.levels by omega]; omega
  have h1 : ∀ l ∈ Finset.range H.levels, g l * hcostP H pbl l = g l * (1 + (H.levels - l)) + g l * ∑ m ∈ Finset.Ico l H.levels, (hlayPairs H.layers pbl m).length := by
    intro l hl
    rw [Finset.mem_range] at hl
    rw [hcost l hl.le, Nat.mul_add]
  rw [Finset.sum_congr rfl h1, Finset.sum_add_distrib]
  refine Nat.add_le_add_left ?_ _
  have h2 : ∑ l ∈ Finset.range H.levels, g l * ∑ m ∈ Finset.Ico l H.levels, (hlayPairs H.layers pbl m).length =
      ∑ m ∈ Finset.range H.levels, (∑ l ∈ Finset.range (m + 1), g l) * (hlayPairs H.layers pbl m).length := by
    simp_rw [Finset.mul_sum, Finset.sum_mul]
    refine Finset.sum_comm' ?_
    intro l m
    simp only [Finset.mem_range, Finset.mem_Ico]; omega
  rw [h2]
  refine le_trans (Finset.sum_le_sum fun m _ => Nat.mul_le_mul_right _ (hg m)) ?_
  rw [← Finset.sum_product', Finset.mul_sum]
  have h3 : ∀ m, 2 * g m * (hlayPairs H.layers pbl m).length = ∑ p ∈ (Finset.range H.layers ×ˢ Finset.range H.layers) with pbl p.1 p.2 = m, 2 * g (pbl p.1 p.2) := by
    intro m
    rw [Finset.sum_congr rfl (g := fun _ => 2 * g m) (by intro p hp; rw [(Finset.mem_filter.1 hp).2]), Finset.sum_const, smul_eq_mul, Nat.mul_comm]
    congr 1
    unfold hlayPairs
    rw [← List.toFinset_card_of_nodup ((nodup_allLayerPairs _).filter _)]
    congr 1
    ext ⟨i, j⟩
    simp [mem_allLayerPairs]
  rw [Finset.sum_congr rfl fun m _ => h3 m]
  refine le_of_eq (Finset.sum_fiberwise_of_maps_to ?_ _)
  intro p hp
  rw [Finset.mem_product, Finset.mem_range, Finset.mem_range] at hp
  have := ok.pbl_top p.1 p.2 hp.1 hp.2
  have := ok.levels_eq
  rw [Finset.mem_range]; omega

end Girgs
