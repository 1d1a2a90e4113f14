import Verif.Proofs.HSample
import Verif.Model.HyperGenerate
/-!
Hyperbolic sampler: the task list, the round-robin shares, and that together they make the calls of the sequential recursion.
-/
namespace Girgs
open Spec Angle
set_option linter.unusedSectionVars false
variable {F : Type} [CFloat F] {H : HTree F} {tgt : Nat → Nat} {pbl : Nat → Nat → Nat} {nl : Nat}

/-! ### the task list -/

/-- the task list below a pair, `k` levels above the parallel level -/
def hcreate : Nat → Nat → Nat → Nat → List (Nat × Nat)
  | 0, _, _, _ => []
  | k + 1, A, B, l =>
    if touchN l A B = false then []
    else if k = 0 then hkids A B else (hkids A B).flatMap fun p => hcreate k p.1 p.2 (l + 1)

theorem createTasks_eq {fpl : Nat} (hf : fpl ≤ 31) : ∀ (k fuel A B l : Nat), k + 1 ≤ fuel → l + (k + 1) = fpl → OnLv l A → OnLv l B →
    HTree.createTasks fpl fuel A B l = some (hcreate (k + 1) A B l) := by
  intro k
  induction k with
  | zero =>
    intro fuel A B l hfu hl hA hB
    obtain ⟨fuel, rfl⟩ : ∃ f, fuel = f + 1 := ⟨fuel - 1, by omega⟩
    unfold HTree.createTasks hcreate
    refine (obind (touching_eq (by omega) hA hB) _).trans ?_
    cases touchN l A B
    · simp
    · simp only [Bool.not_true, Bool.false_eq_true, if_false]
      rw [if_neg (by omega), hchildPairs_eq (by omega) hA hB]
      simp
  | succ k ih =>
    intro fuel A B l hfu hl hA hB
    obtain ⟨fuel, rfl⟩ : ∃ f, fuel = f + 1 := ⟨fuel - 1, by omega⟩
    unfold HTree.createTasks hcreate
    refine (obind (touching_eq (by omega) hA hB) _).trans ?_
    cases touchN l A B
    · simp
    · simp only [Bool.not_true, Bool.false_eq_true, if_false]
      rw [if_pos (by omega), hchildPairs_eq (by omega) hA hB]
      rw [concatM_some (g := fun p => hcreate (k + 1) p.1 p.2 (l + 1))]
      · simp
      · intro p hp
        have := hkids_onLv hA hB hp
        exact ih fuel p.1 p.2 (l + 1) (by omega) (by omega) this.1 this.2

theorem hcreate_onLv : ∀ (k A B l : Nat), OnLv l A → OnLv l B → ∀ p ∈ hcreate k A B l, OnLv (l + k) p.1 ∧ OnLv (l + k) p.2 := by
  intro k
  induction k with
  | zero => intro A B l _ _ p hp; simp [hcreate] at hp
  | succ k ih =>
    intro A B l hA hB p hp
    unfold hcreate at hp
    split at hp
    · simp at hp
    · split at hp
      · rename_i hk; subst hk; exact hkids_onLv hA hB hp
      · rw [List.mem_flatMap] at hp
        obtain ⟨q, hq, hp⟩ := hp
        have h1 := hkids_onLv hA hB hq
        have := ih q.1 q.2 (l + 1) h1.1 h1.2 p hp
        rwa [show l + 1 + k = l + (k + 1) by omega] at this

/-- neighbouring but different cells on level at least 2 always give four tasks -/
theorem length_hcreate_adj : ∀ (k A B l : Nat), 2 ≤ l → OnLv l A → OnLv l B → A ≠ B → touchN l A B = true →
    (hcreate (k + 1) A B l).length = 4 := by
  intro k
  induction k with
  | zero =>
    intro A B l hl hA hB hne ht
    unfold hcreate
    simp [ht, hkids, hne]
  | succ k ih =>
    intro A B l hl hA hB hne ht
    have h4 : 4 ≤ 2 ^ l := by
      have : 2 ^ 2 ≤ 2 ^ l := two_pow_le hl
      omega
    have e2 : 2 ^ (l + 1) = 2 * 2 ^ l := by ring
    have hzero : ∀ a b, touchN (l + 1) a b = false → (hcreate (k + 1) a b (l + 1)).length = 0 := by
      intro a b h; unfold hcreate; simp [h]
    have hone : ∀ a b, (a, b) ∈ hkids A B → touchN (l + 1) a b = true → (hcreate (k + 1) a b (l + 1)).length = 4 := by
      intro a b hab h
      have := hkids_onLv hA hB hab
      refine ih a b (l + 1) (by omega) this.1 this.2 ?_ h
      rw [mem_hkids] at hab
      omega
    have hm : ∀ a b, (2 * A + 1 ≤ a ∧ a ≤ 2 * A + 2) → (2 * B + 1 ≤ b ∧ b ≤ 2 * B + 2) →
        (hcreate (k + 1) a b (l + 1)).length = if touchN (l + 1) a b = true then 4 else 0 := by
      intro a b h1 h2
      split
      · rename_i h; exact hone a b (mem_hkids.2 ⟨h1, h2, fun h => absurd h hne⟩) h
      · rename_i h; exact hzero a b (by simpa using h)
    have hexp : (hcreate (k + 1 + 1) A B l).length = (hcreate (k + 1) (2 * A + 1) (2 * B + 1) (l + 1)).length +
        (hcreate (k + 1) (2 * A + 1) (2 * B + 2) (l + 1)).length + (hcreate (k + 1) (2 * A + 2) (2 * B + 2) (l + 1)).length +
        (hcreate (k + 1) (2 * A + 2) (2 * B + 1) (l + 1)).length := by
      rw [hcreate.eq_def (k + 1 + 1)]
      simp [ht, hkids, hne, Nat.add_assoc]
    rw [hexp, hm _ _ (by omega) (by omega), hm _ _ (by omega) (by omega), hm _ _ (by omega) (by omega), hm _ _ (by omega) (by omega)]
    unfold touchN at ht ⊢
    simp only [decide_eq_true_eq] at ht ⊢
    rw [e2]
    rw [onLv_iff] at hA hB
    generalize 2 ^ l = x at *
    split_ifs <;> omega

/-- two equal cells on level at least 1 -/
theorem length_hcreate_eq : ∀ (k A l : Nat), 1 ≤ l → OnLv l A → (hcreate (k + 1) A A l).length + 4 = 7 * 2 ^ k := by
  intro k
  induction k with
  | zero =>
    intro A l hl hA
    unfold hcreate
    simp [touchN_refl, hkids]
  | succ k ih =>
    intro A l hl hA
    have hk1 := hkids_onLv hA hA (mem_hkids.2 (show (2 * A + 1 ≤ 2 * A + 1 ∧ _) ∧ _ ∧ _ from ⟨⟨le_rfl, by omega⟩, ⟨le_rfl, by omega⟩, fun _ => le_rfl⟩) : (2 * A + 1, 2 * A + 1) ∈ hkids A A)
    have hk2 := hkids_onLv hA hA (mem_hkids.2 ⟨⟨by omega, le_rfl⟩, ⟨by omega, le_rfl⟩, fun _ => le_rfl⟩ : (2 * A + 2, 2 * A + 2) ∈ hkids A A)
    have h1 := ih (2 * A + 1) (l + 1) (by omega) hk1.1
    have h2 := ih (2 * A + 2) (l + 1) (by omega) hk2.1
    have h3 := length_hcreate_adj k (2 * A + 1) (2 * A + 2) (l + 1) (by omega) hk1.1 hk2.1 (by omega) (by
      unfold touchN; rw [decide_eq_true_eq]; left; omega)
    have hexp : (hcreate (k + 1 + 1) A A l).length = (hcreate (k + 1) (2 * A + 1) (2 * A + 1) (l + 1)).length +
        (hcreate (k + 1) (2 * A + 1) (2 * A + 2) (l + 1)).length + (hcreate (k + 1) (2 * A + 2) (2 * A + 2) (l + 1)).length := by
      rw [hcreate.eq_def (k + 1 + 1)]
      simp [touchN_refl, hkids, Nat.add_assoc]
    rw [hexp, pow_succ]
    omega

theorem length_hcreate_root (k : Nat) : (hcreate (k + 2) 0 0 0).length = if k = 0 then 10 else 2 ^ (k + 3) + 3 * 2 ^ (k + 1) := by
  have hexp : (hcreate (k + 2) 0 0 0).length = (hcreate (k + 1) 1 1 1).length + (hcreate (k + 1) 1 2 1).length + (hcreate (k + 1) 2 2 1).length := by
    rw [hcreate.eq_def (k + 2)]
    simp [touchN_refl, hkids, Nat.add_assoc]
  have h1 := length_hcreate_eq k 1 1 le_rfl (by simp [OnLv])
  have h2 := length_hcreate_eq k 2 1 le_rfl (by simp [OnLv])
  rw [hexp]
  cases k with
  | zero =>
    simp only [if_true] at *
    have : (hcreate (0 + 1) 1 2 1).length = 4 := by decide
    omega
  | succ k =>
    rw [if_neg (by omega)]
    have h3 : (hcreate (k + 1 + 1) 1 2 1).length = 8 := by
      have e : (hcreate (k + 1 + 1) 1 2 1).length = (hcreate (k + 1) 3 5 2).length + (hcreate (k + 1) 3 6 2).length +
          (hcreate (k + 1) 4 6 2).length + (hcreate (k + 1) 4 5 2).length := by
        rw [hcreate.eq_def (k + 1 + 1)]
        simp [touchN, hkids, Nat.add_assoc]
      rw [e, length_hcreate_adj k 3 6 2 le_rfl (by simp [OnLv]) (by simp [OnLv]) (by omega) (by decide),
        length_hcreate_adj k 4 5 2 le_rfl (by simp [OnLv]) (by simp [OnLv]) (by omega) (by decide)]
      have z1 : (hcreate (k + 1) 3 5 2) = [] := by unfold hcreate; rw [if_pos (by decide)]
      have z2 : (hcreate (k + 1) 4 6 2) = [] := by unfold hcreate; rw [if_pos (by decide)]
      rw [z1, z2]; rfl
    have e1 : 2 ^ (k + 1 + 3) = 8 * 2 ^ (k + 1) := by ring
    have e2 : 2 ^ (k + 1 + 1) = 2 * 2 ^ (k + 1) := by ring
    rw [h3, e1, e2]
    omega

/-! ### the shares -/

/-- the calls at positions `c` with `(s + c + 1) % k = 0` -/
def sel (k s : Nat) (L : List Task) : List Task := (HTree.turnLoop k L s).1

theorem sel_nil (k s : Nat) : sel k s [] = [] := rfl

theorem turn_eq {k s : Nat} (hk : s < k) : HTree.isMyTurn k s = (decide (s + 1 = k), (s + 1) % k) := by
  unfold HTree.isMyTurn
  split
  · rename_i h; subst h; simp
  · rename_i h; simp [h, Nat.mod_eq_of_lt (show s + 1 < k by omega)]

theorem turnLoop_eq {k : Nat} (hk : 1 ≤ k) : ∀ (L : List Task) (s : Nat), s < k →
    HTree.turnLoop k L s = (sel k s L, (s + L.length) % k) := by
  intro L
  induction L with
  | nil => intro s hs; simp [HTree.turnLoop, sel, Nat.mod_eq_of_lt hs]
  | cons t L ih =>
    intro s hs
    refine Prod.ext rfl ?_
    show (HTree.turnLoop k L (HTree.isMyTurn k s).2).2 = _
    rw [turn_eq hs, ih _ (Nat.mod_lt _ (by omega))]
    simp only [List.length_cons]
    rw [Nat.mod_add_mod]
    congr 1; omega

theorem sel_cons {k s : Nat} (hs : s < k) (t : Task) (L : List Task) :
    sel k s (t :: L) = (if s + 1 = k then [t] else []) ++ sel k ((s + 1) % k) L := by
  have e : sel k s (t :: L) = if (HTree.isMyTurn k s).1 then t :: sel k (HTree.isMyTurn k s).2 L else sel k (HTree.isMyTurn k s).2 L := rfl
  rw [e, turn_eq hs]
  by_cases h : s + 1 = k <;> simp [h]

theorem sel_append {k : Nat} (L L' : List Task) : ∀ s, s < k → sel k s (L ++ L') = sel k s L ++ sel k ((s + L.length) % k) L' := by
  induction L with
  | nil => intro s hs; simp [sel_nil, Nat.mod_eq_of_lt hs]
  | cons t L ih =>
    intro s hs
    rw [List.cons_append, sel_cons hs, sel_cons hs, ih _ (Nat.mod_lt _ (by omega)), Nat.mod_add_mod, List.length_cons,
      show s + 1 + L.length = s + (L.length + 1) by omega, List.append_assoc]

/-- all calls of the upper levels -/
def hupper (layers levels : Nat) (pbl : Nat → Nat → Nat) (fpl : Nat) : Nat → Nat → Nat → Nat → List Task
  | 0, _, _, _ => []
  | k + 1, A, B, l =>
    if touchN l A B = false then htasksII layers levels pbl A B l
    else htasksI layers pbl A B l ++
      (if k = 0 then [] else if l + 1 ≠ fpl then (hkids A B).flatMap fun p => hupper layers levels pbl fpl k p.1 p.2 (l + 1) else [])

theorem seqShift_eq {m : Nat} (hm : 1 ≤ m) {f : Nat × Nat → Nat → Option (List Task × Nat)} {g : Nat × Nat → List Task} :
    ∀ (L : List (Nat × Nat)), (∀ p ∈ L, ∀ s, s < m → f p s = some (sel m s (g p), (s + (g p).length) % m)) → ∀ s, s < m →
    HTree.seqShift f L s = some (sel m s (L.flatMap g), (s + (L.flatMap g).length) % m) := by
  intro L
  induction L with
  | nil => intro _ s hs; simp [HTree.seqShift, sel_nil, Nat.mod_eq_of_lt hs]
  | cons p L ih =>
    intro h s hs
    unfold HTree.seqShift
    refine (obind (h p (by simp) s hs) _).trans ?_
    refine (obind (ih (fun q hq => h q (by simp [hq])) _ (Nat.mod_lt _ (by omega))) _).trans ?_
    rw [List.flatMap_cons, sel_append _ _ _ hs, List.length_append, Nat.mod_add_mod]
    simp [Nat.add_assoc]

theorem HTreeOK.visitSample_eq (ok : HTreeOK H tgt pbl nl) {m : Nat} (hm : 1 ≤ m) (fpl : Nat) : ∀ (k fuel A B l : Nat), k + 1 ≤ fuel →
    l + (k + 1) = H.levels → OnLv l A → OnLv l B → ∀ s, s < m →
    HTree.visitSample H fpl m fuel A B l s =
      some (sel m s (hupper H.layers H.levels pbl fpl (k + 1) A B l), (s + (hupper H.layers H.levels pbl fpl (k + 1) A B l).length) % m) := by
  have hlv := ok.levels_le
  intro k
  induction k with
  | zero =>
    intro fuel A B l hf hl hA hB s hs
    obtain ⟨fuel, rfl⟩ : ∃ f, fuel = f + 1 := ⟨fuel - 1, by omega⟩
    unfold HTree.visitSample hupper
    refine (obind (touching_eq (by omega) hA hB) _).trans ?_
    cases touchN l A B
    · simp only [Bool.not_false, if_true]
      exact (obind (ok.typeII_eq A B l) _).trans (by rw [turnLoop_eq hm _ _ hs])
    · simp only [Bool.not_true, Bool.false_eq_true, if_false]
      refine (obind (ok.typeI_eq A B l (by omega)) _).trans ?_
      rw [if_pos (by rw [ok.subU_levels]; omega), turnLoop_eq hm _ _ hs]
      simp
  | succ k ih =>
    intro fuel A B l hf hl hA hB s hs
    obtain ⟨fuel, rfl⟩ : ∃ f, fuel = f + 1 := ⟨fuel - 1, by omega⟩
    unfold HTree.visitSample hupper
    refine (obind (touching_eq (by omega) hA hB) _).trans ?_
    cases touchN l A B
    · simp only [Bool.not_false, if_true]
      exact (obind (ok.typeII_eq A B l) _).trans (by rw [turnLoop_eq hm _ _ hs])
    · simp only [Bool.not_true, Bool.false_eq_true, if_false]
      refine (obind (ok.typeI_eq A B l (by omega)) _).trans ?_
      rw [if_neg (by rw [ok.subU_levels]; omega), turnLoop_eq hm _ _ hs]
      simp only
      by_cases hfp : l + 1 = fpl
      · simp [hfp]
      · simp only [ne_eq, hfp, not_false_eq_true, if_true]
        rw [hchildPairs_eq (by omega) hA hB]
        refine (obind (seqShift_eq hm (g := fun p => hupper H.layers H.levels pbl fpl (k + 1) p.1 p.2 (l + 1)) _ ?_ _ (Nat.mod_lt _ (by omega))) _).trans ?_
        · intro p hp s hs
          have := hkids_onLv hA hB hp
          exact ih fuel p.1 p.2 (l + 1) (by omega) (by omega) this.1 this.2 s hs
        · simp only [Nat.succ_ne_zero, if_false, Bool.true_eq_false]
          rw [sel_append _ _ _ hs, List.length_append, Nat.mod_add_mod]
          simp [Nat.add_assoc]

/-- the shares of all workers together are all calls -/
theorem shares_perm {k : Nat} (hk : 1 ≤ k) (L : List Task) : ((List.range k).flatMap fun s => sel k s L).Perm L := by
  induction L with
  | nil => simp [sel_nil]
  | cons t L ih =>
    have h1 : ((List.range k).flatMap fun s => sel k s (t :: L)) =
        (List.range k).flatMap fun s => (if s + 1 = k then [t] else []) ++ sel k ((s + 1) % k) L := by
      apply List.flatMap_congr
      intro s hs
      exact sel_cons (List.mem_range.1 hs) t L
    rw [h1]
    obtain ⟨m, rfl⟩ : ∃ m, k = m + 1 := ⟨k - 1, by omega⟩
    rw [List.range_succ, List.flatMap_append]
    have h2 : ((List.range m).flatMap fun s => (if s + 1 = m + 1 then [t] else []) ++ sel (m + 1) ((s + 1) % (m + 1)) L) =
        (List.range m).flatMap fun s => sel (m + 1) (s + 1) L := by
      apply List.flatMap_congr
      intro s hs
      rw [List.mem_range] at hs
      rw [if_neg (by omega), Nat.mod_eq_of_lt (by omega)]; rfl
    rw [h2]
    simp only [List.flatMap_cons, List.flatMap_nil, if_true, Nat.mod_self, List.append_nil, List.singleton_append]
    refine List.perm_middle.trans (List.Perm.cons t ?_)
    have h3 : (List.range (m + 1)).flatMap (fun s => sel (m + 1) s L) = sel (m + 1) 0 L ++ (List.range m).flatMap fun s => sel (m + 1) (s + 1) L := by
      rw [List.range_succ_eq_map, List.flatMap_cons, List.flatMap_map]
    rw [h3] at ih
    exact List.perm_append_comm.trans ih

theorem hupper_succ (layers levels fpl k A B l : Nat) : hupper layers levels pbl fpl (k + 1) A B l =
    if touchN l A B = false then htasksII layers levels pbl A B l
    else htasksI layers pbl A B l ++
      (if k = 0 then [] else if l + 1 ≠ fpl then (hkids A B).flatMap fun p => hupper layers levels pbl fpl k p.1 p.2 (l + 1) else []) := rfl

theorem hvisit_succ (layers levels k A B l : Nat) (full : Bool) : hvisit layers levels pbl full (k + 1) A B l =
    if touchN l A B = false then (if full then htasksII layers levels pbl A B l else [])
    else htasksI layers pbl A B l ++
      (if k = 0 then [] else (hkids A B).flatMap fun p => hvisit layers levels pbl full k p.1 p.2 (l + 1)) := rfl

theorem hcreate_succ (k A B l : Nat) : hcreate (k + 1) A B l =
    if touchN l A B = false then []
    else if k = 0 then hkids A B else (hkids A B).flatMap fun p => hcreate k p.1 p.2 (l + 1) := rfl

/-- the calls of the upper levels and of the tasks are the calls of the recursion -/
theorem hupper_perm {layers levels fpl : Nat} (hf : fpl < levels) : ∀ (k A B l : Nat), l + (k + 1) = fpl →
    (hupper layers levels pbl fpl (levels - l) A B l ++
      (hcreate (k + 1) A B l).flatMap fun p => hvisit layers levels pbl true (levels - fpl) p.1 p.2 fpl).Perm
      (hvisit layers levels pbl true (levels - l) A B l) := by
  intro k
  induction k with
  | zero =>
    intro A B l hl
    obtain ⟨j, hj⟩ : ∃ j, levels - l = j + 1 := ⟨levels - l - 1, by omega⟩
    rw [hj]
    rw [hupper_succ, hvisit_succ, hcreate_succ]
    by_cases ht : touchN l A B = false
    · simp [ht]
    · rw [if_neg ht, if_neg ht, if_neg ht, if_neg (by omega), if_neg (by omega), if_pos rfl, if_neg (by omega)]
      rw [show levels - fpl = j by omega, ← show l + 1 = fpl by omega]
      simp
  | succ k ih =>
    intro A B l hl
    obtain ⟨j, hj⟩ : ∃ j, levels - l = j + 1 := ⟨levels - l - 1, by omega⟩
    rw [hj]
    rw [hupper_succ, hvisit_succ, hcreate_succ]
    by_cases ht : touchN l A B = false
    · simp [ht]
    · rw [if_neg ht, if_neg ht, if_neg ht, if_neg (by omega), if_pos (by omega), if_neg (by omega), if_neg (by omega), List.append_assoc]
      refine List.Perm.append_left _ ?_
      have hj' : j = levels - (l + 1) := by omega
      rw [hj']
      generalize hkids A B = L
      induction L with
      | nil => simp
      | cons p L ihL =>
        simp only [List.flatMap_cons, List.flatMap_append]
        have h1 := ih p.1 p.2 (l + 1) (by omega)
        refine List.Perm.trans ?_ (h1.append ihL)
        simp only [List.append_assoc]
        refine List.Perm.append_left _ ?_
        rw [← List.append_assoc, ← List.append_assoc]
        exact List.Perm.append_right _ List.perm_append_comm

/-- without tasks the upper levels are everything -/
theorem hupper_all {layers levels fpl : Nat} (hf : levels ≤ fpl) : ∀ (k A B l : Nat), l + k = levels →
    hupper layers levels pbl fpl k A B l = hvisit layers levels pbl true k A B l := by
  intro k
  induction k with
  | zero => intro A B l _; rfl
  | succ k ih =>
    intro A B l hl
    unfold hupper hvisit
    split
    · simp
    · congr 1
      split
      · rfl
      · rename_i hk
        rw [if_pos (by omega)]
        apply List.flatMap_congr
        intro p _
        exact ih p.1 p.2 (l + 1) (by omega)

end Girgs
