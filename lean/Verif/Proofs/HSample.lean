import Verif.Proofs.HVisit
import Verif.Proofs.Sample
import Verif.Model.HyperExamined
/-!
Hyperbolic sampler: the sampling calls are defined and emit only pairs they examine, each at most once.
-/
namespace Girgs
open Spec Angle
set_option linter.unusedSectionVars false
variable {F : Type} [CFloat F] {H : HTree F} {tgt : Nat → Nat} {pbl : Nat → Nat → Nat} {nl : Nat}

/-- side conditions every call of the recursion meets -/
structure HTaskOK (H : HTree F) (pbl : Nat → Nat → Nat) (t : Task) : Prop where
  hi : t.i < H.layers
  hj : t.j < H.layers
  hA : OnLv t.level t.cellA
  hB : OnLv t.level t.cellB
  hl : t.level ≤ pbl t.i t.j
  two : t.two = true → touchN t.level t.cellA t.cellB = false
  one : t.two = false → touchN t.level t.cellA t.cellB = true

theorem HTaskOK.ne {t : Task} (h : HTaskOK H pbl t) (h2 : t.two = true) : t.cellA ≠ t.cellB := by
  intro e
  have := h.two h2
  rw [e, touchN_refl] at this
  cases this

theorem hvisit_ok {full : Bool} {levels : Nat} : ∀ (k A B l : Nat), OnLv l A → OnLv l B →
    ∀ t ∈ hvisit H.layers levels pbl full k A B l, HTaskOK H pbl t := by
  intro k
  induction k with
  | zero => intro A B l _ _ t ht; simp [hvisit] at ht
  | succ k ih =>
    intro A B l hA hB t ht
    unfold hvisit at ht
    split at ht
    · rename_i hn
      split at ht
      · obtain ⟨h1, rfl, rfl, rfl, h2, h3, h4, _⟩ := mem_htasksII.1 ht
        exact ⟨h2, h3, hA, hB, h4, fun _ => hn, fun h => (by rw [h1] at h; cases h)⟩
      · simp at ht
    · rename_i hn
      rw [List.mem_append] at ht
      rcases ht with ht | ht
      · obtain ⟨h1, rfl, rfl, rfl, h2, h3, h4, _⟩ := mem_htasksI.1 ht
        exact ⟨h2, h3, hA, hB, h4.ge, fun h => (by rw [h1] at h; cases h), fun _ => by simpa using hn⟩
      · split at ht
        · simp at ht
        · rw [List.mem_flatMap] at ht
          obtain ⟨p, hp, ht⟩ := ht
          have := hkids_onLv hA hB hp
          exact ih p.1 p.2 (l + 1) this.1 this.2 t ht

/-- the point ranges of a call -/
structure HRangesOK (H : HTree F) (tgt : Nat → Nat) (nl : Nat) (t : Task) (ra rb : Nat × Nat) : Prop where
  eq : H.ranges t = some (ra, rb)
  sizes : H.sizesII t = some (ra.2 - ra.1, rb.2 - rb.1)
  starts : H.startsII t = some (ra.1, rb.1)
  leA : ra.1 ≤ ra.2
  leB : rb.1 ≤ rb.2
  nA : ra.2 ≤ H.n
  nB : rb.2 ≤ H.n
  memA : ∀ p x, H.points[p]? = some x → (ra.1 ≤ p ∧ p < ra.2 ↔ HIn tgt nl x t.i t.level t.cellA)
  memB : ∀ p x, H.points[p]? = some x → (rb.1 ≤ p ∧ p < rb.2 ↔ HIn tgt nl x t.j t.level t.cellB)
  same : t.cellA = t.cellB ∧ t.i = t.j → ra = rb

theorem HTreeOK.ranges_ok (ok : HTreeOK H tgt pbl nl) {t : Task} (h : HTaskOK H pbl t) : ∃ ra rb, HRangesOK H tgt nl t ra rb := by
  have hli : t.level ≤ tgt t.i := le_trans h.hl (ok.pbl_left _ _ h.hi h.hj)
  have hlj : t.level ≤ tgt t.j := le_trans h.hl (by rw [ok.pbl_symm]; exact ok.pbl_left _ _ h.hj h.hi)
  obtain ⟨wi, a, a', hwi, h1, hs, hk, h2, h3, h4⟩ := ok.cells_spec h.hi hli h.hA
  obtain ⟨wj, b, b', hwj, h5, hs', hk', h6, h7, h8⟩ := ok.cells_spec h.hj hlj h.hB
  refine ⟨(a, a'), (b, b'), ?_, ?_, ?_, h2, h6, h3, h7, h4, h8, ?_⟩
  · unfold HTree.ranges
    refine (obind hwi _).trans ?_
    refine (obind hwj _).trans ?_
    refine (obind h1 _).trans ?_
    exact (obind h5 _).trans rfl
  · unfold HTree.sizesII
    refine (obind hwi _).trans ?_
    refine (obind hwj _).trans ?_
    refine (obind hs _).trans ?_
    exact (obind hs' _).trans rfl
  · unfold HTree.startsII
    refine (obind hwi _).trans ?_
    refine (obind hwj _).trans ?_
    refine (obind (hk 0) _).trans ?_
    exact (obind (hk' 0) _).trans rfl
  · rintro ⟨e1, e2⟩
    rw [e2, hwj] at hwi
    obtain rfl := Option.some.inj hwi
    rw [e1, h5] at h1
    exact (Option.some.inj h1).symm

/-! ### examined pairs -/

theorem HRangesOK.pairsI_eq {t : Task} {ra rb : Nat × Nat} (h : HRangesOK H tgt nl t ra rb) :
    Tree.pairsI t ra rb = some (pairListI t ra rb) := by
  unfold Tree.pairsI
  rw [if_pos h.leA]
  apply concatM_some
  intro k hk
  rw [List.mem_range] at hk
  have hle : rb.1 + (if t.cellA = t.cellB ∧ t.i = t.j then k + 1 else 0) ≤ rb.2 := by
    split
    · rename_i hc
      have := h.same hc; subst this; omega
    · have := h.leB; omega
  simp only [hle, if_true]

theorem HRangesOK.mem_pairListI {t : Task} {ra rb : Nat × Nat} (h : HRangesOK H tgt nl t ra rb) {p q : Nat} :
    (p, q) ∈ pairListI t ra rb ↔ (ra.1 ≤ p ∧ p < ra.2) ∧ (rb.1 ≤ q ∧ q < rb.2) ∧ (t.cellA = t.cellB ∧ t.i = t.j → p < q) := by
  unfold pairListI
  simp only [List.mem_flatMap, List.mem_range, List.mem_map, List.mem_range'_1, Prod.mk.injEq]
  constructor
  · rintro ⟨k, hk, q', ⟨h1, h2⟩, rfl, rfl⟩
    split at h1
    · rename_i hc
      have := h.same hc; subst this
      rw [if_pos hc] at h2
      exact ⟨by omega, by omega, fun _ => by omega⟩
    · rename_i hc
      rw [if_neg hc] at h2
      exact ⟨by omega, by omega, fun h => absurd h hc⟩
  · rintro ⟨h1, h2, h3⟩
    refine ⟨p - ra.1, by omega, q, ?_, by omega, rfl⟩
    by_cases hc : t.cellA = t.cellB ∧ t.i = t.j
    · have h4 := h3 hc
      have := h.same hc; subst this
      simp only [hc, and_self, if_true]; omega
    · simp only [hc, if_false]; omega

theorem HRangesOK.candidates_eq {t : Task} {ra rb : Nat × Nat} (h : HRangesOK H tgt nl t ra rb) :
    H.candidates t = some (candList t ra rb) := by
  unfold HTree.candidates candList
  refine (obind h.eq _).trans ?_
  simp only
  split
  · rfl
  · exact h.pairsI_eq

theorem HRangesOK.mem_candList {t : Task} (ht : HTaskOK H pbl t) {ra rb : Nat × Nat} (h : HRangesOK H tgt nl t ra rb) {p q : Nat} :
    (p, q) ∈ candList t ra rb ↔ (ra.1 ≤ p ∧ p < ra.2) ∧ (rb.1 ≤ q ∧ q < rb.2) ∧ (t.cellA = t.cellB ∧ t.i = t.j → p < q) := by
  unfold candList; split
  · rename_i h2
    rw [mem_pairListII]
    constructor
    · rintro ⟨h3, h4⟩; exact ⟨h3, h4, fun h => absurd h.1 (ht.ne h2)⟩
    · rintro ⟨h3, h4, _⟩; exact ⟨h3, h4⟩
  · exact h.mem_pairListI

open Classical in
theorem HTreeOK.count_candList (ok : HTreeOK H tgt pbl nl) {t : Task} (ht : HTaskOK H pbl t) {ra rb : Nat × Nat}
    (h : HRangesOK H tgt nl t ra rb) (p q : Nat) : (candList t ra rb).count (p, q) = if HHit H tgt nl t p q then 1 else 0 := by
  have hn : (candList t ra rb).Nodup := by
    unfold candList; split
    · exact nodup_pairListII ra rb
    · exact nodup_pairListI t ra rb
  have hiff : (p, q) ∈ candList t ra rb ↔ HHit H tgt nl t p q := by
    rw [h.mem_candList ht]
    constructor
    · rintro ⟨h1, h2, h3⟩
      have hp : p < H.points.length := by rw [ok.length_points]; have := h.nA; omega
      have hq : q < H.points.length := by rw [ok.length_points]; have := h.nB; omega
      have ep : H.points[p]? = some H.points[p] := List.getElem?_eq_getElem hp
      have eq : H.points[q]? = some H.points[q] := List.getElem?_eq_getElem hq
      exact ⟨_, _, ep, eq, (h.memA _ _ ep).1 h1, (h.memB _ _ eq).1 h2, h3⟩
    · rintro ⟨x, y, hx, hy, h1, h2, h3⟩
      exact ⟨(h.memA _ _ hx).2 h1, (h.memB _ _ hy).2 h2, h3⟩
  split
  · rename_i hh; exact List.count_eq_one_of_mem hn (hiff.2 hh)
  · rename_i hh; exact List.count_eq_zero_of_not_mem (fun h' => hh (hiff.1 h'))

/-! ### the calls are defined and emit sub-lists of what they examine -/

/-- table look-ups of the filter `f` are inside the table for the random number `x` -/
def LookupOK (f : DistFilter F) (x : F) : Prop := ∃ a b, f.upper x = some a ∧ f.lower x = some b

/-- all table look-ups are inside the tables: in type I calls for random numbers of `uniform`, in type II calls for random
numbers of `uniformTo max_prob` -/
structure HDraws (H : HTree F) (rng : Tree.Rng F) : Prop where
  one : H.inThresholdMode = false → ∀ g, LookupOK H.filterI (rng.uniform g).1
  two : H.tZero = false → ∀ i j row, i < H.layers → j < H.layers → H.filterII[i * H.layers + j]? = some row → ∀ p ∈ row, ∀ g, LookupOK p.1 (rng.uniformTo p.1.maxProb g).1 ∧ LookupOK p.2 (rng.uniformTo p.2.maxProb g).1

/-- shape of the table of type II filters -/
structure HFiltersOK (H : HTree F) (pbl : Nat → Nat → Nat) : Prop where
  small : H.layers ≤ 65535
  rows : H.tZero = false → ∀ i j, i < H.layers → j < H.layers → ∃ row, H.filterII[i * H.layers + j]? = some row ∧ row.length = pbl i j - 1

theorem HTree.idx_eq {p : Nat} {x : HPoint F} (h : H.points[p]? = some x) : H.idx p = x.id := by
  simp [HTree.idx, h]

theorem decideProb_some {f : DistFilter F} {x : F} (h : LookupOK f x) (u v : HPoint F) : ∃ b, HTree.decideProb H f u v x = some b := by
  obtain ⟨a, b, ha, hb⟩ := h
  unfold HTree.decideProb
  rw [ha, hb]
  simp only [Option.bind_eq_bind, Option.bind_some]
  split
  · exact ⟨_, rfl⟩
  · split <;> exact ⟨_, rfl⟩

theorem decideI_some {rng : Tree.Rng F} (hd : HDraws H rng) (u v : HPoint F) (g : rng.G) : ∃ r, HTree.decideI H rng u v g = some r := by
  unfold HTree.decideI
  cases hm : H.inThresholdMode with
  | true => exact ⟨_, if_pos rfl⟩
  | false =>
    simp only [Bool.false_eq_true, if_false]
    obtain ⟨b, hb⟩ := decideProb_some (H := H) (hd.one hm g) u v
    exact ⟨_, (obind hb _).trans rfl⟩

theorem hrunPairsI_spec {rng : Tree.Rng F} (hd : HDraws H rng) : ∀ (L : List (Nat × Nat)), (∀ c ∈ L, c.1 < H.points.length ∧ c.2 < H.points.length) →
    ∀ g : rng.G, ∃ es g', HTree.runPairsI H rng L g = some (es, g') ∧ es.Sublist (L.map H.idxPair) := by
  intro L
  induction L with
  | nil => intro _ g; exact ⟨[], g, rfl, by simp⟩
  | cons c L ih =>
    intro hL g
    obtain ⟨a, b⟩ := c
    obtain ⟨ha, hb⟩ := hL (a, b) (by simp)
    have ea : H.points[a]? = some H.points[a] := List.getElem?_eq_getElem ha
    have eb : H.points[b]? = some H.points[b] := List.getElem?_eq_getElem hb
    obtain ⟨d, hdd⟩ := decideI_some hd H.points[a] H.points[b] g
    obtain ⟨es, g', h1, h2⟩ := ih (fun c hc => hL c (by simp [hc])) d.2
    refine ⟨if d.1 then (H.points[a].id, H.points[b].id) :: es else es, g', ?_, ?_⟩
    · unfold HTree.runPairsI
      refine (obind ea _).trans ?_
      refine (obind eb _).trans ?_
      refine (obind hdd _).trans ?_
      exact (obind h1 _).trans rfl
    · rw [List.map_cons]
      have e : H.idxPair (a, b) = (H.points[a].id, H.points[b].id) := by
        unfold HTree.idxPair; rw [HTree.idx_eq ea, HTree.idx_eq eb]
      rw [e]
      split
      · exact h2.cons_cons _
      · exact h2.cons _

theorem hloopII_spec {rng : Tree.Rng F} (hgeo : GeoBounded rng) {ra rb : Nat × Nat} (hA : ra.2 ≤ H.points.length)
    (hB : rb.2 ≤ H.points.length) (hn : H.points.length < 2147483648) {f : DistFilter F} (hf : ∀ g, LookupOK f (rng.uniformTo f.maxProb g).1) :
    ∀ (fuel r : Nat) (g : rng.G), r < 18446744073709551616 → (ra.2 - ra.1) * (rb.2 - rb.1) + 1 ≤ fuel + r → 1 ≤ fuel →
    ∃ es g', HTree.loopII H rng f ra.1 rb.1 (ra.2 - ra.1) (rb.2 - rb.1) fuel r g = some (es, g') ∧
      es.Sublist ((List.range' r ((ra.2 - ra.1) * (rb.2 - rb.1) - r)).map fun r => H.idxPair (decodeII ra rb r)) := by
  have hNb : (ra.2 - ra.1) * (rb.2 - rb.1) ≤ 4611686018427387904 := by
    calc (ra.2 - ra.1) * (rb.2 - rb.1) ≤ 2147483648 * 2147483648 := Nat.mul_le_mul (by omega) (by omega)
      _ = _ := by norm_num
  intro fuel
  induction fuel with
  | zero => intro r g _ _ h; omega
  | succ fuel ih =>
    intro r g hr hfuel _
    unfold HTree.loopII
    simp only
    by_cases hlt : r < (ra.2 - ra.1) * (rb.2 - rb.1)
    · rw [if_pos hlt]
      obtain ⟨hma, hmb⟩ := mem_pairListII.1 (List.mem_map.2 ⟨r, List.mem_range.2 hlt, rfl⟩ : decodeII ra rb r ∈ pairListII ra rb)
      have hpa : ra.1 + r % (ra.2 - ra.1) < H.points.length := by omega
      have hpb : rb.1 + r / (ra.2 - ra.1) < H.points.length := by omega
      have ea := List.getElem?_eq_getElem hpa
      have eb := List.getElem?_eq_getElem hpb
      obtain ⟨d, hdd⟩ := decideProb_some (H := H) (hf g) H.points[ra.1 + r % (ra.2 - ra.1)] H.points[rb.1 + r / (ra.2 - ra.1)]
      have hj := hgeo f.maxProb (rng.uniformTo f.maxProb g).2
      have hmod : (r + 1 + (rng.geo f.maxProb (rng.uniformTo f.maxProb g).2).1) % 18446744073709551616 =
          r + 1 + (rng.geo f.maxProb (rng.uniformTo f.maxProb g).2).1 := Nat.mod_eq_of_lt (by omega)
      obtain ⟨es, g', h1, h2⟩ := ih (r + 1 + (rng.geo f.maxProb (rng.uniformTo f.maxProb g).2).1) (rng.geo f.maxProb (rng.uniformTo f.maxProb g).2).2
        (by omega) (by omega) (by omega)
      refine ⟨if d then (H.points[ra.1 + r % (ra.2 - ra.1)].id, H.points[rb.1 + r / (ra.2 - ra.1)].id) :: es else es, g', ?_, ?_⟩
      · refine (obind ea _).trans ?_
        refine (obind eb _).trans ?_
        refine (obind hdd _).trans ?_
        simp only [hmod]
        exact (obind h1 _).trans rfl
      · have hsplit : (ra.2 - ra.1) * (rb.2 - rb.1) - r = ((ra.2 - ra.1) * (rb.2 - rb.1) - (r + 1)) + 1 := by omega
        have e : H.idxPair (decodeII ra rb r) = (H.points[ra.1 + r % (ra.2 - ra.1)].id, H.points[rb.1 + r / (ra.2 - ra.1)].id) := by
          show (H.idx (ra.1 + r % (ra.2 - ra.1)), H.idx (rb.1 + r / (ra.2 - ra.1))) = _
          rw [HTree.idx_eq ea, HTree.idx_eq eb]
        rw [hsplit, List.range'_succ, List.map_cons, e]
        have h3 : es.Sublist ((List.range' (r + 1) ((ra.2 - ra.1) * (rb.2 - rb.1) - (r + 1))).map fun r => H.idxPair (decodeII ra rb r)) := by
          refine h2.trans ?_
          apply List.Sublist.map
          by_cases h0 : r + 1 + (rng.geo f.maxProb (rng.uniformTo f.maxProb g).2).1 ≤ (ra.2 - ra.1) * (rb.2 - rb.1)
          · exact range'_sublist (by omega) (by omega)
          · have : (ra.2 - ra.1) * (rb.2 - rb.1) - (r + 1 + (rng.geo f.maxProb (rng.uniformTo f.maxProb g).2).1) = 0 := by omega
            rw [this]; exact List.nil_sublist _
        split
        · exact h3.cons_cons _
        · exact h3.cons _
    · rw [if_neg hlt]
      exact ⟨[], g, rfl, List.nil_sublist _⟩

theorem hsampleTypeI_spec {rng : Tree.Rng F} (hd : HDraws H rng) (ok : HTreeOK H tgt pbl nl) {t : Task} {ra rb : Nat × Nat}
    (h : HRangesOK H tgt nl t ra rb) (g : rng.G) : ∃ es g', HTree.sampleTypeI H rng t g = some (es, g') ∧
      es.Sublist ((pairListI t ra rb).map H.idxPair) := by
  unfold HTree.sampleTypeI
  rw [h.eq]
  by_cases hc : ra.1 = ra.2 ∨ rb.1 = rb.2
  · exact ⟨[], g, by simp [hc], List.nil_sublist _⟩
  · obtain ⟨es, g', h1, h2⟩ := hrunPairsI_spec hd (pairListI t ra rb) (by
      rintro ⟨p, q⟩ hm
      rw [h.mem_pairListI] at hm
      have := h.nA; have := h.nB
      rw [ok.length_points]; exact ⟨by omega, by omega⟩) g
    refine ⟨es, g', ?_, h2⟩
    simp only [Option.bind_eq_bind, Option.bind_some, hc, if_false]
    rw [h.pairsI_eq]
    exact h1

/-- cells on level 0 and 1 touch -/
theorem two_le_level {l A B : Nat} (hA : OnLv l A) (hB : OnLv l B) (h : touchN l A B = false) : 2 ≤ l := by
  by_contra hne
  have hl : l = 0 ∨ l = 1 := by omega
  have : touchN l A B = true := by
    unfold touchN
    rw [decide_eq_true_eq]
    rw [onLv_iff] at hA hB
    rcases hl with rfl | rfl <;> norm_num at hA hB ⊢ <;> omega
  rw [this] at h; cases h

theorem HTreeOK.cellsBetween_some (ok : HTreeOK H tgt pbl nl) {t : Task} (ht : HTaskOK H pbl t) :
    ∃ b, Angle.cellsBetween t.cellA t.cellB t.level = some b := by
  have h1 := ok.pbl_top t.i t.j ht.hi ht.hj
  have h2 := ok.levels_le
  have h3 := ok.levels_eq
  have h4 := ht.hl
  unfold Angle.cellsBetween
  exact ⟨_, (obind (numCellsInLevel_eq (by omega)) _).trans rfl⟩

/-- the filter look-up of a type II call is defined -/
theorem HTreeOK.filterFor_some (ok : HTreeOK H tgt pbl nl) (fo : HFiltersOK H pbl) (hz : H.tZero = false) {t : Task} (ht : HTaskOK H pbl t)
    (h2 : t.two = true) : ∃ row p b, row ∈ H.filterII ∧ p ∈ row ∧ Angle.cellsBetween t.cellA t.cellB t.level = some b ∧
      H.filterII[t.i * H.layers + t.j]? = some row ∧ row[t.level - 2]? = some p ∧
      H.filterFor t = some (if b = 1 then p.1 else p.2) := by
  obtain ⟨row, h3, h4⟩ := fo.rows hz t.i t.j ht.hi ht.hj
  obtain ⟨b, hb⟩ := ok.cellsBetween_some ht
  have hlev := two_le_level ht.hA ht.hB (ht.two h2)
  have hl := ht.hl
  have hlt : t.level - 2 < row.length := by omega
  have hl31 : t.level ≤ 31 := by
    have := ok.pbl_top t.i t.j ht.hi ht.hj; have := ok.levels_le; have := ok.levels_eq; omega
  refine ⟨row, row[t.level - 2], b, List.mem_of_getElem? h3, List.getElem_mem hlt, hb, h3, List.getElem?_eq_getElem hlt, ?_⟩
  unfold HTree.filterFor
  have hi := ht.hi; have hj := ht.hj; have hs := fo.small
  have hmul : t.i * H.layers ≤ 65534 * 65535 := Nat.mul_le_mul (by omega) hs
  have e1 : u32 (t.i * H.layers) = t.i * H.layers := u32_eq (by omega)
  have e2 : u32 (t.i * H.layers + t.j) = t.i * H.layers + t.j := u32_eq (by omega)
  have e3 : subU t.level 2 = t.level - 2 := subU_eq (by omega) hlev
  rw [e1, e2, e3]
  refine (obind h3 _).trans ?_
  refine (obind (List.getElem?_eq_getElem hlt) _).trans ?_
  exact (obind hb _).trans rfl

theorem HRangesOK.pairLists_perm {t : Task} {ra rb : Nat × Nat} (h : HRangesOK H tgt nl t ra rb) (hne : t.cellA ≠ t.cellB) :
    (pairListI t ra rb).Perm (pairListII ra rb) := by
  rw [List.perm_ext_iff_of_nodup (nodup_pairListI t ra rb) (nodup_pairListII ra rb)]
  rintro ⟨p, q⟩
  rw [h.mem_pairListI, mem_pairListII]
  constructor
  · rintro ⟨h1, h2, _⟩; exact ⟨h1, h2⟩
  · rintro ⟨h1, h2⟩; exact ⟨h1, h2, fun h => absurd h.1 hne⟩

theorem hsampleTypeII_spec {rng : Tree.Rng F} (hgeo : GeoBounded rng) (hd : HDraws H rng) (ok : HTreeOK H tgt pbl nl) (fo : HFiltersOK H pbl)
    {t : Task} (ht : HTaskOK H pbl t) (h2 : t.two = true) {ra rb : Nat × Nat} (h : HRangesOK H tgt nl t ra rb) (g : rng.G) :
    ∃ es g', HTree.sampleTypeII H rng t g = some (es, g') ∧ es.Subperm ((pairListII ra rb).map H.idxPair) := by
  unfold HTree.sampleTypeII
  rw [h.sizes]
  simp only [Option.bind_eq_bind, Option.bind_some]
  by_cases hz : (H.tZero || ra.2 - ra.1 == 0 || rb.2 - rb.1 == 0) = true
  · exact ⟨[], g, by rw [if_pos hz], List.nil_subperm⟩
  · rw [if_neg hz]
    have hz' : H.tZero = false := by
      cases hh : H.tZero with
      | false => rfl
      | true => rw [hh] at hz; simp at hz
    obtain ⟨row, p, b, hrow, hp, hb, hidx, _, hf⟩ := ok.filterFor_some fo hz' ht h2
    set f := if b = 1 then p.1 else p.2 with hfd
    rw [hf]
    have hlook : ∀ g, LookupOK f (rng.uniformTo f.maxProb g).1 := by
      intro g
      have := hd.two hz' t.i t.j row ht.hi ht.hj hidx p hp g
      rw [hfd]; split
      · exact this.1
      · exact this.2
    simp only [Option.bind_some]
    split
    · obtain ⟨es, g', h1, h3⟩ := hsampleTypeI_spec hd ok h g
      exact ⟨es, g', h1, h3.subperm.trans ((h.pairLists_perm (ht.ne h2)).map _).subperm⟩
    · split
      · exact ⟨[], g, rfl, List.nil_subperm⟩
      · have hA := h.nA; have hB := h.nB
        rw [← ok.length_points] at hA hB
        obtain ⟨es, g', h1, h3⟩ := hloopII_spec hgeo hA hB (by rw [ok.length_points]; exact ok.small) hlook
          ((ra.2 - ra.1) * (rb.2 - rb.1) + 1) (rng.geo f.maxProb g).1 (rng.geo f.maxProb g).2 (by have := hgeo f.maxProb g; omega) (by omega) (by omega)
        refine ⟨es, g', (obind h.starts _).trans h1, (h3.trans ?_).subperm⟩
        unfold pairListII
        rw [List.map_map, List.range_eq_range']
        apply List.Sublist.map
        by_cases h0 : (rng.geo f.maxProb g).1 ≤ (ra.2 - ra.1) * (rb.2 - rb.1)
        · exact range'_sublist (by omega) (by omega)
        · have : (ra.2 - ra.1) * (rb.2 - rb.1) - (rng.geo f.maxProb g).1 = 0 := by omega
          rw [this]; exact List.nil_sublist _

theorem hrunTask_spec {rng : Tree.Rng F} (hgeo : GeoBounded rng) (hd : HDraws H rng) (ok : HTreeOK H tgt pbl nl) (fo : HFiltersOK H pbl)
    {t : Task} (ht : HTaskOK H pbl t) (g : rng.G) :
    ∃ cs es g', H.candidates t = some cs ∧ HTree.runTask H rng t g = some (es, g') ∧ es.Subperm (cs.map H.idxPair) := by
  obtain ⟨ra, rb, h⟩ := ok.ranges_ok ht
  refine ⟨candList t ra rb, ?_⟩
  unfold HTree.runTask
  cases h2 : t.two
  · obtain ⟨es, g', h3, h4⟩ := hsampleTypeI_spec hd ok h g
    refine ⟨es, g', h.candidates_eq, by simpa using h3, ?_⟩
    rw [candList, h2]; exact h4.subperm
  · obtain ⟨es, g', h3, h4⟩ := hsampleTypeII_spec hgeo hd ok fo ht h2 h g
    refine ⟨es, g', h.candidates_eq, by simpa using h3, ?_⟩
    rw [candList, h2]; exact h4

theorem hrunTasks_spec {rng : Tree.Rng F} (hgeo : GeoBounded rng) (hd : HDraws H rng) (ok : HTreeOK H tgt pbl nl) (fo : HFiltersOK H pbl) :
    ∀ (ts : List Task), (∀ t ∈ ts, HTaskOK H pbl t) → ∀ g : rng.G, ∃ cs es g', H.allCandidates ts = some cs ∧
      HTree.runTasks H rng ts g = some (es, g') ∧ es.Subperm (cs.map H.idxPair) := by
  intro ts
  induction ts with
  | nil => intro _ g; exact ⟨[], [], g, rfl, rfl, List.nil_subperm⟩
  | cons t ts ih =>
    intro hts g
    obtain ⟨cs, es, g1, h1, h2, h3⟩ := hrunTask_spec hgeo hd ok fo (hts t (by simp)) g
    obtain ⟨cs', es', g2, h4, h5, h6⟩ := ih (fun t ht => hts t (by simp [ht])) g1
    refine ⟨cs ++ cs', es ++ es', g2, ?_, ?_, ?_⟩
    · unfold HTree.allCandidates Tree.concatM
      unfold HTree.allCandidates at h4
      rw [h1, h4]; rfl
    · unfold HTree.runTasks
      rw [h2]
      simp only [Option.bind_eq_bind, Option.bind_some, h5]
    · rw [List.map_append]; exact h3.append h6

open Classical in
theorem HTreeOK.allCandidates_count (ok : HTreeOK H tgt pbl nl) : ∀ (ts : List Task), (∀ t ∈ ts, HTaskOK H pbl t) →
    ∃ cs, H.allCandidates ts = some cs ∧ (∀ c ∈ cs, c.1 < H.n ∧ c.2 < H.n) ∧ ∀ p q, cs.count (p, q) = hcnt H tgt nl ts p q := by
  intro ts
  induction ts with
  | nil => intro _; exact ⟨[], rfl, by simp, by simp [hcnt]⟩
  | cons t ts ih =>
    intro hts
    obtain ⟨cs, h1, h2, h3⟩ := ih (fun t ht => hts t (by simp [ht]))
    have ht := hts t (by simp)
    obtain ⟨ra, rb, h⟩ := ok.ranges_ok ht
    refine ⟨candList t ra rb ++ cs, ?_, ?_, ?_⟩
    · unfold HTree.allCandidates Tree.concatM
      unfold HTree.allCandidates at h1
      rw [h.candidates_eq, h1]; rfl
    · intro c hc
      rw [List.mem_append] at hc
      rcases hc with hc | hc
      · obtain ⟨p, q⟩ := c
        rw [h.mem_candList ht] at hc
        have := h.nA; have := h.nB
        simp only; omega
      · exact h2 c hc
    · intro p q
      rw [List.count_append, h3, ok.count_candList ht h]
      unfold hcnt
      rw [List.countP_cons]
      split <;> rename_i hh <;> simp [hh, Nat.add_comm]

theorem hallCandidates_append {ts ts' : List Task} {cs cs' : List (Nat × Nat)} (h : H.allCandidates ts = some cs)
    (h' : H.allCandidates ts' = some cs') : H.allCandidates (ts ++ ts') = some (cs ++ cs') := by
  induction ts generalizing cs with
  | nil =>
    simp only [HTree.allCandidates, Tree.concatM, Option.some.injEq] at h
    subst h; simpa using h'
  | cons t ts ih =>
    unfold HTree.allCandidates Tree.concatM at h
    cases h1 : H.candidates t with
    | none => rw [h1] at h; cases h
    | some x =>
      rw [obind h1] at h
      cases h2 : Tree.concatM ts H.candidates with
      | none => rw [h2] at h; cases h
      | some y =>
        rw [obind h2] at h
        simp only [Option.some.injEq] at h
        subst h
        rw [List.cons_append]
        unfold HTree.allCandidates Tree.concatM
        refine (obind h1 _).trans ?_
        refine (obind (ih h2) _).trans ?_
        simp

/-! ### from positions to point indices -/

theorem HTreeOK.idx_lt (ok : HTreeOK H tgt pbl nl) {p : Nat} (hp : p < H.n) : H.idx p < H.n := by
  rw [← ok.length_points] at hp
  have e : H.points[p]? = some H.points[p] := List.getElem?_eq_getElem hp
  rw [HTree.idx_eq e]
  have : H.points[p].id ∈ H.points.map HPoint.id := List.mem_map.2 ⟨_, List.getElem_mem hp, rfl⟩
  exact List.mem_range.1 (ok.id_perm.mem_iff.1 this)

theorem HTreeOK.idx_inj (ok : HTreeOK H tgt pbl nl) {p q : Nat} (hp : p < H.n) (hq : q < H.n) (h : H.idx p = H.idx q) : p = q := by
  rw [← ok.length_points] at hp hq
  rw [HTree.idx_eq (List.getElem?_eq_getElem hp), HTree.idx_eq (List.getElem?_eq_getElem hq)] at h
  have hn : (H.points.map HPoint.id).Nodup := ok.id_perm.nodup_iff.2 List.nodup_range
  have hp' : p < (H.points.map HPoint.id).length := by simpa using hp
  have hq' : q < (H.points.map HPoint.id).length := by simpa using hq
  apply (hn.getElem_inj_iff (hi := hp') (hj := hq')).1
  simpa using h

theorem HTreeOK.idx_surj (ok : HTreeOK H tgt pbl nl) {u : Nat} (hu : u < H.n) : ∃ p, p < H.n ∧ H.idx p = u := by
  have : u ∈ H.points.map HPoint.id := ok.id_perm.mem_iff.2 (List.mem_range.2 hu)
  obtain ⟨x, hx, rfl⟩ := List.mem_map.1 this
  obtain ⟨p, hp, e⟩ := List.getElem_of_mem hx
  refine ⟨p, by rw [← ok.length_points]; exact hp, ?_⟩
  rw [HTree.idx_eq (List.getElem?_eq_getElem hp), e]

theorem HTreeOK.count_map_idx (ok : HTreeOK H tgt pbl nl) {cs : List (Nat × Nat)} (hcs : ∀ c ∈ cs, c.1 < H.n ∧ c.2 < H.n) {p q : Nat}
    (hp : p < H.n) (hq : q < H.n) : (cs.map H.idxPair).count (H.idx p, H.idx q) = cs.count (p, q) := by
  unfold List.count
  rw [List.countP_map]
  apply List.countP_congr
  intro c hc
  obtain ⟨h1, h2⟩ := hcs c hc
  simp only [Function.comp_apply, beq_iff_eq, HTree.idxPair, Prod.mk.injEq]
  constructor
  · rintro ⟨e1, e2⟩
    exact Prod.ext (ok.idx_inj h1 hp e1) (ok.idx_inj h2 hq e2)
  · rintro rfl; exact ⟨rfl, rfl⟩

/-- the pairs considered by the calls of the full recursion, as point indices -/
theorem HTreeOK.eachPairOnce (ok : HTreeOK H tgt pbl nl) {ts : List Task}
    (hts : ts.Perm (hvisit H.layers H.levels pbl true H.levels 0 0 0)) :
    ∃ cs, H.allCandidates ts = some cs ∧ EachPairOnce H.n (cs.map H.idxPair) := by
  have hok : ∀ t ∈ ts, HTaskOK H pbl t := fun t ht => hvisit_ok _ _ _ _ onLv_zero onLv_zero t (hts.mem_iff.1 ht)
  obtain ⟨cs, h1, h2, h3⟩ := ok.allCandidates_count ts hok
  have hcnt' : ∀ p q, hcnt H tgt nl ts p q = hcnt H tgt nl (hvisit H.layers H.levels pbl true H.levels 0 0 0) p q :=
    fun p q => hts.countP_eq _
  refine ⟨cs, h1, ?_, ?_⟩
  · intro e he
    obtain ⟨c, hc, rfl⟩ := List.mem_map.1 he
    obtain ⟨h4, h5⟩ := h2 c hc
    refine ⟨ok.idx_lt h4, ok.idx_lt h5, ?_⟩
    intro heq
    have := ok.idx_inj h4 h5 heq
    obtain ⟨p, q⟩ := c
    simp only at this; subst this
    have h6 := h3 p p
    rw [hcnt_self] at h6
    exact (List.count_pos_iff.2 hc).ne' h6
  · intro u v hu hv huv
    obtain ⟨p, hp, rfl⟩ := ok.idx_surj hu
    obtain ⟨q, hq, rfl⟩ := ok.idx_surj hv
    unfold occurrences
    rw [ok.count_map_idx h2 hp hq, ok.count_map_idx h2 hq hp, h3, h3, hcnt', hcnt']
    have hp' := hp; have hq' := hq
    rw [← ok.length_points] at hp' hq'
    exact hcnt_visit_root ok (List.getElem?_eq_getElem hp') (List.getElem?_eq_getElem hq') (fun h => huv (by rw [h]))

/-- without the type II calls: a sub-multiset -/
theorem hvisit_full {layers levels : Nat} (full : Bool) : ∀ (k A B l : Nat),
    (hvisit layers levels pbl full k A B l).Sublist (hvisit layers levels pbl true k A B l) := by
  intro k
  induction k with
  | zero => intro A B l; simp [hvisit]
  | succ k ih =>
    intro A B l
    unfold hvisit
    split
    · cases full <;> simp
    · refine List.Sublist.append (List.Sublist.refl _) ?_
      split
      · exact List.Sublist.refl _
      · generalize hkids A B = L
        induction L with
        | nil => exact List.Sublist.refl _
        | cons a L ihL =>
          rw [List.flatMap_cons, List.flatMap_cons]
          exact (ih _ _ _).append ihL

/-- edges emitted by any sub-collection of the calls form a simple graph -/
theorem HTreeOK.simple (ok : HTreeOK H tgt pbl nl) {ts : List Task} (hts : ts.Subperm (hvisit H.layers H.levels pbl true H.levels 0 0 0))
    {cs es : List (Nat × Nat)} (hcs : H.allCandidates ts = some cs) (hes : es.Subperm (cs.map H.idxPair)) : IsSimpleGraph H.n es := by
  obtain ⟨l0, hl0, hl1⟩ := hts
  obtain ⟨ts', h0⟩ := hl1.exists_perm_append
  have h1 : (hvisit H.layers H.levels pbl true H.levels 0 0 0).Perm (ts ++ ts') := h0.trans (hl0.append_right ts')
  have hok : ∀ t ∈ ts ++ ts', HTaskOK H pbl t := fun t ht => hvisit_ok _ _ _ _ onLv_zero onLv_zero t (h1.symm.mem_iff.1 ht)
  obtain ⟨cs', h2, _, _⟩ := ok.allCandidates_count ts' (fun t ht => hok t (List.mem_append_right _ ht))
  obtain ⟨cs2, h3, h4⟩ := ok.eachPairOnce h1.symm
  rw [hallCandidates_append hcs h2, Option.some.injEq] at h3
  subst h3
  refine EachPairOnce.simple h4 (hes.trans ?_)
  rw [List.map_append]
  exact (List.sublist_append_left _ _).subperm

end Girgs
