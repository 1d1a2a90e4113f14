import Verif.Proofs.Visit
import Verif.Model.Examined
import Verif.Spec.Graph
import Mathlib.Data.List.Perm.Subperm
import Mathlib.Data.List.Sublists
/-!
The sampling calls: they are defined (no out-of-bounds access, no endless loop) and emit only pairs they consider,
each at most once.
-/
namespace Girgs
open Spec
set_option linter.unusedSectionVars false
variable {F : Type} [CFloat F] {D : Nat} {T : Tree F D}

/-- side conditions every call of the recursion meets -/
structure TaskOK (T : Tree F D) (t : Task) : Prop where
  hi : t.i < T.layers
  hj : t.j < T.layers
  hA : OnLevel D t.level t.cellA
  hB : OnLevel D t.level t.cellB
  hl : t.level ≤ partitioningBaseLevel D T.blc t.i t.j
  two : t.two = true → t.cellA ≠ t.cellB ∧ touchB D t.level t.cellA t.cellB = false
  one : t.two = false → touchB D t.level t.cellA t.cellB = true

theorem visitP_ok : ∀ (k A B l : Nat), OnLevel D l A → OnLevel D l B → ∀ t ∈ visitP T k A B l, TaskOK T t := by
  intro k
  induction k with
  | zero => intro A B l _ _ t ht; simp [visitP] at ht
  | succ k ih =>
    intro A B l hA hB t ht
    unfold visitP at ht
    split at ht
    · rename_i hn
      obtain ⟨_, h1, rfl, rfl, rfl, h2, h3, h4, _⟩ := mem_tasksII.1 ht
      refine ⟨h2, h3, hA, hB, h4, fun _ => ⟨?_, hn⟩, fun h => (by rw [h1] at h; cases h)⟩
      intro h; rw [h, touchB_refl] at hn; cases hn
    · rename_i hn
      rw [List.mem_append] at ht
      rcases ht with ht | ht
      · obtain ⟨h1, rfl, rfl, rfl, h2, h3, h4, _⟩ := mem_tasksI.1 ht
        exact ⟨h2, h3, hA, hB, h4.ge, fun h => (by rw [h1] at h; cases h), fun _ => by simpa using hn⟩
      · split at ht
        · simp at ht
        · rw [List.mem_flatMap] at ht
          obtain ⟨p, hp, ht⟩ := ht
          have := kids_onLevel hA hB hp
          exact ih p.1 p.2 (l + 1) this.1 this.2 t ht

/-- the node ranges of a call -/
structure RangesOK (T : Tree F D) (t : Task) (ra rb : Nat × Nat) : Prop where
  eq : T.ranges t = some (ra, rb)
  leA : ra.1 ≤ ra.2
  leB : rb.1 ≤ rb.2
  nA : ra.2 ≤ T.n
  nB : rb.2 ≤ T.n
  memA : ∀ p x, T.nodes[p]? = some x → (ra.1 ≤ p ∧ p < ra.2 ↔ InLC T x t.i t.level t.cellA)
  memB : ∀ p x, T.nodes[p]? = some x → (rb.1 ≤ p ∧ p < rb.2 ↔ InLC T x t.j t.level t.cellB)
  same : t.cellA = t.cellB ∧ t.i = t.j → ra = rb

theorem TreeOK.ranges_ok (ok : TreeOK T) {t : Task} (h : TaskOK T t) : ∃ ra rb, RangesOK T t ra rb := by
  obtain ⟨a, a', h1, h2, h3, h4⟩ := ok.cellIterators_spec h.hi (le_trans h.hl (pbl_le_target_left _ _)) h.hA
  obtain ⟨b, b', h5, h6, h7, h8⟩ := ok.cellIterators_spec h.hj (le_trans h.hl (pbl_le_target_right _ _)) h.hB
  refine ⟨(a, a'), (b, b'), ?_, h2, h6, h3, h7, h4, h8, ?_⟩
  · unfold Tree.ranges
    refine (obind (ok.rd_weightLayers h.hi) _).trans ?_
    refine (obind (ok.rd_weightLayers h.hj) _).trans ?_
    refine (obind h1 _).trans ?_
    refine (obind h5 _).trans ?_
    rfl
  · rintro ⟨e1, e2⟩
    rw [e1, e2, h5] at h1
    exact (Option.some.inj h1).symm

/-! ### considered pairs -/

/-- the pairs of positions considered by the double loop of a type I call -/
def pairListI (t : Task) (ra rb : Nat × Nat) : List (Nat × Nat) :=
  (List.range (ra.2 - ra.1)).flatMap fun kA =>
    (List.range' (rb.1 + (if t.cellA = t.cellB ∧ t.i = t.j then kA + 1 else 0))
      (rb.2 - (rb.1 + (if t.cellA = t.cellB ∧ t.i = t.j then kA + 1 else 0)))).map fun pb => (ra.1 + kA, pb)

theorem RangesOK.pairsI_eq {t : Task} {ra rb : Nat × Nat} (h : RangesOK T t ra rb) :
    Tree.pairsI t ra rb = some (pairListI t ra rb) := by
  unfold Tree.pairsI
  rw [if_pos h.leA]
  apply concatM_some
  intro k hk
  rw [List.mem_range] at hk
  have hle : rb.1 + (if t.cellA = t.cellB ∧ t.i = t.j then k + 1 else 0) ≤ rb.2 := by
    split
    · rename_i hc
      have := h.same hc; subst this; omega
    · have := h.leB; omega
  simp only [hle, if_true]

theorem nodup_pairListI (t : Task) (ra rb : Nat × Nat) : (pairListI t ra rb).Nodup := by
  unfold pairListI
  rw [List.nodup_flatMap]
  constructor
  · intro a _
    exact List.Nodup.map (fun x y h => (Prod.mk.inj h).2) List.nodup_range'
  · refine List.Pairwise.imp ?_ (List.nodup_range (n := ra.2 - ra.1))
    intro a a' hne
    show List.Disjoint _ _
    intro z hz hz'
    simp only [List.mem_map] at hz hz'
    obtain ⟨_, _, rfl⟩ := hz
    obtain ⟨_, _, h⟩ := hz'
    have := (Prod.mk.inj h).1
    exact hne (by omega)

theorem RangesOK.mem_pairListI {t : Task} {ra rb : Nat × Nat} (h : RangesOK T t ra rb) {p q : Nat} :
    (p, q) ∈ pairListI t ra rb ↔ (ra.1 ≤ p ∧ p < ra.2) ∧ (rb.1 ≤ q ∧ q < rb.2) ∧ (t.cellA = t.cellB ∧ t.i = t.j → p < q) := by
  unfold pairListI
  simp only [List.mem_flatMap, List.mem_range, List.mem_map, List.mem_range'_1, Prod.mk.injEq]
  constructor
  · rintro ⟨k, hk, q', ⟨h1, h2⟩, rfl, rfl⟩
    split at h1
    · rename_i hc
      have := h.same hc; subst this
      rw [if_pos hc] at h2
      exact ⟨by omega, by omega, fun _ => by omega⟩
    · rename_i hc
      rw [if_neg hc] at h2
      exact ⟨by omega, by omega, fun h => absurd h hc⟩
  · rintro ⟨h1, h2, h3⟩
    refine ⟨p - ra.1, by omega, q, ?_, by omega, rfl⟩
    by_cases hc : t.cellA = t.cellB ∧ t.i = t.j
    · have h4 := h3 hc
      have := h.same hc; subst this
      simp only [hc, and_self, if_true]; omega
    · simp only [hc, if_false]; omega

theorem decodeII_inj {ra rb : Nat × Nat} {r s : Nat} (h : decodeII ra rb r = decodeII ra rb s) : r = s := by
  obtain ⟨h1, h2⟩ := Prod.mk.inj h
  have h3 := Nat.div_add_mod r (ra.2 - ra.1)
  have h4 := Nat.div_add_mod s (ra.2 - ra.1)
  have e1 : r % (ra.2 - ra.1) = s % (ra.2 - ra.1) := by omega
  have e2 : r / (ra.2 - ra.1) = s / (ra.2 - ra.1) := by omega
  rw [← h3, ← h4, e1, e2]

theorem nodup_pairListII (ra rb : Nat × Nat) : (pairListII ra rb).Nodup :=
  List.Nodup.map (fun _ _ h => decodeII_inj h) List.nodup_range

theorem mem_pairListII {ra rb : Nat × Nat} {p q : Nat} :
    (p, q) ∈ pairListII ra rb ↔ (ra.1 ≤ p ∧ p < ra.2) ∧ (rb.1 ≤ q ∧ q < rb.2) := by
  unfold pairListII decodeII
  simp only [List.mem_map, List.mem_range, Prod.mk.injEq]
  constructor
  · rintro ⟨r, hr, rfl, rfl⟩
    have hpos : 0 < ra.2 - ra.1 := by
      rcases Nat.eq_zero_or_pos (ra.2 - ra.1) with h | h
      · rw [h, Nat.zero_mul] at hr; omega
      · exact h
    have h1 := Nat.mod_lt r hpos
    have h2 : r / (ra.2 - ra.1) < rb.2 - rb.1 := Nat.div_lt_of_lt_mul hr
    generalize r / (ra.2 - ra.1) = y at h2 ⊢
    generalize r % (ra.2 - ra.1) = z at h1 ⊢
    constructor <;> omega
  · rintro ⟨h1, h2⟩
    have hlt : p - ra.1 < ra.2 - ra.1 := by omega
    refine ⟨(ra.2 - ra.1) * (q - rb.1) + (p - ra.1), ?_, ?_, ?_⟩
    · have : (ra.2 - ra.1) * (q - rb.1 + 1) ≤ (ra.2 - ra.1) * (rb.2 - rb.1) := Nat.mul_le_mul_left _ (by omega)
      rw [Nat.mul_add, Nat.mul_one] at this; omega
    · rw [Nat.mul_add_mod, Nat.mod_eq_of_lt hlt]; omega
    · rw [Nat.mul_add_div (by omega), Nat.div_eq_of_lt hlt]; omega

def candList (t : Task) (ra rb : Nat × Nat) : List (Nat × Nat) :=
  if t.two then pairListII ra rb else pairListI t ra rb

theorem RangesOK.candidates_eq {t : Task} {ra rb : Nat × Nat} (h : RangesOK T t ra rb) :
    T.candidates t = some (candList t ra rb) := by
  unfold Tree.candidates candList
  refine (obind h.eq _).trans ?_
  simp only
  split
  · rfl
  · exact h.pairsI_eq

open Classical in
theorem TreeOK.count_candList (ok : TreeOK T) {t : Task} (ht : TaskOK T t) {ra rb : Nat × Nat} (h : RangesOK T t ra rb) (p q : Nat) :
    (candList t ra rb).count (p, q) = if Hit T t p q then 1 else 0 := by
  have hn : (candList t ra rb).Nodup := by
    unfold candList; split
    · exact nodup_pairListII ra rb
    · exact nodup_pairListI t ra rb
  have hm : (p, q) ∈ candList t ra rb ↔ (ra.1 ≤ p ∧ p < ra.2) ∧ (rb.1 ≤ q ∧ q < rb.2) ∧ (t.cellA = t.cellB ∧ t.i = t.j → p < q) := by
    unfold candList; split
    · rename_i h2
      rw [mem_pairListII]
      constructor
      · rintro ⟨h3, h4⟩; exact ⟨h3, h4, fun h => absurd h.1 (ht.two h2).1⟩
      · rintro ⟨h3, h4, _⟩; exact ⟨h3, h4⟩
    · exact h.mem_pairListI
  have hiff : (p, q) ∈ candList t ra rb ↔ Hit T t p q := by
    rw [hm]
    constructor
    · rintro ⟨h1, h2, h3⟩
      have hp : p < T.nodes.length := by rw [ok.length_nodes]; have := h.nA; omega
      have hq : q < T.nodes.length := by rw [ok.length_nodes]; have := h.nB; omega
      have ep : T.nodes[p]? = some T.nodes[p] := List.getElem?_eq_getElem hp
      have eq : T.nodes[q]? = some T.nodes[q] := List.getElem?_eq_getElem hq
      exact ⟨_, _, ep, eq, (h.memA _ _ ep).1 h1, (h.memB _ _ eq).1 h2, h3⟩
    · rintro ⟨x, y, hx, hy, h1, h2, h3⟩
      exact ⟨(h.memA _ _ hx).2 h1, (h.memB _ _ hy).2 h2, h3⟩
  split
  · rename_i hh; exact List.count_eq_one_of_mem hn (hiff.2 hh)
  · rename_i hh; exact List.count_eq_zero_of_not_mem (fun h' => hh (hiff.1 h'))

/-! ### the calls are defined and emit sub-lists of what they consider -/

theorem Tree.idx_eq {p : Nat} {x : Node F D} (h : T.nodes[p]? = some x) : T.idx p = x.index := by
  simp [Tree.idx, h]

theorem runPairsI_spec (rng : Tree.Rng F) : ∀ (L : List (Nat × Nat)), (∀ c ∈ L, c.1 < T.nodes.length ∧ c.2 < T.nodes.length) →
    ∀ g : rng.G, ∃ es g', Tree.runPairsI T rng L g = some (es, g') ∧ es.Sublist (L.map T.idxPair) := by
  intro L
  induction L with
  | nil => intro _ g; exact ⟨[], g, rfl, by simp⟩
  | cons c L ih =>
    intro hL g
    obtain ⟨a, b⟩ := c
    obtain ⟨ha, hb⟩ := hL (a, b) (by simp)
    have ea : T.nodes[a]? = some T.nodes[a] := List.getElem?_eq_getElem ha
    have eb : T.nodes[b]? = some T.nodes[b] := List.getElem?_eq_getElem hb
    obtain ⟨es, g', h1, h2⟩ := ih (fun c hc => hL c (by simp [hc])) (Tree.decideI T rng T.nodes[a] T.nodes[b] g).2
    refine ⟨if (Tree.decideI T rng T.nodes[a] T.nodes[b] g).1 then (T.nodes[a].index, T.nodes[b].index) :: es else es, g', ?_, ?_⟩
    · unfold Tree.runPairsI
      refine (obind ea _).trans ?_
      refine (obind eb _).trans ?_
      refine (obind h1 _).trans ?_
      rfl
    · rw [List.map_cons]
      have e : T.idxPair (a, b) = (T.nodes[a].index, T.nodes[b].index) := by
        unfold Tree.idxPair; rw [Tree.idx_eq ea, Tree.idx_eq eb]
      rw [e]
      split
      · exact h2.cons_cons _
      · exact h2.cons _

theorem range'_sublist {s k s' k' : Nat} (h : s ≤ s') (h' : s' + k' ≤ s + k) : (List.range' s' k').Sublist (List.range' s k) := by
  obtain ⟨a, rfl⟩ := Nat.exists_eq_add_of_le h
  obtain ⟨b, hb⟩ := Nat.exists_eq_add_of_le h'
  have : k = a + (k' + b) := by omega
  subst this
  rw [← List.range'_append_1, ← List.range'_append_1]
  exact (List.sublist_append_left _ _).trans (List.sublist_append_right _ _)

/-- behaviour of the geometric distribution assumed by the type II loop: the samples are so small that the 64 bit counter
does not wrap (libstdc++ truncates `log(1-u)/log(1-p)`, which is below 2^59 whenever `log(1-p) ≠ 0`) -/
def GeoBounded (rng : Tree.Rng F) : Prop := ∀ p g, (rng.geo p g).1 < 9223372036854775808

theorem loopII_spec (rng : Tree.Rng F) (hgeo : GeoBounded rng) {ra rb : Nat × Nat} (hA : ra.2 ≤ T.nodes.length)
    (hB : rb.2 ≤ T.nodes.length) (hn : T.nodes.length < 2147483648) (mp : F) :
    ∀ (fuel r : Nat) (g : rng.G), r < 18446744073709551616 → (ra.2 - ra.1) * (rb.2 - rb.1) + 1 ≤ fuel + r → 1 ≤ fuel →
    ∃ es g', Tree.loopII T rng ra rb mp fuel r g = some (es, g') ∧
      es.Sublist ((List.range' r ((ra.2 - ra.1) * (rb.2 - rb.1) - r)).map fun r => T.idxPair (decodeII ra rb r)) := by
  have hNb : (ra.2 - ra.1) * (rb.2 - rb.1) ≤ 4611686018427387904 := by
    calc (ra.2 - ra.1) * (rb.2 - rb.1) ≤ 2147483648 * 2147483648 := Nat.mul_le_mul (by omega) (by omega)
      _ = _ := by norm_num
  intro fuel
  induction fuel with
  | zero => intro r g _ _ h; omega
  | succ fuel ih =>
    intro r g hr hfuel _
    unfold Tree.loopII
    simp only
    by_cases hlt : r < (ra.2 - ra.1) * (rb.2 - rb.1)
    · rw [if_pos hlt]
      obtain ⟨hma, hmb⟩ := mem_pairListII.1 (List.mem_map.2 ⟨r, List.mem_range.2 hlt, rfl⟩ : decodeII ra rb r ∈ pairListII ra rb)
      have hpa : ra.1 + r % (ra.2 - ra.1) < T.nodes.length := by omega
      have hpb : rb.1 + r / (ra.2 - ra.1) < T.nodes.length := by omega
      have ea := List.getElem?_eq_getElem hpa
      have eb := List.getElem?_eq_getElem hpb
      have hj := hgeo mp (rng.uniformTo mp g).2
      have hmod : (r + 1 + (rng.geo mp (rng.uniformTo mp g).2).1) % 18446744073709551616 =
          r + 1 + (rng.geo mp (rng.uniformTo mp g).2).1 := Nat.mod_eq_of_lt (by omega)
      obtain ⟨es, g', h1, h2⟩ := ih (r + 1 + (rng.geo mp (rng.uniformTo mp g).2).1) (rng.geo mp (rng.uniformTo mp g).2).2
        (by omega) (by omega) (by omega)
      refine ⟨if ((rng.uniformTo mp g).1 <. T.edgeProb T.nodes[ra.1 + r % (ra.2 - ra.1)] T.nodes[rb.1 + r / (ra.2 - ra.1)]) = true
        then (T.nodes[ra.1 + r % (ra.2 - ra.1)].index, T.nodes[rb.1 + r / (ra.2 - ra.1)].index) :: es else es, g', ?_, ?_⟩
      · refine (obind ea _).trans ?_
        refine (obind eb _).trans ?_
        simp only [hmod]
        refine (obind h1 _).trans ?_
        rfl
      · have hsplit : (ra.2 - ra.1) * (rb.2 - rb.1) - r = ((ra.2 - ra.1) * (rb.2 - rb.1) - (r + 1)) + 1 := by omega
        have e : T.idxPair (decodeII ra rb r) = (T.nodes[ra.1 + r % (ra.2 - ra.1)].index, T.nodes[rb.1 + r / (ra.2 - ra.1)].index) := by
          show (T.idx (ra.1 + r % (ra.2 - ra.1)), T.idx (rb.1 + r / (ra.2 - ra.1))) = _
          rw [Tree.idx_eq ea, Tree.idx_eq eb]
        rw [hsplit, List.range'_succ, List.map_cons, e]
        have h3 : es.Sublist ((List.range' (r + 1) ((ra.2 - ra.1) * (rb.2 - rb.1) - (r + 1))).map fun r => T.idxPair (decodeII ra rb r)) := by
          refine h2.trans ?_
          apply List.Sublist.map
          by_cases h0 : r + 1 + (rng.geo mp (rng.uniformTo mp g).2).1 ≤ (ra.2 - ra.1) * (rb.2 - rb.1)
          · exact range'_sublist (by omega) (by omega)
          · have : (ra.2 - ra.1) * (rb.2 - rb.1) - (r + 1 + (rng.geo mp (rng.uniformTo mp g).2).1) = 0 := by omega
            rw [this]; exact List.nil_sublist _
        split
        · exact h3.cons_cons _
        · exact h3.cons _
    · rw [if_neg hlt]
      exact ⟨[], g, rfl, List.nil_sublist _⟩

theorem sampleTypeI_spec (rng : Tree.Rng F) (ok : TreeOK T) {t : Task} {ra rb : Nat × Nat}
    (h : RangesOK T t ra rb) (g : rng.G) : ∃ es g', Tree.sampleTypeI T rng t g = some (es, g') ∧
      es.Sublist ((pairListI t ra rb).map T.idxPair) := by
  unfold Tree.sampleTypeI
  rw [h.eq]
  by_cases hc : ra.1 = ra.2 ∨ rb.1 = rb.2
  · exact ⟨[], g, by simp [hc], List.nil_sublist _⟩
  · obtain ⟨es, g', h1, h2⟩ := runPairsI_spec rng (pairListI t ra rb) (by
      rintro ⟨p, q⟩ hm
      rw [h.mem_pairListI] at hm
      have := h.nA; have := h.nB
      rw [ok.length_nodes]; exact ⟨by omega, by omega⟩) g
    refine ⟨es, g', ?_, h2⟩
    simp only [Option.bind_eq_bind, Option.bind_some, hc, if_false]
    rw [h.pairsI_eq]
    exact h1

theorem TreeOK.maxProb_some (ok : TreeOK T) {t : Task} (ht : TaskOK T t) : ∃ mp, T.maxProb t = some mp := by
  have hl : t.level < T.levels := by
    have := ht.hl
    have := pbl_le_zero (D := D) (blc := T.blc) t.i t.j
    rw [ok.levels_eq]; omega
  have hd := ok.depth_le hl
  have h30 : t.level ≤ 30 := by
    have := Nat.le_mul_of_pos_left (t.level + 1) ok.D1
    omega
  have hi := ht.hi; have hj := ht.hj; have := ok.layers_le
  unfold Tree.maxProb Tree.wUpper Coord.dist
  rw [Coord.shl1_eq (show t.i + 1 ≤ 30 by omega), Coord.shl1_eq (show t.j + 1 ≤ 30 by omega),
    Coord.distInt_eq ok.D1 ok.D5 hd ht.hA ht.hB, Coord.shl1_eq h30]
  exact ⟨_, rfl⟩

theorem RangesOK.pairLists_perm {t : Task} {ra rb : Nat × Nat} (h : RangesOK T t ra rb) (hne : t.cellA ≠ t.cellB) :
    (pairListI t ra rb).Perm (pairListII ra rb) := by
  rw [List.perm_ext_iff_of_nodup (nodup_pairListI t ra rb) (nodup_pairListII ra rb)]
  rintro ⟨p, q⟩
  rw [h.mem_pairListI, mem_pairListII]
  constructor
  · rintro ⟨h1, h2, _⟩; exact ⟨h1, h2⟩
  · rintro ⟨h1, h2⟩; exact ⟨h1, h2, fun h => absurd h.1 hne⟩

theorem sampleTypeII_spec (rng : Tree.Rng F) (hgeo : GeoBounded rng) (ok : TreeOK T) {t : Task} (ht : TaskOK T t)
    (hne : t.cellA ≠ t.cellB) {ra rb : Nat × Nat}
    (h : RangesOK T t ra rb) (g : rng.G) : ∃ es g', Tree.sampleTypeII T rng t g = some (es, g') ∧
      es.Subperm ((pairListII ra rb).map T.idxPair) := by
  obtain ⟨mp, hmp⟩ := ok.maxProb_some ht
  unfold Tree.sampleTypeII
  rw [h.eq]
  by_cases hc : ra.1 = ra.2 ∨ rb.1 = rb.2
  · exact ⟨[], g, by simp [hc], List.nil_subperm⟩
  · simp only [Option.bind_eq_bind, Option.bind_some, hc, if_false, hmp]
    split
    · obtain ⟨es, g', h1, h2⟩ := sampleTypeI_spec rng ok h g
      exact ⟨es, g', h1, h2.subperm.trans ((h.pairLists_perm hne).map _).subperm⟩
    · split
      · exact ⟨[], g, rfl, List.nil_subperm⟩
      · have hA := h.nA; have hB := h.nB
        rw [← ok.length_nodes] at hA hB
        obtain ⟨es, g', h1, h2⟩ := loopII_spec rng hgeo hA hB (by rw [ok.length_nodes]; exact ok.small) mp
          ((ra.2 - ra.1) * (rb.2 - rb.1) + 1) (rng.geo mp g).1 (rng.geo mp g).2 (by have := hgeo mp g; omega) (by omega) (by omega)
        refine ⟨es, g', h1, (h2.trans ?_).subperm⟩
        unfold pairListII
        rw [List.map_map, List.range_eq_range']
        apply List.Sublist.map
        by_cases h0 : (rng.geo mp g).1 ≤ (ra.2 - ra.1) * (rb.2 - rb.1)
        · exact range'_sublist (by omega) (by omega)
        · have : (ra.2 - ra.1) * (rb.2 - rb.1) - (rng.geo mp g).1 = 0 := by omega
          rw [this]; exact List.nil_sublist _

theorem runTask_spec (rng : Tree.Rng F) (hgeo : GeoBounded rng) (ok : TreeOK T) {t : Task} (ht : TaskOK T t) (g : rng.G) :
    ∃ cs es g', T.candidates t = some cs ∧ Tree.runTask T rng t g = some (es, g') ∧ es.Subperm (cs.map T.idxPair) := by
  obtain ⟨ra, rb, h⟩ := ok.ranges_ok ht
  refine ⟨candList t ra rb, ?_⟩
  unfold Tree.runTask
  cases h2 : t.two
  · obtain ⟨es, g', h3, h4⟩ := sampleTypeI_spec rng ok h g
    refine ⟨es, g', h.candidates_eq, by simpa using h3, ?_⟩
    rw [candList, h2]; exact h4.subperm
  · obtain ⟨es, g', h3, h4⟩ := sampleTypeII_spec rng hgeo ok ht (ht.two h2).1 h g
    refine ⟨es, g', h.candidates_eq, by simpa using h3, ?_⟩
    rw [candList, h2]; exact h4

theorem runTasks_spec (rng : Tree.Rng F) (hgeo : GeoBounded rng) (ok : TreeOK T) : ∀ (ts : List Task), (∀ t ∈ ts, TaskOK T t) →
    ∀ g : rng.G, ∃ cs es g', T.allCandidates ts = some cs ∧ Tree.runTasks T rng ts g = some (es, g') ∧
      es.Subperm (cs.map T.idxPair) := by
  intro ts
  induction ts with
  | nil => intro _ g; exact ⟨[], [], g, rfl, rfl, List.nil_subperm⟩
  | cons t ts ih =>
    intro hts g
    obtain ⟨cs, es, g1, h1, h2, h3⟩ := runTask_spec rng hgeo ok (hts t (by simp)) g
    obtain ⟨cs', es', g2, h4, h5, h6⟩ := ih (fun t ht => hts t (by simp [ht])) g1
    refine ⟨cs ++ cs', es ++ es', g2, ?_, ?_, ?_⟩
    · unfold Tree.allCandidates Tree.concatM
      unfold Tree.allCandidates at h4
      rw [h1, h4]; rfl
    · unfold Tree.runTasks
      rw [h2]
      simp only [Option.bind_eq_bind, Option.bind_some, h5]
    · rw [List.map_append]; exact h3.append h6

open Classical in
theorem TreeOK.allCandidates_count (ok : TreeOK T) : ∀ (ts : List Task), (∀ t ∈ ts, TaskOK T t) →
    ∃ cs, T.allCandidates ts = some cs ∧ (∀ c ∈ cs, c.1 < T.n ∧ c.2 < T.n) ∧ ∀ p q, cs.count (p, q) = cnt T ts p q := by
  intro ts
  induction ts with
  | nil => intro _; exact ⟨[], rfl, by simp, by simp [cnt]⟩
  | cons t ts ih =>
    intro hts
    obtain ⟨cs, h1, h2, h3⟩ := ih (fun t ht => hts t (by simp [ht]))
    have ht := hts t (by simp)
    obtain ⟨ra, rb, h⟩ := ok.ranges_ok ht
    refine ⟨candList t ra rb ++ cs, ?_, ?_, ?_⟩
    · unfold Tree.allCandidates Tree.concatM
      unfold Tree.allCandidates at h1
      rw [h.candidates_eq, h1]; rfl
    · intro c hc
      rw [List.mem_append] at hc
      rcases hc with hc | hc
      · obtain ⟨p, q⟩ := c
        have h4 := ok.count_candList ht h p q
        rw [if_pos] at h4
        · by_contra hne
          have := h.nA; have := h.nB
          have hA := h.nA
          unfold candList at hc
          split at hc
          · rw [mem_pairListII] at hc; simp only at hne; omega
          · rw [h.mem_pairListI] at hc; simp only at hne; omega
        · by_contra hne
          rw [if_neg hne] at h4
          exact (List.count_pos_iff.2 hc).ne' h4
      · exact h2 c hc
    · intro p q
      rw [List.count_append, h3, ok.count_candList ht h]
      unfold cnt
      rw [List.countP_cons]
      split <;> rename_i hh <;> simp [hh, Nat.add_comm]

/-! ### from positions to node indices -/

theorem TreeOK.idx_lt (ok : TreeOK T) {p : Nat} (hp : p < T.n) : T.idx p < T.n := by
  rw [← ok.length_nodes] at hp
  have e : T.nodes[p]? = some T.nodes[p] := List.getElem?_eq_getElem hp
  rw [Tree.idx_eq e]
  have : T.nodes[p].index ∈ T.nodes.map Node.index := List.mem_map.2 ⟨_, List.getElem_mem hp, rfl⟩
  exact List.mem_range.1 (ok.index_perm.mem_iff.1 this)

theorem TreeOK.idx_inj (ok : TreeOK T) {p q : Nat} (hp : p < T.n) (hq : q < T.n) (h : T.idx p = T.idx q) : p = q := by
  rw [← ok.length_nodes] at hp hq
  rw [Tree.idx_eq (List.getElem?_eq_getElem hp), Tree.idx_eq (List.getElem?_eq_getElem hq)] at h
  have hn : (T.nodes.map Node.index).Nodup := ok.index_perm.nodup_iff.2 List.nodup_range
  have hp' : p < (T.nodes.map Node.index).length := by simpa using hp
  have hq' : q < (T.nodes.map Node.index).length := by simpa using hq
  apply (hn.getElem_inj_iff (hi := hp') (hj := hq')).1
  simpa using h

theorem TreeOK.idx_surj (ok : TreeOK T) {u : Nat} (hu : u < T.n) : ∃ p, p < T.n ∧ T.idx p = u := by
  have : u ∈ T.nodes.map Node.index := ok.index_perm.mem_iff.2 (List.mem_range.2 hu)
  obtain ⟨x, hx, rfl⟩ := List.mem_map.1 this
  obtain ⟨p, hp, e⟩ := List.getElem_of_mem hx
  refine ⟨p, by rw [← ok.length_nodes]; exact hp, ?_⟩
  rw [Tree.idx_eq (List.getElem?_eq_getElem hp), e]

theorem TreeOK.count_map_idx (ok : TreeOK T) {cs : List (Nat × Nat)} (hcs : ∀ c ∈ cs, c.1 < T.n ∧ c.2 < T.n) {p q : Nat}
    (hp : p < T.n) (hq : q < T.n) : (cs.map T.idxPair).count (T.idx p, T.idx q) = cs.count (p, q) := by
  unfold List.count
  rw [List.countP_map]
  apply List.countP_congr
  intro c hc
  obtain ⟨h1, h2⟩ := hcs c hc
  simp only [Function.comp_apply, beq_iff_eq, Tree.idxPair, Prod.mk.injEq]
  constructor
  · rintro ⟨e1, e2⟩
    exact Prod.ext (ok.idx_inj h1 hp e1) (ok.idx_inj h2 hq e2)
  · rintro rfl; exact ⟨rfl, rfl⟩

/-- the pairs considered by the calls of the recursion, as node indices -/
theorem TreeOK.eachPairOnce (ok : TreeOK T) (hfull : ¬ (T.ndebug = true ∧ T.isThreshold = true)) {ts : List Task}
    (hts : ts.Perm (visitP T T.levels 0 0 0)) :
    ∃ cs, T.allCandidates ts = some cs ∧ EachPairOnce T.n (cs.map T.idxPair) := by
  have hon : OnLevel D 0 0 := ⟨by simp [levelStart], by simp [levelStart]⟩
  have hok : ∀ t ∈ ts, TaskOK T t := fun t ht => visitP_ok _ _ _ _ hon hon t (hts.mem_iff.1 ht)
  obtain ⟨cs, h1, h2, h3⟩ := ok.allCandidates_count ts hok
  have hcnt : ∀ p q, cnt T ts p q = cnt T (visitP T T.levels 0 0 0) p q := fun p q => hts.countP_eq _
  refine ⟨cs, h1, ?_, ?_⟩
  · intro e he
    obtain ⟨c, hc, rfl⟩ := List.mem_map.1 he
    obtain ⟨h4, h5⟩ := h2 c hc
    refine ⟨ok.idx_lt h4, ok.idx_lt h5, ?_⟩
    intro heq
    have := ok.idx_inj h4 h5 heq
    obtain ⟨p, q⟩ := c
    simp only at this; subst this
    have h6 := h3 p p
    rw [cnt_self] at h6
    exact (List.count_pos_iff.2 hc).ne' h6
  · intro u v hu hv huv
    obtain ⟨p, hp, rfl⟩ := ok.idx_surj hu
    obtain ⟨q, hq, rfl⟩ := ok.idx_surj hv
    unfold occurrences
    rw [ok.count_map_idx h2 hp hq, ok.count_map_idx h2 hq hp, h3, h3, hcnt, hcnt]
    have hp' := hp; have hq' := hq
    rw [← ok.length_nodes] at hp' hq'
    exact cnt_visit_root ok hfull (List.getElem?_eq_getElem hp') (List.getElem?_eq_getElem hq') (fun h => huv (by rw [h]))

/-- a sub-multiset of a list containing each pair once is a simple graph -/
theorem simple_of_subperm {n : Nat} {es cs : List (Nat × Nat)} (h : es.Subperm cs)
    (hin : ∀ e ∈ cs, e.1 < n ∧ e.2 < n ∧ e.1 ≠ e.2) (hle : ∀ u v, u ≠ v → occurrences cs u v ≤ 1) : IsSimpleGraph n es := by
  have hmem : ∀ e ∈ es, e.1 < n ∧ e.2 < n ∧ e.1 ≠ e.2 := fun e he => hin e (h.subset he)
  refine ⟨hmem, ?_⟩
  have hc : ∀ u v, u ≠ v → es.count (u, v) + es.count (v, u) ≤ 1 := by
    intro u v huv
    have h1 := h.count_le (u, v); have h2 := h.count_le (v, u)
    have := hle u v huv; unfold occurrences at this; omega
  clear h hin hle
  induction es with
  | nil => exact List.Pairwise.nil
  | cons e es ih =>
    rw [List.pairwise_cons]
    constructor
    · intro f hf
      obtain ⟨_, _, hne⟩ := hmem e (by simp)
      have h1 := hc e.1 e.2 hne
      rw [List.count_cons, List.count_cons] at h1
      simp only [Prod.mk.eta, beq_self_eq_true, if_true] at h1
      constructor
      · rintro rfl
        have := List.count_pos_iff.2 hf; omega
      · rintro rfl
        have : f = (f.swap.2, f.swap.1) := by simp
        rw [this] at hf
        have := List.count_pos_iff.2 hf; omega
    · refine ih (fun e he => hmem e (by simp [he])) (fun u v huv => ?_)
      have h1 := hc u v huv
      rw [List.count_cons, List.count_cons] at h1
      omega

theorem EachPairOnce.simple {n : Nat} {es cs : List (Nat × Nat)} (hc : Spec.EachPairOnce n cs) (h : es.Subperm cs) :
    IsSimpleGraph n es := by
  refine simple_of_subperm h hc.1 ?_
  intro u v huv
  by_cases hu : u < n
  · by_cases hv : v < n
    · exact (hc.2 u v hu hv huv).le
    · have h1 : cs.count (u, v) = 0 := List.count_eq_zero.2 (fun hm => hv (hc.1 _ hm).2.1)
      have h2 : cs.count (v, u) = 0 := List.count_eq_zero.2 (fun hm => hv (hc.1 _ hm).1)
      unfold occurrences; omega
  · have h1 : cs.count (u, v) = 0 := List.count_eq_zero.2 (fun hm => hu (hc.1 _ hm).1)
    have h2 : cs.count (v, u) = 0 := List.count_eq_zero.2 (fun hm => hu (hc.1 _ hm).2.1)
    unfold occurrences; omega

end Girgs
