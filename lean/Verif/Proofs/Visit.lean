import Verif.Proofs.TreeOK
import Verif.Proofs.Torus
import Mathlib.Data.List.Nodup
import Mathlib.Data.List.ProdSigma
import Mathlib.Algebra.BigOperators.Group.List.Lemmas
/-!
The recursion over cell pairs: closed form without undefined behaviour (`visitP`), and the counting argument that every
pair of node positions is hit by exactly one sampling call.
-/
namespace Girgs
open Spec

set_option linter.unusedSectionVars false
variable {F : Type} [CFloat F] {D : Nat} {T : Tree F D}

/-- `touching` on grid coordinates -/
def touchB (D l A B : Nat) : Bool := decide (∀ d : Fin D, ringDist l (gridCoord D l A d) (gridCoord D l B d) ≤ 1)

def layPairs (T : Tree F D) (l : Nat) : List (Nat × Nat) :=
  (allLayerPairs T.layers).filter fun p => partitioningBaseLevel D T.blc p.1 p.2 = l

def tasksII (T : Tree F D) (A B l : Nat) : List Task :=
  if T.ndebug && T.isThreshold then []
  else (List.range' l (T.levels - l)).flatMap fun m => (layPairs T m).map fun p => ⟨true, A, B, l, p.1, p.2⟩

def tasksI (T : Tree F D) (A B l : Nat) : List Task :=
  ((layPairs T l).filter fun p => decide (A ≠ B ∨ p.1 ≤ p.2)).map fun p => ⟨false, A, B, l, p.1, p.2⟩

def kids (D A B : Nat) : List (Nat × Nat) :=
  (List.range' (2 ^ D * A + 1) (2 ^ D * A + 2 ^ D + 1 - (2 ^ D * A + 1))).flatMap fun a =>
    (List.range' (if A = B then a else 2 ^ D * B + 1)
      (2 ^ D * B + 2 ^ D + 1 - (if A = B then a else 2 ^ D * B + 1))).map fun b => (a, b)

/-- `visitCellPair` without undefined behaviour; the first argument is the number of levels left -/
def visitP (T : Tree F D) : Nat → Nat → Nat → Nat → List Task
  | 0, _, _, _ => []
  | k + 1, A, B, l =>
    if touchB D l A B = false then tasksII T A B l
    else tasksI T A B l ++ (if k = 0 then [] else (kids D A B).flatMap fun p => visitP T k p.1 p.2 (l + 1))

/-! ### basic facts -/

theorem concatM_some {α β : Type} {L : List α} {f : α → Option (List β)} {g : α → List β}
    (h : ∀ a ∈ L, f a = some (g a)) : Tree.concatM L f = some (L.flatMap g) := by
  induction L with
  | nil => rfl
  | cons a L ih =>
    have h1 := h a (by simp)
    have h2 := ih (fun b hb => h b (by simp [hb]))
    unfold Tree.concatM
    rw [h1, h2]; simp

theorem mem_kids {D A B a b : Nat} : (a, b) ∈ kids D A B ↔
    (2 ^ D * A + 1 ≤ a ∧ a ≤ 2 ^ D * A + 2 ^ D) ∧ (2 ^ D * B + 1 ≤ b ∧ b ≤ 2 ^ D * B + 2 ^ D) ∧ (A = B → a ≤ b) := by
  unfold kids
  simp only [List.mem_flatMap, List.mem_map, List.mem_range'_1, Prod.mk.injEq]
  constructor
  · rintro ⟨a', ⟨h1, h2⟩, b', ⟨h3, h4⟩, rfl, rfl⟩
    by_cases h : A = B
    · subst h; simp only [if_true] at h3 h4
      refine ⟨⟨h1, by omega⟩, ⟨by omega, by omega⟩, fun _ => h3⟩
    · simp only [h, if_false] at h3 h4
      exact ⟨⟨h1, by omega⟩, ⟨h3, by omega⟩, fun h' => absurd h' h⟩
  · rintro ⟨⟨h1, h2⟩, ⟨h3, h4⟩, h5⟩
    refine ⟨a, ⟨h1, by omega⟩, b, ?_, rfl, rfl⟩
    by_cases h : A = B
    · have := h5 h
      simp only [h, if_true]; omega
    · simp only [h, if_false]; omega

theorem nodup_kids (D A B : Nat) : (kids D A B).Nodup := by
  unfold kids
  rw [List.nodup_flatMap]
  constructor
  · intro a _
    exact List.Nodup.map (fun x y h => (Prod.mk.inj h).2) List.nodup_range'
  · refine List.Pairwise.imp ?_ (List.nodup_range' (s := 2 ^ D * A + 1) (n := 2 ^ D * A + 2 ^ D + 1 - (2 ^ D * A + 1)))
    intro a a' hne
    show List.Disjoint _ _
    intro z hz hz'
    simp only [List.mem_map] at hz hz'
    obtain ⟨_, _, rfl⟩ := hz
    obtain ⟨_, _, h⟩ := hz'
    exact hne (Prod.mk.inj h).1.symm

theorem nodup_allLayerPairs (L : Nat) : (allLayerPairs L).Nodup := by
  unfold allLayerPairs
  rw [List.nodup_flatMap]
  constructor
  · intro a _
    exact List.Nodup.map (fun x y h => (Prod.mk.inj h).2) List.nodup_range
  · refine List.Pairwise.imp ?_ (List.nodup_range (n := L))
    intro a a' hne
    show List.Disjoint _ _
    intro z hz hz'
    simp only [List.mem_map] at hz hz'
    obtain ⟨_, _, rfl⟩ := hz
    obtain ⟨_, _, h⟩ := hz'
    exact hne (Prod.mk.inj h).1.symm

theorem mem_allLayerPairs {L i j : Nat} : (i, j) ∈ allLayerPairs L ↔ i < L ∧ j < L := by
  simp [allLayerPairs]

theorem mem_layPairs {l i j : Nat} : (i, j) ∈ layPairs T l ↔ i < T.layers ∧ j < T.layers ∧ partitioningBaseLevel D T.blc i j = l := by
  simp [layPairs, mem_allLayerPairs, and_assoc]

theorem touchB_refl (D l A : Nat) : touchB D l A A = true := by
  unfold touchB ringDist
  rw [decide_eq_true_eq]
  intro d
  simp

/-! ### the recursion is defined -/

theorem TreeOK.rd_layerPairs (ok : TreeOK T) {l : Nat} (hl : l < T.levels) : rd T.layerPairs l = some (layPairs T l) := by
  rw [rd, ok.layerPairs_eq, List.getElem?_map, List.getElem?_range hl]; rfl

theorem TreeOK.typeII_eq (ok : TreeOK T) (A B l : Nat) : Tree.typeIITasks T A B l = some (tasksII T A B l) := by
  unfold Tree.typeIITasks tasksII
  split
  · rfl
  · apply concatM_some
    intro m hm
    rw [List.mem_range'_1] at hm
    refine (obind (ok.rd_layerPairs (by omega)) _).trans rfl

theorem TreeOK.typeI_eq (ok : TreeOK T) (A B l : Nat) (hl : l < T.levels) :
    Tree.typeITasks T A B l = some (tasksI T A B l) := by
  unfold Tree.typeITasks tasksI
  exact (obind (ok.rd_layerPairs hl) _).trans rfl

theorem childPairs_eq {D l A B : Nat} (h1 : 1 ≤ D) (hl : D * (l + 1) ≤ 31) (hA : OnLevel D l A) (hB : OnLevel D l B) :
    Tree.childPairs D A B = some (kids D A B) := by
  have hD : D ≤ 31 := by
    have := Nat.le_mul_of_pos_right D (show 0 < l + 1 by omega)
    omega
  have hp : 1 ≤ 2 ^ D := Nat.one_le_two_pow
  have ha : 2 ^ D * A + 2 ^ D < 2 ^ 32 := Coord.onLevel_lt32 h1 hl (onLevel_child hA (by omega) le_rfl)
  have hb : 2 ^ D * B + 2 ^ D < 2 ^ 32 := Coord.onLevel_lt32 h1 hl (onLevel_child hB (by omega) le_rfl)
  unfold Tree.childPairs
  refine (obind (Coord.firstChild_eq hD (by omega)) _).trans ?_
  refine (obind (Coord.lastChild_eq hD ha) _).trans ?_
  refine (obind (Coord.firstChild_eq hD (by omega)) _).trans ?_
  refine (obind (Coord.lastChild_eq hD hb) _).trans ?_
  rfl

theorem kids_onLevel {D l A B : Nat} (hA : OnLevel D l A) (hB : OnLevel D l B) {p : Nat × Nat} (hp : p ∈ kids D A B) :
    OnLevel D (l + 1) p.1 ∧ OnLevel D (l + 1) p.2 := by
  obtain ⟨a, b⟩ := p
  rw [mem_kids] at hp
  exact ⟨onLevel_child hA hp.1.1 hp.1.2, onLevel_child hB hp.2.1.1 hp.2.1.2⟩

theorem TreeOK.depth_le (ok : TreeOK T) {l : Nat} (hl : l < T.levels) : D * (l + 1) ≤ 31 :=
  le_trans (Nat.mul_le_mul_left _ hl) ok.depth

theorem TreeOK.subU_levels (ok : TreeOK T) : subU T.levels 1 = T.levels - 1 := by
  have h1 := ok.levels_eq
  have h2 := ok.depth
  have := Nat.le_mul_of_pos_left T.levels ok.D1
  exact subU_eq (by omega) (by omega)

theorem TreeOK.visit_eq (ok : TreeOK T) : ∀ (k fuel A B l : Nat), k + 1 ≤ fuel → l + (k + 1) = T.levels →
    OnLevel D l A → OnLevel D l B → Tree.visitCellPair T fuel A B l = some (visitP T (k + 1) A B l) := by
  intro k
  induction k with
  | zero =>
    intro fuel A B l hf hl hA hB
    obtain ⟨fuel, rfl⟩ : ∃ f, fuel = f + 1 := ⟨fuel - 1, by omega⟩
    unfold Tree.visitCellPair visitP
    refine (obind (Coord.touching_eq ok.D1 ok.D5 (ok.depth_le (by omega)) hA hB) _).trans ?_
    show (if (!touchB D l A B) = true then _ else _) = _
    cases touchB D l A B
    · exact ok.typeII_eq A B l
    · refine (obind (ok.typeI_eq A B l (by omega)) _).trans ?_
      have : l = subU T.levels 1 := by rw [ok.subU_levels]; omega
      simp [this]
  | succ k ih =>
    intro fuel A B l hf hl hA hB
    obtain ⟨fuel, rfl⟩ : ∃ f, fuel = f + 1 := ⟨fuel - 1, by omega⟩
    unfold Tree.visitCellPair visitP
    refine (obind (Coord.touching_eq ok.D1 ok.D5 (ok.depth_le (by omega)) hA hB) _).trans ?_
    show (if (!touchB D l A B) = true then _ else _) = _
    cases touchB D l A B
    · exact ok.typeII_eq A B l
    · refine (obind (ok.typeI_eq A B l (by omega)) _).trans ?_
      have : ¬ (l = subU T.levels 1) := by rw [ok.subU_levels]; omega
      rw [if_neg this]
      refine (obind (childPairs_eq ok.D1 (ok.depth_le (by omega)) hA hB) _).trans ?_
      refine (obind (concatM_some (g := fun p => visitP T (k + 1) p.1 p.2 (l + 1)) ?_) _).trans ?_
      · intro p hp
        have := kids_onLevel hA hB hp
        exact ih fuel p.1 p.2 (l + 1) (by omega) (by omega) this.1 this.2
      · simp

/-! ### counting -/

/-- call `t` considers the pair of node positions `(p,q)` -/
def Hit (T : Tree F D) (t : Task) (p q : Nat) : Prop :=
  ∃ x y, T.nodes[p]? = some x ∧ T.nodes[q]? = some y ∧ InLC T x t.i t.level t.cellA ∧ InLC T y t.j t.level t.cellB ∧
    (t.cellA = t.cellB ∧ t.i = t.j → p < q)

open Classical in
/-- number of calls in `L` that consider `(p,q)` -/
noncomputable def cnt (T : Tree F D) (L : List Task) (p q : Nat) : Nat := L.countP (fun t => decide (Hit T t p q))

theorem cnt_append (L M : List Task) (p q : Nat) : cnt T (L ++ M) p q = cnt T L p q + cnt T M p q := by
  simp [cnt]

theorem cnt_flatMap {α : Type} (L : List α) (f : α → List Task) (p q : Nat) :
    cnt T (L.flatMap f) p q = (L.map fun a => cnt T (f a) p q).sum := by
  simp [cnt, List.countP_flatMap, Function.comp_def]

theorem cnt_zero {L : List Task} {p q : Nat} (h : ∀ t ∈ L, ¬ Hit T t p q) : cnt T L p q = 0 := by
  unfold cnt
  rw [List.countP_eq_zero]
  intro t ht; simpa using h t ht

open Classical in
theorem cnt_one {L : List Task} (hn : L.Nodup) {p q : Nat} (t0 : Task) (hm : t0 ∈ L) (h0 : Hit T t0 p q)
    (h : ∀ t ∈ L, Hit T t p q → t = t0) : cnt T L p q = 1 := by
  unfold cnt
  have : L.countP (fun t => decide (Hit T t p q)) = L.countP (· == t0) := by
    apply List.countP_congr
    intro t ht
    rw [beq_iff_eq, decide_eq_true_eq]
    exact ⟨h t ht, fun e => e ▸ h0⟩
  rw [this]
  exact List.count_eq_one_of_mem hn hm

theorem sum_map_unique {α : Type} {L : List α} (hn : L.Nodup) (a : α) (f : α → Nat) (h : ∀ b ∈ L, b ≠ a → f b = 0) :
    (a ∈ L → (L.map f).sum = f a) ∧ (a ∉ L → (L.map f).sum = 0) := by
  induction L with
  | nil => simp
  | cons b L ih =>
    rw [List.nodup_cons] at hn
    obtain ⟨h1, h2⟩ := ih hn.2 (fun c hc => h c (by simp [hc]))
    rw [List.map_cons, List.sum_cons]
    constructor
    · intro hm
      by_cases hb : b = a
      · subst hb; rw [h2 hn.1, Nat.add_zero]
      · rw [h b (by simp) hb, Nat.zero_add]
        exact h1 (by rcases List.mem_cons.1 hm with h | h; exact absurd h.symm hb; exact h)
    · intro hm
      rw [List.mem_cons, not_or] at hm
      rw [h b (by simp) (Ne.symm hm.1), h2 hm.2]

theorem nodup_tasksII (A B l : Nat) : (tasksII T A B l).Nodup := by
  unfold tasksII
  split
  · exact List.nodup_nil
  · rw [List.nodup_flatMap]
    constructor
    · intro m _
      refine List.Nodup.map ?_ ((nodup_allLayerPairs _).filter _)
      intro a b h
      obtain ⟨a1, a2⟩ := a; obtain ⟨b1, b2⟩ := b
      simpa using h
    · refine List.Pairwise.imp ?_ (List.nodup_range' (s := l) (n := T.levels - l))
      intro a a' hne
      show List.Disjoint _ _
      intro z hz hz'
      simp only [List.mem_map] at hz hz'
      obtain ⟨⟨x1, x2⟩, h1, rfl⟩ := hz
      obtain ⟨⟨y1, y2⟩, h2, h⟩ := hz'
      rw [mem_layPairs] at h1 h2
      simp only [Task.mk.injEq, true_and] at h
      obtain ⟨rfl, rfl⟩ := h
      exact hne (h1.2.2.symm.trans h2.2.2)

theorem mem_tasksII {A B l : Nat} {t : Task} : t ∈ tasksII T A B l ↔
    ¬ (T.ndebug = true ∧ T.isThreshold = true) ∧ t.two = true ∧ t.cellA = A ∧ t.cellB = B ∧ t.level = l ∧ t.i < T.layers ∧ t.j < T.layers ∧
      l ≤ partitioningBaseLevel D T.blc t.i t.j ∧ partitioningBaseLevel D T.blc t.i t.j < T.levels := by
  unfold tasksII
  split
  · rename_i h; simp only [Bool.and_eq_true] at h
    simp [h]
  · rename_i h; simp only [Bool.and_eq_true] at h
    simp only [List.mem_flatMap, List.mem_range'_1, List.mem_map]
    constructor
    · rintro ⟨m, hm, ⟨i, j⟩, hij, rfl⟩
      rw [mem_layPairs] at hij
      refine ⟨h, rfl, rfl, rfl, rfl, hij.1, hij.2.1, ?_, ?_⟩
      · show l ≤ partitioningBaseLevel D T.blc i j; omega
      · show partitioningBaseLevel D T.blc i j < _; omega
    · obtain ⟨tw, cA, cB, lv, i, j⟩ := t
      rintro ⟨_, rfl, rfl, rfl, rfl, h1, h2, h3, h4⟩
      simp only at h1 h2 h3 h4
      exact ⟨partitioningBaseLevel D T.blc i j, by simp only; omega, (i, j), mem_layPairs.2 ⟨h1, h2, rfl⟩, rfl⟩

theorem nodup_tasksI (A B l : Nat) : (tasksI T A B l).Nodup := by
  unfold tasksI
  refine List.Nodup.map ?_ (((nodup_allLayerPairs _).filter _).filter _)
  intro a b h
  obtain ⟨a1, a2⟩ := a; obtain ⟨b1, b2⟩ := b
  simpa using h

theorem mem_tasksI {A B l : Nat} {t : Task} : t ∈ tasksI T A B l ↔
    t.two = false ∧ t.cellA = A ∧ t.cellB = B ∧ t.level = l ∧ t.i < T.layers ∧ t.j < T.layers ∧
      partitioningBaseLevel D T.blc t.i t.j = l ∧ (A ≠ B ∨ t.i ≤ t.j) := by
  unfold tasksI
  simp only [List.mem_map, List.mem_filter, decide_eq_true_eq]
  constructor
  · rintro ⟨⟨i, j⟩, ⟨h1, h2⟩, rfl⟩
    rw [mem_layPairs] at h1
    exact ⟨rfl, rfl, rfl, rfl, h1.1, h1.2.1, h1.2.2, h2⟩
  · obtain ⟨tw, cA, cB, lv, i, j⟩ := t
    rintro ⟨rfl, rfl, rfl, rfl, h1, h2, h3, h4⟩
    exact ⟨(i, j), ⟨mem_layPairs.2 ⟨h1, h2, h3⟩, h4⟩, rfl⟩

/-- every call made below `(A,B,l)` concerns a sub-cell of `A` and of `B` -/
theorem hit_above (k : Nat) : ∀ (A B l : Nat) (t : Task), t ∈ visitP T k A B l → ∀ p q, Hit T t p q →
    ∃ x y, T.nodes[p]? = some x ∧ T.nodes[q]? = some y ∧ InLC T x t.i l A ∧ InLC T y t.j l B ∧
      l ≤ partitioningBaseLevel D T.blc t.i t.j := by
  induction k with
  | zero => intro A B l t ht; simp [visitP] at ht
  | succ k ih =>
    intro A B l t ht p q hit
    unfold visitP at ht
    split at ht
    · obtain ⟨_, h1, rfl, rfl, rfl, _, _, h2, _⟩ := mem_tasksII.1 ht
      obtain ⟨x, y, hx, hy, h3, h4, _⟩ := hit
      exact ⟨x, y, hx, hy, h3, h4, h2⟩
    · rw [List.mem_append] at ht
      rcases ht with ht | ht
      · obtain ⟨h1, rfl, rfl, rfl, _, _, h2, _⟩ := mem_tasksI.1 ht
        obtain ⟨x, y, hx, hy, h3, h4, _⟩ := hit
        exact ⟨x, y, hx, hy, h3, h4, h2.ge⟩
      · split at ht
        · simp at ht
        · rw [List.mem_flatMap] at ht
          obtain ⟨⟨a, b⟩, hab, ht⟩ := ht
          obtain ⟨x, y, hx, hy, h3, h4, h5⟩ := ih a b (l + 1) t ht p q hit
          rw [mem_kids] at hab
          refine ⟨x, y, hx, hy, ?_, ?_, by omega⟩
          · have := (parent_iff (D := D) (c := A) (x := a) (by omega)).2 hab.1
            rw [← this]; exact h3.parent
          · have := (parent_iff (D := D) (c := B) (x := b) (by omega)).2 hab.2.1
            rw [← this]; exact h4.parent

theorem cnt_self (L : List Task) (p : Nat) : cnt T L p p = 0 := by
  apply cnt_zero
  rintro t _ ⟨x, y, hx, hy, h3, h4, h5⟩
  obtain rfl : x = y := by rw [hx] at hy; exact Option.some.inj hy
  exact absurd (h5 ⟨h3.cell_eq h4, h3.layer_eq h4⟩) (lt_irrefl _)

section
variable {p q i j : Nat} {x y : Node F D} (ok : TreeOK T) (hfull : ¬ (T.ndebug = true ∧ T.isThreshold = true))
  (hx : T.nodes[p]? = some x) (hy : T.nodes[q]? = some y)
include ok hx hy

theorem cnt_visit_zero {k A B l : Nat}
    (h : ∀ i j, ¬ (InLC T x i l A ∧ InLC T y j l B ∧ l ≤ partitioningBaseLevel D T.blc i j)) :
    cnt T (visitP T k A B l) p q = 0 := by
  apply cnt_zero
  intro t ht hit
  obtain ⟨x', y', hx', hy', h1, h2, h3⟩ := hit_above k A B l t ht p q hit
  rw [hx] at hx'; rw [hy] at hy'
  obtain rfl := Option.some.inj hx'
  obtain rfl := Option.some.inj hy'
  exact h _ _ ⟨h1, h2, h3⟩

/-- sum over the child pairs: only the pair of cells containing the two nodes contributes -/
theorem cnt_kids {k A B l a b : Nat} (ha : InLC T x i (l + 1) a) (hb : InLC T y j (l + 1) b) :
    cnt T ((kids D A B).flatMap fun p => visitP T k p.1 p.2 (l + 1)) p q =
      if (a, b) ∈ kids D A B then cnt T (visitP T k a b (l + 1)) p q else 0 := by
  rw [cnt_flatMap]
  have h := sum_map_unique (nodup_kids D A B) (a, b) (fun r => cnt T (visitP T k r.1 r.2 (l + 1)) p q) (by
    rintro ⟨a', b'⟩ _ hne
    apply cnt_visit_zero ok hx hy
    rintro i' j' ⟨h1, h2, _⟩
    have e1 : a' = a := h1.cell_eq ha
    have e2 : b' = b := h2.cell_eq hb
    exact hne (by rw [e1, e2]))
  split
  · rename_i hm; exact h.1 hm
  · rename_i hm; exact h.2 hm

include hfull

theorem cnt_tasksII {A B l : Nat} (hA : InLC T x i l A) (hB : InLC T y j l B) (hl : l ≤ partitioningBaseLevel D T.blc i j)
    (hne : A ≠ B) : cnt T (tasksII T A B l) p q = 1 := by
  have hi := hA.lt_layers ok (List.mem_of_getElem? hx)
  have hj := hB.lt_layers ok (List.mem_of_getElem? hy)
  have hlt : partitioningBaseLevel D T.blc i j < T.levels := by
    rw [ok.levels_eq]; have := pbl_le_zero (D := D) (blc := T.blc) i j; omega
  refine cnt_one (nodup_tasksII A B l) ⟨true, A, B, l, i, j⟩ (mem_tasksII.2 ⟨hfull, rfl, rfl, rfl, rfl, hi, hj, hl, hlt⟩) ?_ ?_
  · exact ⟨x, y, hx, hy, hA, hB, fun h => absurd h.1 hne⟩
  · intro t ht hit
    obtain ⟨_, h1, h2, h3, h4, _⟩ := mem_tasksII.1 ht
    obtain ⟨x', y', hx', hy', h5, h6, _⟩ := hit
    rw [hx] at hx'; rw [hy] at hy'
    obtain rfl := Option.some.inj hx'
    obtain rfl := Option.some.inj hy'
    obtain ⟨tw, cA, cB, lv, i', j'⟩ := t
    simp only at h1 h2 h3 h4 h5 h6
    rw [h1, h2, h3, h4, h5.layer_eq hA, h6.layer_eq hB]

omit hfull in
theorem cnt_tasksI {A B l : Nat} (hA : InLC T x i l A) (hB : InLC T y j l B) :
    cnt T (tasksI T A B l) p q = if partitioningBaseLevel D T.blc i j = l ∧ (A ≠ B ∨ i ≤ j) ∧ (A = B ∧ i = j → p < q) then 1 else 0 := by
  have hi := hA.lt_layers ok (List.mem_of_getElem? hx)
  have hj := hB.lt_layers ok (List.mem_of_getElem? hy)
  have hu : ∀ t ∈ tasksI T A B l, Hit T t p q → t = ⟨false, A, B, l, i, j⟩ := by
    intro t ht hit
    obtain ⟨h1, h2, h3, h4, _⟩ := mem_tasksI.1 ht
    obtain ⟨x', y', hx', hy', h5, h6, _⟩ := hit
    rw [hx] at hx'; rw [hy] at hy'
    obtain rfl := Option.some.inj hx'
    obtain rfl := Option.some.inj hy'
    obtain ⟨tw, cA, cB, lv, i', j'⟩ := t
    simp only at h1 h2 h3 h4 h5 h6
    rw [h1, h2, h3, h4, h5.layer_eq hA, h6.layer_eq hB]
  split
  · rename_i h
    exact cnt_one (nodup_tasksI A B l) ⟨false, A, B, l, i, j⟩ (mem_tasksI.2 ⟨rfl, rfl, rfl, rfl, hi, hj, h.1, h.2.1⟩)
      ⟨x, y, hx, hy, hA, hB, h.2.2⟩ hu
  · rename_i h
    apply cnt_zero
    intro t ht hit
    obtain rfl := hu t ht hit
    obtain ⟨_, _, _, _, _, _, h1, h2⟩ := mem_tasksI.1 ht
    obtain ⟨x', y', hx', hy', h5, h6, h7⟩ := hit
    exact h ⟨h1, h2, h7⟩

/-- two nodes in different cells: exactly one call below `(A,B)` considers them, in this orientation -/
theorem cnt_visit_ne : ∀ (k A B l : Nat), l + k = T.levels → InLC T x i l A → InLC T y j l B →
    l ≤ partitioningBaseLevel D T.blc i j → A ≠ B → cnt T (visitP T k A B l) p q = 1 := by
  have hlt : partitioningBaseLevel D T.blc i j < T.levels := by
    rw [ok.levels_eq]; have := pbl_le_zero (D := D) (blc := T.blc) i j; omega
  intro k
  induction k with
  | zero => intro A B l hk _ _ hl; omega
  | succ k ih =>
    intro A B l hk hA hB hl hne
    unfold visitP
    split
    · exact cnt_tasksII ok hfull hx hy hA hB hl hne
    · rw [cnt_append, cnt_tasksI ok hx hy hA hB]
      by_cases hP : partitioningBaseLevel D T.blc i j = l
      · rw [if_pos ⟨hP, Or.inl hne, fun h => absurd h.1 hne⟩]
        split
        · simp [cnt]
        · rw [cnt_zero, Nat.add_zero]
          intro t ht hit
          rw [List.mem_flatMap] at ht
          obtain ⟨⟨a, b⟩, _, ht⟩ := ht
          obtain ⟨x', y', hx', hy', h1, h2, h3⟩ := hit_above k a b (l + 1) t ht p q hit
          rw [hx] at hx'; rw [hy] at hy'
          obtain rfl := Option.some.inj hx'
          obtain rfl := Option.some.inj hy'
          rw [h1.layer_eq hA, h2.layer_eq hB] at h3
          omega
      · rw [if_neg (fun h => hP h.1), Nat.zero_add]
        have hk0 : k ≠ 0 := by omega
        rw [if_neg hk0]
        obtain ⟨a, ha, ha'⟩ := hA.child (le_trans (show l + 1 ≤ _ by omega) (pbl_le_target_left i j))
        obtain ⟨b, hb, hb'⟩ := hB.child (le_trans (show l + 1 ≤ _ by omega) (pbl_le_target_right i j))
        rw [cnt_kids ok hx hy ha hb, if_pos (mem_kids.2 ⟨ha', hb', fun h => absurd h hne⟩)]
        refine ih a b (l + 1) (by omega) ha hb (by omega) ?_
        rintro rfl
        have h1 := (parent_iff (D := D) (c := A) (x := a) (by omega)).2 ha'
        have h2 := (parent_iff (D := D) (c := B) (x := a) (by omega)).2 hb'
        exact hne (h1.symm.trans h2)

/-- two nodes in the same cell: exactly one call below `(A,A)` considers them, in one orientation -/
theorem cnt_visit_diag (hpq : p ≠ q) : ∀ (k A l : Nat), l + k = T.levels → InLC T x i l A → InLC T y j l A →
    l ≤ partitioningBaseLevel D T.blc i j →
    cnt T (visitP T k A A l) p q + cnt T (visitP T k A A l) q p = 1 := by
  have hlt : partitioningBaseLevel D T.blc i j < T.levels := by
    rw [ok.levels_eq]; have := pbl_le_zero (D := D) (blc := T.blc) i j; omega
  have hsymm : partitioningBaseLevel D T.blc j i = partitioningBaseLevel D T.blc i j := by
    unfold partitioningBaseLevel
    rw [show T.blc - (j : Int) - i - 2 = T.blc - i - j - 2 by omega]
  intro k
  induction k with
  | zero => intro A l hk _ _ hl; omega
  | succ k ih =>
    intro A l hk hA hB hl
    unfold visitP
    have ht : touchB D l A A = true := touchB_refl D l A
    rw [if_neg (by simp [ht])]
    rw [cnt_append, cnt_append, cnt_tasksI ok hx hy hA hB, cnt_tasksI ok hy hx hB hA, hsymm]
    by_cases hP : partitioningBaseLevel D T.blc i j = l
    · have hz : ∀ r s : Nat, ∀ u v : Node F D, T.nodes[r]? = some u → T.nodes[s]? = some v →
          (∃ i' j', InLC T u i' l A ∧ InLC T v j' l A ∧ partitioningBaseLevel D T.blc i' j' = l) →
          cnt T (if k = 0 then [] else (kids D A A).flatMap fun p => visitP T k p.1 p.2 (l + 1)) r s = 0 := by
        rintro r s u v hu hv ⟨i', j', h1, h2, h3⟩
        split
        · simp [cnt]
        · apply cnt_zero
          intro t ht hit
          rw [List.mem_flatMap] at ht
          obtain ⟨⟨a, b⟩, _, ht⟩ := ht
          obtain ⟨x', y', hx', hy', h1', h2', h3'⟩ := hit_above k a b (l + 1) t ht r s hit
          rw [hu] at hx'; rw [hv] at hy'
          obtain rfl := Option.some.inj hx'
          obtain rfl := Option.some.inj hy'
          rw [h1'.layer_eq h1, h2'.layer_eq h2] at h3'
          omega
      rw [hz p q x y hx hy ⟨i, j, hA, hB, hP⟩, hz q p y x hy hx ⟨j, i, hB, hA, hsymm.trans hP⟩]
      rcases Nat.lt_trichotomy i j with hij | hij | hij
      · rw [if_pos ⟨hP, Or.inr hij.le, fun h => absurd h.2 hij.ne⟩, if_neg (by rintro ⟨_, h, _⟩; rcases h with h | h <;> omega)]
      · subst hij
        rcases Nat.lt_or_gt_of_ne hpq with h | h
        · rw [if_pos ⟨hP, Or.inr le_rfl, fun _ => h⟩, if_neg (by rintro ⟨_, _, h'⟩; have := h' ⟨rfl, rfl⟩; omega)]
        · rw [if_neg (by rintro ⟨_, _, h'⟩; have := h' ⟨rfl, rfl⟩; omega), if_pos ⟨hP, Or.inr le_rfl, fun _ => h⟩]
      · rw [if_neg (by rintro ⟨_, h, _⟩; rcases h with h | h <;> omega), if_pos ⟨hP, Or.inr hij.le, fun h => absurd h.2 hij.ne⟩]
    · have hk0 : k ≠ 0 := by omega
      rw [if_neg hk0, if_neg (fun h => hP h.1), if_neg (fun h => hP h.1), Nat.zero_add, Nat.zero_add]
      obtain ⟨a, ha, ha'⟩ := hA.child (le_trans (show l + 1 ≤ _ by omega) (pbl_le_target_left i j))
      obtain ⟨b, hb, hb'⟩ := hB.child (le_trans (show l + 1 ≤ _ by omega) (pbl_le_target_right i j))
      rw [cnt_kids ok hx hy ha hb, cnt_kids ok hy hx hb ha]
      rcases Nat.lt_trichotomy a b with hab | hab | hab
      · rw [if_pos (mem_kids.2 ⟨ha', hb', fun _ => hab.le⟩), if_neg (by rw [mem_kids]; rintro ⟨_, _, h⟩; have := h rfl; omega)]
        rw [cnt_visit_ne ok hfull hx hy k a b (l + 1) (by omega) ha hb (by omega) hab.ne]
      · subst hab
        have hm := mem_kids.2 ⟨ha', hb', fun _ => le_rfl⟩
        rw [if_pos hm, if_pos hm]
        exact ih a (l + 1) (by omega) ha hb (by omega)
      · rw [if_neg (by rw [mem_kids]; rintro ⟨_, _, h⟩; have := h rfl; omega), if_pos (mem_kids.2 ⟨hb', ha', fun _ => hab.le⟩)]
        rw [cnt_visit_ne ok hfull hy hx k b a (l + 1) (by omega) hb ha (by rw [hsymm]; omega) hab.ne]

/-- every pair of distinct positions is considered by exactly one call, in one orientation -/
theorem cnt_visit_root (hpq : p ≠ q) :
    cnt T (visitP T T.levels 0 0 0) p q + cnt T (visitP T T.levels 0 0 0) q p = 1 := by
  obtain ⟨i, hi, hxi⟩ := ok.exists_inLC (List.mem_of_getElem? hx)
  obtain ⟨j, hj, hyj⟩ := ok.exists_inLC (List.mem_of_getElem? hy)
  exact cnt_visit_diag ok hfull hx hy hpq T.levels 0 0 (by omega) hxi hyj (by omega)

end

end Girgs
