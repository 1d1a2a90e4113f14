import Verif.Proofs.HTreeOK
/-!
Hyperbolic sampler: the recursion in closed form (`hvisit`), and the counting argument: every pair of point positions is
considered by exactly one sampling call.
-/
namespace Girgs
open Spec Angle

set_option linter.unusedSectionVars false
variable {F : Type} [CFloat F] {H : HTree F} {tgt : Nat → Nat} {pbl : Nat → Nat → Nat} {nl : Nat}

/-- the layer pairs compared on level `l` -/
def hlayPairs (layers : Nat) (pbl : Nat → Nat → Nat) (l : Nat) : List (Nat × Nat) :=
  (allLayerPairs layers).filter fun p => pbl p.1 p.2 = l

def htasksII (layers levels : Nat) (pbl : Nat → Nat → Nat) (A B l : Nat) : List Task :=
  (List.range' l (levels - l)).flatMap fun m => (hlayPairs layers pbl m).map fun p => ⟨true, A, B, l, p.1, p.2⟩

def htasksI (layers : Nat) (pbl : Nat → Nat → Nat) (A B l : Nat) : List Task :=
  ((hlayPairs layers pbl l).filter fun p => decide (A ≠ B ∨ p.1 ≤ p.2)).map fun p => ⟨false, A, B, l, p.1, p.2⟩

def hkids (A B : Nat) : List (Nat × Nat) :=
  [(2 * A + 1, 2 * B + 1), (2 * A + 1, 2 * B + 2), (2 * A + 2, 2 * B + 2)] ++ (if A ≠ B then [(2 * A + 2, 2 * B + 1)] else [])

/-- the calls below a cell pair if type II calls are made iff `full`; the first argument is the number of levels left -/
def hvisit (layers levels : Nat) (pbl : Nat → Nat → Nat) (full : Bool) : Nat → Nat → Nat → Nat → List Task
  | 0, _, _, _ => []
  | k + 1, A, B, l =>
    if touchN l A B = false then (if full then htasksII layers levels pbl A B l else [])
    else htasksI layers pbl A B l ++
      (if k = 0 then [] else (hkids A B).flatMap fun p => hvisit layers levels pbl full k p.1 p.2 (l + 1))

theorem mem_hkids {A B a b : Nat} : (a, b) ∈ hkids A B ↔
    (2 * A + 1 ≤ a ∧ a ≤ 2 * A + 2) ∧ (2 * B + 1 ≤ b ∧ b ≤ 2 * B + 2) ∧ (A = B → a ≤ b) := by
  unfold hkids
  by_cases h : A = B
  · subst h
    simp only [ne_eq, not_true_eq_false, if_false, List.append_nil, List.mem_cons, Prod.mk.injEq, List.not_mem_nil, or_false,
      forall_const]
    omega
  · simp only [ne_eq, h, not_false_eq_true, if_true, List.cons_append, List.nil_append, List.mem_cons, Prod.mk.injEq,
      List.not_mem_nil, or_false, false_imp_iff, and_true]
    omega

theorem nodup_hkids (A B : Nat) : (hkids A B).Nodup := by
  unfold hkids
  split
  · simp
  · simp

theorem mem_hlayPairs {layers l i j : Nat} : (i, j) ∈ hlayPairs layers pbl l ↔ i < layers ∧ j < layers ∧ pbl i j = l := by
  simp [hlayPairs, mem_allLayerPairs, and_assoc]

theorem hkids_onLv {l A B : Nat} (hA : OnLv l A) (hB : OnLv l B) {p : Nat × Nat} (hp : p ∈ hkids A B) :
    OnLv (l + 1) p.1 ∧ OnLv (l + 1) p.2 := by
  obtain ⟨a, b⟩ := p
  rw [mem_hkids] at hp
  exact ⟨onLv_child hA hp.1.1 hp.1.2, onLv_child hB hp.2.1.1 hp.2.1.2⟩

theorem hchildPairs_eq {l A B : Nat} (hl : l + 1 ≤ 31) (hA : OnLv l A) (hB : OnLv l B) : HTree.childPairs A B = hkids A B := by
  have h1 := onLv_lt (onLv_child hA (d := 2 * A + 2) (by omega) le_rfl) hl
  have h2 := onLv_lt (onLv_child hB (d := 2 * B + 2) (by omega) le_rfl) hl
  unfold HTree.childPairs hkids
  simp only [firstChild_eq (c := A) (by omega), firstChild_eq (c := B) (by omega)]
  rw [u32_eq (x := 2 * A + 1 + 1) (by omega), u32_eq (x := 2 * B + 1 + 1) (by omega)]

namespace HTreeOK

theorem rd_layerPairs (ok : HTreeOK H tgt pbl nl) {l : Nat} (hl : l < H.levels) :
    rd H.layerPairs l = some (hlayPairs H.layers pbl l) := by
  rw [rd, ok.layerPairs_eq, List.getElem?_map, List.getElem?_range hl]; rfl

theorem typeII_eq (ok : HTreeOK H tgt pbl nl) (A B l : Nat) :
    HTree.typeIICalls H A B l = some (htasksII H.layers H.levels pbl A B l) := by
  unfold HTree.typeIICalls htasksII
  apply concatM_some
  intro m hm
  rw [List.mem_range'_1] at hm
  exact (obind (ok.rd_layerPairs (by omega)) _).trans rfl

theorem typeI_eq (ok : HTreeOK H tgt pbl nl) (A B l : Nat) (hl : l < H.levels) :
    HTree.typeICalls H A B l = some (htasksI H.layers pbl A B l) := by
  unfold HTree.typeICalls htasksI
  exact (obind (ok.rd_layerPairs hl) _).trans rfl

theorem subU_levels (ok : HTreeOK H tgt pbl nl) : subU H.levels 1 = H.levels - 1 := by
  have h1 := ok.levels_eq
  have h2 := ok.levels_le
  exact subU_eq (by omega) (by omega)

end HTreeOK

/-- whether `visitCellPair` makes type II calls -/
def HTree.full (H : HTree F) : Bool := !(H.ndebug && H.tZero)

/-- the calls of `visitCellPair` -/
def HTree.calls (H : HTree F) (pbl : Nat → Nat → Nat) (k A B l : Nat) : List Task := hvisit H.layers H.levels pbl H.full k A B l

theorem HTreeOK.visit_eq (ok : HTreeOK H tgt pbl nl) : ∀ (k fuel A B l : Nat), k + 1 ≤ fuel → l + (k + 1) = H.levels →
    OnLv l A → OnLv l B → HTree.visitCellPair H fuel A B l = some (H.calls pbl (k + 1) A B l) := by
  have hlv := ok.levels_le
  unfold HTree.calls
  intro k
  induction k with
  | zero =>
    intro fuel A B l hf hl hA hB
    obtain ⟨fuel, rfl⟩ : ∃ f, fuel = f + 1 := ⟨fuel - 1, by omega⟩
    unfold HTree.visitCellPair hvisit
    refine (obind (touching_eq (by omega) hA hB) _).trans ?_
    cases touchN l A B
    · simp only [Bool.not_false, if_true]
      unfold HTree.full
      cases H.ndebug && H.tZero
      · simp only [Bool.not_false, if_true, Bool.false_eq_true, if_false]; exact ok.typeII_eq A B l
      · simp
    · refine (obind (ok.typeI_eq A B l (by omega)) _).trans ?_
      have : l = subU H.levels 1 := by rw [ok.subU_levels]; omega
      simp [this]
  | succ k ih =>
    intro fuel A B l hf hl hA hB
    obtain ⟨fuel, rfl⟩ : ∃ f, fuel = f + 1 := ⟨fuel - 1, by omega⟩
    unfold HTree.visitCellPair hvisit
    refine (obind (touching_eq (by omega) hA hB) _).trans ?_
    cases touchN l A B
    · simp only [Bool.not_false, if_true]
      unfold HTree.full
      cases H.ndebug && H.tZero
      · simp only [Bool.not_false, if_true, Bool.false_eq_true, if_false]; exact ok.typeII_eq A B l
      · simp
    · refine (obind (ok.typeI_eq A B l (by omega)) _).trans ?_
      have : ¬ (l = subU H.levels 1) := by rw [ok.subU_levels]; omega
      rw [if_neg this, hchildPairs_eq (by omega) hA hB]
      refine (obind (concatM_some (g := fun p => hvisit H.layers H.levels pbl H.full (k + 1) p.1 p.2 (l + 1)) ?_) _).trans ?_
      · intro p hp
        have := hkids_onLv hA hB hp
        exact ih fuel p.1 p.2 (l + 1) (by omega) (by omega) this.1 this.2
      · simp

/-! ### counting -/

/-- call `t` considers the pair of point positions `(p,q)` -/
def HHit (H : HTree F) (tgt : Nat → Nat) (nl : Nat) (t : Task) (p q : Nat) : Prop :=
  ∃ x y, H.points[p]? = some x ∧ H.points[q]? = some y ∧ HIn tgt nl x t.i t.level t.cellA ∧ HIn tgt nl y t.j t.level t.cellB ∧
    (t.cellA = t.cellB ∧ t.i = t.j → p < q)

open Classical in
/-- number of calls in `L` that consider `(p,q)` -/
noncomputable def hcnt (H : HTree F) (tgt : Nat → Nat) (nl : Nat) (L : List Task) (p q : Nat) : Nat :=
  L.countP (fun t => decide (HHit H tgt nl t p q))

theorem hcnt_append (L M : List Task) (p q : Nat) : hcnt H tgt nl (L ++ M) p q = hcnt H tgt nl L p q + hcnt H tgt nl M p q := by
  simp [hcnt]

theorem hcnt_flatMap {α : Type} (L : List α) (f : α → List Task) (p q : Nat) :
    hcnt H tgt nl (L.flatMap f) p q = (L.map fun a => hcnt H tgt nl (f a) p q).sum := by
  simp [hcnt, List.countP_flatMap, Function.comp_def]

theorem hcnt_zero {L : List Task} {p q : Nat} (h : ∀ t ∈ L, ¬ HHit H tgt nl t p q) : hcnt H tgt nl L p q = 0 := by
  unfold hcnt
  rw [List.countP_eq_zero]
  intro t ht; simpa using h t ht

open Classical in
theorem hcnt_one {L : List Task} (hn : L.Nodup) {p q : Nat} (t0 : Task) (hm : t0 ∈ L) (h0 : HHit H tgt nl t0 p q)
    (h : ∀ t ∈ L, HHit H tgt nl t p q → t = t0) : hcnt H tgt nl L p q = 1 := by
  unfold hcnt
  have : L.countP (fun t => decide (HHit H tgt nl t p q)) = L.countP (· == t0) := by
    apply List.countP_congr
    intro t ht
    rw [beq_iff_eq, decide_eq_true_eq]
    exact ⟨h t ht, fun e => e ▸ h0⟩
  rw [this]
  exact List.count_eq_one_of_mem hn hm

theorem nodup_htasksII (layers levels A B l : Nat) : (htasksII layers levels pbl A B l).Nodup := by
  unfold htasksII
  rw [List.nodup_flatMap]
  constructor
  · intro m _
    refine List.Nodup.map ?_ ((nodup_allLayerPairs _).filter _)
    intro a b h
    obtain ⟨a1, a2⟩ := a; obtain ⟨b1, b2⟩ := b
    simpa using h
  · refine List.Pairwise.imp ?_ (List.nodup_range' (s := l) (n := levels - l))
    intro a a' hne
    show List.Disjoint _ _
    intro z hz hz'
    simp only [List.mem_map] at hz hz'
    obtain ⟨⟨x1, x2⟩, h1, rfl⟩ := hz
    obtain ⟨⟨y1, y2⟩, h2, h⟩ := hz'
    rw [mem_hlayPairs] at h1 h2
    simp only [Task.mk.injEq, true_and] at h
    obtain ⟨rfl, rfl⟩ := h
    exact hne (h1.2.2.symm.trans h2.2.2)

theorem mem_htasksII {layers levels A B l : Nat} {t : Task} : t ∈ htasksII layers levels pbl A B l ↔
    t.two = true ∧ t.cellA = A ∧ t.cellB = B ∧ t.level = l ∧ t.i < layers ∧ t.j < layers ∧ l ≤ pbl t.i t.j ∧ pbl t.i t.j < levels := by
  unfold htasksII
  simp only [List.mem_flatMap, List.mem_range'_1, List.mem_map]
  constructor
  · rintro ⟨m, hm, ⟨i, j⟩, hij, rfl⟩
    rw [mem_hlayPairs] at hij
    refine ⟨rfl, rfl, rfl, rfl, hij.1, hij.2.1, ?_, ?_⟩
    · show l ≤ pbl i j; omega
    · show pbl i j < _; omega
  · obtain ⟨tw, cA, cB, lv, i, j⟩ := t
    rintro ⟨rfl, rfl, rfl, rfl, h1, h2, h3, h4⟩
    simp only at h1 h2 h3 h4
    exact ⟨pbl i j, by simp only; omega, (i, j), mem_hlayPairs.2 ⟨h1, h2, rfl⟩, rfl⟩

theorem nodup_htasksI (layers A B l : Nat) : (htasksI layers pbl A B l).Nodup := by
  unfold htasksI
  refine List.Nodup.map ?_ (((nodup_allLayerPairs _).filter _).filter _)
  intro a b h
  obtain ⟨a1, a2⟩ := a; obtain ⟨b1, b2⟩ := b
  simpa using h

theorem mem_htasksI {layers A B l : Nat} {t : Task} : t ∈ htasksI layers pbl A B l ↔
    t.two = false ∧ t.cellA = A ∧ t.cellB = B ∧ t.level = l ∧ t.i < layers ∧ t.j < layers ∧ pbl t.i t.j = l ∧ (A ≠ B ∨ t.i ≤ t.j) := by
  unfold htasksI
  simp only [List.mem_map, List.mem_filter, decide_eq_true_eq]
  constructor
  · rintro ⟨⟨i, j⟩, ⟨h1, h2⟩, rfl⟩
    rw [mem_hlayPairs] at h1
    exact ⟨rfl, rfl, rfl, rfl, h1.1, h1.2.1, h1.2.2, h2⟩
  · obtain ⟨tw, cA, cB, lv, i, j⟩ := t
    rintro ⟨rfl, rfl, rfl, rfl, h1, h2, h3, h4⟩
    exact ⟨(i, j), ⟨mem_hlayPairs.2 ⟨h1, h2, h3⟩, h4⟩, rfl⟩

/-- every call made below `(A,B,l)` concerns a sub-cell of `A` and of `B` -/
theorem hhit_above {layers levels : Nat} {full : Bool} (k : Nat) : ∀ (A B l : Nat) (t : Task),
    t ∈ hvisit layers levels pbl full k A B l → ∀ p q, HHit H tgt nl t p q →
    ∃ x y, H.points[p]? = some x ∧ H.points[q]? = some y ∧ HIn tgt nl x t.i l A ∧ HIn tgt nl y t.j l B ∧ l ≤ pbl t.i t.j := by
  induction k with
  | zero => intro A B l t ht; simp [hvisit] at ht
  | succ k ih =>
    intro A B l t ht p q hit
    unfold hvisit at ht
    split at ht
    · split at ht
      · obtain ⟨h1, rfl, rfl, rfl, _, _, h2, _⟩ := mem_htasksII.1 ht
        obtain ⟨x, y, hx, hy, h3, h4, _⟩ := hit
        exact ⟨x, y, hx, hy, h3, h4, h2⟩
      · simp at ht
    · rw [List.mem_append] at ht
      rcases ht with ht | ht
      · obtain ⟨h1, rfl, rfl, rfl, _, _, h2, _⟩ := mem_htasksI.1 ht
        obtain ⟨x, y, hx, hy, h3, h4, _⟩ := hit
        exact ⟨x, y, hx, hy, h3, h4, h2.ge⟩
      · split at ht
        · simp at ht
        · rw [List.mem_flatMap] at ht
          obtain ⟨⟨a, b⟩, hab, ht⟩ := ht
          obtain ⟨x, y, hx, hy, h3, h4, h5⟩ := ih a b (l + 1) t ht p q hit
          rw [mem_hkids] at hab
          refine ⟨x, y, hx, hy, ?_, ?_, by omega⟩
          · have := (hparent_iff (c := A) (x := a) (by omega)).2 hab.1
            rw [← this]; exact h3.parent
          · have := (hparent_iff (c := B) (x := b) (by omega)).2 hab.2.1
            rw [← this]; exact h4.parent

theorem hcnt_self (L : List Task) (p : Nat) : hcnt H tgt nl L p p = 0 := by
  apply hcnt_zero
  rintro t _ ⟨x, y, hx, hy, h3, h4, h5⟩
  obtain rfl : x = y := by rw [hx] at hy; exact Option.some.inj hy
  exact absurd (h5 ⟨h3.cell_eq h4, h3.layer_eq h4⟩) (lt_irrefl _)

section
variable {p q i j : Nat} {x y : HPoint F} (ok : HTreeOK H tgt pbl nl)
  (hx : H.points[p]? = some x) (hy : H.points[q]? = some y)
include ok hx hy

theorem hcnt_visit_zero {layers levels : Nat} {full : Bool} {k A B l : Nat}
    (h : ∀ i j, ¬ (HIn tgt nl x i l A ∧ HIn tgt nl y j l B ∧ l ≤ pbl i j)) :
    hcnt H tgt nl (hvisit layers levels pbl full k A B l) p q = 0 := by
  apply hcnt_zero
  intro t ht hit
  obtain ⟨x', y', hx', hy', h1, h2, h3⟩ := hhit_above k A B l t ht p q hit
  rw [hx] at hx'; rw [hy] at hy'
  obtain rfl := Option.some.inj hx'
  obtain rfl := Option.some.inj hy'
  exact h _ _ ⟨h1, h2, h3⟩

/-- sum over the child pairs: only the pair of cells containing the two points contributes -/
theorem hcnt_kids {layers levels : Nat} {full : Bool} {k A B l a b : Nat} (ha : HIn tgt nl x i (l + 1) a) (hb : HIn tgt nl y j (l + 1) b) :
    hcnt H tgt nl ((hkids A B).flatMap fun p => hvisit layers levels pbl full k p.1 p.2 (l + 1)) p q =
      if (a, b) ∈ hkids A B then hcnt H tgt nl (hvisit layers levels pbl full k a b (l + 1)) p q else 0 := by
  rw [hcnt_flatMap]
  have h := sum_map_unique (nodup_hkids A B) (a, b) (fun r => hcnt H tgt nl (hvisit layers levels pbl full k r.1 r.2 (l + 1)) p q) (by
    rintro ⟨a', b'⟩ _ hne
    apply hcnt_visit_zero ok hx hy
    rintro i' j' ⟨h1, h2, _⟩
    have e1 : a' = a := h1.cell_eq ha
    have e2 : b' = b := h2.cell_eq hb
    exact hne (by rw [e1, e2]))
  split
  · rename_i hm; exact h.1 hm
  · rename_i hm; exact h.2 hm

theorem hcnt_tasksII {A B l : Nat} (hA : HIn tgt nl x i l A) (hB : HIn tgt nl y j l B) (hl : l ≤ pbl i j)
    (hne : A ≠ B) : hcnt H tgt nl (htasksII H.layers H.levels pbl A B l) p q = 1 := by
  have hi := ok.lt_layers (List.mem_of_getElem? hx) hA
  have hj := ok.lt_layers (List.mem_of_getElem? hy) hB
  have hlt : pbl i j < H.levels := by
    rw [ok.levels_eq]; have := ok.pbl_top i j hi hj; omega
  refine hcnt_one (nodup_htasksII _ _ A B l) ⟨true, A, B, l, i, j⟩ (mem_htasksII.2 ⟨rfl, rfl, rfl, rfl, hi, hj, hl, hlt⟩) ?_ ?_
  · exact ⟨x, y, hx, hy, hA, hB, fun h => absurd h.1 hne⟩
  · intro t ht hit
    obtain ⟨h1, h2, h3, h4, _⟩ := mem_htasksII.1 ht
    obtain ⟨x', y', hx', hy', h5, h6, _⟩ := hit
    rw [hx] at hx'; rw [hy] at hy'
    obtain rfl := Option.some.inj hx'
    obtain rfl := Option.some.inj hy'
    obtain ⟨tw, cA, cB, lv, i', j'⟩ := t
    simp only at h1 h2 h3 h4 h5 h6
    rw [h1, h2, h3, h4, h5.layer_eq hA, h6.layer_eq hB]

theorem hcnt_tasksI {A B l : Nat} (hA : HIn tgt nl x i l A) (hB : HIn tgt nl y j l B) :
    hcnt H tgt nl (htasksI H.layers pbl A B l) p q = if pbl i j = l ∧ (A ≠ B ∨ i ≤ j) ∧ (A = B ∧ i = j → p < q) then 1 else 0 := by
  have hi := ok.lt_layers (List.mem_of_getElem? hx) hA
  have hj := ok.lt_layers (List.mem_of_getElem? hy) hB
  have hu : ∀ t ∈ htasksI H.layers pbl A B l, HHit H tgt nl t p q → t = ⟨false, A, B, l, i, j⟩ := by
    intro t ht hit
    obtain ⟨h1, h2, h3, h4, _⟩ := mem_htasksI.1 ht
    obtain ⟨x', y', hx', hy', h5, h6, _⟩ := hit
    rw [hx] at hx'; rw [hy] at hy'
    obtain rfl := Option.some.inj hx'
    obtain rfl := Option.some.inj hy'
    obtain ⟨tw, cA, cB, lv, i', j'⟩ := t
    simp only at h1 h2 h3 h4 h5 h6
    rw [h1, h2, h3, h4, h5.layer_eq hA, h6.layer_eq hB]
  split
  · rename_i h
    exact hcnt_one (nodup_htasksI _ A B l) ⟨false, A, B, l, i, j⟩ (mem_htasksI.2 ⟨rfl, rfl, rfl, rfl, hi, hj, h.1, h.2.1⟩)
      ⟨x, y, hx, hy, hA, hB, h.2.2⟩ hu
  · rename_i h
    apply hcnt_zero
    intro t ht hit
    obtain rfl := hu t ht hit
    obtain ⟨_, _, _, _, _, _, h1, h2⟩ := mem_htasksI.1 ht
    obtain ⟨x', y', hx', hy', h5, h6, h7⟩ := hit
    exact h ⟨h1, h2, h7⟩

/-- two points in different cells: exactly one call below `(A,B)` considers them, in this orientation -/
theorem hcnt_visit_ne : ∀ (k A B l : Nat), l + k = H.levels → HIn tgt nl x i l A → HIn tgt nl y j l B →
    l ≤ pbl i j → A ≠ B → hcnt H tgt nl (hvisit H.layers H.levels pbl true k A B l) p q = 1 := by
  intro k
  induction k with
  | zero =>
    intro A B l hk hA hB hl
    have hi := ok.lt_layers (List.mem_of_getElem? hx) hA
    have hj := ok.lt_layers (List.mem_of_getElem? hy) hB
    have := ok.pbl_top i j hi hj
    have := ok.levels_eq
    omega
  | succ k ih =>
    intro A B l hk hA hB hl hne
    have hi := ok.lt_layers (List.mem_of_getElem? hx) hA
    have hj := ok.lt_layers (List.mem_of_getElem? hy) hB
    have hlt : pbl i j < H.levels := by
      rw [ok.levels_eq]; have := ok.pbl_top i j hi hj; omega
    unfold hvisit
    split
    · rw [if_pos rfl]; exact hcnt_tasksII ok hx hy hA hB hl hne
    · rw [hcnt_append, hcnt_tasksI ok hx hy hA hB]
      by_cases hP : pbl i j = l
      · rw [if_pos ⟨hP, Or.inl hne, fun h => absurd h.1 hne⟩]
        split
        · simp [hcnt]
        · rw [hcnt_zero, Nat.add_zero]
          intro t ht hit
          rw [List.mem_flatMap] at ht
          obtain ⟨⟨a, b⟩, _, ht⟩ := ht
          obtain ⟨x', y', hx', hy', h1, h2, h3⟩ := hhit_above k a b (l + 1) t ht p q hit
          rw [hx] at hx'; rw [hy] at hy'
          obtain rfl := Option.some.inj hx'
          obtain rfl := Option.some.inj hy'
          rw [h1.layer_eq hA, h2.layer_eq hB] at h3
          omega
      · rw [if_neg (fun h => hP h.1), Nat.zero_add]
        have hk0 : k ≠ 0 := by omega
        rw [if_neg hk0]
        obtain ⟨a, ha, ha'⟩ := hA.child (le_trans (show l + 1 ≤ _ by omega) (ok.pbl_left i j hi hj))
        obtain ⟨b, hb, hb'⟩ := hB.child (le_trans (show l + 1 ≤ pbl j i by rw [ok.pbl_symm]; omega) (ok.pbl_left j i hj hi))
        rw [hcnt_kids ok hx hy ha hb, if_pos (mem_hkids.2 ⟨ha', hb', fun h => absurd h hne⟩)]
        refine ih a b (l + 1) (by omega) ha hb (by omega) ?_
        rintro rfl
        have h1 := (hparent_iff (c := A) (x := a) (by omega)).2 ha'
        have h2 := (hparent_iff (c := B) (x := a) (by omega)).2 hb'
        exact hne (h1.symm.trans h2)

/-- two points in the same cell: exactly one call below `(A,A)` considers them, in one orientation -/
theorem hcnt_visit_diag (hpq : p ≠ q) : ∀ (k A l : Nat), l + k = H.levels → HIn tgt nl x i l A → HIn tgt nl y j l A →
    l ≤ pbl i j →
    hcnt H tgt nl (hvisit H.layers H.levels pbl true k A A l) p q + hcnt H tgt nl (hvisit H.layers H.levels pbl true k A A l) q p = 1 := by
  have hsymm : pbl j i = pbl i j := ok.pbl_symm j i
  intro k
  induction k with
  | zero =>
    intro A l hk hA hB hl
    have hi := ok.lt_layers (List.mem_of_getElem? hx) hA
    have hj := ok.lt_layers (List.mem_of_getElem? hy) hB
    have := ok.pbl_top i j hi hj
    have := ok.levels_eq
    omega
  | succ k ih =>
    intro A l hk hA hB hl
    have hi := ok.lt_layers (List.mem_of_getElem? hx) hA
    have hj := ok.lt_layers (List.mem_of_getElem? hy) hB
    have hlt : pbl i j < H.levels := by
      rw [ok.levels_eq]; have := ok.pbl_top i j hi hj; omega
    unfold hvisit
    have ht : touchN l A A = true := touchN_refl l A
    rw [if_neg (by simp [ht])]
    rw [hcnt_append, hcnt_append, hcnt_tasksI ok hx hy hA hB, hcnt_tasksI ok hy hx hB hA, hsymm]
    by_cases hP : pbl i j = l
    · have hz : ∀ r s : Nat, ∀ u v : HPoint F, H.points[r]? = some u → H.points[s]? = some v →
          (∃ i' j', HIn tgt nl u i' l A ∧ HIn tgt nl v j' l A ∧ pbl i' j' = l) →
          hcnt H tgt nl (if k = 0 then [] else (hkids A A).flatMap fun p => hvisit H.layers H.levels pbl true k p.1 p.2 (l + 1)) r s = 0 := by
        rintro r s u v hu hv ⟨i', j', h1, h2, h3⟩
        split
        · simp [hcnt]
        · apply hcnt_zero
          intro t ht hit
          rw [List.mem_flatMap] at ht
          obtain ⟨⟨a, b⟩, _, ht⟩ := ht
          obtain ⟨x', y', hx', hy', h1', h2', h3'⟩ := hhit_above k a b (l + 1) t ht r s hit
          rw [hu] at hx'; rw [hv] at hy'
          obtain rfl := Option.some.inj hx'
          obtain rfl := Option.some.inj hy'
          rw [h1'.layer_eq h1, h2'.layer_eq h2] at h3'
          omega
      rw [hz p q x y hx hy ⟨i, j, hA, hB, hP⟩, hz q p y x hy hx ⟨j, i, hB, hA, hsymm.trans hP⟩]
      rcases Nat.lt_trichotomy i j with hij | hij | hij
      · rw [if_pos ⟨hP, Or.inr hij.le, fun h => absurd h.2 hij.ne⟩, if_neg (by rintro ⟨_, h, _⟩; rcases h with h | h <;> omega)]
      · subst hij
        rcases Nat.lt_or_gt_of_ne hpq with h | h
        · rw [if_pos ⟨hP, Or.inr le_rfl, fun _ => h⟩, if_neg (by rintro ⟨_, _, h'⟩; have := h' ⟨rfl, rfl⟩; omega)]
        · rw [if_neg (by rintro ⟨_, _, h'⟩; have := h' ⟨rfl, rfl⟩; omega), if_pos ⟨hP, Or.inr le_rfl, fun _ => h⟩]
      · rw [if_neg (by rintro ⟨_, h, _⟩; rcases h with h | h <;> omega), if_pos ⟨hP, Or.inr hij.le, fun h => absurd h.2 hij.ne⟩]
    · have hk0 : k ≠ 0 := by omega
      rw [if_neg hk0, if_neg (fun h => hP h.1), if_neg (fun h => hP h.1), Nat.zero_add, Nat.zero_add]
      obtain ⟨a, ha, ha'⟩ := hA.child (le_trans (show l + 1 ≤ _ by omega) (ok.pbl_left i j hi hj))
      obtain ⟨b, hb, hb'⟩ := hB.child (le_trans (show l + 1 ≤ pbl j i by rw [ok.pbl_symm]; omega) (ok.pbl_left j i hj hi))
      rw [hcnt_kids ok hx hy ha hb, hcnt_kids ok hy hx hb ha]
      rcases Nat.lt_trichotomy a b with hab | hab | hab
      · rw [if_pos (mem_hkids.2 ⟨ha', hb', fun _ => hab.le⟩), if_neg (by rw [mem_hkids]; rintro ⟨_, _, h⟩; have := h rfl; omega)]
        rw [hcnt_visit_ne ok hx hy k a b (l + 1) (by omega) ha hb (by omega) hab.ne]
      · subst hab
        have hm := mem_hkids.2 ⟨ha', hb', fun _ => le_rfl⟩
        rw [if_pos hm, if_pos hm]
        exact ih a (l + 1) (by omega) ha hb (by omega)
      · rw [if_neg (by rw [mem_hkids]; rintro ⟨_, _, h⟩; have := h rfl; omega), if_pos (mem_hkids.2 ⟨hb', ha', fun _ => hab.le⟩)]
        rw [hcnt_visit_ne ok hy hx k b a (l + 1) (by omega) hb ha (by rw [hsymm]; omega) hab.ne]

/-- every pair of distinct positions is considered by exactly one call, in one orientation -/
theorem hcnt_visit_root (hpq : p ≠ q) :
    hcnt H tgt nl (hvisit H.layers H.levels pbl true H.levels 0 0 0) p q +
      hcnt H tgt nl (hvisit H.layers H.levels pbl true H.levels 0 0 0) q p = 1 := by
  obtain ⟨i, hi, hxi⟩ := ok.exists_hin (List.mem_of_getElem? hx)
  obtain ⟨j, hj, hyj⟩ := ok.exists_hin (List.mem_of_getElem? hy)
  exact hcnt_visit_diag ok hx hy hpq H.levels 0 0 (by omega) hxi hyj (by omega)

end

end Girgs
