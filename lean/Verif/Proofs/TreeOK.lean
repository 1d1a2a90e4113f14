import Verif.Model.SpatialTree
import Verif.Proofs.Cells
/-!
The invariant `TreeOK` that construction of a `SpatialTree` establishes (C12, Verif/Proofs/BuildPartition.lean), and
first consequences: what the weight layers hand out (C13).
-/
namespace Girgs
open Spec

/-- first index cell of layer `i`: layers `0..i-1` occupy `2^(D*target)` index cells each -/
def layerOff (D : Nat) (blc : Int) (i : Nat) : Nat :=
  ∑ k ∈ Finset.range i, 2 ^ (D * weightLayerTargetLevel D blc k)

/-- all ordered pairs of layers in loop order -/
def allLayerPairs (layers : Nat) : List (Nat × Nat) :=
  (List.range layers).flatMap fun i => (List.range layers).map fun j => (i, j)

/-- What the constructor establishes about the data structure. -/
structure TreeOK {F : Type} {D : Nat} (T : Tree F D) : Prop where
  D1 : 1 ≤ D
  D5 : D ≤ 5
  levels_eq : T.levels = partitioningBaseLevel D T.blc 0 0 + 1
  depth : D * T.levels ≤ 31
  layerPairs_eq : T.layerPairs = (List.range T.levels).map fun l =>
    (allLayerPairs T.layers).filter fun p => partitioningBaseLevel D T.blc p.1 p.2 = l
  weightLayers_eq : T.weightLayers = (List.range T.layers).map fun i =>
    ⟨weightLayerTargetLevel D T.blc i, layerOff D T.blc i⟩
  total : layerOff D T.blc T.layers < 2147483648
  small : T.n < 2147483648
  layers_le : T.layers ≤ 30
  index_perm : (T.nodes.map Node.index).Perm (List.range T.n)
  sorted : (T.nodes.map Node.cellId).Pairwise (· ≤ ·)
  cell_lt : ∀ x ∈ T.nodes, x.cellId < layerOff D T.blc T.layers
  first_eq : T.firstInCell = (List.range (layerOff D T.blc T.layers + 1)).map fun c =>
    (T.nodes.map Node.cellId).countP (· < c)

section arith
variable {D : Nat} {blc : Int}

theorem cdiv_nat_mono {a b : Int} (h : a ≤ b) : cdiv a (D : Int) ≤ cdiv b D := by
  unfold cdiv
  rcases Nat.eq_zero_or_pos D with h0 | h0
  · subst h0; simp
  · exact Int.tdiv_le_tdiv (by exact_mod_cast h0) h

theorem imax_toNat_mono {a b : Int} (h : a ≤ b) : (imax a 0).toNat ≤ (imax b 0).toNat := by
  unfold imax; split <;> split <;> omega

theorem pbl_le_target_left (i j : Nat) : partitioningBaseLevel D blc i j ≤ weightLayerTargetLevel D blc i :=
  imax_toNat_mono (cdiv_nat_mono (by omega))

theorem pbl_le_target_right (i j : Nat) : partitioningBaseLevel D blc i j ≤ weightLayerTargetLevel D blc j :=
  imax_toNat_mono (cdiv_nat_mono (by omega))

theorem pbl_le_zero (i j : Nat) : partitioningBaseLevel D blc i j ≤ partitioningBaseLevel D blc 0 0 :=
  imax_toNat_mono (cdiv_nat_mono (by push_cast; omega))

theorem layerOff_succ (i : Nat) : layerOff D blc (i + 1) = layerOff D blc i + 2 ^ (D * weightLayerTargetLevel D blc i) := by
  simp [layerOff, Finset.sum_range_succ]

theorem layerOff_mono {i j : Nat} (h : i ≤ j) : layerOff D blc i ≤ layerOff D blc j := by
  induction j, h using Nat.le_induction with
  | base => exact le_rfl
  | succ m _ ih => rw [layerOff_succ]; exact le_trans ih (Nat.le_add_right _ _)

/-- every index cell belongs to exactly one layer -/
theorem exists_layer {c L : Nat} (h : c < layerOff D blc L) : ∃ i, i < L ∧ layerOff D blc i ≤ c ∧ c < layerOff D blc (i + 1) := by
  induction L with
  | zero => simp [layerOff] at h
  | succ L ih =>
    by_cases h' : c < layerOff D blc L
    · obtain ⟨i, hi, h2⟩ := ih h'; exact ⟨i, by omega, h2⟩
    · exact ⟨L, by omega, by omega, h⟩

theorem layer_unique {c i j : Nat} (hi : layerOff D blc i ≤ c ∧ c < layerOff D blc (i + 1))
    (hj : layerOff D blc j ≤ c ∧ c < layerOff D blc (j + 1)) : i = j := by
  by_contra hne
  rcases Nat.lt_or_gt_of_ne hne with h | h
  · have := layerOff_mono (D := D) (blc := blc) (show i + 1 ≤ j by omega); omega
  · have := layerOff_mono (D := D) (blc := blc) (show j + 1 ≤ i by omega); omega
end arith

/-- in a sorted list, `p` is before the number of entries below `a` iff the entry at `p` is below `a` -/
theorem lt_countP_iff {L : List Nat} (hs : L.Pairwise (· ≤ ·)) (a p x : Nat) (hx : L[p]? = some x) :
    p < L.countP (· < a) ↔ x < a := by
  induction L generalizing p with
  | nil => simp at hx
  | cons y L ih =>
    rw [List.pairwise_cons] at hs
    rw [List.countP_cons]
    cases p with
    | zero =>
      simp only [List.getElem?_cons_zero, Option.some.injEq] at hx
      subst hx
      by_cases h : y < a
      · simp [h]
      · simp only [h, decide_false, Bool.false_eq_true, if_false, iff_false, add_zero, not_lt, Nat.le_zero]
        rw [List.countP_eq_zero]
        intro z hz; have := hs.1 z hz; simp; omega
    | succ p =>
      rw [List.getElem?_cons_succ] at hx
      have := ih hs.2 p hx
      have hyx : y ≤ x := hs.1 x (List.mem_of_getElem? hx)
      by_cases h : y < a
      · simp [h, this]
      · have hc : L.countP (· < a) = 0 := by
          rw [List.countP_eq_zero]
          intro z hz; have := hs.1 z hz; simp; omega
        simp [h, hc]; omega

variable {F : Type} {D : Nat} {T : Tree F D}

/-- node `x` belongs to layer `i`, and its cell on level `l` (not deeper than the layer's target level) is `c` -/
def InLC (T : Tree F D) (x : Node F D) (i l c : Nat) : Prop :=
  layerOff D T.blc i ≤ x.cellId ∧ x.cellId < layerOff D T.blc (i + 1) ∧ l ≤ weightLayerTargetLevel D T.blc i ∧
    c = levelStart D l + (x.cellId - layerOff D T.blc i) / 2 ^ (D * (weightLayerTargetLevel D T.blc i - l))

theorem div_cell {D t l y : Nat} (hl : l ≤ t) (hy : y < 2 ^ (D * t)) : y / 2 ^ (D * (t - l)) < 2 ^ (D * l) := by
  rw [Nat.div_lt_iff_lt_mul (by positivity), ← pow_add, ← Nat.mul_add]
  rwa [show l + (t - l) = t by omega]

theorem InLC.onLevel {x : Node F D} {i l c : Nat} (h : InLC T x i l c) : OnLevel D l c := by
  obtain ⟨h1, h2, h3, rfl⟩ := h
  refine onLevel_add (div_cell h3 ?_)
  rw [layerOff_succ] at h2
  omega

theorem InLC.layer_eq {x : Node F D} {i j l l' c c' : Nat} (h : InLC T x i l c) (h' : InLC T x j l' c') : i = j :=
  layer_unique ⟨h.1, h.2.1⟩ ⟨h'.1, h'.2.1⟩

theorem InLC.cell_eq {x : Node F D} {i j l c c' : Nat} (h : InLC T x i l c) (h' : InLC T x j l c') : c = c' := by
  obtain rfl := h.layer_eq h'
  rw [h.2.2.2, h'.2.2.2]

theorem InLC.parent {x : Node F D} {i l c : Nat} (h : InLC T x i (l + 1) c) : InLC T x i l ((c - 1) / 2 ^ D) := by
  have hon := h.onLevel
  obtain ⟨h1, h2, h3, h4⟩ := h
  refine ⟨h1, h2, by omega, ?_⟩
  rw [parentN hon, h4, Nat.add_sub_cancel_left, Nat.div_div_eq_div_mul, ← pow_add]
  congr 3
  rw [show weightLayerTargetLevel D T.blc i - l = weightLayerTargetLevel D T.blc i - (l + 1) + 1 by omega]; ring

theorem InLC.child {x : Node F D} {i l c : Nat} (h : InLC T x i l c) (hl : l + 1 ≤ weightLayerTargetLevel D T.blc i) :
    ∃ c', InLC T x i (l + 1) c' ∧ 2 ^ D * c + 1 ≤ c' ∧ c' ≤ 2 ^ D * c + 2 ^ D := by
  have h' : InLC T x i (l + 1) (levelStart D (l + 1) +
      (x.cellId - layerOff D T.blc i) / 2 ^ (D * (weightLayerTargetLevel D T.blc i - (l + 1)))) := ⟨h.1, h.2.1, hl, rfl⟩
  refine ⟨_, h', ?_⟩
  have hc := h'.parent.cell_eq h
  have : 1 ≤ levelStart D (l + 1) := by rw [levelStart_succ']; omega
  exact (parent_iff (le_trans this (Nat.le_add_right _ _))).1 hc

theorem TreeOK.exists_inLC (ok : TreeOK T) {x : Node F D} (hx : x ∈ T.nodes) : ∃ i, i < T.layers ∧ InLC T x i 0 0 := by
  obtain ⟨i, hi, h1, h2⟩ := exists_layer (ok.cell_lt x hx)
  refine ⟨i, hi, h1, h2, by omega, ?_⟩
  rw [levelStart_zero, Nat.zero_add]
  symm
  rw [Nat.sub_zero]
  apply Nat.div_eq_of_lt
  rw [layerOff_succ] at h2; omega

theorem InLC.lt_layers (ok : TreeOK T) {x : Node F D} (hx : x ∈ T.nodes) {i l c : Nat} (h : InLC T x i l c) : i < T.layers := by
  obtain ⟨j, hj, h'⟩ := ok.exists_inLC hx
  rw [h.layer_eq h']; exact hj

/-- the cells of one node on a level below -/
theorem InLC.exists_level {x : Node F D} {i l c : Nat} (h : InLC T x i l c) {m : Nat}
    (hm : m ≤ weightLayerTargetLevel D T.blc i) : ∃ c', InLC T x i m c' := ⟨_, h.1, h.2.1, hm, rfl⟩

theorem TreeOK.layer_le_total (_ok : TreeOK T) {i : Nat} (hi : i < T.layers) :
    layerOff D T.blc i + 2 ^ (D * weightLayerTargetLevel D T.blc i) ≤ layerOff D T.blc T.layers := by
  rw [← layerOff_succ]; exact layerOff_mono hi

theorem TreeOK.target_depth (ok : TreeOK T) {i : Nat} (hi : i < T.layers) :
    D * weightLayerTargetLevel D T.blc i ≤ 30 := by
  have h := ok.layer_le_total hi
  have ht := ok.total
  by_contra hne
  have : 2 ^ 31 ≤ 2 ^ (D * weightLayerTargetLevel D T.blc i) := two_pow_le (by omega)
  omega

/-- the length of the node array is `n` -/
theorem TreeOK.length_nodes (ok : TreeOK T) : T.nodes.length = T.n := by
  have := ok.index_perm.length_eq
  simpa using this

theorem TreeOK.rd_weightLayers (ok : TreeOK T) {i : Nat} (hi : i < T.layers) :
    rd T.weightLayers i = some ⟨weightLayerTargetLevel D T.blc i, layerOff D T.blc i⟩ := by
  simp [rd, ok.weightLayers_eq, hi]

theorem TreeOK.rd_first (ok : TreeOK T) {c : Nat} (hc : c ≤ layerOff D T.blc T.layers) :
    rd T.firstInCell c = some ((T.nodes.map Node.cellId).countP (· < c)) := by
  rw [rd, ok.first_eq, List.getElem?_map, List.getElem?_range (by omega)]
  rfl

theorem countP_lt_mono (L : List Nat) {a b : Nat} (h : a ≤ b) : L.countP (· < a) ≤ L.countP (· < b) := by
  apply List.countP_mono_left
  intro x _ hx
  simp only [decide_eq_true_eq] at hx ⊢
  omega

theorem levelledCell_eq {D t o A l : Nat} (h1 : 1 ≤ D) (h5 : D ≤ 5) (ht : D * t ≤ 30) (hl : l ≤ t) (hA : OnLevel D l A) :
    WeightLayer.levelledCell D ⟨t, o⟩ A l = some ((A - levelStart D l) * 2 ^ (D * (t - l)),
      (A - levelStart D l) * 2 ^ (D * (t - l)) + 2 ^ (D * (t - l)) - 1) ∧
    (A - levelStart D l) * 2 ^ (D * (t - l)) + 2 ^ (D * (t - l)) ≤ 2 ^ (D * t) ∧ 1 ≤ 2 ^ (D * (t - l)) := by
  have ht32 : t < 2 ^ 32 := by
    have := Nat.le_mul_of_pos_left t h1
    omega
  have hd : D * (t - l) ≤ 31 := le_trans (Nat.mul_le_mul_left _ (Nat.sub_le _ _)) (by omega)
  have hdl : D * l ≤ 31 := le_trans (Nat.mul_le_mul_left _ hl) (by omega)
  have hle : (A - levelStart D l) * 2 ^ (D * (t - l)) + 2 ^ (D * (t - l)) ≤ 2 ^ (D * t) := by
    have h2 := hA.local_lt
    have h3 : (A - levelStart D l + 1) * 2 ^ (D * (t - l)) ≤ 2 ^ (D * l) * 2 ^ (D * (t - l)) := Nat.mul_le_mul_right _ h2
    rw [← pow_add, ← Nat.mul_add, show l + (t - l) = t by omega, Nat.add_mul, Nat.one_mul] at h3
    exact h3
  have hp : 2 ^ (D * t) ≤ 1073741824 := le_trans (two_pow_le ht) (by norm_num)
  have h1' : 1 ≤ 2 ^ (D * (t - l)) := Nat.one_le_two_pow
  refine ⟨?_, hle, h1'⟩
  unfold WeightLayer.levelledCell
  have e0 : subU t l = t - l := subU_eq ht32 hl
  refine (obind (a := 2 ^ (D * (t - l))) (by show Coord.numCellsInLevel D (subU t l) = _; rw [e0]; exact Coord.numCellsInLevel_eq hd) _).trans ?_
  refine (obind (Coord.firstCellOfLevel_eq h1 (by omega) hdl) _).trans ?_
  have e1 : subU A (levelStart D l) = A - levelStart D l := subU_eq (Coord.onLevel_lt32 h1 hdl hA) hA.1
  simp only [e1]
  generalize (A - levelStart D l) * 2 ^ (D * (t - l)) = x at hle ⊢
  generalize 2 ^ (D * (t - l)) = y at hle h1' ⊢
  generalize 2 ^ (D * t) = z at hle hp
  have e2 : u32 x = x := u32_eq (by omega)
  have e3 : u32 (x + y) = x + y := u32_eq (by omega)
  have e4 : subU (x + y) 1 = x + y - 1 := subU_eq (by omega) (by omega)
  rw [e2, e3, e4]

/-- `cellIterators` in closed form, and what it enumerates -/
theorem TreeOK.cellIterators_spec (ok : TreeOK T) {i l A : Nat} (hi : i < T.layers)
    (hl : l ≤ weightLayerTargetLevel D T.blc i) (hA : OnLevel D l A) :
    ∃ b e, WeightLayer.cellIterators D T.firstInCell ⟨weightLayerTargetLevel D T.blc i, layerOff D T.blc i⟩ A l = some (b, e) ∧
      b ≤ e ∧ e ≤ T.n ∧ ∀ p x, T.nodes[p]? = some x → (b ≤ p ∧ p < e ↔ InLC T x i l A) := by
  set t := weightLayerTargetLevel D T.blc i with ht
  obtain ⟨h1, h2, h3⟩ := levelledCell_eq (o := layerOff D T.blc i) ok.D1 ok.D5 (ok.target_depth hi) hl hA
  rw [← ht] at h1 h2
  set lo := (A - levelStart D l) * 2 ^ (D * (t - l)) with hlo
  set w := 2 ^ (D * (t - l)) with hw
  have htot := ok.layer_le_total hi
  rw [← ht] at htot
  have hlt := ok.total
  have e1 : u32 (lo + w - 1 + 1) = lo + w := by
    rw [Nat.sub_add_cancel (by omega)]
    exact u32_eq (by omega)
  refine ⟨_, _, ?_, countP_lt_mono (T.nodes.map Node.cellId) (show layerOff D T.blc i + lo ≤ layerOff D T.blc i + (lo + w) by omega), ?_, ?_⟩
  · unfold WeightLayer.cellIterators
    refine (obind h1 _).trans ?_
    refine (obind (ok.rd_first (c := layerOff D T.blc i + lo) (by omega)) _).trans ?_
    simp only [e1]
    refine (obind (ok.rd_first (c := layerOff D T.blc i + (lo + w)) (by omega)) _).trans ?_
    rfl
  · rw [← ok.length_nodes, ← List.length_map (f := Node.cellId) (as := T.nodes)]; exact List.countP_le_length
  · intro p x hx
    have hx' : (T.nodes.map Node.cellId)[p]? = some x.cellId := by rw [List.getElem?_map, hx]; rfl
    have ha := lt_countP_iff ok.sorted (layerOff D T.blc i + lo) p _ hx'
    have hb := lt_countP_iff ok.sorted (layerOff D T.blc i + (lo + w)) p _ hx'
    rw [hb, ← not_lt, ha, not_lt]
    have hwpos : 0 < w := h3
    have hsucc := layerOff_succ (D := D) (blc := T.blc) i
    rw [← ht] at hsucc
    have hAl := hA.1
    constructor
    · rintro ⟨ha', hb'⟩
      refine ⟨by omega, by omega, hl, ?_⟩
      rw [← ht, ← hw]
      have : (x.cellId - layerOff D T.blc i) / w = A - levelStart D l := by
        rw [Nat.div_eq_iff hwpos]; constructor <;> omega
      omega
    · rintro ⟨h5, h6, _, h7⟩
      rw [← ht, ← hw] at h7
      have : (x.cellId - layerOff D T.blc i) / w = A - levelStart D l := by omega
      rw [Nat.div_eq_iff hwpos] at this
      constructor <;> omega

end Girgs
