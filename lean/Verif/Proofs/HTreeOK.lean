import Verif.Model.HyperTree
import Verif.Proofs.Visit
/-!
Hyperbolic sampler: the invariant `HTreeOK` that construction establishes, what the radius layers hand out, the recursion in
closed form, and the counting argument that every pair of point positions is considered by exactly one sampling call.
-/
namespace Girgs
open Spec

/-- cell `c` is on level `l` of the binary tree -/
def OnLv (l c : Nat) : Prop := 2 ^ l - 1 ≤ c ∧ c < 2 ^ (l + 1) - 1

theorem onLv_iff {l c : Nat} : OnLv l c ↔ 2 ^ l ≤ c + 1 ∧ c + 1 < 2 * 2 ^ l := by
  unfold OnLv
  have : 2 ^ (l + 1) = 2 * 2 ^ l := by ring
  rw [this]
  have := Nat.one_le_two_pow (n := l)
  generalize 2 ^ l = x at *
  omega

theorem onLv_zero : OnLv 0 0 := by simp [OnLv]

theorem onLv_child {l c d : Nat} (h : OnLv l c) (h1 : 2 * c + 1 ≤ d) (h2 : d ≤ 2 * c + 2) : OnLv (l + 1) d := by
  rw [onLv_iff] at h ⊢
  have : 2 ^ (l + 1) = 2 * 2 ^ l := by ring
  rw [this]
  generalize 2 ^ l = x at *
  omega

theorem onLv_parent {l c : Nat} (h : OnLv (l + 1) c) : OnLv l ((c - 1) / 2) := by
  rw [onLv_iff] at h ⊢
  have : 2 ^ (l + 1) = 2 * 2 ^ l := by ring
  rw [this] at h
  generalize 2 ^ l = x at *
  omega

theorem onLv_lt {l c : Nat} (h : OnLv l c) (hl : l ≤ 31) : c < 2 ^ 32 - 1 := by
  rw [onLv_iff] at h
  have : 2 ^ l ≤ 2 ^ 31 := two_pow_le hl
  omega

theorem hparent_iff {c x : Nat} (h : 1 ≤ x) : (x - 1) / 2 = c ↔ 2 * c + 1 ≤ x ∧ x ≤ 2 * c + 2 := by omega

namespace Angle

theorem numCellsInLevel_eq {l : Nat} (h : l ≤ 31) : numCellsInLevel l = some (2 ^ l) := by
  unfold numCellsInLevel shl1u; rw [if_pos (by omega)]

theorem firstCellOfLevel_eq {l : Nat} (h : l ≤ 31) : firstCellOfLevel l = some (2 ^ l - 1) := by
  unfold firstCellOfLevel
  refine (obind (a := 2 ^ l) (by unfold shl1u; rw [if_pos (by omega)]) _).trans ?_
  rw [subU_eq (lt_of_le_of_lt (two_pow_le h) (by norm_num)) Nat.one_le_two_pow]

theorem firstChild_eq {c : Nat} (h : 2 * c + 1 < 2 ^ 32) : firstChild c = 2 * c + 1 := by
  unfold firstChild; rw [u32_eq (x := 2 * c) (by omega), u32_eq h]

theorem secondChild_eq {c : Nat} (h : 2 * c + 2 < 2 ^ 32) : secondChild c = 2 * c + 2 := by
  unfold secondChild; rw [u32_eq (x := c + 1) (by omega), u32_eq (by omega)]; ring

theorem diff_eq {A B : Nat} (hA : A < 2 ^ 32) (hB : B < 2 ^ 32) : diff A B = max A B - min A B :=
  subU_eq (by omega) (by omega)

/-- `touching` without machine arithmetic -/
def touchN (l A B : Nat) : Bool := decide (max A B - min A B ≤ 1 ∨ max A B - min A B = 2 ^ l - 1)

theorem touching_eq {l A B : Nat} (hl : l ≤ 31) (hA : OnLv l A) (hB : OnLv l B) : touching A B l = some (touchN l A B) := by
  unfold touching
  have h1 := onLv_lt hA hl
  have h2 := onLv_lt hB hl
  rw [diff_eq (by omega) (by omega)]
  unfold touchN
  split
  · rename_i h; simp [h]
  · rename_i h
    refine (obind (numCellsInLevel_eq hl) _).trans ?_
    rw [subU_eq (lt_of_le_of_lt (two_pow_le hl) (by norm_num)) Nat.one_le_two_pow]
    simp only [Option.some.injEq]
    rw [Bool.eq_iff_iff]
    simp [h]

theorem touchN_refl (l A : Nat) : touchN l A A = true := by simp [touchN]

theorem touchN_comm (l A B : Nat) : touchN l A B = touchN l B A := by
  unfold touchN; rw [max_comm, min_comm]

end Angle

/-! ### index cells -/

/-- first index cell of layer `i` of `nl` layers (the layers are stored in reverse order) -/
def hOff (tgt : Nat → Nat) (nl i : Nat) : Nat := ∑ k ∈ Finset.Ico (i + 1) nl, 2 ^ tgt k

theorem hOff_prev {tgt : Nat → Nat} {nl i : Nat} (h : i + 1 < nl) : hOff tgt nl i = 2 ^ tgt (i + 1) + hOff tgt nl (i + 1) := by
  unfold hOff; rw [Finset.sum_eq_sum_Ico_succ_bot h]

theorem hOff_anti {tgt : Nat → Nat} {nl i j : Nat} (h : i ≤ j) : hOff tgt nl j ≤ hOff tgt nl i := by
  unfold hOff
  exact Finset.sum_le_sum_of_subset (Finset.Ico_subset_Ico (by omega) le_rfl)

/-- the number of index cells -/
def hTotal (tgt : Nat → Nat) (nl : Nat) : Nat := ∑ k ∈ Finset.range nl, 2 ^ tgt k

theorem hOff_last {tgt : Nat → Nat} {nl : Nat} : hOff tgt nl (nl - 1) = 0 := by
  unfold hOff; rw [Finset.Ico_eq_empty (by omega), Finset.sum_empty]

theorem hOff_zero {tgt : Nat → Nat} {nl : Nat} (h : 1 ≤ nl) : hOff tgt nl 0 + 2 ^ tgt 0 = hTotal tgt nl := by
  have h2 : ∑ k ∈ Finset.range nl, 2 ^ tgt k = 2 ^ tgt 0 + ∑ k ∈ Finset.Ico (0 + 1) nl, 2 ^ tgt k := by
    rw [Finset.range_eq_Ico]; exact Finset.sum_eq_sum_Ico_succ_bot (show 0 < nl by omega) _
  unfold hOff hTotal
  rw [h2, Nat.add_comm]

theorem hOff_le_prev {tgt : Nat → Nat} {nl i j : Nat} (h : j < i) (hi : i < nl) : hOff tgt nl i + 2 ^ tgt i ≤ hOff tgt nl j := by
  obtain ⟨i, rfl⟩ : ∃ k, i = k + 1 := ⟨i - 1, by omega⟩
  have h1 := hOff_prev (tgt := tgt) hi
  have h2 := hOff_anti (tgt := tgt) (nl := nl) (show j ≤ i by omega)
  omega

theorem hOff_le_total {tgt : Nat → Nat} {nl i : Nat} (hi : i < nl) : hOff tgt nl i + 2 ^ tgt i ≤ hTotal tgt nl := by
  rcases Nat.eq_zero_or_pos i with rfl | h
  · exact (hOff_zero (by omega)).le
  · have h1 := hOff_le_prev (tgt := tgt) h hi
    have h2 := hOff_zero (tgt := tgt) (nl := nl) (by omega)
    have := Nat.one_le_two_pow (n := tgt 0)
    omega

/-- What the constructor establishes about the data structure: `tgt i` is the target level of layer `i`, `pbl i j` the level on
which the layers `i` and `j` are compared, `nl` the number of layers before pruning. -/
structure HTreeOK {F : Type} (H : HTree F) (tgt : Nat → Nat) (pbl : Nat → Nat → Nat) (nl : Nat) : Prop where
  layers_pos : 1 ≤ H.layers
  layers_le : H.layers ≤ nl
  levels_eq : H.levels = tgt 0 + 1
  pbl_symm : ∀ i j, pbl i j = pbl j i
  pbl_left : ∀ i j, i < H.layers → j < H.layers → pbl i j ≤ tgt i
  pbl_top : ∀ i j, i < H.layers → j < H.layers → pbl i j ≤ tgt 0
  layerPairs_eq : H.layerPairs = (List.range H.levels).map fun l => (allLayerPairs H.layers).filter fun p => pbl p.1 p.2 = l
  length_layers : H.radiusLayers.length = H.layers
  layer_eq : ∀ (i : Nat) (rl : RadiusLayer F), H.radiusLayers[i]? = some rl → rl.target = tgt i ∧ rl.off = hOff tgt nl i
  total : hTotal tgt nl < 2147483648
  small : H.n < 2147483648
  id_perm : (H.points.map HPoint.id).Perm (List.range H.n)
  sorted : (H.points.map HPoint.cellId).Pairwise (· ≤ ·)
  cell_lt : ∀ x ∈ H.points, x.cellId < hTotal tgt nl
  cell_ge : ∀ x ∈ H.points, hOff tgt nl (H.layers - 1) ≤ x.cellId
  first_eq : H.firstInCell = (List.range (hTotal tgt nl + 1)).map fun c => (H.points.map HPoint.cellId).countP (· < c)

variable {F : Type} [CFloat F] {H : HTree F} {tgt : Nat → Nat} {pbl : Nat → Nat → Nat} {nl : Nat}

/-- point `x` belongs to layer `i`, and its cell on level `l` (not deeper than the target level) is `c` -/
def HIn (tgt : Nat → Nat) (nl : Nat) (x : HPoint F) (i l c : Nat) : Prop :=
  i < nl ∧ hOff tgt nl i ≤ x.cellId ∧ x.cellId < hOff tgt nl i + 2 ^ tgt i ∧ l ≤ tgt i ∧
    c + 1 = 2 ^ l + (x.cellId - hOff tgt nl i) / 2 ^ (tgt i - l)

theorem hdiv_cell {t l y : Nat} (hl : l ≤ t) (hy : y < 2 ^ t) : y / 2 ^ (t - l) < 2 ^ l := by
  rw [Nat.div_lt_iff_lt_mul (by positivity), ← pow_add]
  rwa [show l + (t - l) = t by omega]

theorem HIn.onLv {x : HPoint F} {i l c : Nat} (h : HIn tgt nl x i l c) : OnLv l c := by
  obtain ⟨_, h1, h2, h3, h4⟩ := h
  rw [onLv_iff, h4]
  have := hdiv_cell (y := x.cellId - hOff tgt nl i) h3 (by omega)
  generalize (x.cellId - hOff tgt nl i) / 2 ^ (tgt i - l) = y at *
  omega

theorem HIn.layer_eq {x : HPoint F} {i j l l' c c' : Nat} (h : HIn tgt nl x i l c) (h' : HIn tgt nl x j l' c') : i = j := by
  by_contra hne
  rcases Nat.lt_or_gt_of_ne hne with hlt | hlt
  · have := hOff_le_prev (tgt := tgt) hlt h'.1
    have := h.2.1; have := h'.2.2.1; omega
  · have := hOff_le_prev (tgt := tgt) hlt h.1
    have := h'.2.1; have := h.2.2.1; omega

theorem HIn.cell_eq {x : HPoint F} {i j l c c' : Nat} (h : HIn tgt nl x i l c) (h' : HIn tgt nl x j l c') : c = c' := by
  obtain rfl := h.layer_eq h'
  have := h.2.2.2.2; have := h'.2.2.2.2; omega

theorem HIn.exists_level {x : HPoint F} {i l c : Nat} (h : HIn tgt nl x i l c) {m : Nat} (hm : m ≤ tgt i) : ∃ c', HIn tgt nl x i m c' :=
  ⟨2 ^ m + (x.cellId - hOff tgt nl i) / 2 ^ (tgt i - m) - 1, h.1, h.2.1, h.2.2.1, hm, by
    have := Nat.one_le_two_pow (n := m)
    generalize (x.cellId - hOff tgt nl i) / 2 ^ (tgt i - m) = y
    omega⟩

theorem HIn.parent {x : HPoint F} {i l c : Nat} (h : HIn tgt nl x i (l + 1) c) : HIn tgt nl x i l ((c - 1) / 2) := by
  obtain ⟨h0, h1, h2, h3, h4⟩ := h
  refine ⟨h0, h1, h2, by omega, ?_⟩
  have e : (x.cellId - hOff tgt nl i) / 2 ^ (tgt i - l) = (x.cellId - hOff tgt nl i) / 2 ^ (tgt i - (l + 1)) / 2 := by
    rw [Nat.div_div_eq_div_mul, ← pow_succ]
    congr 2; omega
  rw [e]
  have e2 : 2 ^ (l + 1) = 2 * 2 ^ l := by ring
  rw [e2] at h4
  have := Nat.one_le_two_pow (n := l)
  generalize (x.cellId - hOff tgt nl i) / 2 ^ (tgt i - (l + 1)) = y at *
  generalize 2 ^ l = z at *
  omega

theorem HIn.child {x : HPoint F} {i l c : Nat} (h : HIn tgt nl x i l c) (hl : l + 1 ≤ tgt i) :
    ∃ c', HIn tgt nl x i (l + 1) c' ∧ 2 * c + 1 ≤ c' ∧ c' ≤ 2 * c + 2 := by
  obtain ⟨c', hc'⟩ := h.exists_level hl
  refine ⟨c', hc', ?_⟩
  have hc := hc'.parent.cell_eq h
  have h1 := (onLv_iff.1 hc'.onLv).1
  have : 2 ≤ 2 ^ (l + 1) := by rw [pow_succ]; have := Nat.one_le_two_pow (n := l); omega
  omega

namespace HTreeOK

theorem lt_nl (_ok : HTreeOK H tgt pbl nl) {i : Nat} (hi : i < H.layers) : i < nl := by have := _ok.layers_le; omega

theorem exists_layerN {c : Nat} : ∀ (m : Nat), m < nl → hOff tgt nl m ≤ c → c < hTotal tgt nl →
    ∃ i, i ≤ m ∧ hOff tgt nl i ≤ c ∧ c < hOff tgt nl i + 2 ^ tgt i := by
  intro m
  induction m with
  | zero => intro h h1 h2; exact ⟨0, le_rfl, h1, by rw [hOff_zero (by omega)]; exact h2⟩
  | succ m ih =>
    intro h h1 h2
    by_cases hc : c < hOff tgt nl (m + 1) + 2 ^ tgt (m + 1)
    · exact ⟨m + 1, le_rfl, h1, hc⟩
    · have := hOff_prev (tgt := tgt) h
      obtain ⟨i, hi, h3⟩ := ih (by omega) (by omega) h2
      exact ⟨i, by omega, h3⟩

theorem exists_hin (ok : HTreeOK H tgt pbl nl) {x : HPoint F} (hx : x ∈ H.points) : ∃ i, i < H.layers ∧ HIn tgt nl x i 0 0 := by
  have h0 := ok.layers_pos
  have h1 := ok.layers_le
  obtain ⟨i, hi, h2, h3⟩ := exists_layerN (tgt := tgt) (nl := nl) (H.layers - 1) (by omega) (ok.cell_ge x hx) (ok.cell_lt x hx)
  refine ⟨i, by omega, by omega, h2, h3, by omega, ?_⟩
  rw [Nat.sub_zero, Nat.div_eq_of_lt (by omega)]
  norm_num

theorem lt_layers (ok : HTreeOK H tgt pbl nl) {x : HPoint F} (hx : x ∈ H.points) {i l c : Nat} (h : HIn tgt nl x i l c) :
    i < H.layers := by
  obtain ⟨j, hj, h'⟩ := ok.exists_hin hx
  rw [h.layer_eq h']; exact hj

theorem target_le (ok : HTreeOK H tgt pbl nl) {i : Nat} (hi : i < nl) : tgt i ≤ 30 := by
  have h := hOff_le_total (tgt := tgt) hi
  have ht := ok.total
  by_contra hne
  have : 2 ^ 31 ≤ 2 ^ tgt i := two_pow_le (by omega)
  omega

theorem levels_le (ok : HTreeOK H tgt pbl nl) : H.levels ≤ 31 := by
  have := ok.target_le (i := 0) (by have := ok.layers_pos; have := ok.layers_le; omega)
  rw [ok.levels_eq]; omega

theorem length_points (ok : HTreeOK H tgt pbl nl) : H.points.length = H.n := by
  have := ok.id_perm.length_eq
  simpa using this

theorem rd_layers (ok : HTreeOK H tgt pbl nl) {i : Nat} (hi : i < H.layers) :
    ∃ rl : RadiusLayer F, rd H.radiusLayers i = some rl ∧ rl.target = tgt i ∧ rl.off = hOff tgt nl i := by
  have h : i < H.radiusLayers.length := by rw [ok.length_layers]; exact hi
  exact ⟨_, List.getElem?_eq_getElem h, ok.layer_eq i _ (List.getElem?_eq_getElem h)⟩

theorem rd_first (ok : HTreeOK H tgt pbl nl) {c : Nat} (hc : c ≤ hTotal tgt nl) :
    rd H.firstInCell c = some ((H.points.map HPoint.cellId).countP (· < c)) := by
  rw [rd, ok.first_eq, List.getElem?_map, List.getElem?_range (by omega)]
  rfl

theorem levelledCell_eq {rl : RadiusLayer F} {A l : Nat} (ht : rl.target ≤ 30) (hl : l ≤ rl.target) (hA : OnLv l A) :
    rl.levelledCell A l = some ((A + 1 - 2 ^ l) * 2 ^ (rl.target - l), (A + 1 - 2 ^ l) * 2 ^ (rl.target - l) + 2 ^ (rl.target - l) - 1) ∧
      (A + 1 - 2 ^ l) * 2 ^ (rl.target - l) + 2 ^ (rl.target - l) ≤ 2 ^ rl.target := by
  have hA' := onLv_iff.1 hA
  have hlt := onLv_lt hA (by omega)
  have h1 : 1 ≤ 2 ^ l := Nat.one_le_two_pow
  have hle : (A + 1 - 2 ^ l) * 2 ^ (rl.target - l) + 2 ^ (rl.target - l) ≤ 2 ^ rl.target := by
    have h3 : (A + 1 - 2 ^ l + 1) * 2 ^ (rl.target - l) ≤ 2 ^ l * 2 ^ (rl.target - l) := Nat.mul_le_mul_right _ (by omega)
    rw [← pow_add, show l + (rl.target - l) = rl.target by omega, Nat.add_mul, Nat.one_mul] at h3
    exact h3
  refine ⟨?_, hle⟩
  have hp : 2 ^ rl.target ≤ 2 ^ 30 := two_pow_le ht
  have h2 : 1 ≤ 2 ^ (rl.target - l) := Nat.one_le_two_pow
  unfold RadiusLayer.levelledCell
  refine (obind (a := 2 ^ (rl.target - l)) (by rw [subU_eq (by omega) hl]; exact Angle.numCellsInLevel_eq (by omega)) _).trans ?_
  refine (obind (Angle.firstCellOfLevel_eq (l := l) (by omega)) _).trans ?_
  have e1 : subU A (2 ^ l - 1) = A + 1 - 2 ^ l := by rw [subU_eq (by omega) (by omega)]; omega
  simp only [e1]
  generalize (A + 1 - 2 ^ l) * 2 ^ (rl.target - l) = x at hle ⊢
  generalize 2 ^ (rl.target - l) = y at hle h2 ⊢
  generalize 2 ^ rl.target = z at hle hp
  rw [u32_eq (x := x) (by omega), u32_eq (x := x + y) (by omega), subU_eq (by omega) (by omega)]

/-- `cellIterators`, `pointsInCell` and `kthPoint`, and what they enumerate -/
theorem cells_spec (ok : HTreeOK H tgt pbl nl) {i l A : Nat} (hi : i < H.layers) (hl : l ≤ tgt i) (hA : OnLv l A) :
    ∃ rl b e, rd H.radiusLayers i = some rl ∧ rl.cellIterators H.firstInCell A l = some (b, e) ∧
      rl.pointsInCell H.firstInCell A l = some (e - b) ∧ (∀ k, rl.kthPos H.firstInCell A l k = some (b + k)) ∧
      b ≤ e ∧ e ≤ H.n ∧ ∀ p x, H.points[p]? = some x → (b ≤ p ∧ p < e ↔ HIn tgt nl x i l A) := by
  obtain ⟨rl, hrl, htg, hoff⟩ := ok.rd_layers hi
  have hin := ok.lt_nl hi
  obtain ⟨h1, h2⟩ := levelledCell_eq (rl := rl) (A := A) (l := l) (by rw [htg]; exact ok.target_le hin) (by rw [htg]; exact hl) hA
  rw [htg] at h1 h2
  set lo := (A + 1 - 2 ^ l) * 2 ^ (tgt i - l) with hlo
  set w := 2 ^ (tgt i - l) with hw
  have h3 : 1 ≤ w := Nat.one_le_two_pow
  have htot := hOff_le_total (tgt := tgt) hin
  have hlt := ok.total
  have e1 : u32 (lo + w - 1 + 1) = lo + w := by
    rw [Nat.sub_add_cancel (by omega)]
    exact u32_eq (by omega)
  have hmono := countP_lt_mono (H.points.map HPoint.cellId) (show hOff tgt nl i + lo ≤ hOff tgt nl i + (lo + w) by omega)
  have hen : (H.points.map HPoint.cellId).countP (· < hOff tgt nl i + (lo + w)) ≤ H.n := by
    rw [← ok.length_points, ← List.length_map (f := HPoint.cellId) (as := H.points)]; exact List.countP_le_length
  have hsm := ok.small
  refine ⟨rl, _, _, hrl, ?_, ?_, ?_, hmono, hen, ?_⟩
  · unfold RadiusLayer.cellIterators
    refine (obind h1 _).trans ?_
    simp only [e1, hoff]
    refine (obind (ok.rd_first (c := hOff tgt nl i + lo) (by omega)) _).trans ?_
    refine (obind (ok.rd_first (c := hOff tgt nl i + (lo + w)) (by omega)) _).trans ?_
    rfl
  · unfold RadiusLayer.pointsInCell
    refine (obind h1 _).trans ?_
    simp only [e1, hoff]
    refine (obind (ok.rd_first (c := hOff tgt nl i + (lo + w)) (by omega)) _).trans ?_
    refine (obind (ok.rd_first (c := hOff tgt nl i + lo) (by omega)) _).trans ?_
    rw [subU_eq (by omega) hmono]
  · intro k
    unfold RadiusLayer.kthPos
    refine (obind h1 _).trans ?_
    simp only [hoff]
    refine (obind (ok.rd_first (c := hOff tgt nl i + lo) (by omega)) _).trans ?_
    rfl
  · intro p x hx
    have hx' : (H.points.map HPoint.cellId)[p]? = some x.cellId := by rw [List.getElem?_map, hx]; rfl
    have ha := lt_countP_iff ok.sorted (hOff tgt nl i + lo) p _ hx'
    have hb := lt_countP_iff ok.sorted (hOff tgt nl i + (lo + w)) p _ hx'
    rw [hb, ← not_lt, ha, not_lt]
    have hwpos : 0 < w := h3
    have hAl := (onLv_iff.1 hA).1
    have h1l : 1 ≤ 2 ^ l := Nat.one_le_two_pow
    constructor
    · rintro ⟨ha', hb'⟩
      refine ⟨hin, by omega, by omega, hl, ?_⟩
      rw [← hw]
      have : (x.cellId - hOff tgt nl i) / w = A + 1 - 2 ^ l := by
        rw [Nat.div_eq_iff hwpos]; constructor <;> omega
      omega
    · rintro ⟨_, h5, h6, _, h7⟩
      rw [← hw] at h7
      have : (x.cellId - hOff tgt nl i) / w = A + 1 - 2 ^ l := by omega
      rw [Nat.div_eq_iff hwpos] at this
      constructor <;> omega

end HTreeOK
end Girgs
