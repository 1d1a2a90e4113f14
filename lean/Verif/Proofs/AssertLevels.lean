import Verif.Model.Asserts
import Verif.Proofs.Threshold
/-
The assertions of `weightLayerTargetLevel` and `partitioningBaseLevel` hold in exact arithmetic.
-/
namespace Girgs
open CFloat Build Spec

/-- all assertions of a list hold -/
def AllHold (L : List Check) : Prop := ∀ c ∈ L, c.holds = true

theorem AllHold.append {L M : List Check} (h : AllHold L) (h' : AllHold M) : AllHold (L ++ M) := by
  intro c hc
  rcases List.mem_append.1 hc with hc | hc
  · exact h c hc
  · exact h' c hc

theorem allHold_nil : AllHold [] := by intro c hc; cases hc

theorem AllHold.flatMap {α : Type} {L : List α} {f : α → List Check} (h : ∀ a ∈ L, AllHold (f a)) : AllHold (L.flatMap f) := by
  intro c hc
  obtain ⟨a, ha, hc⟩ := List.mem_flatMap.1 hc
  exact h a ha c hc

theorem AllHold.concatM {α : Type} {f : α → Option (List Check)} {L : List α}
    (h : ∀ a ∈ L, ∃ l, f a = some l ∧ AllHold l) : ∃ l, Tree.concatM L f = some l ∧ AllHold l := by
  induction L with
  | nil => exact ⟨[], rfl, allHold_nil⟩
  | cons a L ih =>
    obtain ⟨l, h1, h2⟩ := h a (by simp)
    obtain ⟨l', h3, h4⟩ := ih (fun b hb => h b (by simp [hb]))
    refine ⟨l ++ l', ?_, h2.append h4⟩
    show (f a >>= fun x => Tree.concatM L f >>= fun y => some (x ++ y)) = _
    rw [obind h1, obind h3]

/-- the level chosen for a volume of order `2^e * m^2 / W` -/
theorem level_volume {D : Nat} (hD : 1 ≤ D) {blc : Int} {m W : ℝ} (hm : 0 < m) (hW : 0 < W)
    (low : 0 < blc → (2 : ℝ) ^ blc * m ^ 2 ≤ W) (high : 0 ≤ blc → W < (2 : ℝ) ^ (blc + 1) * m ^ 2)
    (nonneg : m ^ 2 ≤ W → 0 ≤ blc) {e : Int} (he : 1 ≤ e) :
    ((2 : ℝ) ^ e * m ^ 2 / W ≤ (2 : ℝ) ^ (-(imax (cdiv (blc - e) D) 0) * D : Int) ∨ 1 ≤ (2 : ℝ) ^ e * m ^ 2 / W) ∧
    (2 : ℝ) ^ (-(imax (cdiv (blc - e) D) 0 + 1) * D : Int) < (2 : ℝ) ^ e * m ^ 2 / W := by
  have h2 : (1 : ℝ) < 2 := by norm_num
  have hm2 : 0 < m ^ 2 := by positivity
  have hD' : (1 : Int) ≤ D := by exact_mod_cast hD
  set r := imax (cdiv (blc - e) D) 0 with hr
  have hr' : r = max ((blc - e).tdiv D) 0 := by rw [hr, Coord.imax_eq]; rfl
  have hr0 : 0 ≤ r := by rw [hr']; exact le_max_right _ _
  have hlt : blc - e < (r + 1) * D := by
    rcases le_or_gt 0 (blc - e) with h | h
    · have h1 : (blc - e).tdiv D ≤ r := by rw [hr']; exact le_max_left _ _
      have h3 := Int.tmod_lt_of_pos (blc - e) (show (0 : Int) < D by omega)
      have h4 := Int.mul_tdiv_add_tmod (blc - e) D
      nlinarith
    · nlinarith
  constructor
  · rcases eq_or_lt_of_le hr0 with h | h
    · rw [← h]
      simp only [neg_zero, zero_mul, zpow_zero]
      exact le_total _ _
    · left
      have hpos : 0 < (blc - e).tdiv D := by rw [hr'] at h; omega
      have hb : 0 ≤ blc - e := by
        by_contra hc
        have h0 := Int.tdiv_nonneg (a := -(blc - e)) (b := (D : Int)) (by omega) (by omega)
        rw [Int.neg_tdiv] at h0; omega
      have hre : r = (blc - e).tdiv D := by rw [hr']; omega
      have hmul : (D : Int) * r ≤ blc - e := by rw [hre]; exact Int.mul_tdiv_self_le hb
      rw [div_le_iff₀ hW]
      calc (2 : ℝ) ^ e * m ^ 2 = (2 : ℝ) ^ (e - blc) * ((2 : ℝ) ^ blc * m ^ 2) := by
            rw [← mul_assoc, ← zpow_add₀ (by norm_num), sub_add_cancel]
        _ ≤ (2 : ℝ) ^ (e - blc) * W := mul_le_mul_of_nonneg_left (low (by omega)) (by positivity)
        _ ≤ (2 : ℝ) ^ (-r * D : Int) * W := by
            refine mul_le_mul_of_nonneg_right ((zpow_le_zpow_iff_right₀ h2).2 ?_) hW.le
            linarith
  · rw [lt_div_iff₀ hW]
    rcases le_or_gt 0 blc with hb | hb
    · calc (2 : ℝ) ^ (-(r + 1) * D : Int) * W < (2 : ℝ) ^ (-(r + 1) * D : Int) * ((2 : ℝ) ^ (blc + 1) * m ^ 2) :=
            mul_lt_mul_of_pos_left (high hb) (by positivity)
        _ = (2 : ℝ) ^ (-(r + 1) * D + (blc + 1) : Int) * m ^ 2 := by
            rw [← mul_assoc, ← zpow_add₀ (by norm_num)]
        _ ≤ (2 : ℝ) ^ e * m ^ 2 := by
            refine mul_le_mul_of_nonneg_right ((zpow_le_zpow_iff_right₀ h2).2 ?_) hm2.le
            linarith
    · have hWm : W < m ^ 2 := by
        by_contra hc
        have := nonneg (not_lt.1 hc); omega
      have h3 : (2 : ℝ) ^ (-(r + 1) * D : Int) ≤ 1 := by
        rw [show (1 : ℝ) = (2 : ℝ) ^ (0 : Int) from (zpow_zero _).symm]
        exact (zpow_le_zpow_iff_right₀ h2).2 (by nlinarith)
      have h4 : (1 : ℝ) ≤ (2 : ℝ) ^ e := by
        rw [show (1 : ℝ) = (2 : ℝ) ^ (0 : Int) from (zpow_zero _).symm]
        exact (zpow_le_zpow_iff_right₀ h2).2 (by omega)
      calc (2 : ℝ) ^ (-(r + 1) * D : Int) * W ≤ 1 * W := mul_le_mul_of_nonneg_right h3 hW.le
        _ < 1 * m ^ 2 := by linarith
        _ ≤ (2 : ℝ) ^ e * m ^ 2 := mul_le_mul_of_nonneg_right h4 hm2.le

theorem XR.fle_fin {a b : ℝ} : Asserts.fle (XR.fin a) (XR.fin b) = decide (a ≤ b) := by
  unfold Asserts.fle
  show (decide (a < b) || decide (a = b)) = _
  rw [← Bool.decide_or]
  congr 1
  exact propext le_iff_lt_or_eq.symm

theorem volume_fin (D : Nat) (r : Int) (k : Int) :
    Asserts.volume (F := XR) D r k = XR.fin ((2 : ℝ) ^ (-(r + k) * D : Int)) := by
  unfold Asserts.volume
  have e : CFloat.neg (ofInt r +. ofRat (k : ℚ)) *. ofNat D = XR.fin (((-(r + k) * D : Int)) : ℝ) := by
    simp only [XR.ofInt_eq, XR.ofNat_eq, XR.ofRat_eq, XR.add_fin, XR.neg_fin, XR.mul_fin]
    push_cast; rfl
  rw [e, XR.ofRat_eq, XR.pow_fin _ _ (by norm_num), Real.rpow_intCast]
  norm_num

theorem pow2_fin (k : Int) : CFloat.pow (ofRat 2) (ofInt k) = XR.fin ((2 : ℝ) ^ k) := by
  rw [XR.ofRat_eq, XR.ofInt_eq, XR.pow_fin _ _ (by norm_num), Real.rpow_intCast]
  norm_num

/-- what the level assertions need from the members of the tree -/
structure LevelFacts (D : Nat) (w0 W : XR) (blc : Int) (layers levels : Nat) : Prop where
  facts : ∃ m S : ℝ, 0 < m ∧ 0 < S ∧ w0 = XR.fin m ∧ W = XR.fin S ∧ (0 < blc → (2 : ℝ) ^ blc * m ^ 2 ≤ S) ∧
    (0 ≤ blc → S < (2 : ℝ) ^ (blc + 1) * m ^ 2) ∧ (m ^ 2 ≤ S → 0 ≤ blc)
  D1 : 1 ≤ D
  levels_eq : levels = partitioningBaseLevel D blc 0 0 + 1

variable {D : Nat} {w0 W : XR} {blc : Int} {layers levels : Nat}

theorem LevelFacts.base (f : LevelFacts D w0 W blc layers levels) {i j : Nat} (hi : i < layers) (hj : j < layers) :
    AllHold (Asserts.baseLevel D w0 W blc layers i j) := by
  obtain ⟨m, S, hm, hS, rfl, rfl, low, high, nn⟩ := f.facts
  have key := level_volume f.D1 hm hS low high nn (e := i + j + 2) (by omega)
  have e1 : blc - (i : Int) - (j : Int) - 2 = blc - ((i : Int) + j + 2) := by ring
  have hq : XR.fin m *. CFloat.pow (ofRat 2) (ofInt ((i : Int) + 1)) *. XR.fin m *. CFloat.pow (ofRat 2) (ofInt ((j : Int) + 1)) /. XR.fin S
      = XR.fin ((2 : ℝ) ^ ((i : Int) + j + 2) * m ^ 2 / S) := by
    rw [pow2_fin, pow2_fin]
    simp only [XR.mul_fin]
    rw [XR.div_fin _ _ hS.ne']
    congr 2
    have e : (2 : ℝ) ^ ((i : Int) + j + 2) = 2 ^ ((i : Int) + 1) * 2 ^ ((j : Int) + 1) := by
      rw [← zpow_add₀ (by norm_num)]; congr 1; ring
    rw [e]
    generalize (2 : ℝ) ^ ((i : Int) + 1) = a
    generalize (2 : ℝ) ^ ((j : Int) + 1) = b
    ring
  unfold Asserts.baseLevel
  simp only [e1, hq]
  set r := imax (cdiv (blc - ((i : Int) + j + 2)) D) 0 with hr
  have v0 : Asserts.volume (F := XR) D r 0 = XR.fin ((2 : ℝ) ^ (-r * D : Int)) := by
    have := volume_fin D r 0; simpa using this
  have v1 : Asserts.volume (F := XR) D r 1 = XR.fin ((2 : ℝ) ^ (-(r + 1) * D : Int)) := by
    have := volume_fin D r 1; simpa using this
  rw [v0, v1, XR.ofRat_eq]
  intro c hc
  simp only [List.mem_cons, List.not_mem_nil, or_false] at hc
  rcases hc with rfl | rfl | rfl | rfl
  · simp [Asserts.tree, hi]
  · simp [Asserts.tree, hj]
  · simp only [Asserts.tree, XR.fle_fin, Bool.or_eq_true, decide_eq_true_eq]
    simpa using key.1
  · simp only [Asserts.tree]
    exact XR.lt_fin _ _ ▸ decide_eq_true key.2

theorem LevelFacts.target (f : LevelFacts D w0 W blc layers levels) {i : Nat} (hi : i < layers) :
    AllHold (Asserts.targetLevel D w0 W blc layers levels i) := by
  obtain ⟨m, S, hm, hS, rfl, rfl, low, high, nn⟩ := f.facts
  have key := level_volume f.D1 hm hS low high nn (e := i + 1) (by omega)
  have e1 : blc - (i : Int) - 1 = blc - ((i : Int) + 1) := by ring
  have hq : XR.fin m *. XR.fin m *. CFloat.pow (ofRat 2) (ofInt ((i : Int) + 1)) /. XR.fin S
      = XR.fin ((2 : ℝ) ^ ((i : Int) + 1) * m ^ 2 / S) := by
    rw [pow2_fin]
    simp only [XR.mul_fin]
    rw [XR.div_fin _ _ hS.ne']
    congr 2
    ring
  unfold Asserts.targetLevel
  simp only [e1, hq]
  have hlev : imax (cdiv (blc - ((i : Int) + 1)) D) 0 ≤ levels := by
    have hD' : (1 : Int) ≤ D := by exact_mod_cast f.D1
    rw [f.levels_eq]
    unfold partitioningBaseLevel cdiv
    rw [Coord.imax_eq, Coord.imax_eq]
    have h1 : (blc - ((i : Int) + 1)).tdiv D ≤ (blc - 2 + D).tdiv D := Int.tdiv_le_tdiv (by omega) (by omega)
    have e2 : blc - ((0 : Nat) : Int) - ((0 : Nat) : Int) - 2 = blc - 2 := by simp
    rw [e2]
    rcases le_or_gt 0 (blc - 2) with h | h
    · have h2 : (blc - 2 + D).tdiv D = (blc - 2).tdiv D + 1 := by
        rw [Int.tdiv_eq_ediv_of_nonneg (by omega), Int.tdiv_eq_ediv_of_nonneg h, Int.add_ediv_of_dvd_right (Int.dvd_refl _),
          Int.ediv_self (by omega)]
      omega
    · have h2 : (blc - 2 + D).tdiv D ≤ (0 + D : Int).tdiv D := Int.tdiv_le_tdiv (by omega) (by omega)
      rw [zero_add, Int.tdiv_self (by omega)] at h2
      omega
  set r := imax (cdiv (blc - ((i : Int) + 1)) D) 0 with hr
  have hr0 : 0 ≤ r := by rw [hr, Coord.imax_eq]; exact le_max_right _ _
  have v0 : Asserts.volume (F := XR) D r 0 = XR.fin ((2 : ℝ) ^ (-r * D : Int)) := by
    have := volume_fin D r 0; simpa using this
  have v1 : Asserts.volume (F := XR) D r 1 = XR.fin ((2 : ℝ) ^ (-(r + 1) * D : Int)) := by
    have := volume_fin D r 1; simpa using this
  rw [v0, v1, XR.ofRat_eq]
  intro c hc
  simp only [List.mem_cons, List.not_mem_nil, or_false] at hc
  rcases hc with rfl | rfl | rfl | rfl
  · simp [Asserts.tree, hi]
  · simp only [Asserts.tree, decide_eq_true_eq]; exact ⟨hr0, hlev⟩
  · simp only [Asserts.tree, XR.fle_fin, Bool.or_eq_true, decide_eq_true_eq]
    simpa using key.1
  · simp only [Asserts.tree]
    exact XR.lt_fin _ _ ▸ decide_eq_true key.2

end Girgs
