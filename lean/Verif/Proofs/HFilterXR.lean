import Verif.Proofs.HConstructXR
import Verif.Proofs.HGenerate
import Verif.Proofs.Wrapper
import Verif.Spec.UnitRng
/-!
The distance filter and the start level in exact arithmetic.
-/
namespace Girgs
open Real Spec CFloat HBuild

/-- the distance at which the connection probability is `q` -/
noncomputable def invProb (q R T : ℝ) : ℝ := R + 2 * T * Real.log (1 / q - 1)

/-- entry `i` of the table -/
noncomputable def stageX (p R T : ℝ) (i : ℕ) : XR :=
  if i = 0 then XR.pinf else if i < 100 then XR.fin (Real.cosh (invProb (p / 100 * i) R T)) else XR.fin 1

theorem invConnectionProb_XR {q R T : ℝ} (h0 : 0 < q) (h1 : q < 1) :
    DistFilter.invConnectionProb (XR.fin q) (XR.fin R) (XR.fin T) = XR.fin (invProb q R T) := by
  unfold DistFilter.invConnectionProb invProb
  rw [XR.ofRat_eq, XR.ofRat_eq, XR.div_fin _ _ h0.ne', XR.sub_fin, XR.log_fin, XR.mul_fin, XR.mul_fin, XR.add_fin]
  · push_cast; rfl
  · push_cast
    rw [sub_pos, lt_div_iff₀ h0]; linarith

theorem stages_XR {p R T : ℝ} (h0 : 0 < p) (h1 : p ≤ 1) {i : ℕ} (hi : i ≤ 100) :
    (DistFilter.make (XR.fin p) (XR.fin R) (XR.fin T)).stages[i]? = some (stageX p R T i) := by
  unfold DistFilter.make stageX
  simp only
  rcases Nat.eq_zero_or_pos i with rfl | hpos
  · simp
  · rw [if_neg (by omega)]
    obtain ⟨j, rfl⟩ : ∃ j, i = j + 1 := ⟨i - 1, by omega⟩
    rw [List.cons_append, List.getElem?_cons_succ]
    by_cases hj : j < 99
    · rw [List.getElem?_append_left (by simpa using hj), if_pos (by omega), List.getElem?_map, List.getElem?_range' hj]
      simp only [Option.map_some, Option.some.injEq, one_mul]
      have hq0 : 0 < p / 100 * ((j + 1 : ℕ) : ℝ) := by positivity
      have hj' : ((j + 1 : ℕ) : ℝ) < 100 := by exact_mod_cast (by omega : j + 1 < 100)
      have hq1 : p / 100 * ((j + 1 : ℕ) : ℝ) < 1 := by nlinarith
      rw [XR.ofRat_eq, XR.ofNat_eq, XR.div_fin _ _ (by norm_num), XR.mul_fin]
      have e : p / ((100 : ℚ) : ℝ) * ((1 + j : ℕ) : ℝ) = p / 100 * ((j + 1 : ℕ) : ℝ) := by push_cast; ring
      rw [e, invConnectionProb_XR hq0 hq1, XR.cosh_fin]
    · rw [if_neg (by omega), List.getElem?_append_right (by simpa using hj)]
      have : j = 99 := by omega
      subst this
      simp

theorem lookup_XR {p R T x : ℝ} (h0 : 0 < p) (h1 : p ≤ 1) (hx0 : 0 ≤ x) (hx1 : x < p) :
    (DistFilter.make (XR.fin p) (XR.fin R) (XR.fin T)).upper (XR.fin x) = some (stageX p R T ⌊100 / p * x⌋.toNat) ∧
    (DistFilter.make (XR.fin p) (XR.fin R) (XR.fin T)).lower (XR.fin x) = some (stageX p R T ⌈100 / p * x⌉.toNat) := by
  have hy0 : 0 ≤ 100 / p * x := by positivity
  have hy1 : 100 / p * x < 100 := by
    rw [div_mul_eq_mul_div, div_lt_iff₀ h0]; linarith
  have hf0 : 0 ≤ ⌊100 / p * x⌋ := Int.floor_nonneg.2 hy0
  have hf1 : ⌊100 / p * x⌋ < 100 := by rw [Int.floor_lt]; exact_mod_cast hy1
  have hc0 : 0 ≤ ⌈100 / p * x⌉ := Int.ceil_nonneg hy0
  have hc1 : ⌈100 / p * x⌉ ≤ 100 := by rw [Int.ceil_le]; exact_mod_cast hy1.le
  have hw : (DistFilter.make (XR.fin p) (XR.fin R) (XR.fin T)).stageWidth *. XR.fin x = XR.fin (100 / p * x) := by
    unfold DistFilter.make
    simp only
    rw [XR.ofRat_eq, XR.div_fin _ _ h0.ne', XR.mul_fin]
    push_cast; rfl
  constructor
  · unfold DistFilter.upper
    rw [hw]
    refine (obind (toI32_nonneg hy0 (by linarith)) _).trans ?_
    rw [if_neg (by omega)]
    exact stages_XR h0 h1 (by omega)
  · unfold DistFilter.lower
    rw [hw, XR.ceil_fin]
    refine (obind (toI32_nonneg (by exact_mod_cast hc0) (by
      have : (⌈100 / p * x⌉ : ℝ) ≤ 100 := by exact_mod_cast hc1
      linarith)) _).trans ?_
    rw [Int.floor_intCast, if_neg (by omega)]
    exact stages_XR h0 h1 (by omega)


theorem hProb_pos (d R T : ℝ) : 0 < hypProb d R T := by unfold hypProb; positivity

theorem hProb_lt_one (d R T : ℝ) : hypProb d R T < 1 := by
  unfold hypProb
  have := Real.exp_pos ((d - R) / (2 * T))
  rw [div_lt_one (by positivity)]; linarith

theorem probRec_XR {d R T : ℝ} (hT : 0 < T) : HTree.probRec (XR.fin R) (XR.fin T) (XR.fin d) = XR.fin (1 + Real.exp ((d - R) / (2 * T))) := by
  unfold HTree.probRec
  rw [XR.ofRat_eq, XR.ofRat_eq, XR.div_fin _ _ hT.ne', XR.sub_fin, XR.mul_fin, XR.exp_fin, XR.add_fin]
  congr 1
  push_cast
  congr 2
  field_simp

theorem oneDiv_probRec_XR {d R T : ℝ} (hT : 0 < T) :
    CFloat.ofRat 1 /. HTree.probRec (XR.fin R) (XR.fin T) (XR.fin d) = XR.fin (hypProb d R T) := by
  rw [probRec_XR hT, XR.ofRat_eq, XR.div_fin _ _ (by positivity)]
  unfold hypProb; push_cast; rfl

theorem hProb_anti {d e R T : ℝ} (hT : 0 < T) (h : d ≤ e) : hypProb e R T ≤ hypProb d R T := by
  unfold hypProb
  have h1 : Real.exp ((d - R) / (2 * T)) ≤ Real.exp ((e - R) / (2 * T)) := Real.exp_le_exp.2 (by gcongr)
  have := Real.exp_pos ((d - R) / (2 * T))
  gcongr

/-- accepting: `x < prob` iff the distance is below the inverse -/
theorem lt_hProb_iff {d R T x : ℝ} (hT : 0 < T) (h0 : 0 < x) (h1 : x < 1) : x < hypProb d R T ↔ d < invProb x R T := by
  unfold hypProb invProb
  have hE := Real.exp_pos ((d - R) / (2 * T))
  have hy : 0 < 1 / x - 1 := by rw [sub_pos, lt_div_iff₀ h0]; linarith
  rw [lt_div_iff₀ (by positivity)]
  have e1 : x * (1 + Real.exp ((d - R) / (2 * T))) < 1 ↔ Real.exp ((d - R) / (2 * T)) < 1 / x - 1 := by
    rw [lt_sub_iff_add_lt, lt_div_iff₀ h0, mul_comm, add_comm]
  rw [e1, ← Real.lt_log_iff_exp_lt hy, div_lt_iff₀ (by positivity)]
  constructor <;> intro h <;> linarith

/-- the filter chosen for a pair of layers and a level -/
theorem filterPair_XR {R T r s : ℝ} (hT : 0 < T) {l : ℕ} (hl : l ≤ 30) :
    ∃ b1 b2, Angle.cellsBetween (2 ^ l - 1) (2 ^ l - 1 + 2) l = some b1 ∧ Angle.cellsBetween (2 ^ l - 1) (2 ^ l - 1 + 3) l = some b2 ∧
      filterPair (XR.fin R) (XR.fin T) (XR.fin r) (XR.fin s) l =
        some (DistFilter.make (XR.fin (hypProb (arcosh (max 1 (hc r s (b1 * 2 * π / 2 ^ l)))) R T)) (XR.fin R) (XR.fin T),
          DistFilter.make (XR.fin (hypProb (arcosh (max 1 (hc r s (b2 * 2 * π / 2 ^ l)))) R T)) (XR.fin R) (XR.fin T)) := by
  have hp1 : 1 ≤ 2 ^ l := Nat.one_le_two_pow
  have hp2 : 2 ^ l ≤ 2 ^ 30 := Nat.pow_le_pow_right (by norm_num) hl
  have hcb : ∀ A B, ∃ b, Angle.cellsBetween A B l = some b := by
    intro A B
    unfold Angle.cellsBetween
    exact ⟨_, (obind (Angle.numCellsInLevel_eq (by omega)) _).trans rfl⟩
  obtain ⟨b1, hb1⟩ := hcb (2 ^ l - 1) (2 ^ l - 1 + 2)
  obtain ⟨b2, hb2⟩ := hcb (2 ^ l - 1) (2 ^ l - 1 + 3)
  refine ⟨b1, b2, hb1, hb2, ?_⟩
  have hdist : ∀ A B b, Angle.cellsBetween A B l = some b → Angle.dist (F := XR) A B l = some (XR.fin (b * 2 * π / 2 ^ l)) := by
    intro A B b hb
    unfold Angle.dist
    refine (obind hb _).trans ?_
    have hs : shl1 l = some ((2 : ℤ) ^ l) := by
      unfold shl1
      rw [if_pos (by omega)]
    refine (obind hs _).trans ?_
    rw [XR.ofRat_eq, XR.ofNat_eq, XR.pi_eq, XR.ofInt_eq, XR.mul_fin, XR.mul_fin, XR.div_fin _ _ (by push_cast; positivity)]
    push_cast; rfl
  unfold filterPair
  refine (obind (Angle.firstCellOfLevel_eq (by omega)) _).trans ?_
  rw [u32_eq (by omega), u32_eq (by omega)]
  refine (obind (hdist _ _ _ hb1) _).trans ?_
  refine (obind (hdist _ _ _ hb2) _).trans ?_
  simp only [XR.ofRat_eq ((0 : ℚ)), hyperbolicDistance_XR]
  rw [oneDiv_probRec_XR hT, oneDiv_probRec_XR hT]
  simp only [Rat.cast_zero, zero_sub, hc_neg]

/-- the structure built from supported input -/
abbrev HBuiltX (ndebug : Bool) (radii angles : List ℝ) (T R : ℝ) (H : HTree XR) : Prop :=
  HBuilt ndebug (xw radii) (xw angles) (XR.fin T) (XR.fin R) ⌈R⌉.toNat (htgt R) (hpair R) H

variable {ndebug : Bool} {radii angles : List ℝ} {T R : ℝ} {H : HTree XR}

theorem HConstructed.builtX (hc : HConstructed ndebug (xw radii) (xw angles) (XR.fin T) (XR.fin R) H)
    (hin : HypInput radii angles T R) : HBuiltX ndebug radii angles T R H := hc.built (HypInput.inputOK hin)

theorem HBuiltX.tZero_iff (b : HBuiltX ndebug radii angles T R H) : H.tZero = decide (T = 0) := by
  unfold HTree.tZero
  rw [b.T_eq, XR.ofRat_eq, XR.eq_fin]
  push_cast; rfl

theorem HBuiltX.threshold_iff (b : HBuiltX ndebug radii angles T R H) :
    H.inThresholdMode = decide (T ≤ 1 / 4503599627370496) := by
  unfold HTree.inThresholdMode fle
  rw [b.T_eq, XR.ofRat_eq, XR.eq_fin, XR.lt_fin, ← Bool.decide_or]
  apply decide_eq_decide.2
  rw [le_iff_lt_or_eq]
  push_cast; rfl

/-- the type II filters of the built structure -/
theorem HBuiltX.filter (b : HBuiltX ndebug radii angles T R H) (hT : 0 < T) {i j l : ℕ} (hi : i < H.layers) (hj : j < H.layers) (h2 : 2 ≤ l)
    (hl : l ≤ hpair R i j) : ∃ row b1 b2, H.filterII[i * H.layers + j]? = some row ∧
      Angle.cellsBetween (2 ^ l - 1) (2 ^ l - 1 + 2) l = some b1 ∧ Angle.cellsBetween (2 ^ l - 1) (2 ^ l - 1 + 3) l = some b2 ∧
      row[l - 2]? = some
        (DistFilter.make (XR.fin (hypProb (arcosh (max 1 (hc (R - i - 1) (R - j - 1) (b1 * 2 * π / 2 ^ l)))) R T)) (XR.fin R) (XR.fin T),
          DistFilter.make (XR.fin (hypProb (arcosh (max 1 (hc (R - i - 1) (R - j - 1) (b2 * 2 * π / 2 ^ l)))) R T)) (XR.fin R) (XR.fin T)) := by
  have hz : H.tZero = false := by rw [b.tZero_iff, decide_eq_false_iff_not]; exact hT.ne'
  obtain ⟨row, p, h3, h4, h5⟩ := b.filt hz i j l hi hj h2 hl
  have h30 : l ≤ 30 := by
    have h1 := b.ok.pbl_top i j hi hj
    have h2 := b.ok.levels_le
    have h3 := b.ok.levels_eq
    omega
  rw [radMin_XR, radMin_XR] at h5
  obtain ⟨b1, b2, h6, h7, h8⟩ := filterPair_XR (R := R) (r := R - i - 1) (s := R - j - 1) hT h30
  rw [h8, Option.some.injEq] at h5
  exact ⟨row, b1, b2, h3, h6, h7, by rw [h4, ← h5]⟩

theorem HBuiltX.draws (b : HBuiltX ndebug radii angles T R H) (hT : 0 ≤ T) {rng : Tree.Rng XR} (u : UnitRng rng) : HDraws H rng := by
  constructor
  · intro hm g
    obtain ⟨x, e, h0, h1⟩ := u.uniform g
    rw [e, b.filterI_eq, XR.ofRat_eq, Rat.cast_one]
    obtain ⟨h2, h3⟩ := lookup_XR (R := R) (T := T) one_pos le_rfl h0 h1
    exact ⟨_, _, h2, h3⟩
  · intro hz i j row hi hj hrow p hp g
    have hT' : 0 < T := by
      rw [b.tZero_iff, decide_eq_false_iff_not] at hz
      exact lt_of_le_of_ne hT (Ne.symm hz)
    obtain ⟨row', h3, h4⟩ := b.fo.rows hz i j hi hj
    rw [hrow, Option.some.injEq] at h3
    subst h3
    obtain ⟨k, hk, e⟩ := List.getElem_of_mem hp
    obtain ⟨row', b1, b2, h5, _, _, h6⟩ := b.filter hT' hi hj (show 2 ≤ k + 2 by omega) (by omega)
    rw [hrow, Option.some.injEq] at h5
    subst h5
    rw [Nat.add_sub_cancel, List.getElem?_eq_getElem hk, e, Option.some.injEq] at h6
    subst h6
    have key : ∀ d, LookupOK (DistFilter.make (XR.fin (hypProb d R T)) (XR.fin R) (XR.fin T))
        (rng.uniformTo (DistFilter.make (XR.fin (hypProb d R T)) (XR.fin R) (XR.fin T)).maxProb g).1 := by
      intro d
      obtain ⟨x, e, h0, h1⟩ := u.uniformTo (hypProb d R T) g (hProb_pos _ _ _)
      have e' : (rng.uniformTo (DistFilter.make (XR.fin (hypProb d R T)) (XR.fin R) (XR.fin T)).maxProb g).1 = XR.fin x := e
      rw [e']
      obtain ⟨h2, h3⟩ := lookup_XR (R := R) (T := T) (hProb_pos d R T) (hProb_lt_one d R T).le h0 h1
      exact ⟨_, _, h2, h3⟩
    exact ⟨key _, key _⟩

/-- the start level of the parallel part -/
theorem hstart_eq (t : ℕ) (h1 : 1 ≤ t) (h2 : t ≤ 33554432) :
    HTree.firstParallelLevel XR t = some ⌈Real.logb 2 (2 * t)⌉.toNat ∧ 1 ≤ ⌈Real.logb 2 (2 * t)⌉ ∧ ⌈Real.logb 2 (2 * t)⌉ ≤ 26 ∧
      (2 ≤ t → 2 ≤ ⌈Real.logb 2 (2 * t)⌉) := by
  have ht1 : (1 : ℝ) ≤ t := by exact_mod_cast h1
  have ht2 : (t : ℝ) ≤ 33554432 := by exact_mod_cast h2
  have hx1 : 1 ≤ Real.logb 2 (2 * t) := by
    rw [Real.le_logb_iff_rpow_le (by norm_num) (by linarith), Real.rpow_one]; linarith
  have hx26 : Real.logb 2 (2 * t) ≤ 26 := by
    rw [Real.logb_le_iff_le_rpow (by norm_num) (by linarith)]
    have : (2 : ℝ) ^ (26 : ℝ) = 67108864 := by
      rw [show (26 : ℝ) = ((26 : ℕ) : ℝ) by norm_num, Real.rpow_natCast]; norm_num
    rw [this]; linarith
  have hc1 : 1 ≤ ⌈Real.logb 2 (2 * t)⌉ := by
    have := Int.le_ceil (Real.logb 2 (2 * t))
    have : (1 : ℝ) ≤ (⌈Real.logb 2 (2 * t)⌉ : ℝ) := by linarith
    exact_mod_cast this
  have hc26 : ⌈Real.logb 2 (2 * t)⌉ ≤ 26 := by rw [Int.ceil_le]; exact_mod_cast hx26
  refine ⟨?_, hc1, hc26, ?_⟩
  · unfold HTree.firstParallelLevel
    rw [XR.ofNat_eq, XR.log2_fin _ (by push_cast; linarith), XR.ceil_fin]
    have e : ((2 * t : ℕ) : ℝ) = 2 * t := by push_cast; rfl
    rw [e, toI32_nonneg (by exact_mod_cast (by omega : (0:ℤ) ≤ ⌈Real.logb 2 (2 * t)⌉)) (by
      have : (⌈Real.logb 2 (2 * t)⌉ : ℝ) ≤ 26 := by exact_mod_cast hc26
      linarith), Int.floor_intCast]
    simp only
    rw [if_pos (by omega)]
  · intro h
    have ht : (2 : ℝ) ≤ t := by exact_mod_cast h
    have hx2 : 2 ≤ Real.logb 2 (2 * t) := by
      rw [Real.le_logb_iff_rpow_le (by norm_num) (by linarith), Real.rpow_two]; linarith
    have := Int.le_ceil (Real.logb 2 (2 * t))
    have : (2 : ℝ) ≤ (⌈Real.logb 2 (2 * t)⌉ : ℝ) := by linarith
    exact_mod_cast this

/-- `ceil(log2(2t))` -/
noncomputable def startLevel (t : ℕ) : ℕ := if t = 1 then 2 else ⌈Real.logb 2 (2 * t)⌉.toNat

theorem hstartOK_XR (env : HEnv) : HStartOK XR env (startLevel env.threads) := by
  obtain ⟨h1, h2, h3, h4⟩ := hstart_eq env.threads env.threads_pos env.threads_le
  have hp := env.threads_pos
  unfold startLevel
  constructor
  · intro h; rw [h1, if_neg h]
  · split
    · exact le_rfl
    · have := h4 (by omega); omega
  · split
    · norm_num
    · omega

end Girgs
