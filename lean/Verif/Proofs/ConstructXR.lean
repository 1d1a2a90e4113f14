import Verif.Proofs.Construct
import Verif.Spec.Girg
/-
Construction in exact arithmetic: the requirements of `InputOK` follow from `SupportedInput`.
-/
namespace Girgs
open Build Spec CFloat

/-- exact weights as floating point numbers -/
def xw (w : List ℝ) : List XR := w.map XR.fin

/-- exact positions as floating point numbers -/
def xp {D : Nat} (x : List (Fin D → ℝ)) : List (Fin D → XR) := x.map fun p d => XR.fin (p d)

theorem minElem_xw (w : List ℝ) (h : 1 ≤ w.length) : ∃ m ∈ w, (∀ u ∈ w, m ≤ u) ∧ minElem (xw w) = some (XR.fin m) := by
  cases w with
  | nil => simp at h
  | cons a w =>
    have key : ∀ (w : List ℝ) (a : ℝ), ∃ m, (m = a ∨ m ∈ w) ∧ m ≤ a ∧ (∀ u ∈ w, m ≤ u) ∧
        (w.map XR.fin).foldl (fun m y => if y <. m then y else m) (XR.fin a) = XR.fin m := by
      intro w
      induction w with
      | nil => intro a; exact ⟨a, Or.inl rfl, le_rfl, by simp, rfl⟩
      | cons b w ih =>
        intro a
        rw [List.map_cons, List.foldl_cons]
        by_cases hb : b < a
        · obtain ⟨m, h1, h2, h3, h4⟩ := ih b
          refine ⟨m, ?_, by linarith, ?_, ?_⟩
          · right; simpa using h1
          · intro u hu
            rcases List.mem_cons.1 hu with rfl | hu
            · exact h2
            · exact h3 u hu
          · rw [if_pos (by simpa using hb)]; exact h4
        · obtain ⟨m, h1, h2, h3, h4⟩ := ih a
          refine ⟨m, ?_, h2, ?_, ?_⟩
          · rcases h1 with h1 | h1
            · exact Or.inl h1
            · right; simp [h1]
          · intro u hu
            rcases List.mem_cons.1 hu with rfl | hu
            · linarith
            · exact h3 u hu
          · rw [if_neg (by simpa using hb)]; exact h4
    obtain ⟨m, h1, h2, h3, h4⟩ := key w a
    refine ⟨m, by simpa using h1, ?_, ?_⟩
    · intro u hu
      rcases List.mem_cons.1 hu with rfl | hu
      · exact h2
      · exact h3 u hu
    · exact congrArg some h4

theorem maxElem_xw (w : List ℝ) (h : 1 ≤ w.length) : ∃ m ∈ w, (∀ u ∈ w, u ≤ m) ∧ maxElem (xw w) = some (XR.fin m) := by
  cases w with
  | nil => simp at h
  | cons a w =>
    have key : ∀ (w : List ℝ) (a : ℝ), ∃ m, (m = a ∨ m ∈ w) ∧ a ≤ m ∧ (∀ u ∈ w, u ≤ m) ∧
        (w.map XR.fin).foldl (fun m y => if m <. y then y else m) (XR.fin a) = XR.fin m := by
      intro w
      induction w with
      | nil => intro a; exact ⟨a, Or.inl rfl, le_rfl, by simp, rfl⟩
      | cons b w ih =>
        intro a
        rw [List.map_cons, List.foldl_cons]
        by_cases hb : a < b
        · obtain ⟨m, h1, h2, h3, h4⟩ := ih b
          refine ⟨m, ?_, by linarith, ?_, ?_⟩
          · right; simpa using h1
          · intro u hu
            rcases List.mem_cons.1 hu with rfl | hu
            · exact h2
            · exact h3 u hu
          · rw [if_pos (by simpa using hb)]; exact h4
        · obtain ⟨m, h1, h2, h3, h4⟩ := ih a
          refine ⟨m, ?_, h2, ?_, ?_⟩
          · rcases h1 with h1 | h1
            · exact Or.inl h1
            · right; simp [h1]
          · intro u hu
            rcases List.mem_cons.1 hu with rfl | hu
            · linarith
            · exact h3 u hu
          · rw [if_neg (by simpa using hb)]; exact h4
    obtain ⟨m, h1, h2, h3, h4⟩ := key w a
    refine ⟨m, by simpa using h1, ?_, ?_⟩
    · intro u hu
      rcases List.mem_cons.1 hu with rfl | hu
      · exact h2
      · exact h3 u hu
    · exact congrArg some h4

theorem sumElems_xw (w : List ℝ) : sumElems (xw w) = XR.fin w.sum := by
  have key : ∀ (w : List ℝ) (a : ℝ), (w.map XR.fin).foldl (fun s x => s +. x) (XR.fin a) = XR.fin (a + w.sum) := by
    intro w
    induction w with
    | nil => intro a; simp
    | cons b w ih =>
      intro a
      rw [List.map_cons, List.foldl_cons, XR.add_fin, ih, List.sum_cons, add_assoc]
  unfold sumElems xw
  rw [XR.ofRat_eq, key]
  simp

theorem toI32_nonneg {x : ℝ} (h : 0 ≤ x) (h' : x < 2147483648) : toI32 (XR.fin x) = some ⌊x⌋ := by
  unfold toI32
  rw [XR.trunc_fin x h]
  have h1 : 0 ≤ ⌊x⌋ := Int.floor_nonneg.2 h
  have h2 : ⌊x⌋ < 2147483648 := by rw [Int.floor_lt]; exact_mod_cast h'
  simp only
  rw [if_pos (by omega)]

theorem toI32_neg {x : ℝ} (h : x < 0) (h' : -2147483648 ≤ x) : toI32 (XR.fin x) = some ⌈x⌉ := by
  unfold toI32
  rw [XR.trunc_fin' x h]
  have h1 : ⌈x⌉ ≤ 0 := by rw [Int.ceil_le]; simpa using h.le
  have h2 : (-2147483648 : ℤ) ≤ ⌈x⌉ := by
    have := Int.le_ceil x
    have h3 : (((-2147483648 : ℤ)) : ℝ) ≤ (⌈x⌉ : ℝ) := by push_cast; linarith
    exact_mod_cast h3
  simp only
  rw [if_pos (by omega)]

theorem toSize_nonneg {x : ℝ} (h : 0 ≤ x) (h' : x < 2147483648) : toSize (XR.fin x) = some ⌊x⌋.toNat := by
  unfold toSize
  rw [XR.trunc_fin x h]
  have h1 : 0 ≤ ⌊x⌋ := Int.floor_nonneg.2 h
  have h2 : ⌊x⌋ < 2147483648 := by rw [Int.floor_lt]; exact_mod_cast h'
  simp only
  rw [if_pos (by omega)]

/-- exponents: `⌊log2 y⌋ = k` for `y ≥ 1` -/
theorem floor_logb_iff {y : ℝ} (hy : 1 ≤ y) (k : Nat) : ⌊Real.logb 2 y⌋.toNat = k ↔ 2 ^ k ≤ y ∧ y < 2 ^ (k + 1) := by
  have h0 : 0 ≤ Real.logb 2 y := Real.logb_nonneg (by norm_num) hy
  have h1 : 0 ≤ ⌊Real.logb 2 y⌋ := Int.floor_nonneg.2 h0
  have hy0 : 0 < y := by linarith
  have e : ⌊Real.logb 2 y⌋.toNat = k ↔ ⌊Real.logb 2 y⌋ = (k : ℤ) := by omega
  rw [e, Int.floor_eq_iff, Real.le_logb_iff_rpow_le (by norm_num) hy0]
  have : ((k : ℤ) : ℝ) + 1 = ((k + 1 : ℕ) : ℝ) := by push_cast; ring
  rw [this, Real.logb_lt_iff_lt_rpow (by norm_num) hy0, Real.rpow_natCast]
  have : ((k : ℤ) : ℝ) = ((k : ℕ) : ℝ) := by push_cast; ring
  rw [this, Real.rpow_natCast]

theorem logb_lt_nat {y : ℝ} (hy : 0 < y) {k : Nat} (h : y < 2 ^ k) : Real.logb 2 y < k := by
  rw [Real.logb_lt_iff_lt_rpow (by norm_num) hy, Real.rpow_natCast]; exact h

/-- the members the constructor computes from the weights in exact arithmetic -/
structure HeaderX (D : Nat) (w : List ℝ) (h : Header XR) (m : ℝ) : Prop where
  eq : header D (xw w) = some h
  mem : m ∈ w
  min : ∀ u ∈ w, m ≤ u
  w0 : h.w0 = XR.fin m
  W : h.W = XR.fin w.sum
  levels : h.levels = partitioningBaseLevel D h.blc 0 0 + 1
  layers_pos : 1 ≤ h.layers
  layers_le : h.layers ≤ 30
  layers_gt : ∀ u ∈ w, u < 2 ^ h.layers * m
  layers_top : ∃ u ∈ w, 2 ^ (h.layers - 1) * m ≤ u
  blc_le : h.blc ≤ 28
  blc_low : 0 < h.blc → (2 : ℝ) ^ h.blc * m ^ 2 ≤ w.sum
  blc_high : 0 ≤ h.blc → w.sum < (2 : ℝ) ^ (h.blc + 1) * m ^ 2
  blc_nonneg : m ^ 2 ≤ w.sum → 0 ≤ h.blc

theorem sum_ge_mem {w : List ℝ} (hp : ∀ u ∈ w, 0 < u) {v : ℝ} (hv : v ∈ w) : v ≤ w.sum :=
  List.single_le_sum (fun u hu => (hp u hu).le) v hv

theorem headerX_exists {D : Nat} {w : List ℝ} {x : List (Fin D → ℝ)} (s : SupportedInput D w x) :
    ∃ h m, HeaderX D w h m := by
  obtain ⟨m, hm, hmin, e1⟩ := minElem_xw w s.pos
  obtain ⟨M, hM, hmax, e2⟩ := maxElem_xw w s.pos
  have e3 := sumElems_xw w
  have hm0 : 0 < m := s.wpos m hm
  have hM0 : 0 < M := s.wpos M hM
  have hmM : m ≤ M := hmin M hM
  have hW0 : 0 < w.sum := lt_of_lt_of_le hm0 (sum_ge_mem s.wpos hm)
  set y := w.sum / m / m with hy
  have hy0 : 0 < y := by positivity
  have hym : w.sum = y * m ^ 2 := by rw [hy]; field_simp
  have hylt : y < 2 ^ 29 := by
    have := s.total m hm
    rw [hym] at this
    exact lt_of_mul_lt_mul_right this (by positivity)
  have hm1024 := s.wfin m hm
  have hylow : Real.logb 2 y ≥ -1024 := by
    have h1 : 1 / m ≤ y := by
      rw [hy, div_le_div_iff_of_pos_right hm0, one_le_div hm0]
      exact sum_ge_mem s.wpos hm
    have h2 : (1 : ℝ) / 2 ^ 1024 ≤ y := le_trans (one_div_le_one_div_of_le hm0 hm1024.le) h1
    have h3 : Real.logb 2 ((1 : ℝ) / 2 ^ 1024) = -1024 := by
      rw [one_div, Real.logb_inv, ← Real.rpow_natCast, Real.logb_rpow (by norm_num) (by norm_num)]
      norm_num
    rw [← h3]
    exact Real.logb_le_logb_of_le (by norm_num) (by positivity) h2
  have hyup : Real.logb 2 y < 29 := by
    have := logb_lt_nat hy0 hylt
    exact_mod_cast this
  set z := M / m with hz
  have hz1 : 1 ≤ z := (one_le_div hm0).2 hmM
  have hzlt : z < 2 ^ 30 := by
    rw [hz, div_lt_iff₀ hm0]; exact s.spread m hm M hM
  have hzM : M = z * m := by rw [hz]; field_simp
  have hz0 : 0 < z := by linarith
  have hlz0 : 0 ≤ Real.logb 2 z := Real.logb_nonneg (by norm_num) hz1
  have hlz30 : Real.logb 2 z < 30 := by
    have := logb_lt_nat hz0 hzlt
    exact_mod_cast this
  -- the two conversions
  obtain ⟨b, hb, hble, hblow, hbhigh, hbnn⟩ : ∃ b : ℤ, toI32 (XR.fin (Real.logb 2 y)) = some b ∧ b ≤ 28 ∧
      (0 < b → (2 : ℝ) ^ b ≤ y) ∧ (0 ≤ b → y < (2 : ℝ) ^ (b + 1)) ∧ (1 ≤ y → 0 ≤ b) := by
    rcases le_or_gt 0 (Real.logb 2 y) with h0 | h0
    · refine ⟨_, toI32_nonneg h0 (by linarith), ?_, ?_, ?_, fun _ => Int.floor_nonneg.2 h0⟩
      · have : ⌊Real.logb 2 y⌋ < 29 := by rw [Int.floor_lt]; exact_mod_cast hyup
        omega
      · intro _
        have h1 := Int.floor_le (Real.logb 2 y)
        rw [Real.le_logb_iff_rpow_le (by norm_num) hy0] at h1
        rw [← Real.rpow_intCast]; exact h1
      · intro _
        have h1 := Int.lt_floor_add_one (Real.logb 2 y)
        rw [Real.logb_lt_iff_lt_rpow (by norm_num) hy0] at h1
        rw [← Real.rpow_intCast]; push_cast; exact h1
    · have hc0 : ⌈Real.logb 2 y⌉ ≤ 0 := by rw [Int.ceil_le]; simpa using h0.le
      refine ⟨_, toI32_neg h0 (by linarith), by omega, by intro h; omega, ?_, fun h => by
        have := Real.logb_nonneg (b := 2) (by norm_num) h
        linarith⟩
      intro h
      have : ⌈Real.logb 2 y⌉ = 0 := by omega
      rw [this]
      have h1 : y < 1 := by
        by_contra hc
        have := Real.logb_nonneg (b := 2) (by norm_num) (not_lt.1 hc)
        linarith
      norm_num; linarith
  have hfl0 : 0 ≤ ⌊Real.logb 2 z⌋ := Int.floor_nonneg.2 hlz0
  have hfl30 : ⌊Real.logb 2 z⌋ < 30 := by rw [Int.floor_lt]; exact_mod_cast hlz30
  obtain ⟨k, hk⟩ : ∃ k : Nat, ⌊Real.logb 2 z⌋.toNat = k := ⟨_, rfl⟩
  have hk2 := (floor_logb_iff hz1 k).1 hk
  have hk30 : k < 30 := by omega
  have e5 : toU32 (CFloat.floor (CFloat.log2 (XR.fin M /. XR.fin m))) = some k := by
    rw [XR.div_fin _ _ hm0.ne', XR.log2_fin _ hz0, XR.floor_fin, XR.toU32_fin]
    · rw [Int.floor_intCast, hk]
    · exact_mod_cast hfl0
    · have : (⌊Real.logb 2 z⌋ : ℝ) < 30 := by exact_mod_cast hfl30
      linarith
  have e4 : toI32 (CFloat.log2 (sumElems (xw w) /. XR.fin m /. XR.fin m)) = some b := by
    rw [e3, XR.div_fin _ _ hm0.ne', XR.div_fin _ _ hm0.ne', XR.log2_fin _ hy0]; exact hb
  have eh : header D (xw w) = some (Header.mk (XR.fin m) (XR.fin M) (sumElems (xw w)) b (u32 (k + 1))
      (u32 (partitioningBaseLevel D b 0 0 + 1))) := by
    unfold header
    refine (obind e1 _).trans ?_
    refine (obind e2 _).trans ?_
    refine (obind e4 _).trans ?_
    refine (obind e5 _).trans ?_
    rfl
  have hu : u32 (k + 1) = k + 1 := u32_eq (by omega)
  refine ⟨_, m, eh, hm, hmin, rfl, e3, (header_facts eh).1, ?_, ?_, ?_, ?_, hble, ?_, ?_, ?_⟩
  · show 1 ≤ u32 (k + 1); omega
  · show u32 (k + 1) ≤ 30; omega
  · intro u hu'
    show u < 2 ^ u32 (k + 1) * m
    rw [hu]
    have := hmax u hu'
    have h2 := mul_lt_mul_of_pos_right hk2.2 hm0
    linarith
  · refine ⟨M, hM, ?_⟩
    show 2 ^ (u32 (k + 1) - 1) * m ≤ M
    rw [hu, hzM]
    exact mul_le_mul_of_nonneg_right hk2.1 hm0.le
  · intro h
    rw [hym]
    exact mul_le_mul_of_nonneg_right (hblow h) (by positivity)
  · intro h
    rw [hym]
    exact mul_lt_mul_of_pos_right (hbhigh h) (by positivity)
  · intro h
    refine hbnn ?_
    rw [hym] at h
    have : 0 < m ^ 2 := by positivity
    exact le_of_mul_le_mul_right (by linarith) this

theorem target_mul_le (D : Nat) (blc : Int) (k : Nat) :
    ((D * weightLayerTargetLevel D blc k : Nat) : Int) ≤ max 0 (blc - k - 1) := by
  unfold weightLayerTargetLevel cdiv
  rw [Coord.imax_eq]
  rcases le_or_gt 0 (blc - (k : Int) - 1) with h | h
  · have h1 := Int.tdiv_nonneg h (Int.natCast_nonneg D)
    push_cast
    rw [Int.toNat_of_nonneg (by omega), max_eq_left (by omega), max_eq_right h]
    exact Int.mul_tdiv_self_le h
  · have h1 : (blc - (k : Int) - 1).tdiv (D : Int) ≤ 0 := by
      have h0 := Int.tdiv_nonneg (a := -(blc - (k : Int) - 1)) (b := (D : Int)) (by omega) (Int.natCast_nonneg D)
      rw [Int.neg_tdiv] at h0; omega
    rw [max_eq_right h1]
    simp

theorem layerOff_bound {D : Nat} {blc : Int} (hb : blc ≤ 28) (k : Nat) :
    layerOff D blc k ≤ 2 ^ 28 + k - 2 ^ (28 - k) := by
  induction k with
  | zero => simp [layerOff]
  | succ k ih =>
    rw [layerOff_succ]
    have h := target_mul_le D blc k
    by_cases hk : k < 28
    · have h1 : D * weightLayerTargetLevel D blc k ≤ 27 - k := by omega
      have h2 : 2 ^ (D * weightLayerTargetLevel D blc k) ≤ 2 ^ (27 - k) := two_pow_le h1
      have h3 : 2 ^ (28 - k) = 2 * 2 ^ (27 - k) := by rw [show 28 - k = (27 - k) + 1 by omega, pow_succ]; ring
      have h4 : 28 - (k + 1) = 27 - k := by omega
      have h5 : 2 ^ (28 - k) ≤ 2 ^ 28 := two_pow_le (by omega)
      rw [h4]
      omega
    · have h1 : D * weightLayerTargetLevel D blc k = 0 := by omega
      have h3 : 28 - k = 0 := by omega
      have h4 : 28 - (k + 1) = 0 := by omega
      rw [h1, h4]
      rw [h3] at ih
      norm_num at ih ⊢
      omega

theorem HeaderX.inputOK {D : Nat} {w : List ℝ} {x : List (Fin D → ℝ)} (s : SupportedInput D w x) {h : Header XR} {m : ℝ}
    (hx : HeaderX D w h m) : InputOK D (xw w) (xp x) h := by
  have hm0 := s.wpos m hx.mem
  have hlen : (xw w).length = w.length := by simp [xw]
  refine ⟨s.D1, s.D5, by simp [xw, xp, s.len], by rw [hlen]; exact s.pos, by rw [hlen]; exact s.small, ?_, hx.layers_le, ?_, ?_, ?_⟩
  · rw [hx.levels]
    have h1 : ((D * partitioningBaseLevel D h.blc 0 0 : Nat) : Int) ≤ max 0 (h.blc - 2) := by
      have e : partitioningBaseLevel D h.blc 0 0 = weightLayerTargetLevel D h.blc (1 : Nat) := by
        unfold partitioningBaseLevel weightLayerTargetLevel
        congr 3
        push_cast; ring
      rw [e]
      have := target_mul_le D h.blc 1
      omega
    have := hx.blc_le
    have := s.D5
    have e : D * (partitioningBaseLevel D h.blc 0 0 + 1) = D * partitioningBaseLevel D h.blc 0 0 + D := by ring
    rw [e]
    omega
  · have h1 := layerOff_bound (D := D) hx.blc_le h.layers
    have := hx.layers_le
    generalize 2 ^ (28 - h.layers) = q at h1
    norm_num at h1
    omega
  · intro v hv
    obtain ⟨u, hu, rfl⟩ := List.mem_map.1 hv
    have hu1 : 1 ≤ u / m := (one_le_div hm0).2 (hx.min u hu)
    have hu0 : 0 < u / m := by linarith
    have hlt : u / m < 2 ^ h.layers := by rw [div_lt_iff₀ hm0]; exact hx.layers_gt u hu
    have hl0 : 0 ≤ Real.logb 2 (u / m) := Real.logb_nonneg (by norm_num) hu1
    have hl1 : Real.logb 2 (u / m) < h.layers := logb_lt_nat hu0 hlt
    have hly : (h.layers : ℝ) ≤ 30 := by exact_mod_cast hx.layers_le
    have hf0 : 0 ≤ ⌊Real.logb 2 (u / m)⌋ := Int.floor_nonneg.2 hl0
    have hf1 : ⌊Real.logb 2 (u / m)⌋ < h.layers := by rw [Int.floor_lt]; exact_mod_cast hl1
    rw [hx.w0, XR.div_fin _ _ hm0.ne', XR.log2_fin _ hu0]
    refine ⟨⌊Real.logb 2 (u / m)⌋.toNat, ?_, toSize_nonneg hl0 (by linarith), by omega⟩
    rw [toI32_nonneg hl0 (by linarith), Int.toNat_of_nonneg hf0]
  · intro p hp d l hl
    obtain ⟨q, hq, rfl⟩ := List.mem_map.1 hp
    obtain ⟨h0, h1⟩ := s.unit q hq d
    refine ⟨gridOf l (q d), ?_, gridOf_lt h0 h1⟩
    have hN : (0 : ℝ) < 2 ^ l := by positivity
    have hN' : (2 : ℝ) ^ l ≤ 2 ^ 30 := pow_le_pow_right₀ (by norm_num) hl
    simp only [XR.ofInt_eq, XR.mul_fin]
    rw [XR.toU32_fin _ (by positivity)]
    · simp [gridOf]
    · push_cast
      have h2 : q d * 2 ^ l ≤ 1 * 2 ^ 30 := mul_le_mul h1.le hN' hN.le (by norm_num)
      have h3 : (1 : ℝ) * 2 ^ 30 < 2 ^ 32 := by norm_num
      linarith

/-- A tree built from exact input: the invariant, and the stored nodes in terms of the input. -/
structure BuiltX (D : Nat) (ndebug : Bool) (w : List ℝ) (x : List (Fin D → ℝ)) (alpha : XR) (T : Tree XR D) (m : ℝ) : Prop where
  ok : TreeOK T
  ndebug_eq : T.ndebug = ndebug
  alpha_eq : T.alpha = alpha
  n_eq : T.n = w.length
  mem : m ∈ w
  min : ∀ u ∈ w, m ≤ u
  w0 : T.w0 = XR.fin m
  W : T.W = XR.fin w.sum
  layers_pos : 1 ≤ T.layers
  layers_gt : ∀ u ∈ w, u < 2 ^ T.layers * m
  layers_top : ∃ u ∈ w, 2 ^ (T.layers - 1) * m ≤ u
  blc_le : T.blc ≤ 28
  blc_low : 0 < T.blc → (2 : ℝ) ^ T.blc * m ^ 2 ≤ w.sum
  blc_high : 0 ≤ T.blc → w.sum < (2 : ℝ) ^ (T.blc + 1) * m ^ 2
  blc_nonneg : m ^ 2 ≤ w.sum → 0 ≤ T.blc
  node : ∀ y ∈ T.nodes, ∃ u q k, w[y.index]? = some u ∧ x[y.index]? = some q ∧ y.weight = XR.fin u ∧
    (y.coord = fun d => XR.fin (q d)) ∧ k < T.layers ∧ 2 ^ k * m ≤ u ∧ u < 2 ^ (k + 1) * m ∧
    y.cellId = layerOff D T.blc k + cellR D (weightLayerTargetLevel D T.blc k) q

theorem Constructed.builtX {D : Nat} {ndebug : Bool} {w : List ℝ} {x : List (Fin D → ℝ)} {alpha : XR} {T : Tree XR D}
    (s : SupportedInput D w x) (hc : Constructed ndebug (xw w) (xp x) alpha T) : ∃ m, BuiltX D ndebug w x alpha T m := by
  obtain ⟨h, m, hx⟩ := headerX_exists s
  have hb := hc.builtFrom hx.eq (hx.inputOK s)
  have hm0 := s.wpos m hx.mem
  refine ⟨m, hb.ok, hb.ndebug_eq, hb.alpha_eq, by simp [hb.n_eq, xw], hx.mem, hx.min, by rw [hb.w0_eq, hx.w0], by rw [hb.W_eq, hx.W], ?_, ?_, ?_, ?_, ?_, ?_, ?_, ?_⟩
  · rw [hb.layers_eq]; exact hx.layers_pos
  · rw [hb.layers_eq]; exact hx.layers_gt
  · rw [hb.layers_eq]; exact hx.layers_top
  · rw [hb.blc_eq]; exact hx.blc_le
  · rw [hb.blc_eq]; exact hx.blc_low
  · rw [hb.blc_eq]; exact hx.blc_high
  · rw [hb.blc_eq]; exact hx.blc_nonneg
  · intro y hy
    have hn := hb.node y hy
    have h1 := hn.weight
    have h2 := hn.coord
    simp only [xw, xp, List.getElem?_map, Option.map_eq_some_iff] at h1 h2
    obtain ⟨u, hu, hyu⟩ := h1
    obtain ⟨q, hq, hyq⟩ := h2
    obtain ⟨k, c, hk, e1, e2, hclt, e3⟩ := hn.cell
    have hum := List.mem_of_getElem? hu
    have hqm := List.mem_of_getElem? hq
    have hu1 : 1 ≤ u / m := (one_le_div hm0).2 (hx.min u hum)
    have hu0 : 0 < u / m := by linarith
    have hlt : u / m < 2 ^ h.layers := by rw [div_lt_iff₀ hm0]; exact hx.layers_gt u hum
    have hl0 : 0 ≤ Real.logb 2 (u / m) := Real.logb_nonneg (by norm_num) hu1
    have hl1 : Real.logb 2 (u / m) < h.layers := logb_lt_nat hu0 hlt
    have hly : (h.layers : ℝ) ≤ 30 := by exact_mod_cast hx.layers_le
    rw [← hyu, hx.w0, XR.div_fin _ _ hm0.ne', XR.log2_fin _ hu0, toSize_nonneg hl0 (by linarith), Option.some.injEq,
      floor_logb_iff hu1, le_div_iff₀ hm0, div_lt_iff₀ hm0] at e1
    have ht30 : weightLayerTargetLevel D h.blc k ≤ 30 := by
      have hsum := layerOff_mono (D := D) (blc := h.blc) (show k + 1 ≤ h.layers by omega)
      rw [layerOff_succ] at hsum
      have htot := (hx.inputOK s).total
      by_contra hne
      have h3 := Nat.le_mul_of_pos_left (weightLayerTargetLevel D h.blc k) s.D1
      have : 2 ^ 31 ≤ 2 ^ (D * weightLayerTargetLevel D h.blc k) := two_pow_le (by omega)
      omega
    rw [← hyq, cellForPoint_eq ht30 q (s.unit q hqm), Option.some.injEq] at e2
    refine ⟨u, q, k, hu, hq, hyu.symm, hyq.symm, by rw [hb.layers_eq]; exact hk, e1.1, e1.2, ?_⟩
    rw [hb.blc_eq, e3, e2]

theorem constructedX_exists {D : Nat} (ndebug : Bool) {w : List ℝ} {x : List (Fin D → ℝ)} (alpha : XR)
    (s : SupportedInput D w x) (threads : Nat) (h1 : 1 ≤ threads) (h2 : threads < 2147483648) :
    ∃ T, Constructed ndebug (xw w) (xp x) alpha T := by
  obtain ⟨h, m, hx⟩ := headerX_exists s
  exact constructed_exists ndebug alpha hx.eq (hx.inputOK s) threads h1 h2

end Girgs
