import Verif.Proofs.WorkLaw
import Verif.Proofs.WorkVisits
import Verif.Proofs.ExpectedDegree
import Verif.Proofs.Parallel
import Verif.Proofs.AssertSample
/-
How close two nodes are that a sampling call looks at, and the expected number of such pairs.
-/
namespace Girgs
open Spec CFloat MeasureTheory
open scoped ENNReal

/-! ### nodes in touching cells are close -/

theorem circleDist_ring {l a b : Nat} {p q : ℝ} (hp : (a : ℝ) / 2 ^ l ≤ p ∧ p < ((a : ℝ) + 1) / 2 ^ l)
    (hq : (b : ℝ) / 2 ^ l ≤ q ∧ q < ((b : ℝ) + 1) / 2 ^ l) (h : ringDist l a b ≤ 1) : circleDist p q < 2 / 2 ^ l := by
  have hN : (0 : ℝ) < 2 ^ l := by positivity
  obtain ⟨hp1, hp2⟩ := hp
  obtain ⟨hq1, hq2⟩ := hq
  rw [div_le_iff₀ hN] at hp1 hq1
  rw [lt_div_iff₀ hN] at hp2 hq2
  rw [lt_div_iff₀ hN]
  unfold circleDist
  unfold ringDist at h
  have e : |p - q| * 2 ^ l = |p * 2 ^ l - q * 2 ^ l| := by rw [← sub_mul, abs_mul, abs_of_pos hN]
  rcases min_le_iff.1 h with h | h
  · have h' : |(a : ℝ) - b| ≤ 1 := by exact_mod_cast h
    refine lt_of_le_of_lt (mul_le_mul_of_nonneg_right (min_le_left _ _) hN.le) ?_
    rw [abs_le] at h'
    rw [e, abs_lt]
    constructor <;> linarith
  · have h' : (2 : ℝ) ^ l - |(a : ℝ) - b| ≤ 1 := by exact_mod_cast h
    refine lt_of_le_of_lt (mul_le_mul_of_nonneg_right (min_le_right _ _) hN.le) ?_
    rw [sub_mul, one_mul, e]
    rcases abs_cases ((a : ℝ) - b) with h1 | h1
    · have := le_abs_self (p * 2 ^ l - q * 2 ^ l); linarith
    · have := neg_abs_le (p * 2 ^ l - q * 2 ^ l); linarith

theorem torusDist_touch {D l A B : Nat} (h1 : 1 ≤ D) {p q : Fin D → ℝ} (hp : InBox D l A p) (hq : InBox D l B q) (h : touchB D l A B = true) :
    torusDist p q ^ D < 2 ^ D * (1 / 2 ^ (D * l)) := by
  unfold touchB at h
  rw [decide_eq_true_eq] at h
  have : torusDist p q < 2 / 2 ^ l := by
    rw [Scaling.torusDist_lt_iff p q (by positivity)]
    exact fun d => circleDist_ring (hp d) (hq d) (h d)
  calc torusDist p q ^ D < (2 / 2 ^ l) ^ D := pow_lt_pow_left₀ this (Scaling.torusDist_nonneg p q) (by omega)
    _ = 2 ^ D * (1 / 2 ^ (D * l)) := by rw [div_pow, ← pow_mul, Nat.mul_comm]; ring

/-! ### the parents of a type II pair touch -/

section
variable {F : Type} [CFloat F] {D : Nat} {T : Tree F D}

theorem visitP_cells : ∀ (k A B l : Nat), ∀ t ∈ visitP T k A B l, (t.level = l ∧ t.cellA = A ∧ t.cellB = B) ∨ l < t.level := by
  intro k
  induction k with
  | zero => intro A B l t ht; simp [visitP] at ht
  | succ k ih =>
    intro A B l t ht
    unfold visitP at ht
    split at ht
    · obtain ⟨_, _, h1, h2, h3, _⟩ := mem_tasksII.1 ht
      exact Or.inl ⟨h3, h1, h2⟩
    · rw [List.mem_append] at ht
      rcases ht with ht | ht
      · obtain ⟨_, h1, h2, h3, _⟩ := mem_tasksI.1 ht
        exact Or.inl ⟨h3, h1, h2⟩
      · split at ht
        · simp at ht
        · rw [List.mem_flatMap] at ht
          obtain ⟨⟨a, b⟩, _, ht⟩ := ht
          rcases ih a b (l + 1) t ht with h | h
          · right; omega
          · right; omega

theorem visitP_parents : ∀ (k A B l : Nat), ∀ t ∈ visitP T k A B l, t.two = true → l < t.level →
    touchB D (t.level - 1) ((t.cellA - 1) / 2 ^ D) ((t.cellB - 1) / 2 ^ D) = true := by
  intro k
  induction k with
  | zero => intro A B l t ht; simp [visitP] at ht
  | succ k ih =>
    intro A B l t ht h2 hl
    unfold visitP at ht
    split at ht
    · obtain ⟨_, _, _, _, h, _⟩ := mem_tasksII.1 ht
      omega
    · rename_i htouch
      rw [List.mem_append] at ht
      rcases ht with ht | ht
      · obtain ⟨h1, _⟩ := mem_tasksI.1 ht
        rw [h1] at h2; cases h2
      · split at ht
        · simp at ht
        · rw [List.mem_flatMap] at ht
          obtain ⟨⟨a, b⟩, hab, ht⟩ := ht
          rcases visitP_cells k a b (l + 1) t ht with ⟨h, e1, e2⟩ | h
          · rw [mem_kids] at hab
            rw [e1, e2, h, Nat.add_sub_cancel, (parent_iff (D := D) (c := A) (x := a) (le_trans (Nat.le_add_left 1 _) hab.1.1)).2 hab.1,
              (parent_iff (D := D) (c := B) (x := b) (le_trans (Nat.le_add_left 1 _) hab.2.1.1)).2 hab.2.1]
            simpa using htouch
          · exact ih a b (l + 1) t ht h2 h
end

/-! ### distance and weights of a pair that a call looks at -/

theorem pbl_ge {D N i j : Nat} (h1 : 1 ≤ D) : N ≤ D * partitioningBaseLevel D (N : Int) i j + D + i + j + 1 := by
  have hDpos : (0 : Int) < D := by exact_mod_cast h1
  by_cases hz : 0 ≤ (N : Int) - i - j - 2
  · have h2 := Int.tdiv_nonneg hz (Int.natCast_nonneg D)
    have e : (partitioningBaseLevel D (N : Int) i j : Int) = ((N : Int) - i - j - 2).tdiv D := by
      unfold partitioningBaseLevel cdiv
      rw [Coord.imax_eq, Int.toNat_of_nonneg (by omega), max_eq_left h2]
    rw [Int.tdiv_eq_ediv_of_nonneg hz] at e
    have h3 := Int.lt_mul_ediv_self_add (x := (N : Int) - i - j - 2) hDpos
    rw [← e] at h3
    have h4 : ((D * partitioningBaseLevel D (N : Int) i j : Nat) : Int) = (D : Int) * (partitioningBaseLevel D (N : Int) i j : Int) := by push_cast; ring
    rw [← h4] at h3
    omega
  · omega

section
variable {D : Nat} {ndebug : Bool} {w : List ℝ} {x : List (Fin D → ℝ)} {alpha : XR} {T : Tree XR D} {m a : ℝ}

theorem BuiltX.cell_volume (b : BuiltX D ndebug w x alpha T m) (s : SupportedInput D w x) {i j : Nat} {u v : ℝ} (hu : 2 ^ i * m ≤ u) (hv : 2 ^ j * m ≤ v) :
    1 / 2 ^ (D * partitioningBaseLevel D T.blc i j) ≤ 4 * 2 ^ D * (u * v / w.sum) := by
  have hm := b.m_pos s
  have hW := b.W_pos s
  have huv : 2 ^ i * m * (2 ^ j * m) ≤ u * v := mul_le_mul hu hv (by positivity) (le_trans (by positivity) hu)
  have huv1 : m ^ 2 ≤ u * v := by
    refine le_trans ?_ huv
    have h1 : (1 : ℝ) ≤ 2 ^ i * 2 ^ j := one_le_mul_of_one_le_of_one_le (one_le_pow₀ (by norm_num)) (one_le_pow₀ (by norm_num))
    nlinarith [sq_nonneg m]
  rcases lt_or_ge T.blc 0 with hneg | hpos
  · have h1 : w.sum < m ^ 2 := by
      by_contra hc
      have := b.blc_nonneg (not_lt.1 hc)
      omega
    have h2 : 1 ≤ u * v / w.sum := by rw [le_div_iff₀ hW]; linarith
    have h3 : (1 : ℝ) ≤ 2 ^ D := one_le_pow₀ (by norm_num)
    have h4 : 1 / (2 : ℝ) ^ (D * partitioningBaseLevel D T.blc i j) ≤ 1 := by
      rw [div_le_one (by positivity)]; exact one_le_pow₀ (by norm_num)
    nlinarith
  · obtain ⟨N, hN⟩ : ∃ N : Nat, T.blc = N := ⟨T.blc.toNat, by omega⟩
    have hhigh := b.blc_high hpos
    rw [hN] at hhigh
    have e : (2 : ℝ) ^ ((N : Int) + 1) = 2 ^ (N + 1) := by
      have : (N : Int) + 1 = ((N + 1 : Nat) : Int) := by push_cast; ring
      rw [this, zpow_natCast]
    rw [e] at hhigh
    rw [hN]
    have hge := pbl_ge (D := D) (N := N) (i := i) (j := j) s.D1
    set P := D * partitioningBaseLevel D (N : Int) i j with hP
    rw [div_le_iff₀ (by positivity), mul_div_assoc', div_mul_eq_mul_div, le_div_iff₀ hW, one_mul]
    calc w.sum ≤ 2 ^ (N + 1) * m ^ 2 := hhigh.le
      _ ≤ 2 ^ (P + D + i + j + 1 + 1) * m ^ 2 := mul_le_mul_of_nonneg_right (pow_le_pow_right₀ (by norm_num) (by omega)) (by positivity)
      _ = 4 * 2 ^ D * (2 ^ i * m * (2 ^ j * m)) * 2 ^ P := by simp only [pow_add]; ring
      _ ≤ 4 * 2 ^ D * (u * v) * 2 ^ P := by
        refine mul_le_mul_of_nonneg_right (mul_le_mul_of_nonneg_left huv (by positivity)) (by positivity)

/-- a type I call looks at close pairs only -/
theorem BuiltX.close_I (b : BuiltX D ndebug w x alpha T m) (s : SupportedInput D w x) {t : Task} (ht : t ∈ visitP T T.levels 0 0 0) (h2 : t.two = false)
    {p q : Nat} {y z : Node XR D} (hy : T.nodes[p]? = some y) (hz : T.nodes[q]? = some z) (hit : Hit T t p q) {u v : ℝ} {xu xv : Fin D → ℝ}
    (hu : w[y.index]? = some u) (hv : w[z.index]? = some v) (hp : x[y.index]? = some xu) (hq : x[z.index]? = some xv) :
    torusDist xu xv ^ D < 4 * 4 ^ D * (u * v / w.sum) := by
  have hon : OnLevel D 0 0 := ⟨by simp [levelStart], by simp [levelStart]⟩
  have htok := visitP_ok _ _ _ _ hon hon t ht
  have hlev := visitP_level _ _ _ _ t ht h2
  obtain ⟨y', z', hy', hz', hiy, hiz, _⟩ := hit
  rw [hy] at hy'; rw [hz] at hz'
  obtain rfl := Option.some.inj hy'
  obtain rfl := Option.some.inj hz'
  obtain ⟨a1, _, a3⟩ := (b.inLC_iff s (List.mem_of_getElem? hy) hu hp htok.hi (le_trans htok.hl (pbl_le_target_left _ _)) htok.hA).1 hiy
  obtain ⟨b1, _, b3⟩ := (b.inLC_iff s (List.mem_of_getElem? hz) hv hq htok.hj (le_trans htok.hl (pbl_le_target_right _ _)) htok.hB).1 hiz
  have h3 := torusDist_touch s.D1 a3 b3 (htok.one h2)
  have h4 := b.cell_volume s a1 b1
  rw [hlev] at h4
  calc torusDist xu xv ^ D < 2 ^ D * (1 / 2 ^ (D * t.level)) := h3
    _ ≤ 2 ^ D * (4 * 2 ^ D * (u * v / w.sum)) := mul_le_mul_of_nonneg_left h4 (by positivity)
    _ = 4 * 4 ^ D * (u * v / w.sum) := by rw [show (4 : ℝ) ^ D = 2 ^ D * 2 ^ D by rw [← mul_pow]; norm_num]; ring

/-- the bound of a type II call is at most a constant times the probability of each of its pairs, with a constant factor on the weights -/
theorem BuiltX.close_II (b : BuiltX D ndebug w x (XR.fin a) T m) (s : SupportedInput D w x) (ha : 0 < a) {t : Task} (ht : t ∈ visitP T T.levels 0 0 0)
    (h2 : t.two = true) {p q : Nat} {y z : Node XR D} (hy : T.nodes[p]? = some y) (hz : T.nodes[q]? = some z) (hit : Hit T t p q) {u v : ℝ}
    {xu xv : Fin D → ℝ} (hu : w[y.index]? = some u) (hv : w[z.index]? = some v) (hp : x[y.index]? = some xu) (hq : x[z.index]? = some xv) {bd : ℝ}
    (hbd : T.maxProb t = some (XR.fin bd)) : bd ≤ Scaling.connProb D a (4 * 4 ^ D * (u * v / w.sum)) (torusDist xu xv) := by
  have hon : OnLevel D 0 0 := ⟨by simp [levelStart], by simp [levelStart]⟩
  have ok := b.ok
  have hm := b.m_pos s
  have hW := b.W_pos s
  have htok := visitP_ok _ _ _ _ hon hon t ht
  obtain ⟨y', z', hy', hz', hiy, hiz, _⟩ := hit
  rw [hy] at hy'; rw [hz] at hz'
  obtain rfl := Option.some.inj hy'
  obtain rfl := Option.some.inj hz'
  have hly := le_trans htok.hl (pbl_le_target_left (D := D) (blc := T.blc) t.i t.j)
  have hlz := le_trans htok.hl (pbl_le_target_right (D := D) (blc := T.blc) t.i t.j)
  obtain ⟨a1, _, a3⟩ := (b.inLC_iff s (List.mem_of_getElem? hy) hu hp htok.hi hly htok.hA).1 hiy
  obtain ⟨b1, _, b3⟩ := (b.inLC_iff s (List.mem_of_getElem? hz) hv hq htok.hj hlz htok.hB).1 hiz
  have huv : 2 ^ t.i * m * (2 ^ t.j * m) ≤ u * v := mul_le_mul a1 b1 (by positivity) (le_trans (by positivity) a1)
  have hlev : t.level < T.levels := by
    have := htok.hl
    have := pbl_le_zero (D := D) (blc := T.blc) t.i t.j
    rw [ok.levels_eq]; omega
  have hd := ok.depth_le hlev
  -- the level is not the root level
  have hl1 : 1 ≤ t.level := by
    by_contra hc
    have h0 : t.level = 0 := by omega
    have hA := htok.hA; have hB := htok.hB
    rw [h0] at hA hB
    have e1 : levelStart D 1 = 1 := by simp [levelStart]
    unfold OnLevel at hA hB
    rw [levelStart_zero] at hA hB
    simp only [Nat.zero_add, e1] at hA hB
    exact (htok.two h2).1 (by omega)
  -- distance
  have hpar := visitP_parents _ _ _ _ t ht h2 (by omega)
  obtain ⟨k, hk⟩ : ∃ k, t.level = k + 1 := ⟨t.level - 1, by omega⟩
  have hdist : torusDist xu xv ^ D < 4 ^ D * (1 / 2 ^ (D * t.level)) := by
    have hA := htok.hA; have hB := htok.hB
    rw [hk] at hiy hiz hA hB hpar hly hlz
    rw [Nat.add_sub_cancel] at hpar
    obtain ⟨_, _, c3⟩ := (b.inLC_iff s (List.mem_of_getElem? hy) hu hp htok.hi (by omega) (onLevel_parent hA)).1 hiy.parent
    obtain ⟨_, _, d3⟩ := (b.inLC_iff s (List.mem_of_getElem? hz) hv hq htok.hj (by omega) (onLevel_parent hB)).1 hiz.parent
    have h3 := torusDist_touch s.D1 c3 d3 hpar
    refine lt_of_lt_of_eq h3 ?_
    rw [hk, Nat.mul_add, Nat.mul_one, pow_add, show (4 : ℝ) ^ D = 2 ^ D * 2 ^ D by rw [← mul_pow]; norm_num]
    field_simp
  -- the bound
  obtain ⟨r, wu, hb⟩ := b.typeII s htok h2
  have hr : 1 / 2 ^ t.level ≤ r := by
    obtain ⟨r', h3, _, _, h6⟩ := Props.C07_cell_distance D t.level t.cellA t.cellB s.D1 s.D5 hd htok.hA htok.hB
    rw [hb.dist, Option.some.injEq, XR.fin.injEq] at h3
    subst h3
    apply h6
    rw [Coord.touching_eq ok.D1 ok.D5 hd htok.hA htok.hB]
    have := (htok.two h2).2
    unfold touchB at this
    rw [this]
  have hrD : 1 / 2 ^ (D * t.level) ≤ r ^ D := by
    have e : 1 / (2 : ℝ) ^ (D * t.level) = (1 / 2 ^ t.level) ^ D := by
      rw [div_pow, one_pow, ← pow_mul, Nat.mul_comm]
    rw [e]
    exact pow_le_pow_left₀ (by positivity) hr D
  have hwu : wu ≤ 4 * (u * v / w.sum) := by
    have hi := htok.hi; have hj := htok.hj; have hly := ok.layers_le
    have h3 := hb.wUpper
    unfold Tree.wUpper at h3
    rw [obind (Coord.shl1_eq (show t.i + 1 ≤ 30 by omega)), obind (Coord.shl1_eq (show t.j + 1 ≤ 30 by omega)), b.w0, b.W] at h3
    simp only [XR.ofInt_eq, XR.mul_fin] at h3
    rw [XR.div_fin _ _ hW.ne', Option.some.injEq, XR.fin.injEq] at h3
    rw [← h3, mul_div_assoc', div_le_div_iff_of_pos_right hW]
    push_cast
    rw [pow_succ, pow_succ]
    linarith
  have hbd' : bd = (wu / r ^ D) ^ a := by
    have h3 := hb.maxProb
    have hpos := hb.ratio_pos
    have hbd1 : (wu / r ^ D) ^ a ≤ 1 := Real.rpow_le_one hpos.le hb.ratio_le ha.le
    rw [b.alpha_eq, XR.pow_fin _ _ hpos, XR.fmin_fin, min_eq_left hbd1, hbd, Option.some.injEq, XR.fin.injEq] at h3
    exact h3
  have hbd1 : bd ≤ 1 := by rw [hbd']; exact Real.rpow_le_one hb.ratio_pos.le hb.ratio_le ha.le
  unfold Scaling.connProb
  split
  · exact hbd1
  · rename_i hne
    refine le_min hbd1 ?_
    rw [hbd']
    refine Real.rpow_le_rpow hb.ratio_pos.le ?_ ha.le
    have hpos : 0 < torusDist xu xv ^ D := pow_pos (lt_of_le_of_ne (Scaling.torusDist_nonneg _ _) (Ne.symm hne)) D
    have hrpos : 0 < r ^ D := pow_pos hb.rpos D
    have hρ : 0 ≤ u * v / w.sum := div_nonneg (le_trans (by positivity) huv) hW.le
    rw [div_le_div_iff₀ hrpos hpos]
    have h5 : torusDist xu xv ^ D ≤ 4 ^ D * r ^ D := hdist.le.trans (mul_le_mul_of_nonneg_left hrD (by positivity))
    calc wu * torusDist xu xv ^ D ≤ 4 * (u * v / w.sum) * (4 ^ D * r ^ D) := mul_le_mul hwu h5 hpos.le (by positivity)
      _ = 4 * 4 ^ D * (u * v / w.sum) * r ^ D := by ring

end
end Girgs
