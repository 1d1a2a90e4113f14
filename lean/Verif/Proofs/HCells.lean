import Verif.Proofs.HFilterXR
/-!
Hyperbolic sampler over exact reals: which angles are in a cell, how far apart the points of two cells are, and which distance
classes the recursion produces.
-/
namespace Girgs
open Angle Spec
open Real

/-- number of cells strictly between two cells of level `l` on the shorter arc -/
def betweenN (l A B : ℕ) : ℕ := min (max A B - min A B) (2 ^ l - (max A B - min A B)) - 1

theorem onLv_diff {l A B : ℕ} (hA : OnLv l A) (hB : OnLv l B) : max A B - min A B < 2 ^ l := by
  rw [onLv_iff] at hA hB
  generalize 2 ^ l = N at *
  omega

theorem cellsBetween_eq {l A B : ℕ} (hl : l ≤ 31) (hA : OnLv l A) (hB : OnLv l B) : cellsBetween A B l = some (betweenN l A B) := by
  unfold cellsBetween
  have h1 := onLv_lt hA hl
  have h2 := onLv_lt hB hl
  have h3 := onLv_diff hA hB
  have h4 : 2 ^ l ≤ 2 ^ 31 := two_pow_le hl
  rw [diff_eq (by omega) (by omega)]
  refine (obind (numCellsInLevel_eq hl) _).trans ?_
  rw [subU_eq (by omega) h3.le]
  unfold betweenN
  simp only [Option.some.injEq]
  split <;> omega

theorem betweenN_pos {l A B : ℕ} (hA : OnLv l A) (hB : OnLv l B) (h : touchN l A B = false) : 1 ≤ betweenN l A B := by
  have h3 := onLv_diff hA hB
  unfold touchN at h
  simp only [decide_eq_false_iff_not, not_or] at h
  unfold betweenN
  generalize 2 ^ l = N at *
  omega

theorem betweenN_kids {l A B a b : ℕ} (hA : OnLv l A) (hB : OnLv l B) (h : touchN l A B = true) (hab : (a, b) ∈ hkids A B) :
    betweenN (l + 1) a b ≤ 2 := by
  rw [mem_hkids] at hab
  have h3 := onLv_diff hA hB
  unfold touchN at h
  simp only [decide_eq_true_eq] at h
  unfold betweenN
  rw [show 2 ^ (l + 1) = 2 * 2 ^ l by ring]
  generalize 2 ^ l = N at *
  omega

theorem betweenN_two {l A B : ℕ} (h : betweenN l A B = 2) : 3 ≤ l := by
  by_contra hl
  unfold betweenN at h
  have : l = 0 ∨ l = 1 ∨ l = 2 := by omega
  rcases this with rfl | rfl | rfl <;> norm_num at h <;> omega

theorem hvisit_between {layers levels : ℕ} {pbl : ℕ → ℕ → ℕ} {full : Bool} : ∀ (k A B l : ℕ), OnLv l A → OnLv l B →
    (touchN l A B = false → betweenN l A B ≤ 2) → ∀ t ∈ hvisit layers levels pbl full k A B l, t.two = true →
    betweenN t.level t.cellA t.cellB ≤ 2 := by
  intro k
  induction k with
  | zero => intro A B l _ _ _ t ht; simp [hvisit] at ht
  | succ k ih =>
    intro A B l hA hB hb t ht h2
    rw [hvisit_succ] at ht
    split at ht
    · rename_i htch
      split at ht
      · obtain ⟨_, e1, e2, e3, _⟩ := mem_htasksII.1 ht
        rw [e1, e2, e3]; exact hb htch
      · simp at ht
    · rename_i htch
      rcases List.mem_append.1 ht with ht | ht
      · have := (mem_htasksI.1 ht).1
        rw [this] at h2; cases h2
      · split at ht
        · simp at ht
        · obtain ⟨p, hp, ht⟩ := List.mem_flatMap.1 ht
          have hk := hkids_onLv hA hB hp
          refine ih p.1 p.2 (l + 1) hk.1 hk.2 (fun _ => ?_) t ht h2
          exact betweenN_kids hA hB (by simpa using htch) hp

/-- every type II call of the recursion compares cells with one or two cells between them -/
theorem hvisit_root_between {layers levels : ℕ} {pbl : ℕ → ℕ → ℕ} {full : Bool} {t : Task}
    (ht : t ∈ hvisit layers levels pbl full levels 0 0 0) (h2 : t.two = true) : betweenN t.level t.cellA t.cellB ≤ 2 :=
  hvisit_between levels 0 0 0 onLv_zero onLv_zero (fun h => by simp [touchN] at h) t ht h2

/-! ### angles -/

/-- the angle `a` is in cell `A` of level `l` -/
def InArc (l A : ℕ) (a : ℝ) : Prop :=
  ((A : ℝ) + 1 - 2 ^ l) * (2 * π / 2 ^ l) ≤ a ∧ a < ((A : ℝ) + 2 - 2 ^ l) * (2 * π / 2 ^ l)

theorem InArc.sep {l A B : ℕ} (hA : OnLv l A) (hB : OnLv l B) {a b : ℝ} (ha : InArc l A a) (hb : InArc l B b) :
    betweenN l A B * (2 * π / 2 ^ l) ≤ |a - b| ∧ |a - b| ≤ 2 * π - betweenN l A B * (2 * π / 2 ^ l) := by
  have key : ∀ {A B : ℕ} {a b : ℝ}, OnLv l A → OnLv l B → A ≤ B → InArc l A a → InArc l B b →
      betweenN l A B * (2 * π / 2 ^ l) ≤ |a - b| ∧ |a - b| ≤ 2 * π - betweenN l A B * (2 * π / 2 ^ l) := by
    intro A B a b hA hB hAB ha hb
    have hd := onLv_diff hA hB
    rw [max_eq_right hAB, min_eq_left hAB] at hd
    have hw : 0 < 2 * π / (2 : ℝ) ^ l := by have := pi_pos; positivity
    have hN : (2 : ℝ) ^ l * (2 * π / 2 ^ l) = 2 * π := by field_simp
    unfold InArc at ha hb
    generalize 2 * π / (2 : ℝ) ^ l = w at *
    have e : betweenN l A B = min (B - A) (2 ^ l - (B - A)) - 1 := by unfold betweenN; rw [max_eq_right hAB, min_eq_left hAB]
    have e1 : betweenN l A B = 0 ∨ betweenN l A B + 1 + A ≤ B := by omega
    have e2 : betweenN l A B = 0 ∨ betweenN l A B + 1 + B ≤ 2 ^ l + A := by omega
    rw [← e] at *
    have hBA : (A : ℝ) ≤ B := by exact_mod_cast hAB
    have hdr : (B : ℝ) + 1 ≤ 2 ^ l + A := by have : B + 1 ≤ 2 ^ l + A := by omega
                                             exact_mod_cast this
    refine ⟨?_, ?_⟩
    · rcases e1 with h0 | h1
      · rw [h0]; simp
      · have h1r : (betweenN l A B : ℝ) + 1 + A ≤ B := by exact_mod_cast h1
        rw [abs_sub_comm]
        refine le_trans ?_ (le_abs_self _)
        have : ((betweenN l A B : ℝ) + 1 + A) * w ≤ B * w := mul_le_mul_of_nonneg_right h1r hw.le
        nlinarith
    · rcases e2 with h0 | h1
      · rw [h0]
        simp only [Nat.cast_zero, zero_mul, sub_zero]
        rw [abs_le]
        have : (B + 1) * w ≤ (2 ^ l + A) * w := mul_le_mul_of_nonneg_right hdr hw.le
        have h5 : A * w ≤ B * w := mul_le_mul_of_nonneg_right hBA hw.le
        have h6 : w ≤ 2 * π := by
          rw [← hN]; nlinarith [one_le_pow₀ (M₀ := ℝ) (a := 2) (n := l) (by norm_num)]
        constructor <;> nlinarith
      · have h1r : (betweenN l A B : ℝ) + 1 + B ≤ 2 ^ l + A := by exact_mod_cast h1
        rw [abs_le]
        have : ((betweenN l A B : ℝ) + 1 + B) * w ≤ (2 ^ l + A) * w := mul_le_mul_of_nonneg_right h1r hw.le
        have h5 : A * w ≤ B * w := mul_le_mul_of_nonneg_right hBA hw.le
        have h8 : (betweenN l A B : ℝ) + 1 ≤ 2 ^ l := by
          have : betweenN l A B + 1 ≤ 2 ^ l := by omega
          exact_mod_cast this
        have h9 : ((betweenN l A B : ℝ) + 1) * w ≤ 2 ^ l * w := mul_le_mul_of_nonneg_right h8 hw.le
        constructor <;> nlinarith
  rcases le_total A B with h | h
  · exact key hA hB h ha hb
  · have := key hB hA h hb ha
    have e : betweenN l B A = betweenN l A B := by unfold betweenN; rw [max_comm B A, min_comm B A]
    rw [e, abs_sub_comm] at this
    exact this

theorem InArc.cos_le {l A B : ℕ} (hA : OnLv l A) (hB : OnLv l B) {a b : ℝ} (ha : InArc l A a) (hb : InArc l B b) :
    cos (a - b) ≤ cos (betweenN l A B * (2 * π / 2 ^ l)) := by
  obtain ⟨h1, h2⟩ := ha.sep hA hB hb
  rw [← cos_abs (a - b)]
  exact cos_le_cos_arc (by have := pi_pos; positivity) h1 h2

theorem cos_between_le {l m : ℕ} {b : ℕ} (h1 : 1 ≤ b) (h2 : 2 * b + 2 ≤ m) (hm : m = 2 ^ l) :
    cos (b * (2 * π / 2 ^ l)) ≤ cos (2 * π / 2 ^ l) := by
  have hw : 0 < 2 * π / (2 : ℝ) ^ l := by have := pi_pos; positivity
  have hN : (2 : ℝ) ^ l * (2 * π / 2 ^ l) = 2 * π := by field_simp
  have hb : (1 : ℝ) ≤ b := by exact_mod_cast h1
  have hb2 : (2 * b + 2 : ℝ) ≤ 2 ^ l := by have : 2 * b + 2 ≤ 2 ^ l := by omega
                                           exact_mod_cast this
  generalize 2 * π / (2 : ℝ) ^ l = w at *
  exact cos_le_cos_arc hw.le (by nlinarith) (by nlinarith)

theorem betweenN_le {l A B : ℕ} (hA : OnLv l A) (hB : OnLv l B) (h : 1 ≤ betweenN l A B) : 2 * betweenN l A B + 2 ≤ 2 ^ l := by
  have h3 := onLv_diff hA hB
  unfold betweenN at *
  generalize 2 ^ l = N at *
  omega

/-- under the comparison level condition a larger radius gives a larger distance -/
theorem hc_le_left {a a' b φ R : ℝ} (ha : 0 < a) (h : a ≤ a') (hb : 0 ≤ b) (hR : b ≤ R) (hc0 : cosh R < hc a b φ) :
    hc a b φ ≤ hc a' b φ := by
  have hsa : 0 < sinh a := sinh_pos_iff.2 ha
  have hsb : 0 ≤ sinh b := sinh_nonneg_iff.2 hb
  rw [hc_eq'] at hc0
  rw [hc_eq', hc_eq']
  set C := sinh b * cos φ with hC
  have e1 : sinh a * sinh b * cos φ = sinh a * C := by rw [hC]; ring
  have e2 : sinh a' * sinh b * cos φ = sinh a' * C := by rw [hC]; ring
  rw [e1] at hc0 ⊢
  rw [e2]
  have hmono : sinh a ≤ sinh a' := sinh_le_sinh.2 h
  -- sinh (a' - a) * cosh b ≤ cosh R * (sinh a' - sinh a)
  have hcb : cosh b ≤ cosh R := by rw [cosh_le_cosh, abs_of_nonneg hb, abs_of_nonneg (hb.trans hR)]; exact hR
  have hsub : sinh (a' - a) ≤ sinh a' - sinh a := by
    have e : sinh a' = sinh (a' - a) * cosh a + cosh (a' - a) * sinh a := by rw [← sinh_add]; congr 1; ring
    have h1 : 1 ≤ cosh a := one_le_cosh _
    have h2 : 1 ≤ cosh (a' - a) := one_le_cosh _
    have h3 : 0 ≤ sinh (a' - a) := sinh_nonneg_iff.2 (by linarith)
    nlinarith
  have hsd : 0 ≤ sinh (a' - a) := sinh_nonneg_iff.2 (by linarith)
  have hcR : 1 ≤ cosh R := one_le_cosh _
  have hcb1 : 1 ≤ cosh b := one_le_cosh _
  have key : sinh (a' - a) * cosh b ≤ cosh R * (sinh a' - sinh a) := by
    nlinarith
  -- multiply by sinh a
  have e3 : (cosh a' * cosh b - sinh a' * C - (cosh a * cosh b - sinh a * C)) * sinh a =
      (cosh a * cosh b - sinh a * C) * (sinh a' - sinh a) - sinh (a' - a) * cosh b := by
    rw [sinh_sub]; ring
  have h4 : cosh R * (sinh a' - sinh a) ≤ (cosh a * cosh b - sinh a * C) * (sinh a' - sinh a) :=
    mul_le_mul_of_nonneg_right hc0.le (by linarith)
  have h5 : 0 ≤ (cosh a' * cosh b - sinh a' * C - (cosh a * cosh b - sinh a * C)) * sinh a := by rw [e3]; linarith
  have := nonneg_of_mul_nonneg_left h5 hsa
  linarith

theorem hc_le {a a' b b' φ R : ℝ} (ha : 0 < a) (h : a ≤ a') (haR : a' ≤ R) (hb : 0 < b) (h' : b ≤ b') (hbR : b' ≤ R)
    (hc0 : cosh R < hc a b φ) : hc a b φ ≤ hc a' b' φ := by
  have h1 := hc_le_left ha h hb.le (h'.trans hbR) hc0
  refine h1.trans ?_
  rw [hc_symm a', hc_symm a']
  exact hc_le_left hb h' (ha.le.trans h) haR (by rw [hc_symm]; exact lt_of_lt_of_le hc0 h1)

/-- points in cells that do not touch, on a level not deeper than the comparison level -/
theorem hc_cells {l A B : ℕ} (hA : OnLv l A) (hB : OnLv l B) (hn : touchN l A B = false) {r s R a b r' s' : ℝ}
    (hr : 0 < r) (hs : 0 < s) (hr' : r ≤ r') (hs' : s ≤ s') (hrR : r' ≤ R) (hsR : s' ≤ R) (hlev : cosh R < hc r s (2 * π / 2 ^ l))
    (ha : InArc l A a) (hb : InArc l B b) :
    cosh R < hc r s (betweenN l A B * (2 * π / 2 ^ l)) ∧ hc r s (betweenN l A B * (2 * π / 2 ^ l)) ≤ hc r' s' (a - b) := by
  have h1 := betweenN_pos hA hB hn
  have hss : 0 ≤ sinh r * sinh s := mul_nonneg (sinh_nonneg_iff.2 hr.le) (sinh_nonneg_iff.2 hs.le)
  have h2 := cos_between_le h1 (betweenN_le hA hB h1) rfl
  have h3 : cosh R < hc r s (betweenN l A B * (2 * π / 2 ^ l)) := lt_of_lt_of_le hlev (hc_angle hss h2)
  refine ⟨h3, ?_⟩
  have h4 := hc_angle hss (ha.cos_le hA hB hb)
  exact h4.trans (hc_le hr hr' hrR hs hs' hsR (lt_of_lt_of_le h3 h4))

end Girgs
