import Verif.Proofs.RoundedArith
import Verif.Proofs.BuiltX
/-
The constructor of `SpatialTree` with rounding.
-/
namespace Girgs
open Spec CFloat Build

theorem forall2_get {α β : Type} {R : α → β → Prop} {l : List α} {l' : List β} (h : List.Forall₂ R l l') {i : Nat} {a : α}
    (ha : l[i]? = some a) : ∃ b, l'[i]? = some b ∧ R a b := by
  induction h generalizing i with
  | nil => simp at ha
  | cons hab _ ih =>
    cases i with
    | zero => simp only [List.getElem?_cons_zero, Option.some.injEq] at ha ⊢; subst ha; exact ⟨_, rfl, hab⟩
    | succ i => simp only [List.getElem?_cons_succ] at ha ⊢; exact ih ha

theorem forall2_mem {α β : Type} {R : α → β → Prop} {l : List α} {l' : List β} (h : List.Forall₂ R l l') {a : α}
    (ha : a ∈ l) : ∃ b ∈ l', R a b := by
  obtain ⟨i, hi⟩ := List.mem_iff_getElem?.1 ha
  obtain ⟨b, hb, hr⟩ := forall2_get h hi
  exact ⟨b, List.mem_of_getElem? hb, hr⟩

theorem two_pow_1023 {x : ℝ} {k : ℕ} (hk : k ≤ 1023) (h : x ≤ 2 ^ k) : x ≤ 2 ^ 1023 :=
  le_trans h (pow_le_pow_right₀ (by norm_num) hk)

theorem tiny_le {k : ℕ} (hk : k ≤ 1022) {x : ℝ} (h : 1 / 2 ^ k ≤ x) : (2 : ℝ) ^ (-1022 : ℤ) ≤ x := by
  refine le_trans ?_ h
  rw [one_div, ← zpow_natCast, ← zpow_neg]
  exact zpow_le_zpow_right₀ (by norm_num) (by omega)

namespace Spec.Rounded
variable {F : Type} [CFloat F] {u lam : ℝ} (A : Rounded F u lam)
include A

theorem val_minElem {weights : List F} {w : List ℝ} (h : List.Forall₂ (fun a y => A.val a = some y) weights w) (h1 : 1 ≤ w.length) :
    ∃ a m, minElem weights = some a ∧ A.val a = some m ∧ m ∈ w ∧ ∀ y ∈ w, m ≤ y := by
  cases h with
  | nil => simp at h1
  | @cons a x as xs hax h =>
    have key : ∀ {as : List F} {xs : List ℝ}, List.Forall₂ (fun a y => A.val a = some y) as xs → ∀ (a : F) (x : ℝ),
        A.val a = some x → ∃ b m, as.foldl (fun m y => if y <. m then y else m) a = b ∧ A.val b = some m ∧ (m = x ∨ m ∈ xs) ∧
          m ≤ x ∧ ∀ y ∈ xs, m ≤ y := by
      intro as xs h
      induction h with
      | nil => intro a x ha; exact ⟨a, x, rfl, ha, Or.inl rfl, le_rfl, by simp⟩
      | @cons b y bs ys hby _ ih =>
        intro a x ha
        rw [List.foldl_cons]
        have hlt := A.lt b a y x hby ha
        by_cases hc : y < x
        · rw [if_pos (hlt.2 hc)]
          obtain ⟨c, m, e, e1, e2, e3, e4⟩ := ih b y hby
          refine ⟨c, m, e, e1, Or.inr (by simpa using e2), by linarith, ?_⟩
          intro z hz
          rcases List.mem_cons.1 hz with rfl | hz
          · exact e3
          · exact e4 z hz
        · rw [if_neg (fun h => hc (hlt.1 h))]
          obtain ⟨c, m, e, e1, e2, e3, e4⟩ := ih a x ha
          refine ⟨c, m, e, e1, e2.imp id (fun h => by simp [h]), e3, ?_⟩
          intro z hz
          rcases List.mem_cons.1 hz with rfl | hz
          · linarith
          · exact e4 z hz
    obtain ⟨b, m, e, e1, e2, e3, e4⟩ := key h a x hax
    refine ⟨b, m, congrArg some e, e1, by simpa using e2, ?_⟩
    intro z hz
    rcases List.mem_cons.1 hz with rfl | hz
    · exact e3
    · exact e4 z hz

theorem val_maxElem {weights : List F} {w : List ℝ} (h : List.Forall₂ (fun a y => A.val a = some y) weights w) (h1 : 1 ≤ w.length) :
    ∃ a m, maxElem weights = some a ∧ A.val a = some m ∧ m ∈ w ∧ ∀ y ∈ w, y ≤ m := by
  cases h with
  | nil => simp at h1
  | @cons a x as xs hax h =>
    have key : ∀ {as : List F} {xs : List ℝ}, List.Forall₂ (fun a y => A.val a = some y) as xs → ∀ (a : F) (x : ℝ),
        A.val a = some x → ∃ b m, as.foldl (fun m y => if m <. y then y else m) a = b ∧ A.val b = some m ∧ (m = x ∨ m ∈ xs) ∧
          x ≤ m ∧ ∀ y ∈ xs, y ≤ m := by
      intro as xs h
      induction h with
      | nil => intro a x ha; exact ⟨a, x, rfl, ha, Or.inl rfl, le_rfl, by simp⟩
      | @cons b y bs ys hby _ ih =>
        intro a x ha
        rw [List.foldl_cons]
        have hlt := A.lt a b x y ha hby
        by_cases hc : x < y
        · rw [if_pos (hlt.2 hc)]
          obtain ⟨c, m, e, e1, e2, e3, e4⟩ := ih b y hby
          refine ⟨c, m, e, e1, Or.inr (by simpa using e2), by linarith, ?_⟩
          intro z hz
          rcases List.mem_cons.1 hz with rfl | hz
          · exact e3
          · exact e4 z hz
        · rw [if_neg (fun h => hc (hlt.1 h))]
          obtain ⟨c, m, e, e1, e2, e3, e4⟩ := ih a x ha
          refine ⟨c, m, e, e1, e2.imp id (fun h => by simp [h]), e3, ?_⟩
          intro z hz
          rcases List.mem_cons.1 hz with rfl | hz
          · linarith
          · exact e4 z hz
    obtain ⟨b, m, e, e1, e2, e3, e4⟩ := key h a x hax
    refine ⟨b, m, congrArg some e, e1, by simpa using e2, ?_⟩
    intro z hz
    rcases List.mem_cons.1 hz with rfl | hz
    · exact e3
    · exact e4 z hz

theorem val_sum (hu : u ≤ 1 / 2 ^ 34) {weights : List F} {w : List ℝ} (h : List.Forall₂ (fun a y => A.val a = some y) weights w)
    (hp : ∀ y ∈ w, (2 : ℝ) ^ (-1022 : ℤ) ≤ y) (hlen : w.length ≤ 2 ^ 32) (hsum : w.sum ≤ 2 ^ 500) :
    ∃ S, A.val (sumElems weights) = some S ∧ 0 ≤ S ∧ (1 - u) ^ w.length * w.sum ≤ S ∧ (1 - u) ^ w.length * S ≤ w.sum := by
  have hc0 := A.c_pos hu
  have key : ∀ {as : List F} {xs : List ℝ}, List.Forall₂ (fun a y => A.val a = some y) as xs → (∀ y ∈ xs, (2 : ℝ) ^ (-1022 : ℤ) ≤ y) →
      ∀ (a : F) (s t : ℝ) (k : ℕ), A.val a = some s → 0 ≤ s → 0 ≤ t → (1 - u) ^ k * t ≤ s → (1 - u) ^ k * s ≤ t →
        k + xs.length ≤ 2 ^ 32 → t + xs.sum ≤ 2 ^ 500 →
        ∃ S, A.val (as.foldl (fun s x => s +. x) a) = some S ∧ 0 ≤ S ∧ (1 - u) ^ (k + xs.length) * (t + xs.sum) ≤ S ∧
          (1 - u) ^ (k + xs.length) * S ≤ t + xs.sum := by
    intro as xs h
    induction h with
    | nil => intro _ a s t k ha hs ht h1 h2 _ _; exact ⟨s, ha, hs, by simpa using h1, by simpa using h2⟩
    | @cons b y bs ys hby _ ih =>
      intro hp a s t k ha hs ht h1 h2 hk hsum
      rw [List.sum_cons] at hsum
      have hy := hp y (by simp)
      have hy0 : 0 < y := lt_of_lt_of_le (zpow_pos (by norm_num) _) hy
      have hys : 0 ≤ ys.sum := List.sum_nonneg fun z hz =>
        (lt_of_lt_of_le (zpow_pos (by norm_num) _) (hp z (by simp [hz]))).le
      have h34 := A.c_pow hu (show k ≤ 2 ^ 32 by simp at hk; omega)
      have hst : s ≤ 2 * t := by
        have h3 := mul_le_mul_of_nonneg_right h34 hs
        linarith
      have hsy : s + y ≤ 2 ^ 501 := by
        have : (2 : ℝ) ^ 501 = 2 * 2 ^ 500 := by rw [pow_succ]; ring
        rw [this]
        generalize (2 : ℝ) ^ 500 = B at *
        linarith
      have e := A.add a b s y ha hby (by rw [abs_of_nonneg (by linarith)]; exact two_pow_1023 (by norm_num) hsy)
      have hlow := A.low (show (2 : ℝ) ^ (-1022 : ℤ) ≤ s + y from le_trans hy (by linarith))
      have hup := A.up (by have : (1 : ℝ) / 2 ^ 34 < 1 := by norm_num
                           linarith) (show (2 : ℝ) ^ (-1022 : ℤ) ≤ s + y from le_trans hy (by linarith))
      have hcp := A.c_pow_pos hu k
      have hcl := A.c_pow_le hu k
      have g1 : (1 - u) ^ (k + 1) * (t + y) ≤ A.rnd (s + y) := by
        refine le_trans ?_ hlow
        rw [pow_succ]
        have h5 : (1 - u) ^ k * y ≤ y := mul_le_of_le_one_left hy0.le hcl
        have h6 : (1 - u) ^ k * t + (1 - u) ^ k * y ≤ s + y := by linarith
        have h7 := mul_le_mul_of_nonneg_left h6 hc0.le
        linarith
      have g2 : (1 - u) ^ (k + 1) * A.rnd (s + y) ≤ t + y := by
        rw [pow_succ]
        have h5 := mul_le_mul_of_nonneg_left hup hcp.le
        have h6 : (1 - u) ^ k * y ≤ y := mul_le_of_le_one_left hy0.le hcl
        linarith
      obtain ⟨S, e1, e2, e3, e4⟩ := ih (fun z hz => hp z (by simp [hz])) (a +. b) (A.rnd (s + y)) (t + y) (k + 1) e
        (A.rnd_nonneg (by linarith)) (by linarith) g1 g2 (by simp at hk; omega) (by rw [add_assoc]; exact hsum)
      have hl : k + 1 + ys.length = k + (y :: ys).length := by simp; omega
      rw [hl] at e3 e4
      exact ⟨S, e1, e2, by rw [List.sum_cons, ← add_assoc]; exact e3, by rw [List.sum_cons, ← add_assoc]; exact e4⟩
  obtain ⟨S, e1, e2, e3, e4⟩ := key h hp (CFloat.ofRat 0) 0 0 0 A.val_zero le_rfl le_rfl (by simp) (by simp) (by simpa using hlen) (by simpa using hsum)
  refine ⟨S, e1, e2, by simpa using e3, by simpa using e4⟩

end Spec.Rounded
end Girgs
