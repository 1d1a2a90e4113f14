import Verif.Proofs.HUnique
/-!
The filter used by a type II call of the recursion (exact arithmetic), and exactness of the decisions made with it.
-/
namespace Girgs
open Angle Spec
open Real
variable {ndebug : Bool} {radii angles : List ℝ} {T R : ℝ} {H : HTree XR}

/-- the cells `2` and `3` steps after the first one -/
theorem between_first {l k : ℕ} (hl : 2 ≤ l) (hl' : l ≤ 30) {b : ℕ} (hk : k = 2 ∨ (k = 3 ∧ 3 ≤ l))
    (h : cellsBetween (2 ^ l - 1) (2 ^ l - 1 + k) l = some b) : b + 1 = k := by
  have h4 : 4 ≤ 2 ^ l := le_trans (by norm_num) (Nat.pow_le_pow_right (by norm_num : 0 < 2) hl)
  have hA : OnLv l (2 ^ l - 1) := by rw [onLv_iff]; omega
  have hB : OnLv l (2 ^ l - 1 + k) := by rw [onLv_iff]; omega
  rw [cellsBetween_eq (by omega) hA hB, Option.some.injEq] at h
  unfold betweenN at h
  rcases hk with rfl | ⟨rfl, h3⟩
  · omega
  · have h8 : 8 ≤ 2 ^ l := le_trans (by norm_num) (Nat.pow_le_pow_right (by norm_num : 0 < 2) h3)
    omega

/-- the distance class of a type II call: the distance of two points of minimal radius, separated by the cells in between -/
noncomputable def classDist (R : ℝ) (t : Task) : ℝ :=
  arcosh (max 1 (hc (R - t.i - 1) (R - t.j - 1) (betweenN t.level t.cellA t.cellB * (2 * π / 2 ^ t.level))))

/-- the filter used by a type II call of the recursion is the one of its distance class -/
theorem HBuiltX.filterFor_eq (b : HBuiltX ndebug radii angles T R H) (hT : 0 < T) {t : Task} (ht : HTaskOK H (hpair R) t)
    (h2 : t.two = true) (hb2 : betweenN t.level t.cellA t.cellB ≤ 2) :
    H.filterFor t = some (DistFilter.make (XR.fin (hypProb (classDist R t) R T)) (XR.fin R) (XR.fin T)) := by
  have hz : H.tZero = false := by rw [b.tZero_iff]; simp [hT.ne']
  obtain ⟨row, p, k, _, _, hk, h3, h4, h5⟩ := b.ok.filterFor_some b.fo hz ht h2
  have hl2 := two_le_level ht.hA ht.hB (ht.two h2)
  have hl30 : t.level ≤ 30 := by
    have := ht.hl; have := b.ok.pbl_top t.i t.j ht.hi ht.hj; have := b.ok.levels_le; have := b.ok.levels_eq; omega
  obtain ⟨row', b1, b2, g1, g2, g3, g4⟩ := b.filter hT ht.hi ht.hj hl2 ht.hl
  rw [h3, Option.some.injEq] at g1
  subst g1
  rw [h4, Option.some.injEq] at g4
  subst g4
  rw [cellsBetween_eq (by omega) ht.hA ht.hB, Option.some.injEq] at hk
  subst hk
  have e1 := between_first hl2 hl30 (Or.inl rfl) g2
  have hpos := betweenN_pos ht.hA ht.hB (ht.two h2)
  rw [h5]
  congr 1
  unfold classDist
  split
  · rename_i h1
    obtain rfl : b1 = 1 := by omega
    rw [h1]
    congr 7
    push_cast; ring_nf
  · rename_i h1
    have h2' : betweenN t.level t.cellA t.cellB = 2 := by omega
    have e2 := between_first hl2 hl30 (Or.inr ⟨rfl, betweenN_two h2'⟩) g3
    obtain rfl : b2 = 2 := by omega
    rw [h2']
    congr 7
    push_cast; ring_nf

/-- the distance class bounds the distance of all pairs from below, and is more than `R` -/
theorem HBuiltX.classDist_le (b : HBuiltX ndebug radii angles T R H) (hin : HypInput radii angles T R) {t : Task} (ht : HTaskOK H (hpair R) t)
    (h2 : t.two = true) {p q : ℕ} (hh : HHit H (htgt R) ⌈R⌉.toNat t p q) : ∃ r a s c, radii[H.idx p]? = some r ∧ radii[H.idx q]? = some s ∧
      angles[H.idx p]? = some a ∧ angles[H.idx q]? = some c ∧ 0 < r ∧ 0 < s ∧ R < classDist R t ∧ classDist R t ≤ hypDist r a s c := by
  obtain ⟨r, a, s, c, h3, h4, h5, h6, hr, hrR, hs, hsR, h7, h8⟩ := b.hit_data hin ht h2 hh
  refine ⟨r, a, s, c, h3, h4, h5, h6, hr, hs, (lt_arcosh_iff (HypInput.R_pos hin).le).2 h7, ?_⟩
  rw [← hypDist_eq hr hs]
  unfold classDist
  rw [arcosh_le_arcosh (by positivity) (by positivity)]
  exact max_le_max le_rfl h8

end Girgs
