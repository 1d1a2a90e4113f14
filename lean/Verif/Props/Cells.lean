import Verif.Proofs.Cells
/-! Properties C04 - C09: the cell tree, cell geometry, the torus metric. -/
namespace Girgs.Props
open Spec Coord

/-! ### C04 -/

/-- C04 (levels): while `D*(l+1) ≤ 31` the level functions do not wrap: level 0 starts at id 0, level `l` has `2^(D*l)`
cells, and level `l+1` starts right after the last cell of level `l` (so levels tile the ids). -/
theorem C04_levels_tile (D l : Nat) (hD : 1 ≤ D) (hl : D * (l + 1) ≤ 31) :
    firstCellOfLevel D 0 = some 0 ∧
    numCellsInLevel D l = some (2 ^ (D * l)) ∧
    ∃ f, firstCellOfLevel D l = some f ∧ firstCellOfLevel D (l + 1) = some (f + 2 ^ (D * l)) := by
  have hD' : D ≤ 31 := by
    have := Nat.le_mul_of_pos_right D (show 0 < l + 1 by omega)
    omega
  have hl' : D * l ≤ 31 := le_trans (Nat.mul_le_mul_left _ (by omega)) hl
  refine ⟨?_, numCellsInLevel_eq hl', levelStart D l, firstCellOfLevel_eq hD hD' hl', ?_⟩
  · rw [firstCellOfLevel_eq hD hD' (by simp), levelStart_zero]
  · rw [firstCellOfLevel_eq hD hD' hl, levelStart_succ]

/-- the ids returned by `firstCellOfLevel` are the specification's `levelStart` -/
theorem C04_firstCellOfLevel (D l : Nat) (hD : 1 ≤ D) (hD' : D ≤ 31) (hl : D * l ≤ 31) :
    firstCellOfLevel D l = some (levelStart D l) := firstCellOfLevel_eq hD hD' hl

/-- C04 (children): the children of a cell of level `l` are `2^D` consecutive ids, all on level `l+1`, and they are
exactly the ids whose parent is that cell.  Nothing wraps as long as `D*(l+1) ≤ 31`. -/
theorem C04_children (D l c : Nat) (hD : 1 ≤ D) (hl : D * (l + 1) ≤ 31) (hc : OnLevel D l c) :
    ∃ f g, firstChild D c = some f ∧ lastChild D c = some g ∧ g + 1 = f + 2 ^ D ∧
      (∀ x, f ≤ x → x ≤ g → OnLevel D (l + 1) x) ∧
      (∀ x, 1 ≤ x → x < 2 ^ 32 → (parent D x = some c ↔ f ≤ x ∧ x ≤ g)) := by
  have hD' : D ≤ 31 := by
    have := Nat.le_mul_of_pos_right D (show 0 < l + 1 by omega)
    omega
  have h1 : 1 ≤ 2 ^ D := Nat.one_le_two_pow
  have hlt : 2 ^ D * c + 2 ^ D < 2 ^ 32 := by
    have h2 : OnLevel D (l + 1) (2 ^ D * c + 2 ^ D) := onLevel_child hc (by omega) le_rfl
    exact onLevel_lt32 hD hl h2
  refine ⟨2 ^ D * c + 1, 2 ^ D * c + 2 ^ D, firstChild_eq hD' (by omega), lastChild_eq hD' hlt, by omega, ?_, ?_⟩
  · intro x hx hx'; exact onLevel_child hc hx hx'
  · intro x hx hx'
    rw [parent_eq hD' hx' hx, Option.some_inj, parent_iff hx]

/-- C04 (cellOfLevel): for every 32 bit id the bit trick subtracts the first id of its level. -/
theorem C04_cellOfLevel (D l c : Nat) (hD : 1 ≤ D) (hD' : D ≤ 31) (hc : c < 2 ^ 32) (hl : OnLevel D l c) :
    cellOfLevel D c = some (c - levelStart D l) := cellOfLevel_eq hD hD' hc hl

/-- every id lies on exactly one level -/
theorem C04_level_exists_unique (D c : Nat) (hD : 1 ≤ D) : ∃! l, OnLevel D l c := by
  have hex : ∃ l, c < levelStart D (l + 1) := by
    refine ⟨c, ?_⟩
    have : ∀ n, n < levelStart D (n + 1) := by
      intro n
      induction n with
      | zero => simp [levelStart]
      | succ n ih => rw [levelStart_succ]; have : 1 ≤ 2 ^ (D * (n + 1)) := Nat.one_le_two_pow; omega
    exact this c
  refine ⟨Nat.find hex, ⟨?_, Nat.find_spec hex⟩, ?_⟩
  · by_cases h0 : Nat.find hex = 0
    · rw [h0, levelStart_zero]; omega
    · obtain ⟨m, hm⟩ := Nat.exists_eq_succ_of_ne_zero h0
      have := Nat.find_min hex (show m < Nat.find hex by omega)
      rw [hm]; exact not_lt.1 this
  · intro l hl
    have h1 : Nat.find hex ≤ l := Nat.find_min' hex hl.2
    by_contra hne
    have h2 := levelStart_mono D (show Nat.find hex + 1 ≤ l by omega)
    have h3 := Nat.find_spec hex
    have h4 := hl.1
    omega

/-- the portable (non GNU) branch of `cellOfLevel`'s helper computes the same masks -/
theorem C04_assertLower_portable (x : Nat) (hx : x < 2 ^ 32) : assertLowerPortable x = assertLower x :=
  assertLowerPortable_eq hx

/-- non-vacuity: a deep cell in dimension 3 -/
example : OnLevel 3 9 (levelStart 3 9 + 12345678) ∧ 3 * (9 + 1) ≤ 31 := by
  constructor
  · exact onLevel_add (by norm_num)
  · norm_num

/-! ### C05 -/

/-- C05: a point of `[0,1)^D` gets a valid level-local index `x`; the bounds of the corresponding cell (id
`firstCellOfLevel(l) + x`) contain the point (half open), and no other cell of the level does. -/
theorem C05_point_in_cell (D l : Nat) (h1 : 1 ≤ D) (h5 : D ≤ 5) (hl : D * (l + 1) ≤ 31)
    (p : Fin D → ℝ) (hp : ∀ d, 0 ≤ p d ∧ p d < 1) :
    ∃ x first, cellForPoint D (fun d => XR.fin (p d)) l = some x ∧ x < 2 ^ (D * l) ∧
      firstCellOfLevel D l = some first ∧
      ∀ y, y < 2 ^ (D * l) → ∃ lo hi : Fin D → ℝ,
        (bounds D (first + y) l : Option (Fin D → XR × XR)) = some (fun d => (XR.fin (lo d), XR.fin (hi d))) ∧
        ((∀ d, lo d ≤ p d ∧ p d < hi d) ↔ y = x) := by
  have hl' : D * l ≤ 31 := le_trans (Nat.mul_le_mul_left _ (by omega)) hl
  have hl30 : l ≤ 30 := by
    have := Nat.le_mul_of_pos_left (l + 1) h1
    omega
  refine ⟨cellR D l p, levelStart D l, cellForPoint_eq hl30 p hp, cellR_lt h1 h5 (by omega) p hp,
    firstCellOfLevel_eq h1 (by omega) hl', ?_⟩
  intro y hy
  refine ⟨_, _, bounds_eq h1 h5 hl (onLevel_add hy), ?_⟩
  rw [cellR_unique h1 h5 (by omega) p hp hy]
  rfl

/-- C05 (nesting): the cell of a point on level `l` is the parent of its cell on level `l+1`. -/
theorem C05_nesting (D l : Nat) (h1 : 1 ≤ D) (h5 : D ≤ 5) (hl : D * (l + 2) ≤ 31)
    (p : Fin D → ℝ) (hp : ∀ d, 0 ≤ p d ∧ p d < 1) :
    ∃ x x' f f', cellForPoint D (fun d => XR.fin (p d)) l = some x ∧
      cellForPoint D (fun d => XR.fin (p d)) (l + 1) = some x' ∧
      firstCellOfLevel D l = some f ∧ firstCellOfLevel D (l + 1) = some f' ∧
      parent D (f' + x') = some (f + x) := by
  have hl1 : D * (l + 1) ≤ 31 := le_trans (Nat.mul_le_mul_left _ (by omega)) hl
  have hl' : D * l ≤ 31 := le_trans (Nat.mul_le_mul_left _ (by omega)) hl
  have hl30 : l + 1 ≤ 30 := by
    have := Nat.le_mul_of_pos_left (l + 2) h1
    omega
  have hlt := cellR_lt h1 h5 (show D * (l + 1) ≤ 32 by omega) p hp
  have hon := onLevel_add hlt
  refine ⟨_, _, _, _, cellForPoint_eq (by omega) p hp, cellForPoint_eq hl30 p hp,
    firstCellOfLevel_eq h1 (by omega) hl', firstCellOfLevel_eq h1 (by omega) hl1, ?_⟩
  have hge : 1 ≤ levelStart D (l + 1) := by rw [levelStart_succ']; omega
  rw [parent_eq (by omega) (onLevel_lt32 h1 hl1 hon) (by omega), parentN hon, Nat.add_sub_cancel_left,
    cellR_parent h1 h5 (by omega) p hp]

/-- non-vacuity: the point (0, 1/3, 0.99) on level 9 -/
example : (∀ d, 0 ≤ (![0, 1/3, 0.99] : Fin 3 → ℝ) d ∧ (![0, 1/3, 0.99] : Fin 3 → ℝ) d < 1) ∧ 3 * (8 + 2) ≤ 31 := by
  refine ⟨fun d => ?_, by norm_num⟩
  fin_cases d <;> norm_num

/-! ### C06 -/

/-- touching per axis: closed intervals of the grid meet modulo 1 iff the ring distance is at most 1 -/
theorem boxesTouch_iff (D l A B : Nat) :
    BoxesTouch D l A B ↔ ∀ d : Fin D, ringDist l (gridCoord D l A d) (gridCoord D l B d) ≤ 1 := by
  have hN : (0 : ℝ) < 2 ^ l := by positivity
  constructor
  · rintro ⟨p, q, hp, hq, z, hz⟩ d
    rw [ringDist_le_one_iff (gridCoord_lt _) (gridCoord_lt _)]
    refine ⟨z d, ?_⟩
    obtain ⟨a1, a2⟩ := hp d
    obtain ⟨b1, b2⟩ := hq d
    rw [div_le_iff₀ hN] at a1 b1
    rw [le_div_iff₀ hN] at a2 b2
    have hz' : p d * 2 ^ l = q d * 2 ^ l + z d * 2 ^ l := by rw [hz d]; ring
    have h1 : |((gridCoord D l A d : ℝ) - gridCoord D l B d - z d * 2 ^ l)| ≤ 1 := abs_le.2 ⟨by linarith, by linarith⟩
    exact_mod_cast h1
  · intro h
    have hz : ∀ d : Fin D, ∃ z : ℤ, |(gridCoord D l A d : ℤ) - gridCoord D l B d - z * 2 ^ l| ≤ 1 := fun d =>
      (ringDist_le_one_iff (gridCoord_lt _) (gridCoord_lt _)).1 (h d)
    choose z hz using hz
    -- the intervals `[a, a+1]` and `[b + z 2^l, b + 1 + z 2^l]` meet in their larger left end point
    set u : Fin D → ℝ := fun d => max (gridCoord D l A d : ℝ) ((gridCoord D l B d : ℝ) + z d * 2 ^ l)
    have key : ∀ d : Fin D, (gridCoord D l A d : ℝ) ≤ u d ∧ u d ≤ gridCoord D l A d + 1 ∧
        (gridCoord D l B d : ℝ) + z d * 2 ^ l ≤ u d ∧ u d ≤ gridCoord D l B d + z d * 2 ^ l + 1 := by
      intro d
      have h1 : |((gridCoord D l A d : ℝ) - gridCoord D l B d - z d * 2 ^ l)| ≤ 1 := by exact_mod_cast hz d
      obtain ⟨h2, h3⟩ := abs_le.1 h1
      refine ⟨le_max_left _ _, max_le (by linarith) (by linarith), le_max_right _ _, max_le (by linarith) (by linarith)⟩
    refine ⟨fun d => u d / 2 ^ l, fun d => u d / 2 ^ l - z d, ?_, ?_, z, fun d => by ring⟩
    · intro d
      obtain ⟨h1, h2, h3, h4⟩ := key d
      exact ⟨div_le_div_of_nonneg_right h1 hN.le, div_le_div_of_nonneg_right h2 hN.le⟩
    · intro d
      obtain ⟨h1, h2, h3, h4⟩ := key d
      constructor
      · rw [le_sub_iff_add_le, le_div_iff₀ hN, add_mul, div_mul_cancel₀ _ hN.ne']; linarith
      · rw [sub_le_iff_le_add, div_le_iff₀ hN, add_mul, div_mul_cancel₀ _ hN.ne']; linarith

/-- C06: `touching` decides whether the closed boxes of two cells of a level intersect on the torus. -/
theorem C06_touching_iff (D l A B : Nat) (h1 : 1 ≤ D) (h5 : D ≤ 5) (hl : D * (l + 1) ≤ 31)
    (hA : OnLevel D l A) (hB : OnLevel D l B) :
    ∃ t, touching D A B l = some t ∧ (t = true ↔ BoxesTouch D l A B) ∧
      (t = true ↔ ∀ d : Fin D, ∃ z : ℤ, |(gridCoord D l A d : ℤ) - gridCoord D l B d - z * 2 ^ l| ≤ 1) := by
  refine ⟨_, touching_eq h1 h5 hl hA hB, ?_, ?_⟩
  · rw [decide_eq_true_eq, boxesTouch_iff]
  · rw [decide_eq_true_eq]
    exact forall_congr' fun d => ringDist_le_one_iff (gridCoord_lt _) (gridCoord_lt _)

/-- C06: `touching` is reflexive and symmetric. -/
theorem C06_refl_symm (D l A B : Nat) (h1 : 1 ≤ D) (h5 : D ≤ 5) (hl : D * (l + 1) ≤ 31)
    (hA : OnLevel D l A) (hB : OnLevel D l B) :
    touching D A A l = some true ∧ touching D A B l = touching D B A l := by
  rw [touching_eq h1 h5 hl hA hA, touching_eq h1 h5 hl hA hB, touching_eq h1 h5 hl hB hA]
  constructor
  · simp [ringDist_self]
  · simp only [ringDist_comm l]

/-- C06: cells whose parents do not touch do not touch (so stopping the recursion at a non-touching pair is sound). -/
theorem C06_children_of_nontouching (D l A B : Nat) (h1 : 1 ≤ D) (h5 : D ≤ 5) (hl : D * (l + 2) ≤ 31)
    (hA : OnLevel D (l + 1) A) (hB : OnLevel D (l + 1) B) (pA pB : Nat) (hpA : parent D A = some pA)
    (hpB : parent D B = some pB) (hno : touching D pA pB l = some false) : touching D A B (l + 1) = some false := by
  have hl1 : D * (l + 1) ≤ 31 := le_trans (Nat.mul_le_mul_left _ (by omega)) hl
  have hge : 1 ≤ levelStart D (l + 1) := by rw [levelStart_succ']; omega
  rw [parent_eq (by omega) (onLevel_lt32 h1 hl1 hA) (le_trans hge hA.1), Option.some_inj] at hpA
  rw [parent_eq (by omega) (onLevel_lt32 h1 hl1 hB) (le_trans hge hB.1), Option.some_inj] at hpB
  subst hpA hpB
  rw [touching_eq h1 h5 hl1 (onLevel_parent hA) (onLevel_parent hB), Option.some_inj, decide_eq_false_iff_not] at hno
  rw [touching_eq h1 h5 hl hA hB, Option.some_inj, decide_eq_false_iff_not]
  intro h
  apply hno
  intro d
  rw [gridCoord_parent h1 h5 hl1 hA, gridCoord_parent h1 h5 hl1 hB]
  exact ringDist_half (gridCoord_lt _) (gridCoord_lt _) (h d)

/-- non-vacuity: opposite corners of the torus touch, cells two apart do not -/
example : touching 2 (levelStart 2 3) (levelStart 2 3 + 63) 3 = some true ∧
    touching 2 (levelStart 2 3) (levelStart 2 3 + 4) 3 = some false := by
  constructor <;> decide +kernel

/-! ### C07 -/

/-- C07: `dist` never exceeds `Node::distance` of two points in the closed boxes of the cells; it is 0 exactly if the
cells touch and at least `2^-l` otherwise. -/
theorem C07_cell_distance (D l A B : Nat) (h1 : 1 ≤ D) (h5 : D ≤ 5) (hl : D * (l + 1) ≤ 31)
    (hA : OnLevel D l A) (hB : OnLevel D l B) :
    ∃ r : ℝ, Coord.dist D A B l = some (XR.fin r) ∧
      (∀ p q : Fin D → ℝ, InClosedBox D l A p → InClosedBox D l B q →
        ∃ s : ℝ, coordDistance (fun d => XR.fin (p d)) (fun d => XR.fin (q d)) = XR.fin s ∧ r ≤ s) ∧
      (r = 0 ↔ touching D A B l = some true) ∧
      (touching D A B l = some false → 1 / 2 ^ l ≤ r) := by
  have hN : (0 : ℝ) < 2 ^ l := by positivity
  obtain ⟨m0, mle, mex⟩ := foldl_max_spec (List.finRange D)
    (fun d : Fin D => ringDist l (gridCoord D l A d) (gridCoord D l B d)) 0
  refine ⟨_, dist_eq h1 h5 hl hA hB, ?_⟩
  set m := (List.finRange D).foldl (fun r (d : Fin D) => max r (ringDist l (gridCoord D l A d) (gridCoord D l B d))) 0
    with hm
  rw [touching_eq h1 h5 hl hA hB]
  have htouch : (∀ d : Fin D, ringDist l (gridCoord D l A d) (gridCoord D l B d) ≤ 1) ↔ m ≤ 1 := by
    constructor
    · intro h
      rcases mex with h0 | ⟨a, _, h0⟩
      · rw [h0]; norm_num
      · rw [h0]; exact h a
    · intro h d
      exact le_trans (mle d (List.mem_finRange d)) h
  refine ⟨?_, ?_, ?_⟩
  · intro p q hp hq
    refine ⟨torusDist p q, coordDistance_eq p q, max_le (torusDist_nonneg p q) ?_⟩
    rcases mex with h0 | ⟨a, _, h0⟩
    · rw [h0]
      have := torusDist_nonneg p q
      have h2 : ((0 : ℤ) - 1 : ℝ) * (1 / 2 ^ l) ≤ 0 := by
        apply mul_nonpos_of_nonpos_of_nonneg
        · norm_num
        · positivity
      exact le_trans h2 this
    · rw [h0]
      refine le_trans ?_ (circleDist_le_torusDist p q a)
      have := circleDist_ge (hp a).1 (hp a).2 (hq a).1 (hq a).2
      rw [mul_one_div]; exact this
  · rw [Option.some_inj, decide_eq_true_eq, htouch]
    constructor
    · intro h
      have h2 : ((m : ℝ) - 1) * (1 / 2 ^ l) ≤ 0 := by rw [← h]; exact le_max_right _ _
      have h3 : (m : ℝ) - 1 ≤ 0 := by
        by_contra hcon
        have : 0 < ((m : ℝ) - 1) * (1 / 2 ^ l) := mul_pos (by linarith) (by positivity)
        linarith
      have h4 : (m : ℝ) ≤ 1 := by linarith
      exact_mod_cast h4
    · intro h
      apply max_eq_left
      apply mul_nonpos_of_nonpos_of_nonneg
      · have : (m : ℝ) ≤ 1 := by exact_mod_cast h
        linarith
      · positivity
  · rw [Option.some_inj, decide_eq_false_iff_not, htouch]
    intro h
    refine le_trans ?_ (le_max_right _ _)
    have h2 : (2 : ℝ) ≤ m := by
      have : 2 ≤ m := by omega
      exact_mod_cast this
    have h3 : (0 : ℝ) < 1 / 2 ^ l := by positivity
    nlinarith

/-- non-vacuity: the cells of level 3 with local indices 0 and 4 do not touch and the bound is attained at 1/8 -/
example : OnLevel 2 3 (levelStart 2 3) ∧ OnLevel 2 3 (levelStart 2 3 + 4) ∧
    touching 2 (levelStart 2 3) (levelStart 2 3 + 4) 3 = some false := by
  refine ⟨?_, onLevel_add (by norm_num), by decide +kernel⟩
  exact onLevel_add (x := 0) (by norm_num)

/-! ### C08 -/

/-- `Node::distance` of two points with real coordinates -/
theorem C08_distance_formula (D : Nat) (x y : Fin D → ℝ) :
    coordDistance (fun d => XR.fin (x d)) (fun d => XR.fin (y d)) = XR.fin (torusDist x y) :=
  coordDistance_eq x y

/-- C08: on `[0,1)^D`, `Node::distance` is the max-norm metric of the torus: characterised as the least upper bound of
the circle distances `min(|x-y|, 1-|x-y|)` = `min over integers n of |x-y-n|`; it is symmetric, between 0 and 1/2, zero
exactly for equal points, satisfies the triangle inequality and is invariant under translation around the torus. -/
theorem C08_torus_metric (D : Nat) (x y z : Fin D → ℝ) (hx : ∀ d, 0 ≤ x d ∧ x d < 1) (hy : ∀ d, 0 ≤ y d ∧ y d < 1)
    (hz : ∀ d, 0 ≤ z d ∧ z d < 1) (t : Fin D → ℝ) :
    let dist : (Fin D → ℝ) → (Fin D → ℝ) → XR := fun a b => coordDistance (fun d => XR.fin (a d)) (fun d => XR.fin (b d))
    ∃ r s u : ℝ, dist x y = XR.fin r ∧ dist y z = XR.fin s ∧ dist x z = XR.fin u ∧
      dist y x = XR.fin r ∧ 0 ≤ r ∧ r ≤ 1 / 2 ∧ (r = 0 ↔ x = y) ∧ u ≤ r + s ∧
      dist (fun d => Int.fract (x d + t d)) (fun d => Int.fract (y d + t d)) = XR.fin r ∧
      (∀ b : ℝ, r ≤ b ↔ 0 ≤ b ∧ ∀ d, ∃ n : ℤ, |x d - y d - n| ≤ b) := by
  intro dist
  have hxy : ∀ d, |x d - y d| ≤ 1 := fun d => (abs_sub_lt_one (hx d) (hy d)).le
  have hyz : ∀ d, |y d - z d| ≤ 1 := fun d => (abs_sub_lt_one (hy d) (hz d)).le
  have hxz : ∀ d, |x d - z d| ≤ 1 := fun d => (abs_sub_lt_one (hx d) (hz d)).le
  refine ⟨_, _, _, coordDistance_eq x y, coordDistance_eq y z, coordDistance_eq x z, ?_, torusDist_nonneg x y, ?_, ?_,
    ?_, ?_, ?_⟩
  · show coordDistance _ _ = _
    rw [coordDistance_eq]
    congr 1
    apply eq_torusDist
    intro r; rw [torusDist_le_iff]; simp only [circleDist_comm]
  · rw [torusDist_le_iff]; exact ⟨by norm_num, fun d => circleDist_le_half _ _⟩
  · constructor
    · intro h
      funext d
      rw [← circleDist_eq_zero (hx d) (hy d)]
      exact le_antisymm (by rw [← h]; exact circleDist_le_torusDist x y d) (circleDist_nonneg (hxy d))
    · rintro rfl
      apply le_antisymm _ (torusDist_nonneg x x)
      rw [torusDist_le_iff]; exact ⟨le_rfl, fun d => by simp [circleDist]⟩
  · rw [torusDist_le_iff]
    refine ⟨add_nonneg (torusDist_nonneg _ _) (torusDist_nonneg _ _), fun d => ?_⟩
    exact le_trans (circleDist_triangle (hxy d) (hyz d) (hxz d))
      (add_le_add (circleDist_le_torusDist _ _ d) (circleDist_le_torusDist _ _ d))
  · show coordDistance _ _ = _
    rw [coordDistance_eq]
    congr 1
    apply eq_torusDist
    intro r; rw [torusDist_le_iff]
    have : ∀ d, circleDist (Int.fract (x d + t d)) (Int.fract (y d + t d)) = circleDist (x d) (y d) := by
      intro d
      refine circleDist_congr (hxy d) ?_ (⌊y d + t d⌋ - ⌊x d + t d⌋) ?_
      · exact (abs_sub_lt_one ⟨Int.fract_nonneg _, Int.fract_lt_one _⟩ ⟨Int.fract_nonneg _, Int.fract_lt_one _⟩).le
      · unfold Int.fract; push_cast; ring
    simp only [this]
  · intro b
    rw [torusDist_le_iff]
    refine and_congr_right fun _ => forall_congr' fun d => ?_
    constructor
    · intro h; obtain ⟨n, hn⟩ := circleDist_attained _ _ (hxy d); exact ⟨n, by rw [← hn]; exact h⟩
    · rintro ⟨n, hn⟩; exact le_trans (circleDist_le _ _ (hxy d) n) hn

/-! ### C09 -/

/-- C09: `pow_to_the<D>(x)` is the `D`-th power, for every `D` and every real `x`. -/
theorem C09_pow_to_the (D : Nat) (x : ℝ) : powToThe D (XR.fin x) = XR.fin (x ^ D) := powHelper_fin D x

end Girgs.Props
