import Verif.Proofs.ConstructXR
/-
Trees built from exact input: layers and cells in terms of weights and boxes.
-/
namespace Girgs
open Spec

theorem layer_unique_weight {m u : ℝ} (hm : 0 < m) {k i : Nat} (h1 : 2 ^ k * m ≤ u) (h2 : u < 2 ^ (k + 1) * m)
    (h3 : 2 ^ i * m ≤ u) (h4 : u < 2 ^ (i + 1) * m) : k = i := by
  have a1 : (2 : ℝ) ^ k < 2 ^ (i + 1) := lt_of_mul_lt_mul_right (lt_of_le_of_lt h1 h4) hm.le
  have a2 : (2 : ℝ) ^ i < 2 ^ (k + 1) := lt_of_mul_lt_mul_right (lt_of_le_of_lt h3 h2) hm.le
  have b1 := (pow_lt_pow_iff_right₀ (by norm_num : (1 : ℝ) < 2)).1 a1
  have b2 := (pow_lt_pow_iff_right₀ (by norm_num : (1 : ℝ) < 2)).1 a2
  omega

theorem cellR_div {D t l : Nat} (h1 : 1 ≤ D) (h5 : D ≤ 5) (ht : D * t ≤ 32) (hl : l ≤ t) (p : Fin D → ℝ)
    (hp : ∀ d, 0 ≤ p d ∧ p d < 1) : cellR D t p / 2 ^ (D * (t - l)) = cellR D l p := by
  obtain ⟨k, rfl⟩ := Nat.exists_eq_add_of_le hl
  rw [Nat.add_sub_cancel_left]
  induction k with
  | zero => simp
  | succ k ih =>
    have hh : D * (l + k) ≤ 32 := le_trans (Nat.mul_le_mul_left _ (by omega)) ht
    have hpar := cellR_parent (l := l + k) h1 h5 ht p hp
    rw [← ih hh (by omega), ← hpar, Nat.div_div_eq_div_mul, ← pow_add, Nat.mul_add D k 1, Nat.mul_one, Nat.add_comm D]
    rfl

variable {D : Nat} {ndebug : Bool} {w : List ℝ} {x : List (Fin D → ℝ)} {alpha : XR} {T : Tree XR D} {m : ℝ}

theorem BuiltX.m_pos (b : BuiltX D ndebug w x alpha T m) (s : SupportedInput D w x) : 0 < m := s.wpos m b.mem

theorem BuiltX.node' (b : BuiltX D ndebug w x alpha T m) {y : Node XR D} (hy : y ∈ T.nodes) {u : ℝ} {q : Fin D → ℝ}
    (hu : w[y.index]? = some u) (hq : x[y.index]? = some q) : y.weight = XR.fin u ∧ (y.coord = fun d => XR.fin (q d)) ∧
      ∃ k, k < T.layers ∧ 2 ^ k * m ≤ u ∧ u < 2 ^ (k + 1) * m ∧
        y.cellId = layerOff D T.blc k + cellR D (weightLayerTargetLevel D T.blc k) q := by
  obtain ⟨u', q', k, h1, h2, h3, h4, h5, h6, h7, h8⟩ := b.node y hy
  rw [hu, Option.some.injEq] at h1
  rw [hq, Option.some.injEq] at h2
  subst h1 h2
  exact ⟨h3, h4, k, h5, h6, h7, h8⟩

theorem BuiltX.inLC_iff (b : BuiltX D ndebug w x alpha T m) (s : SupportedInput D w x) {y : Node XR D} (hy : y ∈ T.nodes)
    {u : ℝ} {q : Fin D → ℝ} (hu : w[y.index]? = some u) (hq : x[y.index]? = some q) {i l A : Nat} (hi : i < T.layers)
    (hl : l ≤ weightLayerTargetLevel D T.blc i) (hA : OnLevel D l A) :
    InLC T y i l A ↔ 2 ^ i * m ≤ u ∧ u < 2 ^ (i + 1) * m ∧ InBox D l A q := by
  obtain ⟨_, _, k, hk, hk1, hk2, hc⟩ := b.node' hy hu hq
  have hm := b.m_pos s
  have hqu := s.unit q (List.mem_of_getElem? hq)
  have ht := b.ok.target_depth hi
  have htk := b.ok.target_depth hk
  have hcell := cellR_lt s.D1 s.D5 (show D * weightLayerTargetLevel D T.blc k ≤ 32 by omega) q hqu
  have hin : InLC T y k 0 0 := by
    refine ⟨by omega, by rw [layerOff_succ]; omega, by omega, ?_⟩
    rw [levelStart_zero, hc, Nat.add_sub_cancel_left, Nat.sub_zero, Nat.div_eq_of_lt hcell]
  have hlt : D * l ≤ 32 := le_trans (Nat.mul_le_mul_left _ hl) (by omega)
  have hA' : A = levelStart D l + (A - levelStart D l) := by have := hA.1; omega
  have hbox : ∀ i', i' = k → l ≤ weightLayerTargetLevel D T.blc i' →
      ((y.cellId - layerOff D T.blc i') / 2 ^ (D * (weightLayerTargetLevel D T.blc i' - l)) = A - levelStart D l ↔ InBox D l A q) := by
    rintro i' rfl hl'
    rw [hc, Nat.add_sub_cancel_left, cellR_div s.D1 s.D5 (by omega) hl' q hqu]
    conv_rhs => rw [hA']
    rw [← cellR_unique s.D1 s.D5 hlt q hqu hA.local_lt]
    exact eq_comm
  constructor
  · intro h
    have e := h.layer_eq hin
    refine ⟨by rw [e]; exact hk1, by rw [e]; exact hk2, ?_⟩
    rw [← hbox i e hl]
    have := h.2.2.2
    omega
  · rintro ⟨h1, h2, h3⟩
    have e : i = k := layer_unique_weight hm h1 h2 hk1 hk2
    rw [← hbox i e hl] at h3
    refine ⟨?_, ?_, hl, ?_⟩
    · rw [e]; omega
    · rw [e, layerOff_succ]; omega
    · rw [h3]; exact hA'

end Girgs
