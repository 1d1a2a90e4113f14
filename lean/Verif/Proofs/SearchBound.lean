import Verif.Proofs.ScalingReturns
/-
Bounds for the number found by `exponentialSearch`, and for the factor by which `scaleWeights` multiplies the weights.
-/
namespace Girgs.Scaling
open Spec
open XR (fin)

variable {S : Type} {f : XR → S → Option (XR × S)} {Inv : S → Prop} {Val : ℝ → ℝ → Prop} {des : ℝ}

/-- the upper end of the search interval -/
def UInv (B : ℝ) : Outcome XR S → Prop
  | .running s => ∀ u, s.upper = fin u → u ≤ B
  | .returned c _ => ∀ c', c = fin c' → c' ≤ B
  | .undefined => True

theorem enterBisect_uinv (hf : Evaluates f Inv Val) {B l u : ℝ} {s : Search XR S} (hi : Inv s.st) (ha : At s l u) (hB : u ≤ B) :
    UInv B (enterBisect f s) := by
  obtain ⟨m, st', e, _, _⟩ := enterBisect_eq hf hi ha
  rw [e]
  intro u' hu'
  rw [show s.upper = fin u from ha.2.1] at hu'
  cases hu'
  exact hB

theorem step_uinv (hf : Evaluates f Inv Val) {X B : ℝ} (hX : ∀ x, X ≤ x → ∀ v, Val x v → des ≤ v) (hB : 2 * X ≤ B) (s : Search XR S)
    (h : SInv Inv Val des (.running s)) (hu : UInv B (.running s)) : UInv B (step f (fin des) accuracy s) := by
  obtain ⟨ph, lo, up, st⟩ := s
  obtain ⟨hi, l, u, ⟨h1, h2, h3, h4⟩, hp⟩ := h
  simp only at h1 h2 hi
  subst h1 h2
  have huB : u ≤ B := hu u rfl
  cases ph with
  | grow =>
    obtain ⟨v, st', e, hi', hv⟩ := hf.eval st hi u (by linarith)
    simp only [step, e]
    by_cases hlt : v < des
    · rw [if_pos (by simpa [XR.lt_fin] using hlt)]
      intro u' hu'
      have e2 : (fin u *. fin ((2 : ℚ) : ℝ) : XR) = fin u' := hu'
      rw [XR.mul_fin] at e2
      cases e2
      have : u < X := by
        by_contra hc
        exact absurd (hX u (not_lt.1 hc) v hv) (not_le.2 hlt)
      push_cast
      linarith
    · rw [if_neg (by simpa [XR.lt_fin] using hlt)]
      exact hu
  | shrink =>
    obtain ⟨v, st', e, hi', hv⟩ := hf.eval st hi l h3
    simp only [step, e]
    by_cases hlt : des < v
    · rw [if_pos (by simpa [XR.lt_fin] using hlt)]
      intro u' hu'
      cases hu'
      linarith
    · rw [if_neg (by simpa [XR.lt_fin] using hlt)]
      exact enterBisect_uinv hf (s := ⟨.shrink, fin l, fin u, st'⟩) hi' ⟨rfl, rfl, h3, h4⟩ huB
  | bisect mid =>
    obtain ⟨m, rfl, hm, hlo, hup⟩ := hp
    have ha0 : At (S := S) ⟨.bisect (fin m), fin l, fin u, st⟩ l u := ⟨rfl, rfl, h3, h4⟩
    simp only [step, accuracy_eq, XR.sub_fin, XR.abs_fin, ha0.midpoint]
    by_cases hacc : 1 / 50 < |m - des|
    · rw [if_pos (by simpa [XR.lt_fin] using hacc)]
      by_cases hlt : m < des
      · rw [if_pos (by simpa [XR.lt_fin] using hlt)]
        exact enterBisect_uinv hf (s := ⟨.bisect (fin m), fin ((u + l) / 2), fin u, st⟩) hi ⟨rfl, rfl, by linarith, by linarith⟩ huB
      · rw [if_neg (by simpa [XR.lt_fin] using hlt)]
        exact enterBisect_uinv hf (s := ⟨.bisect (fin m), fin l, fin ((u + l) / 2), st⟩) hi ⟨rfl, rfl, by linarith, by linarith⟩ (by linarith)
    · rw [if_neg (by simpa [XR.lt_fin] using hacc)]
      intro c' hc'
      cases hc'
      linarith

/-- if the function is not below the desired value from `X` on, then the search returns at most `max 2 (2X)` -/
theorem returned_le (hf : Evaluates f Inv Val) {X : ℝ} (hX : ∀ x, X ≤ x → ∀ v, Val x v → des ≤ v) {st : S} (hst : Inv st) {c : ℝ}
    (hr : Returns f (fin des) st (fin c)) : c ≤ max 2 (2 * X) := by
  obtain ⟨k, st', hk⟩ := hr
  have : (fun o => SInv Inv Val des o ∧ UInv (max 2 (2 * X)) o) (run f (fin des) accuracy k (start st)) := by
    refine run_induct (P := fun o => SInv Inv Val des o ∧ UInv (max 2 (2 * X)) o) ⟨start_sinv hst, ?_⟩ (fun s h => ⟨step_sinv hf s h.1, step_uinv hf hX (le_max_right _ _) s h.1 h.2⟩) k
    intro u hu
    have e : (fin ((2 : ℚ) : ℝ) : XR) = fin u := hu
    cases e
    push_cast
    exact le_max_left _ _
  rw [hk] at this
  exact this.2 c rfl

/-- the search over an estimator of the expected degree -/
theorem est_returned_le {n : ℕ} {b : ℕ → ℝ} {P X : ℝ → ℝ} (hP : ConnFn P) (hn : 2 ≤ n) (hXm : ∀ c c', 0 < c → c < c' → X c < X c')
    {f : XR → S → Option (XR × S)} {Inv : S → Prop} (hf : Evaluates f Inv fun c v => EstVal n b P (X c) v) {st : S} (hst : Inv st) {des : ℝ}
    (hdes : des ≤ n - 1) {C : ℝ} (hC : 0 < C) (hb : ∀ i < n, ∀ j < n, 1 ≤ X C * b i * b j) (hb0 : ∀ i < n, 0 < b i) {c : ℝ}
    (hr : Returns f (fin des) st (fin c)) : c ≤ max 2 (2 * C) := by
  refine returned_le hf (fun x hx v hv => ?_) hst hr
  rw [EstVal.saturated hP (by omega) ?_ hv]
  · exact hdes
  · intro i hi j hj
    refine (hb i hi j hj).trans ?_
    have hXx : X C ≤ X x := by
      rcases hx.lt_or_eq with h | h
      · exact (hXm _ _ hC h).le
      · rw [h]
    have := hb0 i hi
    have := hb0 j hj
    gcongr

/-- `Σ_{i≠j} min(1, k b_i b_j) ≤ k (Σ b_i)²` for the threshold degree -/
theorem thresholdDegree_le {D : ℕ} (hD : 1 ≤ D) {w : List ℝ} (hw : ∀ y ∈ w, 0 < y) (hne : w ≠ []) {s : ℝ} (hs : 0 < s) :
    thresholdGirgDegree D (w.map (· * s)) ≤ 2 ^ D * s * w.sum / w.length := by
  have hW := List.sum_pos w hw hne
  rw [thresholdDegree_scaled hD hw hne hs]
  have harg : ∀ i < w.length, ∀ j < w.length, 0 < 2 ^ D * s / w.sum * bw w i * bw w j := fun i hi j hj =>
    (bw_weights hw).arg_pos (by positivity) hi hj
  gcongr
  have h1 : pairSum w.length (fun i j => probThreshold (2 ^ D * s / w.sum * bw w i * bw w j)) ≤
      pairSum w.length (fun i j => 2 ^ D * s / w.sum * bw w i * bw w j) :=
    pairSum_mono fun i hi j hj => by
      unfold probThreshold
      exact min_le_right _ _
  refine h1.trans ?_
  rw [pairSum_eq]
  have h2 : ∀ i ∈ Finset.range w.length, ∑ j ∈ (Finset.range w.length).erase i, 2 ^ D * s / w.sum * bw w i * bw w j ≤
      ∑ j ∈ Finset.range w.length, 2 ^ D * s / w.sum * bw w i * bw w j := by
    intro i hi
    refine Finset.sum_le_sum_of_subset_of_nonneg (Finset.erase_subset _ _) fun j hj _ => ?_
    exact (harg i (Finset.mem_range.1 hi) j (Finset.mem_range.1 hj)).le
  refine (Finset.sum_le_sum h2).trans ?_
  have hsum : ∑ i ∈ Finset.range w.length, bw w i = w.sum := by
    simpa using sum_bw w id
  have : ∑ i ∈ Finset.range w.length, ∑ j ∈ Finset.range w.length, 2 ^ D * s / w.sum * bw w i * bw w j =
      2 ^ D * s / w.sum * (∑ i ∈ Finset.range w.length, bw w i) * (∑ j ∈ Finset.range w.length, bw w j) := by
    rw [mul_assoc, Finset.sum_mul_sum, Finset.mul_sum]
    refine Finset.sum_congr rfl fun i _ => ?_
    rw [Finset.mul_sum]
    exact Finset.sum_congr rfl fun j _ => by ring
  rw [this, hsum]
  field_simp
  exact le_rfl

end Girgs.Scaling
