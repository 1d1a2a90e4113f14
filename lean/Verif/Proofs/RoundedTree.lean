import Verif.Proofs.RoundedHeader
import Verif.Proofs.Wrapper
/-
The tree built with rounding.
-/
namespace Girgs
open Spec CFloat Build Tree

variable {F : Type} [CFloat F] {u lam : ℝ}

theorem Spec.Rounded.val_grid (A : Rounded F u lam) {a : F} {q : ℝ} (ha : A.val a = some q) (h0 : 0 ≤ q) (h1 : q < 1) {l : Nat} (hl : l ≤ 30) :
    toU32 (a *. ofInt ((2 : Int) ^ l)) = some (gridOf l q) := by
  have hN : (0 : ℝ) < 2 ^ l := by positivity
  have hN' : (2 : ℝ) ^ l ≤ 2 ^ 30 := pow_le_pow_right₀ (by norm_num) hl
  have h2 : q * 2 ^ l ≤ 2 ^ 30 := by
    have := mul_le_mul h1.le hN' hN.le (by norm_num)
    linarith
  have hz : (2 : ℤ) ^ l ≤ 2 ^ 53 := pow_le_pow_right₀ (by norm_num) (by omega)
  have v2 : A.val (ofInt ((2 : Int) ^ l) : F) = some ((2 : ℝ) ^ l) := by
    rw [A.val_ofInt _ (by rw [abs_of_nonneg (by positivity)]; exact hz)]
    push_cast; rfl
  have v3 := A.mul _ _ _ _ ha v2 (by rw [abs_of_nonneg (by positivity)]; exact two_pow_1023 (k := 30) (by norm_num) h2)
  rw [A.scale q (A.rep _ _ ha)] at v3
  rw [A.toU32_nonneg v3 (by positivity) (by linarith [show (2 : ℝ) ^ 30 < 2 ^ 32 by norm_num])]
  rfl

theorem HeaderR.inputOK {A : Rounded F u lam} {D : Nat} {weights : List F} {positions : List (Fin D → F)} {w : List ℝ}
    {x : List (Fin D → ℝ)} (s : RoundableInput D w x) (hh : A.Holds weights positions w x) {h : Header F} {m S : ℝ}
    (hx : HeaderR A D weights w h m S) : InputOK D weights positions h := by
  have hlen : weights.length = w.length := hh.weights.length_eq
  have hlen2 : positions.length = x.length := hh.positions.length_eq
  refine ⟨s.D1, s.D5, by rw [hlen, hlen2, s.len], by rw [hlen]; exact s.pos, by rw [hlen]; exact s.small, ?_, hx.layers_le, ?_, ?_, ?_⟩
  · rw [hx.levels]
    have h1 : ((D * partitioningBaseLevel D h.blc 0 0 : Nat) : Int) ≤ max 0 (h.blc - 2) := by
      have e : partitioningBaseLevel D h.blc 0 0 = weightLayerTargetLevel D h.blc (1 : Nat) := by
        unfold partitioningBaseLevel weightLayerTargetLevel
        congr 3
        push_cast; ring
      rw [e]
      have := target_mul_le D h.blc 1
      omega
    have := hx.blc_le
    have := s.D5
    have e : D * (partitioningBaseLevel D h.blc 0 0 + 1) = D * partitioningBaseLevel D h.blc 0 0 + D := by ring
    rw [e]
    omega
  · have h1 := layerOff_bound (D := D) hx.blc_le h.layers
    have := hx.layers_le
    generalize 2 ^ (28 - h.layers) = q at h1
    norm_num at h1
    omega
  · intro a ha
    obtain ⟨v, hv, va⟩ := forall2_mem hh.weights ha
    obtain ⟨k, h1, h2, h3, _⟩ := hx.layer a v va hv
    exact ⟨k, h1, h2, h3⟩
  · intro p hp d l hl
    obtain ⟨q, hq, vq⟩ := forall2_mem hh.positions hp
    obtain ⟨h0, h1⟩ := s.unit q hq d
    exact ⟨_, A.val_grid (vq d) h0 h1 hl, gridOf_lt h0 h1⟩

/-- A tree built with rounding: the invariant, and the stored nodes in terms of the values of the input. -/
structure BuiltR (A : Rounded F u lam) (D : Nat) (ndebug : Bool) (w : List ℝ) (x : List (Fin D → ℝ)) (alpha : F) (T : Tree F D)
    (m S : ℝ) : Prop where
  ok : TreeOK T
  ndebug_eq : T.ndebug = ndebug
  alpha_eq : T.alpha = alpha
  n_eq : T.n = w.length
  mem : m ∈ w
  W : A.val T.W = some S
  S_low : (1 - u) ^ w.length * w.sum ≤ S
  S_up : (1 - u) ^ w.length * S ≤ w.sum
  blc_low : 0 < T.blc → (1 - u) ^ (w.length + 2) * ((2 : ℝ) ^ T.blc * m ^ 2) ≤ w.sum * (2 : ℝ) ^ lam
  node : ∀ y ∈ T.nodes, ∃ v q k, w[y.index]? = some v ∧ x[y.index]? = some q ∧ A.val y.weight = some v ∧
    (∀ d, A.val (y.coord d) = some (q d)) ∧ k < T.layers ∧ (1 - u) * v < 2 ^ (k + 1) * (2 : ℝ) ^ lam * m ∧
    y.cellId = layerOff D T.blc k + cellR D (weightLayerTargetLevel D T.blc k) q

theorem Constructed.builtR {A : Rounded F u lam} {D : Nat} {ndebug : Bool} {weights : List F} {positions : List (Fin D → F)}
    {w : List ℝ} {x : List (Fin D → ℝ)} {alpha : F} {T : Tree F D} (s : RoundableInput D w x) (hh : A.Holds weights positions w x)
    {h : Header F} {m S : ℝ} (hx : HeaderR A D weights w h m S) (hc : Constructed ndebug weights positions alpha T) :
    BuiltR A D ndebug w x alpha T m S := by
  have hb := hc.builtFrom hx.eq (hx.inputOK s hh)
  refine ⟨hb.ok, hb.ndebug_eq, hb.alpha_eq, by rw [hb.n_eq, hh.weights.length_eq], hx.mem, by rw [hb.W_eq]; exact hx.W, hx.S_low, hx.S_up,
    by rw [hb.blc_eq]; exact hx.blc_low, ?_⟩
  intro y hy
  have hn := hb.node y hy
  obtain ⟨v, hv, vv⟩ := forall2_get hh.weights hn.weight
  obtain ⟨q, hq, vq⟩ := forall2_get hh.positions hn.coord
  obtain ⟨k, c, hk, e1, e2, hclt, e3⟩ := hn.cell
  obtain ⟨k', _, g2, g3, g4⟩ := hx.layer _ _ vv (List.mem_of_getElem? hv)
  obtain rfl : k' = k := by rw [e1] at g2; exact (Option.some.inj g2).symm
  have ht30 : weightLayerTargetLevel D h.blc k' ≤ 30 := by
    have hsum := layerOff_mono (D := D) (blc := h.blc) (show k' + 1 ≤ h.layers by omega)
    rw [layerOff_succ] at hsum
    have htot := (hx.inputOK s hh).total
    by_contra hne
    have h3 := Nat.le_mul_of_pos_left (weightLayerTargetLevel D h.blc k') s.D1
    have : 2 ^ 31 ≤ 2 ^ (D * weightLayerTargetLevel D h.blc k') := two_pow_le (by omega)
    omega
  have hqu := s.unit q (List.mem_of_getElem? hq)
  have e4 : Coord.cellForPoint D y.coord (weightLayerTargetLevel D h.blc k') = some (cellR D (weightLayerTargetLevel D h.blc k') q) := by
    unfold Coord.cellForPoint
    refine (obind (Coord.shl1_eq ht30) _).trans ?_
    refine (obind (tupleM_some (fun d => A.val_grid (vq d) (hqu d).1 (hqu d).2 ht30)) _).trans ?_
    rfl
  rw [e4, Option.some.injEq] at e2
  refine ⟨v, q, k', hv, hq, vv, vq, by rw [hb.layers_eq]; exact hk, g4, ?_⟩
  rw [hb.blc_eq, e3, e2]

theorem startOK_R (A : Rounded F u lam) {D : Nat} (h1 : 1 ≤ D) (h5 : D ≤ 5) (env : Env) : StartOK F D env := by
  intro _
  have ht1 : (1 : ℝ) ≤ env.threads := by exact_mod_cast env.threads_pos
  have ht2 : (env.threads : ℝ) ≤ 8388608 := by exact_mod_cast env.threads_le
  have hD1 : (1 : ℝ) ≤ D := by exact_mod_cast h1
  have hD : (0 : ℝ) < D := by linarith
  have hDle : (D : ℝ) ≤ 5 := by exact_mod_cast h5
  have v4 : A.val (CFloat.ofRat 4 : F) = some (4 : ℝ) := by
    have := A.val_ofRat_int 4 (by norm_num)
    simpa using this
  have htn : env.threads ≤ 8388608 := env.threads_le
  have vt := A.val_ofNat (F := F) env.threads (by omega)
  have vmul := A.mul _ _ _ _ v4 vt (by rw [abs_of_nonneg (by linarith)]; exact two_pow_1023 (k := 25) (by norm_num) (by norm_num; linarith))
  have er : A.rnd (4 * (env.threads : ℝ)) = 4 * env.threads := by
    have := A.int (4 * env.threads : ℕ) (by rw [abs_of_nonneg (by omega)]; norm_num; omega)
    push_cast at this
    exact this
  rw [er] at vmul
  have v25 : A.val (ofInt ((2 : ℤ) ^ 25) : F) = some ((2 : ℝ) ^ (25 : ℤ)) := by
    rw [A.val_ofInt _ (by norm_num)]; norm_num
  have one_pow : A.val (CFloat.ofRat 1 : F) = some ((2 : ℝ) ^ (0 : ℤ)) := by rw [A.val_one]; norm_num
  obtain ⟨l, vl, _⟩ := A.log2 _ _ vmul (tiny_le (k := 0) (by norm_num) (by norm_num; linarith))
  have hl0 : 0 ≤ l := by
    have := A.log2_mono _ _ _ _ _ _ one_pow vmul (by norm_num) (by norm_num; linarith) (A.log2_pow _ 0 one_pow) vl
    simpa using this
  have hl25 : l ≤ 25 := by
    have := A.log2_mono _ _ _ _ _ _ vmul v25 (by linarith) (by norm_num; linarith) vl (A.log2_pow _ 25 v25)
    simpa using this
  have vD := A.val_ofNat (F := F) D (by omega)
  have hlD0 : 0 ≤ l / D := by positivity
  have hlD25 : l / D ≤ 25 := by
    rw [div_le_iff₀ hD]; nlinarith
  have vdiv := A.div _ _ _ _ vl vD hD.ne' (by rw [abs_of_nonneg hlD0]; exact two_pow_1023 (k := 5) (by norm_num) (by norm_num; linarith))
  -- the ceiling of the rounded quotient is at most the ceiling of `25 / D`
  have hr0 := A.rnd_nonneg hlD0
  have hint : ∀ c : ℕ, c ≤ 32 → l / D ≤ c → A.rnd (l / D) ≤ c := by
    intro c hc hle
    have h2 := A.mono hle
    have h3 := A.int (c : ℕ) (by rw [abs_of_nonneg (by omega)]; norm_num; omega)
    push_cast at h3
    rwa [h3] at h2
  have hr25 : A.rnd (l / D) ≤ 25 := by exact_mod_cast hint 25 (by norm_num) (by exact_mod_cast hlD25)
  have vceil := A.ceil _ _ vdiv (by rw [abs_of_nonneg hr0]; linarith [show (25 : ℝ) ≤ 2 ^ 50 by norm_num])
  have hc0 : 0 ≤ ⌈A.rnd (l / D)⌉ := Int.ceil_nonneg hr0
  obtain ⟨k, hk⟩ : ∃ k : Nat, ⌈A.rnd (l / D)⌉ = k := ⟨⌈A.rnd (l / D)⌉.toNat, by omega⟩
  have hk25 : k ≤ 25 := by
    have : ⌈A.rnd (l / D)⌉ ≤ 25 := by rw [Int.ceil_le]; exact_mod_cast hr25
    omega
  have hk2 : D * k ≤ 30 := by
    have key : ∀ c : ℕ, c ≤ 32 → l / D ≤ c → k ≤ c := by
      intro c hc hle
      have : ⌈A.rnd (l / D)⌉ ≤ c := by rw [Int.ceil_le]; exact_mod_cast hint c hc hle
      omega
    rcases (by omega : D = 1 ∨ D = 2 ∨ D = 3 ∨ D = 4 ∨ D = 5) with rfl | rfl | rfl | rfl | rfl
    · omega
    · have := key 13 (by norm_num) (by rw [div_le_iff₀ hD]; norm_num; linarith); omega
    · have := key 9 (by norm_num) (by rw [div_le_iff₀ hD]; norm_num; linarith); omega
    · have := key 7 (by norm_num) (by rw [div_le_iff₀ hD]; norm_num; linarith); omega
    · have := key 5 (by norm_num) (by rw [div_le_iff₀ hD]; norm_num; linarith); omega
  refine ⟨k, ?_, by omega⟩
  unfold firstParallelLevel
  rw [hk] at vceil
  have hkr : (k : ℝ) ≤ 25 := by exact_mod_cast hk25
  rw [A.toU32_nonneg vceil (by positivity) (by push_cast; linarith [show (25 : ℝ) < 2 ^ 32 by norm_num])]
  simp

end Girgs
