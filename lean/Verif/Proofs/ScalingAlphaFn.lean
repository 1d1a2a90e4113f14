import Verif.Proofs.ScalingAlpha
import Verif.Proofs.CoordGeom
/-
The estimator for finite alpha in exact arithmetic: the value of the searched function.
-/
namespace Girgs.Scaling
open CFloat Finset
open XR (fin)

theorem pairSum_prod (w : List ℝ) (h : ℝ → ℝ) (k : ℝ) :
    pairSum w.length (fun i j => k * (h (bw w i) * h (bw w j))) =
      k * ((w.map h).sum * (w.map h).sum - (w.map fun y => h y * h y).sum) := by
  unfold pairSum
  rw [← sum_bw w h, ← sum_bw w fun y => h y * h y, mul_sub, sum_mul_sum, mul_sum, mul_sum]
  congr 1
  refine sum_congr rfl fun i _ => ?_
  rw [mul_sum]

theorem pairSum_raw {w : List ℝ} (hw : ∀ y ∈ w, 0 < y) {α x : ℝ} (hx : 0 < x) :
    pairSum w.length (fun i j => rawAlpha α (x * bw w i * bw w j)) =
      (1 + 1 / (α - 1)) * (x * (w.sum * w.sum - (w.map fun y => y * y).sum)) -
        1 / (α - 1) * (x ^ α * ((w.map (· ^ α)).sum * (w.map (· ^ α)).sum - (w.map fun y => y ^ α * y ^ α).sum)) := by
  have hb := (bw_weights hw).pos
  rw [← pairSum_mul w x, ← pairSum_prod w (· ^ α) (x ^ α)]
  unfold pairSum
  have ht : ∀ i ∈ range w.length, ∀ j ∈ range w.length, rawAlpha α (x * bw w i * bw w j) =
      (1 + 1 / (α - 1)) * (x * bw w i * bw w j) - 1 / (α - 1) * (x ^ α * (bw w i ^ α * bw w j ^ α)) := by
    intro i hi j hj
    have h1 := hb i (mem_range.1 hi)
    have h2 := hb j (mem_range.1 hj)
    unfold rawAlpha
    rw [Real.mul_rpow (by positivity) h2.le, Real.mul_rpow hx.le h1.le]
    ring
  rw [sum_congr rfl fun i hi => sum_congr rfl fun j hj => ht i hi j hj, sum_congr rfl fun i hi => ht i hi i hi]
  simp only [sum_sub_distrib, ← mul_sum]
  ring

/-- invariant of the state of the searched function -/
def AlphaOk (w : List ℝ) (α : ℝ) (s : AlphaState XR) : Prop :=
  SorterOk w s.sorter ∧ s.powWeights.length ≤ s.sorter.sortedEnd ∧ PowOk α s.sorter.vec s.powWeights

theorem foldl_add_eq (w : List ℝ) (a : ℝ) : (w.map fin).foldl CFloat.add (fin a) = fin (a + w.sum) := by
  induction w generalizing a with
  | nil => simp
  | cons y w ih =>
    rw [List.map_cons, List.foldl_cons, List.sum_cons]
    show (w.map fin).foldl CFloat.add (fin a +. fin y) = _
    rw [XR.add_fin, ih]; congr 1; ring

theorem ofRat_half : (CFloat.ofRat (1 / 2) : XR) = fin (1 / 2) := by show fin (((1 / 2 : ℚ)) : ℝ) = _; norm_num

/-- the factor: ball volumes are `alphaX d α W c * w_u * w_v` -/
noncomputable def alphaX (d : ℕ) (α W c : ℝ) : ℝ := 2 ^ d * c ^ (1 / α) / W

theorem alphaX_pos {d : ℕ} {α W c : ℝ} (hW : 0 < W) (hc : 0 < c) : 0 < alphaX d α W c := by
  unfold alphaX; positivity

/-- `pow(x, alpha * d)`-form of the factor -/
theorem alphaX_rpow {d : ℕ} {α W c : ℝ} (hα : 0 < α) (hW : 0 < W) (hc : 0 < c) :
    alphaX d α W c ^ α = c * (2 : ℝ) ^ (α * d) / W ^ α := by
  unfold alphaX
  rw [Real.div_rpow (by positivity) hW.le, Real.mul_rpow (by positivity) (by positivity), ← Real.rpow_mul hc.le,
    one_div_mul_cancel hα.ne', Real.rpow_one, ← Real.rpow_natCast 2 d, ← Real.rpow_mul (by norm_num), mul_comm (d : ℝ) α]
  ring

theorem richThresh_eq {d : ℕ} {α W c m : ℝ} (hd : 1 ≤ d) (hα : 0 < α) (hW : 0 < W) (hc : 0 < c) (hm : 0 < m) :
    (CFloat.exp (CFloat.ofNat d *. CFloat.log (CFloat.ofRat (1 / 2) /. CFloat.pow (fin c) (CFloat.ofRat 1 /. fin α /. CFloat.ofNat d)) -.
      CFloat.log (fin (m / W))) : XR) = fin (1 / (alphaX d α W c * m)) := by
  have hd0 : (0 : ℝ) < d := by exact_mod_cast hd
  rw [ofRat_half, ofRat_one, XR.ofNat_eq, XR.div_fin _ _ hα.ne', XR.div_fin _ _ hd0.ne', XR.pow_fin _ _ hc,
    XR.div_fin _ _ (by positivity), XR.log_fin _ (by positivity), XR.mul_fin, XR.log_fin _ (by positivity), XR.sub_fin, XR.exp_fin]
  refine congrArg fin ?_
  rw [Real.exp_sub, Real.exp_log (by positivity), mul_comm (d : ℝ), Real.exp_mul, Real.exp_log (by positivity), Real.rpow_natCast, div_pow,
    ← Real.rpow_natCast (c ^ (1 / α / d)) d, ← Real.rpow_mul hc.le, div_mul_cancel₀ _ hd0.ne']
  unfold alphaX
  rw [div_pow, one_pow]
  field_simp

theorem thresh_eq {d : ℕ} {α c : ℝ} (hα : 0 < α) (hc : 0 < c) :
    (CFloat.exp (CFloat.log (CFloat.ofRat (1 / 2)) *. CFloat.ofNat d -. CFloat.log (fin c) /. fin α) : XR) =
      fin (1 / (2 ^ d * c ^ (1 / α))) := by
  rw [ofRat_half, XR.ofNat_eq, XR.log_fin _ (by norm_num), XR.mul_fin, XR.log_fin _ hc, XR.div_fin _ _ hα.ne', XR.sub_fin, XR.exp_fin]
  refine congrArg fin ?_
  rw [Real.exp_sub, Real.exp_mul, Real.exp_log (by norm_num), Real.rpow_natCast, div_eq_mul_one_div (Real.log c) α, Real.exp_mul,
    Real.exp_log hc, div_pow, one_pow]
  field_simp

theorem ompSum_w {w : List ℝ} {part : List (List Nat)} (hp : part.flatten.Perm (List.range w.length)) (h : ℝ → ℝ) {f : ℕ → XR}
    (hf : ∀ i ∈ part.flatten, f i = fin (h (w.getD i 0))) : ompSum part f = fin (w.map h).sum := by
  rw [ompSum_eq part f (fun i => h (w.getD i 0)) hf]
  exact congrArg fin (sum_wAt w h hp)

theorem alphaReductions {w : List ℝ} (hw : ∀ y ∈ w, 0 < y) (hne : w ≠ []) {part : List (List Nat)}
    (hp : part.flatten.Perm (List.range w.length)) (α : ℝ) :
    ompSum part (fun i => wAt (w.map fin) i *. (wAt (w.map fin) i /. fin w.sum)) = fin ((w.map fun y => y * y).sum / w.sum) ∧
    ompSum part (fun i => CFloat.pow (wAt (w.map fin) i) (fin α)) = fin (w.map (· ^ α)).sum ∧
    ompSum part (fun i => CFloat.pow (wAt (w.map fin) i /. fin w.sum) (fin α)) = fin ((w.map (· ^ α)).sum / w.sum ^ α) ∧
    ompSum part (fun i => CFloat.pow (wAt (w.map fin) i) (fin α) *. CFloat.pow (wAt (w.map fin) i /. fin w.sum) (fin α)) =
      fin ((w.map fun y => y ^ α * y ^ α).sum / w.sum ^ α) := by
  have hW := sum_pos_of hw hne
  have hpos : ∀ i ∈ part.flatten, 0 < w.getD i 0 := by
    intro i hi
    have hi := List.mem_range.1 (hp.mem_iff.1 hi)
    rw [List.getD_eq_getElem?_getD, List.getElem?_eq_getElem hi]
    exact hw _ (List.getElem_mem _)
  have hmd : ∀ (h : ℝ → ℝ) (k : ℝ), (w.map fun y => h y / k).sum = (w.map h).sum / k := by
    intro h k
    induction w with
    | nil => simp
    | cons a l ih =>
      clear hW hpos hp hne
      have : ∀ l : List ℝ, (l.map fun y => h y / k).sum = (l.map h).sum / k := by
        intro l
        induction l with
        | nil => simp
        | cons a l ih => simp only [List.map_cons, List.sum_cons, ih]; ring
      exact this _
  refine ⟨?_, ?_, ?_, ?_⟩
  · rw [ompSum_w hp (fun y => y * y / w.sum) (fun i _ => by
      rw [wAt_eq, XR.div_fin _ _ hW.ne', XR.mul_fin]; exact congrArg fin (by ring)), hmd fun y => y * y]
  · rw [ompSum_w hp (· ^ α) (fun i hi => by rw [wAt_eq, XR.pow_fin _ _ (hpos i hi)])]
  · rw [ompSum_w hp (fun y => y ^ α / w.sum ^ α) (fun i hi => by
      rw [wAt_eq, XR.div_fin _ _ hW.ne', XR.pow_fin _ _ (div_pos (hpos i hi) hW), Real.div_rpow (hpos i hi).le hW.le]),
      hmd (· ^ α)]
  · rw [ompSum_w hp (fun y => y ^ α * y ^ α / w.sum ^ α) (fun i hi => by
      rw [wAt_eq, XR.div_fin _ _ hW.ne', XR.pow_fin _ _ (hpos i hi), XR.pow_fin _ _ (div_pos (hpos i hi) hW), XR.mul_fin,
        Real.div_rpow (hpos i hi).le hW.le]; exact congrArg fin (by ring)),
      hmd fun y => y ^ α * y ^ α]

set_option maxHeartbeats 1000000 in
/-- every evaluation of the function searched by the estimator for finite alpha -/
theorem alpha_value {w : List ℝ} (hw : Normal w) (hne : w ≠ []) (hn : w.length < 2 ^ 31) {part : List (List Nat)}
    (hp : part.flatten.Perm (List.range w.length)) {alg : StdAlg XR} {ndebug : Bool} {d : ℕ} (hd : 1 ≤ d) (hd30 : d ≤ 30)
    {α : ℝ} (hα : 0 < α) (hα1 : α ≠ 1) {s : AlphaState XR} (hs : AlphaOk w α s) {c : ℝ} (hc : 0 < c)
    {so' : LazySorter XR} {r : ℕ}
    (e : s.sorter.sortDownto alg ndebug (fin (1 / (alphaX d α w.sum c * bw w 0))) = some (so', r)) :
    ∃ v s', alphaFn alg ndebug part (w.map fin) d (fin α) (fin c) s = some (fin v, s') ∧ AlphaOk w α s' ∧
      EstVal w.length (bw w) (probAlpha α) (alphaX d α w.sum c) v := by
  have hw' := hw.pos
  have hlen : 0 < w.length := List.length_pos_iff.2 hne
  have hn' : (0 : ℝ) < w.length := by exact_mod_cast hlen
  have hW := sum_pos_of hw' hne
  have hb0 : 0 < bw w 0 := (bw_weights hw').pos 0 hlen
  have hα0 : α - 1 ≠ 0 := sub_ne_zero.2 hα1
  have hd0 : (0 : ℝ) < d := by exact_mod_cast hd
  have hx := alphaX_pos (d := d) (α := α) hW hc
  obtain ⟨hso, hpl, hpo⟩ := hs
  obtain ⟨hso', hrich, hrse, hse, htake⟩ := hso.query hw e
  obtain ⟨l, hl, hvec⟩ := vec_real hso'.perm
  rw [hvec] at hrich
  obtain ⟨hget, g, hclub⟩ := club_of_rich hw' hl (x := alphaX d α w.sum c) hx (by field_simp) hrich
  rw [← hvec] at hget
  obtain ⟨q1, q2, q3, q4⟩ := alphaReductions hw' hne hp α
  have q5 := (reductions hw' hne hp).2.2
  have hpo' : PowOk α so'.vec s.powWeights := by
    intro i hi
    obtain ⟨y, h1, h2⟩ := hpo i hi
    refine ⟨y, ?_, h2⟩
    have hlt : i < s.sorter.sortedEnd := by omega
    rw [← h1, ← List.getElem?_take_of_lt hlt, htake, List.getElem?_take_of_lt hlt]
  have hWa : (0 : ℝ) < w.sum ^ α := by positivity
  -- the constants
  have k1 : (CFloat.ofInt (2 ^ d : ℤ) : XR) = fin (2 ^ d) := by rw [XR.ofInt_eq]; push_cast; rfl
  -- the value without correction of saturated pairs
  have hraw : c ^ (1 / α) * ((w.sum - (w.map fun y => y * y).sum / w.sum) * (1 + 1 / (α - 1)) * 2 ^ d) -
      c * ((2 : ℝ) ^ (α * d) / (α - 1) * ((w.map (· ^ α)).sum * ((w.map (· ^ α)).sum / w.sum ^ α) -
        (w.map fun y => y ^ α * y ^ α).sum / w.sum ^ α)) =
      pairSum w.length (fun i j => rawAlpha α (alphaX d α w.sum c * bw w i * bw w j)) := by
    rw [pairSum_raw hw' hx, alphaX_rpow hα hW hc]
    unfold alphaX
    field_simp
  have hls : (CFloat.pow (fin c) (CFloat.ofRat 1 /. fin α) *.
      ((fin w.sum -. fin ((w.map fun y => y * y).sum / w.sum)) *. (CFloat.ofRat 1 +. CFloat.ofRat 1 /. (fin α -. CFloat.ofRat 1)) *.
        CFloat.ofInt (2 ^ d : ℤ)) -.
      fin c *. (CFloat.pow (CFloat.ofRat 2) (fin α *. CFloat.ofNat d) /. (fin α -. CFloat.ofRat 1) *.
        (fin (w.map (· ^ α)).sum *. fin ((w.map (· ^ α)).sum / w.sum ^ α) -. fin ((w.map fun y => y ^ α * y ^ α).sum / w.sum ^ α))) : XR) =
      fin (pairSum w.length (fun i j => rawAlpha α (alphaX d α w.sum c * bw w i * bw w j))) := by
    rw [ofRat_one, ofRat_two, k1, XR.ofNat_eq, XR.div_fin _ _ hα.ne', XR.pow_fin _ _ hc, XR.sub_fin, XR.sub_fin, XR.div_fin _ _ hα0,
      XR.add_fin, XR.mul_fin, XR.mul_fin, XR.mul_fin, XR.mul_fin, XR.pow_fin _ _ (by norm_num), XR.div_fin _ _ hα0, XR.mul_fin,
      XR.sub_fin, XR.mul_fin, XR.mul_fin, XR.sub_fin, ← hraw]
  have hest := hclub.estVal (raw := rawAlpha α) (P := probAlpha α) hlen (rawAlpha_one α) (fun t _ => rfl)
  have hshl : shl1 d = some (2 ^ d : ℤ) := Coord.shl1_eq hd30
  -- prefix of the function
  have hpre : alphaFn alg ndebug part (w.map fin) d (fin α) (fin c) s =
      alphaDegree alg ndebug w.length d (fin α) (fin w.sum) (fin (bw w 0 / w.sum))
        ((fin w.sum -. fin ((w.map fun y => y * y).sum / w.sum)) *. (CFloat.ofRat 1 +. CFloat.ofRat 1 /. (fin α -. CFloat.ofRat 1)) *.
          CFloat.ofInt (2 ^ d : ℤ))
        (CFloat.pow (CFloat.ofRat 2) (fin α *. CFloat.ofNat d) /. (fin α -. CFloat.ofRat 1) *.
          (fin (w.map (· ^ α)).sum *. fin ((w.map (· ^ α)).sum / w.sum ^ α) -. fin ((w.map fun y => y ^ α * y ^ α).sum / w.sum ^ α)))
        (fin (w.sum ^ α)) (CFloat.ofInt (2 ^ d : ℤ)) (fin c) s := by
    unfold alphaFn
    rw [if_neg (by
      rintro ⟨-, h⟩
      rw [ofRat_one, XR.eq_fin, decide_eq_true_eq] at h
      exact hα1 h)]
    have hfold := foldl_add_eq w 0
    rw [zero_add, ← ofRat_zero] at hfold
    simp only [hfold, q1, q2, q3, q4, q5, List.length_map]
    refine (obind hshl _).trans ?_
    rw [XR.div_fin _ _ hW.ne', XR.pow_fin _ _ hW]
  rw [hpre]
  unfold alphaDegree
  simp only
  rw [hls, richThresh_eq hd hα hW hc hb0]
  by_cases hr0 : r = 0
  · refine ⟨_, ⟨so', s.powWeights⟩, ?_, ⟨hso', hpl.trans hse, hpo'⟩, hest⟩
    refine (obind e _).trans ?_
    simp only
    rw [if_pos hr0, XR.ofNat_eq, XR.div_fin _ _ hn'.ne']
    subst hr0
    simp [loopSum]
  · have hbpos : ∀ i < r, 0 < bw w i := fun i hi => (bw_weights hw').pos i (by have := hclub.re_le; omega)
    obtain ⟨pw, hg1, hg2, hg3⟩ := growPows_eq (α := α) hget hbpos (r - s.powWeights.length) s.powWeights hpo' (by omega)
    have hpw : ∀ i < r, pw[i]? = some (fin (bw w i ^ α)) := by
      intro i hi
      obtain ⟨y, h1, h2⟩ := hg2 i (by omega)
      rw [hget i hi] at h1
      have h1 : fin (bw w i) = fin y := by injection h1
      have h1 : bw w i = y := by injection h1
      rw [h1]; exact h2
    have hth : alphaX d α w.sum c * (1 / (2 ^ d * c ^ (1 / α)) * w.sum) = 1 := by
      unfold alphaX; field_simp
    obtain ⟨i2', S, T, ht⟩ := termLoop_eq (α := α) hW hWa hget hpw hclub hth hn r 0 0 0 0 le_rfl (fun i _ => Nat.zero_le _) (by simp)
    rw [sum_range_zero, sum_range_zero, ← ofRat_zero] at ht
    have herr := loopSum_alpha (α := α) (W := w.sum) (Wa := w.sum ^ α) (A := 2 ^ d * c ^ (1 / α)) (C := c * (2 : ℝ) ^ (α * d)) hclub
      (fun i hi j hj => by unfold alphaX; ring)
      (fun i hi j hj => by
        rw [Real.mul_rpow (mul_pos hx (hbpos i hi)).le (hbpos j hj).le, Real.mul_rpow hx.le (hbpos i hi).le, alphaX_rpow hα hW hc]
        ring)
    refine ⟨_, ⟨so', pw⟩, ?_, ⟨hso', by show pw.length ≤ so'.sortedEnd; omega, hg2⟩, hest⟩
    refine (obind e _).trans ?_
    simp only
    rw [if_neg hr0, if_neg (by rintro ⟨-, h⟩; exact h hclub.re_le)]
    refine (obind hg1 _).trans ?_
    rw [thresh_eq hα hc]
    refine (obind ht _).trans ?_
    simp only [zero_add]
    have hpow : (1 / 2 : ℝ) ^ ((d : ℝ) - α * d) = (2 : ℝ) ^ (α * d) / 2 ^ d := by
      rw [one_div, Real.inv_rpow (by norm_num), ← Real.rpow_neg (by norm_num), neg_sub, Real.rpow_sub (by norm_num), Real.rpow_natCast]
    have hcp : c * c ^ (1 / α - 1) = c ^ (1 / α) := by
      rw [Real.rpow_sub hc, Real.rpow_one]; field_simp
    have hdd : (d : ℝ) - α * d ≠ 0 := by
      have : (d : ℝ) - α * d = -((α - 1) * d) := by ring
      rw [this]
      exact neg_ne_zero.2 (mul_ne_zero hα0 hd0.ne')
    rw [ofRat_one, ofRat_half, k1, XR.ofNat_eq, XR.ofNat_eq, XR.ofNat_eq, XR.div_fin _ _ hα.ne', XR.pow_fin _ _ hc, XR.mul_fin, XR.mul_fin,
      XR.sub_fin, XR.mul_fin, XR.mul_fin, XR.mul_fin, XR.sub_fin, XR.sub_fin, XR.div_fin _ _ hdd, XR.pow_fin _ _ (by norm_num), XR.mul_fin,
      XR.sub_fin, XR.pow_fin _ _ hc, XR.mul_fin, XR.sub_fin, XR.mul_fin, XR.sub_fin, XR.div_fin _ _ hn'.ne', herr, hpow]
    congr 4
    have e3 : c * (d : ℝ) * 2 ^ d / (d - α * d) *
        ((2 : ℝ) ^ (α * d) / 2 ^ d * loopSum r (fun i => bw w i ^ α) (1 / w.sum ^ α) g id -
          c ^ (1 / α - 1) * loopSum r (bw w) (1 / w.sum) g id) =
        (1 / (α - 1)) * (2 ^ d * c ^ (1 / α) * loopSum r (bw w) (1 / w.sum) g id -
          c * (2 : ℝ) ^ (α * d) * loopSum r (fun i => bw w i ^ α) (1 / w.sum ^ α) g id) := by
      rw [← hcp]
      have : (d : ℝ) - α * d = -((α - 1) * d) := by ring
      rw [this]
      field_simp
      ring
    rw [e3]
    ring

/-- the release build can evaluate the function everywhere -/
theorem alpha_evaluates {w : List ℝ} (hw : Normal w) (hne : w ≠ []) (hn : w.length < 2 ^ 31) {part : List (List Nat)}
    (hp : part.flatten.Perm (List.range w.length)) (alg : StdAlg XR) {d : ℕ} (hd : 1 ≤ d) (hd30 : d ≤ 30)
    {α : ℝ} (hα : 0 < α) (hα1 : α ≠ 1) :
    Evaluates (alphaFn alg true part (w.map fin) d (fin α)) (AlphaOk w α)
      (fun c v => EstVal w.length (bw w) (probAlpha α) (alphaX d α w.sum c) v) where
  eval s hs c hc := by
    obtain ⟨⟨s', r⟩, e⟩ := LazySorter.release alg s.sorter (fin (1 / (alphaX d α w.sum c * bw w 0)))
    obtain ⟨v, s'', h1, h2, h3⟩ := alpha_value hw hne hn hp hd hd30 hα hα1 hs hc e
    exact ⟨v, s'', h1, h2, h3⟩

theorem alphaFn_release {F : Type} [CFloat F] {alg : StdAlg F} {ndebug : Bool} {part : List (List Nat)} {weights : List F} {d : ℕ}
    {alpha c : F} {s : AlphaState F} {r : F × AlphaState F} (h : alphaFn alg ndebug part weights d alpha c s = some r) :
    alphaFn alg true part weights d alpha c s = some r := by
  unfold alphaFn alphaDegree at h ⊢
  simp only at h ⊢
  rw [if_neg (by simp)]
  split at h
  · cases h
  rw [Option.bind_eq_bind, Option.bind_eq_some_iff] at h
  obtain ⟨two, h1, h⟩ := h
  refine (obind h1 _).trans ?_
  rw [Option.bind_eq_bind, Option.bind_eq_some_iff] at h
  obtain ⟨⟨s', re⟩, h2, h⟩ := h
  refine (obind (sortDownto_release h2) _).trans ?_
  simp only at h ⊢
  split
  · rename_i h0
    rw [if_pos h0] at h; exact h
  · rename_i h0
    rw [if_neg h0] at h
    rw [if_neg (by simp)]
    split at h
    · cases h
    · exact h

theorem returns_alpha_release {F : Type} [CFloat F] {alg : StdAlg F} {ndebug : Bool} {part : List (List Nat)} {weights : List F} {d : ℕ}
    {alpha des c : F} {s : AlphaState F} (h : Returns (alphaFn alg ndebug part weights d alpha) des s c) :
    Returns (alphaFn alg true part weights d alpha) des s c := by
  obtain ⟨k, st, h⟩ := h
  exact ⟨k, st, run_mono (fun _ _ _ => alphaFn_release) k _ _ _ h⟩

theorem AlphaOk.new {w : List ℝ} (h : Normal w) (α : ℝ) : AlphaOk w α ⟨LazySorter.new (w.map fin), []⟩ :=
  ⟨SorterOk.new h, Nat.zero_le _, fun i hi => absurd hi (by simp)⟩

end Girgs.Scaling
