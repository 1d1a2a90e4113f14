import Verif.Proofs.ScalingExact
import Mathlib.Analysis.SpecialFunctions.Pow.Continuity
/-
The threshold estimator in exact arithmetic.
-/
namespace Girgs.Scaling
open CFloat
open XR (fin)

theorem ofRat_zero : (CFloat.ofRat 0 : XR) = fin 0 := by show fin ((0 : ℚ) : ℝ) = _; norm_num
theorem ofRat_one : (CFloat.ofRat 1 : XR) = fin 1 := by show fin ((1 : ℚ) : ℝ) = _; norm_num
theorem ofRat_two : (CFloat.ofRat 2 : XR) = fin 2 := by show fin ((2 : ℚ) : ℝ) = _; norm_num

/-- value of `std::numeric_limits<double>::max()` -/
noncomputable def maxR : ℝ := (((((2 ^ 53 - 1) * 2 ^ 971 : Nat) : ℚ)) : ℝ)
/-- value of `std::numeric_limits<double>::min()` -/
noncomputable def minR : ℝ := ((1 / ((2 ^ 1022 : Nat) : ℚ) : ℚ) : ℝ)

theorem dblMax_eq : (dblMax : XR) = fin maxR := by
  unfold dblMax maxR
  generalize ((((2 ^ 53 - 1) * 2 ^ 971 : Nat) : ℚ)) = q
  rfl

theorem dblMin_eq : (dblMin : XR) = fin minR := by
  unfold dblMin minR
  generalize ((1 / ((2 ^ 1022 : Nat) : ℚ) : ℚ)) = q
  rfl

theorem minR_pos : 0 < minR := by
  unfold minR
  have : (0 : ℚ) < 1 / ((2 ^ 1022 : Nat) : ℚ) := by
    apply one_div_pos.2
    exact_mod_cast Nat.pow_pos (by norm_num : 0 < 2)
  exact_mod_cast this

/-- the weights are positive normal numbers -/
def Normal (w : List ℝ) : Prop := ∀ y ∈ w, minR ≤ y ∧ y ≤ maxR

theorem Normal.pos {w : List ℝ} (h : Normal w) : ∀ y ∈ w, 0 < y := fun y hy => minR_pos.trans_le (h y hy).1

/-- invariant of the sorter for the weights `w` -/
abbrev SorterOk (w : List ℝ) (s : LazySorter XR) : Prop := LInv IsNum xkey (w.map fin) s

theorem SorterOk.new {w : List ℝ} (h : Normal w) : SorterOk w (LazySorter.new (w.map fin)) := by
  refine LInv.new (by rw [dblMax_eq]; simp [IsNum]) ?_
  intro x hx
  obtain ⟨y, hy, rfl⟩ := List.mem_map.1 hx
  rw [dblMax_eq]
  exact EReal.coe_le_coe_iff.2 (h y hy).2

theorem SorterOk.query {w : List ℝ} (h : Normal w) {alg : StdAlg XR} {ndebug : Bool} {s s' : LazySorter XR} {t : ℝ} {p : Nat}
    (hs : SorterOk w s) (e : s.sortDownto alg ndebug (fin t) = some (s', p)) :
    SorterOk w s' ∧ RichClub s'.vec (fin t) p ∧ p ≤ s'.sortedEnd ∧ s.sortedEnd ≤ s'.sortedEnd ∧
      s'.vec.take s.sortedEnd = s.vec.take s.sortedEnd := by
  refine LInv.query xr_ordered (by rw [dblMin_eq]; simp [IsNum]) ?_ ?_ hs (by simp [IsNum]) e
  · intro x hx
    obtain ⟨y, hy, rfl⟩ := List.mem_map.1 hx
    simp [IsNum]
  · intro x hx
    obtain ⟨y, hy, rfl⟩ := List.mem_map.1 hx
    rw [dblMin_eq]
    exact EReal.coe_le_coe_iff.2 (h y hy).1

/-! ### the inner loop -/

theorem advance_eq {vec : List XR} {b : ℕ → ℝ} {re G : ℕ} {thr : ℝ} (hv : ∀ i < re, vec[i]? = some (fin (b i)))
    (hG : G ≤ re) (hiff : ∀ j < re, (j < G ↔ thr ≤ b j)) :
    ∀ (fuel i2 : ℕ) (S : ℝ), i2 + fuel = re → i2 ≤ G →
      advance vec (fin thr) fuel (fin S) i2 = some (fin (S + ∑ j ∈ Finset.Ico i2 G, b j), G) := by
  intro fuel
  induction fuel with
  | zero =>
    intro i2 S h1 h2
    have : i2 = G := by omega
    subst this
    simp [advance]
  | succ fuel ih =>
    intro i2 S h1 h2
    rw [advance]
    refine (obind (hv i2 (by omega)) _).trans ?_
    by_cases hlt : i2 < G
    · rw [if_pos ((ge_fin _ _).2 ((hiff i2 (by omega)).1 hlt)), XR.add_fin, ih (i2 + 1) _ (by omega) (by omega),
        Finset.sum_eq_sum_Ico_succ_bot hlt]
      rw [add_assoc]
    · rw [if_neg fun hh => hlt ((hiff i2 (by omega)).2 ((ge_fin _ _).1 hh))]
      have : i2 = G := by omega
      subst this
      simp

theorem errorLoop_eq {vec : List XR} {n re : ℕ} {b : ℕ → ℝ} {W p : ℝ} {g : ℕ → ℕ} (hW : 0 < W) (hp : 0 < p)
    (hv : ∀ i < re, vec[i]? = some (fin (b i))) (hc : Club n re b (p / W) g) :
    ∀ (k i2 : ℕ) (e : ℝ), k ≤ re → (∀ i < k, i2 ≤ g i) →
      errorLoop vec (fin W) (fin p) re k (fin e) (fin (∑ j ∈ Finset.range i2, b j)) i2 =
        some (fin (e + loopSum k b (p / W) g (fun t => t - 1))) := by
  intro k
  induction k with
  | zero => intro i2 e _ _; simp [errorLoop, loopSum]
  | succ k ih =>
    intro i2 e hk hi2
    have hkr : k < re := by omega
    have hbk : 0 < b k := hc.pos k (by have := hc.re_le; omega)
    have hgk := hc.g_le k hkr
    rw [errorLoop]
    refine (obind (hv k hkr) _).trans ?_
    simp only
    have e1 : (CFloat.ofRat 1 /. (fin (b k) /. fin W) /. fin p : XR) = fin (1 / (b k / W) / p) := by
      rw [ofRat_one, XR.div_fin _ _ hW.ne', XR.div_fin _ _ (by positivity), XR.div_fin _ _ hp.ne']
    have ha := advance_eq hv hgk (thr := 1 / (b k / W) / p) (fun j hj => by
      rw [hc.g_iff k hkr j hj]
      have : (p / W * b k * b j) = b j / (1 / (b k / W) / p) := by field_simp
      rw [this, le_div_iff₀ (by positivity), one_mul]) (re - i2) i2 (∑ j ∈ Finset.range i2, b j)
      (by have := hi2 k (by omega); omega) (hi2 k (by omega))
    rw [Finset.sum_range_add_sum_Ico _ (hi2 k (by omega))] at ha
    rw [e1]
    refine (obind ha _).trans ?_
    simp only
    have e2 : (fin (∑ j ∈ Finset.range (g k), b j) *. fin p *. (fin (b k) /. fin W) -. CFloat.ofNat (g k) : XR) =
        fin (∑ j ∈ Finset.range (g k), (p / W * b k * b j - 1)) := by
      rw [XR.mul_fin, XR.div_fin _ _ hW.ne', XR.mul_fin, XR.ofNat_eq, XR.sub_fin]
      congr 1
      rw [Finset.sum_sub_distrib, Finset.sum_const, Finset.card_range, nsmul_one, ← Finset.mul_sum]
      field_simp
    have e3 : (fin p *. (fin (b k) /. fin W) *. fin (b k) -. CFloat.ofRat 1 : XR) = fin (p / W * b k * b k - 1) := by
      rw [ofRat_one, XR.div_fin _ _ hW.ne', XR.mul_fin, XR.mul_fin, XR.sub_fin]
      congr 1
      field_simp
    rw [e2, e3]
    have hnext : ∀ i < k, g k ≤ g i := fun i hi => hc.g_anti (by omega) hkr
    have hsum : loopSum (k + 1) b (p / W) g (fun t => t - 1) = loopSum k b (p / W) g (fun t => t - 1) +
        ((∑ j ∈ Finset.range (g k), (p / W * b k * b j - 1)) - if k ≤ g k then p / W * b k * b k - 1 else 0) := by
      unfold loopSum; rw [Finset.sum_range_succ]
    by_cases hkg : k ≤ g k
    · rw [if_pos hkg, XR.add_fin, XR.sub_fin, ih (g k) _ (by omega) hnext, hsum, if_pos hkg]
      congr 2; ring
    · rw [if_neg hkg, XR.add_fin, ih (g k) _ (by omega) hnext, hsum, if_neg hkg]
      congr 2; ring

/-! ### the estimator -/

/-- expected number of neighbours contributed by a pair with ball volume `t` -/
noncomputable def probThreshold (t : ℝ) : ℝ := min 1 t

theorem probThreshold_conn : ConnFn probThreshold where
  pos t ht := lt_min one_pos ht
  le_one t _ := min_le_left _ _
  eq_one t ht := min_eq_left ht
  cont t _ := (continuous_const.min continuous_id).continuousAt
  small ε hε := ⟨ε, hε, fun t _ h => (min_le_right _ _).trans_lt h⟩

theorem pairSum_mul (w : List ℝ) (x : ℝ) :
    pairSum w.length (fun i j => x * bw w i * bw w j) = x * (w.sum * w.sum - (w.map fun y => y * y).sum) := by
  unfold pairSum
  have h1 : ∑ i ∈ Finset.range w.length, bw w i = w.sum := by simpa using sum_bw w id
  have h2 := sum_bw w fun y => y * y
  rw [← h2, mul_sub, ← h1, Finset.sum_mul_sum, Finset.mul_sum, Finset.mul_sum]
  congr 1
  · refine Finset.sum_congr rfl fun i _ => ?_
    rw [Finset.mul_sum]
    exact Finset.sum_congr rfl fun j _ => by ring
  · exact Finset.sum_congr rfl fun j _ => by ring

theorem sum_pos_of {w : List ℝ} (hw : ∀ y ∈ w, 0 < y) (hne : w ≠ []) : 0 < w.sum := List.sum_pos w hw hne

theorem reductions {w : List ℝ} (hw : ∀ y ∈ w, 0 < y) (hne : w ≠ []) {part : List (List Nat)}
    (hp : part.flatten.Perm (List.range w.length)) :
    ompSum part (wAt (w.map fin)) = fin w.sum ∧
    ompSum part (fun i => wAt (w.map fin) i *. wAt (w.map fin) i) = fin (w.map fun y => y * y).sum ∧
    ompMax part (wAt (w.map fin)) = fin (bw w 0) := by
  have hlen : 0 < w.length := List.length_pos_iff.2 hne
  refine ⟨?_, ?_, ?_⟩
  · rw [ompSum_eq part _ (fun i => w.getD i 0) (fun i _ => wAt_eq w i)]
    have := sum_wAt w id hp
    simpa using this
  · rw [ompSum_eq part _ (fun i => w.getD i 0 * w.getD i 0) (fun i _ => by rw [wAt_eq, XR.mul_fin])]
    rw [sum_wAt w (fun y => y * y) hp]
  · refine ompMax_eq part _ (fun i => w.getD i 0) (fun i _ => wAt_eq w i) (fun i hi => ?_) ((bw_weights hw).pos 0 hlen).le ?_
    · have hi := List.mem_range.1 (hp.mem_iff.1 hi)
      rw [List.getD_eq_getElem?_getD, List.getElem?_eq_getElem hi]
      exact bw_zero_max hw _ (List.getElem_mem _)
    · obtain ⟨i, hi, he⟩ := List.getElem_of_mem (bw_mem w hlen)
      refine ⟨i, hp.mem_iff.2 (List.mem_range.2 hi), ?_⟩
      rw [List.getD_eq_getElem?_getD, List.getElem?_eq_getElem hi]
      exact he

/-- every evaluation of the function searched by the threshold estimator -/
theorem threshold_value {w : List ℝ} (hw : Normal w) (hne : w ≠ []) {part : List (List Nat)}
    (hp : part.flatten.Perm (List.range w.length)) {alg : StdAlg XR} {ndebug : Bool} {d : ℕ} {s s' : LazySorter XR}
    (hs : SorterOk w s) {c : ℝ} (hc : 0 < c) {r : ℕ}
    (e : s.sortDownto alg ndebug (fin (w.sum / (2 * c) ^ (d : ℝ) / bw w 0)) = some (s', r)) :
    ∃ v, thresholdFn alg ndebug part (w.map fin) d (fin c) s = some (fin v, s') ∧ SorterOk w s' ∧
      EstVal w.length (bw w) probThreshold ((2 * c) ^ (d : ℝ) / w.sum) v := by
  have hw' := hw.pos
  have hlen : 0 < w.length := List.length_pos_iff.2 hne
  have hW := sum_pos_of hw' hne
  have hb0 : 0 < bw w 0 := (bw_weights hw').pos 0 hlen
  obtain ⟨p, hpdef⟩ : ∃ p, p = (2 * c) ^ (d : ℝ) := ⟨_, rfl⟩
  have hp0 : 0 < p := by rw [hpdef]; positivity
  rw [← hpdef] at e ⊢
  obtain ⟨hs', hrich, -, -, -⟩ := hs.query hw e
  obtain ⟨l, hl, hvec⟩ := vec_real hs'.perm
  rw [hvec] at hrich
  obtain ⟨hget, g, hclub⟩ := club_of_rich hw' hl (x := p / w.sum) (by positivity) (by field_simp) hrich
  rw [← hvec] at hget
  obtain ⟨r1, r2, r3⟩ := reductions hw' hne hp
  refine ⟨_, ?_, hs', hclub.estVal (raw := id) hlen rfl (fun t _ => ?_)⟩
  · unfold thresholdFn thresholdDegree
    rw [r1, r2, r3, List.length_map]
    simp only
    have e1 : (CFloat.pow (CFloat.ofRat 2 *. fin c) (CFloat.ofNat d) : XR) = fin p := by
      rw [ofRat_two, XR.mul_fin, XR.ofNat_eq, XR.pow_fin _ _ (by positivity), hpdef]
    rw [e1]
    have e2 : (fin w.sum /. fin p /. fin (bw w 0) : XR) = fin (w.sum / p / bw w 0) := by
      rw [XR.div_fin _ _ hp0.ne', XR.div_fin _ _ hb0.ne']
    rw [e2]
    refine (obind e _).trans ?_
    simp only
    rw [if_neg (by
      rintro ⟨-, h2⟩
      apply h2
      rw [hs'.perm.length_eq, List.length_map]; exact hclub.re_le)]
    have hloop := errorLoop_eq (vec := s'.vec) hW hp0 hget hclub r 0 0 le_rfl (fun i _ => Nat.zero_le _)
    rw [Finset.sum_range_zero, ← ofRat_zero] at hloop
    refine (obind hloop _).trans ?_
    rw [XR.div_fin _ _ hW.ne', XR.sub_fin, XR.mul_fin, XR.sub_fin, XR.ofNat_eq, XR.div_fin _ _ (by positivity)]
    congr 4
    simp only [id]
    rw [pairSum_mul, zero_add]
    field_simp
  · unfold probThreshold
    split
    · rename_i h; exact min_eq_left h
    · rename_i h; exact min_eq_right (not_le.1 h).le

/-- the release build can evaluate the function everywhere -/
theorem threshold_evaluates {w : List ℝ} (hw : Normal w) (hne : w ≠ []) {part : List (List Nat)}
    (hp : part.flatten.Perm (List.range w.length)) (alg : StdAlg XR) (d : ℕ) :
    Evaluates (thresholdFn alg true part (w.map fin) d) (SorterOk w)
      (fun c v => EstVal w.length (bw w) probThreshold ((2 * c) ^ (d : ℝ) / w.sum) v) where
  eval s hs c hc := by
    obtain ⟨⟨s', r⟩, e⟩ := LazySorter.release alg s (fin (w.sum / (2 * c) ^ (d : ℝ) / bw w 0))
    obtain ⟨v, h1, h2, h3⟩ := threshold_value hw hne hp hs hc e
    exact ⟨v, s', h1, h2, h3⟩

/-! ### debug and release builds -/

theorem sortDownto_release {F : Type} [CFloat F] {alg : StdAlg F} {ndebug : Bool} {s : LazySorter F} {t : F} {r : LazySorter F × Nat}
    (h : s.sortDownto alg ndebug t = some r) : s.sortDownto alg true t = some r := by
  unfold LazySorter.sortDownto at h ⊢
  split
  · rename_i hlt
    rw [if_pos hlt] at h
    split at h
    · cases h
    · rw [if_neg (by simp)]
      simp only at h ⊢
      split
      · rename_i h1
        rw [if_pos h1] at h; exact h
      · rename_i h1
        rw [if_neg h1] at h
        split at h
        · cases h
        · rw [if_neg (by simp)]; exact h
  · rename_i hlt
    rw [if_neg hlt] at h; exact h

theorem thresholdFn_release {F : Type} [CFloat F] {alg : StdAlg F} {ndebug : Bool} {part : List (List Nat)} {weights : List F} {d : ℕ}
    {c : F} {s : LazySorter F} {r : F × LazySorter F} (h : thresholdFn alg ndebug part weights d c s = some r) :
    thresholdFn alg true part weights d c s = some r := by
  unfold thresholdFn thresholdDegree at h ⊢
  simp only at h ⊢
  rw [Option.bind_eq_bind, Option.bind_eq_some_iff] at h
  obtain ⟨⟨s', re⟩, h1, h2⟩ := h
  refine (obind (sortDownto_release h1) _).trans ?_
  simp only at h2 ⊢
  rw [if_neg (by simp)]
  split at h2
  · cases h2
  · exact h2

theorem run_mono {F S : Type} [CFloat F] {f f' : F → S → Option (F × S)} (hff : ∀ c s r, f c s = some r → f' c s = some r)
    {des acc : F} : ∀ (k : ℕ) (o : Outcome F S) c st, run f des acc k o = .returned c st → run f' des acc k o = .returned c st := by
  have heb : ∀ s : Search F S, enterBisect f s = .undefined ∨ enterBisect f' s = enterBisect f s := by
    intro s
    unfold enterBisect
    cases h : f (midpoint s) s.st with
    | none => exact Or.inl rfl
    | some r => rw [hff _ _ _ h]; exact Or.inr rfl
  have hstep : ∀ s : Search F S, step f des acc s = .undefined ∨ step f' des acc s = step f des acc s := by
    intro s
    unfold step
    split
    · cases h : f s.upper s.st with
      | none => exact Or.inl rfl
      | some r => rw [hff _ _ _ h]; exact Or.inr rfl
    · cases h : f s.lower s.st with
      | none => exact Or.inl rfl
      | some r =>
        rw [hff _ _ _ h]
        simp only
        split
        · exact Or.inr rfl
        · exact heb _
    · split
      · split <;> exact heb _
      · exact Or.inr rfl
  intro k
  induction k with
  | zero => intro o c st h; exact h
  | succ k ih =>
    intro o c st h
    cases o with
    | running s =>
      have h' : run f des acc k (step f des acc s) = .returned c st := h
      show run f' des acc k (step f' des acc s) = .returned c st
      rcases hstep s with hu | he
      · rw [hu] at h'
        cases k with
        | zero => cases h'
        | succ k => cases h'
      · rw [he]; exact ih _ _ _ h'
    | returned c' st' => exact h
    | undefined => exact h

theorem returns_release {F : Type} [CFloat F] {alg : StdAlg F} {ndebug : Bool} {part : List (List Nat)} {weights : List F} {d : ℕ}
    {des c : F} {s : LazySorter F} (h : Returns (thresholdFn alg ndebug part weights d) des s c) :
    Returns (thresholdFn alg true part weights d) des s c := by
  obtain ⟨k, st, h⟩ := h
  exact ⟨k, st, run_mono (fun _ _ _ => thresholdFn_release) k _ _ _ h⟩

/-- the returned constant -/
theorem returned_value {S : Type} {f : XR → S → Option (XR × S)} {Inv : S → Prop} {Val : ℝ → ℝ → Prop} (hf : Evaluates f Inv Val)
    {des : ℝ} {st : S} (h : Inv st) {c : XR} (hr : Returns f (fin des) st c) :
    ∃ c' v, c = fin c' ∧ 0 < c' ∧ Val c' v ∧ |v - des| ≤ 1 / 50 := by
  obtain ⟨k, st', hk⟩ := hr
  have := run_sinv (des := des) hf h k
  rw [hk] at this
  obtain ⟨-, l, u, v, h1, h2, h3, h4, h5⟩ := this
  exact ⟨_, v, h1, by linarith, h4, h5⟩

end Girgs.Scaling
