import Verif.Model.HAsserts
import Verif.Proofs.AssertTasks
import Verif.Proofs.HFilterFor
import Verif.Proofs.HDecideProb
/-
The assertions evaluated by the sampling calls of the hyperbolic sampler hold in exact arithmetic, except possibly the one in
HyperbolicTree.inl:331.
-/
namespace Girgs
open CFloat HTree Spec

/-- every assertion of the list holds, except that if `Z` the one in HyperbolicTree.inl:331 may fail -/
def HMostly (Z : Prop) (L : List Check) : Prop := ∀ c ∈ L, c.holds = false → c = HAsserts.tree 331 false ∧ Z

theorem AllHold.hmostly {L : List Check} (h : AllHold L) (Z : Prop) : HMostly Z L := by
  intro c hc h2
  rw [h c hc] at h2; cases h2

theorem HMostly.append {Z : Prop} {L M : List Check} (h : HMostly Z L) (h' : HMostly Z M) : HMostly Z (L ++ M) := by
  intro c hc
  rcases List.mem_append.1 hc with hc | hc
  · exact h c hc
  · exact h' c hc

theorem HMostly.concatM {Z : Prop} {α : Type} {f : α → Option (List Check)} {L : List α}
    (h : ∀ a ∈ L, ∃ l, f a = some l ∧ HMostly Z l) : ∃ l, Tree.concatM L f = some l ∧ HMostly Z l := by
  induction L with
  | nil => exact ⟨[], rfl, allHold_nil.hmostly _⟩
  | cons a L ih =>
    obtain ⟨l, h1, h2⟩ := h a (by simp)
    obtain ⟨l', h3, h4⟩ := ih (fun b hb => h b (by simp [hb]))
    refine ⟨l ++ l', ?_, h2.append h4⟩
    show (f a >>= fun x => Tree.concatM L f >>= fun y => some (x ++ y)) = _
    rw [obind h1, obind h3]

theorem allHold_one {c : Check} (h : c.holds = true) : AllHold [c] := by
  intro d hd
  simp only [List.mem_cons, List.not_mem_nil, or_false] at hd
  subst hd; exact h

theorem AllHold.cons {c : Check} {L : List Check} (h : c.holds = true) (h' : AllHold L) : AllHold (c :: L) := by
  intro d hd
  rcases List.mem_cons.1 hd with rfl | hd
  · exact h
  · exact h' d hd

section cells
variable {F : Type} [CFloat F] {H : HTree F} {tgt : Nat → Nat} {pbl : Nat → Nat → Nat} {nl : Nat}

theorem hlevelled_checks {rl : RadiusLayer F} {A l : Nat} (ht : rl.target ≤ 30) (hl : l ≤ rl.target) (hA : OnLv l A) :
    ∃ L, HAsserts.levelledCell rl A l = some L ∧ AllHold L := by
  obtain ⟨h1, _⟩ := HTreeOK.levelledCell_eq ht hl hA
  unfold HAsserts.levelledCell
  rw [u32_eq (x := l + 1) (by omega), obind (Angle.firstCellOfLevel_eq (l := l) (by omega)),
    obind (Angle.firstCellOfLevel_eq (l := l + 1) (by omega)), obind h1]
  have hp : 1 ≤ 2 ^ (rl.target - l) := Nat.one_le_two_pow
  refine ⟨_, rfl, AllHold.cons (decide_eq_true hl) (AllHold.cons (decide_eq_true hA) (allHold_one (decide_eq_true ?_)))⟩
  simp only
  generalize (A + 1 - 2 ^ l) * 2 ^ (rl.target - l) = x
  omega

theorem hpoints_checks {rl : RadiusLayer F} {A l : Nat} (ht : rl.target ≤ 30) (hl : l ≤ rl.target) (hA : OnLv l A) :
    ∃ L, HAsserts.pointsInCell rl A l = some L ∧ AllHold L := by
  obtain ⟨L, h1, h2⟩ := hlevelled_checks ht hl hA
  obtain ⟨h3, h4⟩ := HTreeOK.levelledCell_eq ht hl hA
  have hp : 1 ≤ 2 ^ (rl.target - l) := Nat.one_le_two_pow
  have hp1 : 1 ≤ 2 ^ l := Nat.one_le_two_pow
  have hp2 : 2 ^ l ≤ 2 ^ rl.target := two_pow_le hl
  have hp3 : 2 ^ rl.target ≤ 2 ^ 30 := two_pow_le ht
  have hp4 : 2 ^ (rl.target + 1) = 2 * 2 ^ rl.target := by ring
  unfold HAsserts.pointsInCell
  rw [u32_eq (x := rl.target + 1) (by omega), obind h1, obind h3, obind (Angle.firstCellOfLevel_eq (l := l) (by omega)),
    obind (Angle.firstCellOfLevel_eq (l := rl.target + 1) (by omega))]
  refine ⟨_, rfl, h2.append (AllHold.cons (decide_eq_true ?_) (allHold_one (decide_eq_true ?_)))⟩
  · simp only
    generalize (A + 1 - 2 ^ l) * 2 ^ (rl.target - l) = x at *
    rw [u32_eq (by omega)]; omega
  · simp only
    generalize (A + 1 - 2 ^ l) * 2 ^ (rl.target - l) = x at *
    rw [u32_eq (by omega)]; omega

/-- the layers of a call -/
structure HLayersOK (H : HTree F) (tgt : Nat → Nat) (nl : Nat) (t : Task) (ra rb : Nat × Nat) (wi wj : RadiusLayer F) : Prop where
  rdi : rd H.radiusLayers t.i = some wi
  rdj : rd H.radiusLayers t.j = some wj
  ti : wi.target ≤ 30
  tj : wj.target ≤ 30
  li : t.level ≤ wi.target
  lj : t.level ≤ wj.target
  itA : wi.cellIterators H.firstInCell t.cellA t.level = some ra
  itB : wj.cellIterators H.firstInCell t.cellB t.level = some rb
  kA : ∀ k, wi.kthPos H.firstInCell t.cellA t.level k = some (ra.1 + k)
  kB : ∀ k, wj.kthPos H.firstInCell t.cellB t.level k = some (rb.1 + k)

theorem HTreeOK.layers_ok (ok : HTreeOK H tgt pbl nl) {t : Task} (ht : HTaskOK H pbl t) {ra rb : Nat × Nat}
    (hr : HRangesOK H tgt nl t ra rb) : ∃ wi wj, HLayersOK H tgt nl t ra rb wi wj := by
  have hli : t.level ≤ tgt t.i := le_trans ht.hl (ok.pbl_left _ _ ht.hi ht.hj)
  have hlj : t.level ≤ tgt t.j := le_trans ht.hl (by rw [ok.pbl_symm]; exact ok.pbl_left _ _ ht.hj ht.hi)
  obtain ⟨wi, a, a', hwi, h1, _, hk, _⟩ := ok.cells_spec ht.hi hli ht.hA
  obtain ⟨wj, b, b', hwj, h5, _, hk', _⟩ := ok.cells_spec ht.hj hlj ht.hB
  have e := hr.eq
  unfold HTree.ranges at e
  rw [obind hwi, obind hwj, obind h1, obind h5] at e
  simp only [Option.some.injEq, Prod.mk.injEq] at e
  obtain ⟨rfl, rfl⟩ := e
  obtain ⟨_, hwi', ei, _⟩ := ok.rd_layers ht.hi
  obtain ⟨_, hwj', ej, _⟩ := ok.rd_layers ht.hj
  obtain rfl := Option.some.inj (hwi'.symm.trans hwi)
  obtain rfl := Option.some.inj (hwj'.symm.trans hwj)
  refine ⟨_, _, hwi, hwj, ?_, ?_, ?_, ?_, h1, h5, hk, hk'⟩
  · rw [ei]; exact ok.target_le (ok.lt_nl ht.hi)
  · rw [ej]; exact ok.target_le (ok.lt_nl ht.hj)
  · rw [ei]; exact hli
  · rw [ej]; exact hlj

section
variable {t : Task} {ra rb : Nat × Nat} {wi wj : RadiusLayer F}

theorem HLayersOK.range_checks (h : HLayersOK H tgt nl t ra rb wi wj) (ht : HTaskOK H pbl t) (hr : HRangesOK H tgt nl t ra rb) :
    ∃ L, H.rangeChecks t = some L ∧ AllHold L := by
  obtain ⟨L, h1, h2⟩ := hlevelled_checks h.ti h.li ht.hA
  obtain ⟨M, h3, h4⟩ := hlevelled_checks h.tj h.lj ht.hB
  unfold HTree.rangeChecks HAsserts.cellIterators
  rw [obind h.rdi, obind h.rdj, h1, h3, h.itA, h.itB]
  exact ⟨_, rfl, (h2.append (allHold_one (decide_eq_true hr.leA))).append (h4.append (allHold_one (decide_eq_true hr.leB)))⟩

theorem HLayersOK.size_checks (h : HLayersOK H tgt nl t ra rb wi wj) (ht : HTaskOK H pbl t) :
    ∃ L, H.sizeChecks t = some L ∧ AllHold L := by
  obtain ⟨L, h1, h2⟩ := hpoints_checks h.ti h.li ht.hA
  obtain ⟨M, h3, h4⟩ := hpoints_checks h.tj h.lj ht.hB
  unfold HTree.sizeChecks
  rw [obind h.rdi, obind h.rdj, h1, h3]
  exact ⟨_, rfl, h2.append h4⟩

theorem HLayersOK.start_checks (h : HLayersOK H tgt nl t ra rb wi wj) (ht : HTaskOK H pbl t) :
    ∃ L, H.startChecks t = some L ∧ AllHold L := by
  obtain ⟨L, h1, h2⟩ := hlevelled_checks h.ti h.li ht.hA
  obtain ⟨M, h3, h4⟩ := hlevelled_checks h.tj h.lj ht.hB
  unfold HTree.startChecks
  rw [obind h.rdi, obind h.rdj, h1, h3]
  exact ⟨_, rfl, h2.append h4⟩

theorem kth_checks {rl : RadiusLayer F} {A l p s : Nat} {u : HPoint F} (line : Nat) (ht : rl.target ≤ 30) (hl : l ≤ rl.target) (hA : OnLv l A)
    (hk : ∀ k, rl.kthPos H.firstInCell A l k = some (s + k)) (hs : s ≤ p) (hu : H.points[p]? = some u) :
    ∃ L, H.kthCheck line rl A l (p - s) u = some L ∧ AllHold L := by
  obtain ⟨L, h1, h2⟩ := hlevelled_checks ht hl hA
  have hp : rd H.points (s + (p - s)) = some u := by
    rw [show s + (p - s) = p by omega]; exact hu
  unfold HTree.kthCheck
  rw [obind h1, obind (hk _), obind hp]
  exact ⟨_, rfl, h2.append (allHold_one (decide_eq_true rfl))⟩

end
end cells


open Real

/-- the radial bounds of the layers -/
def LayerRadii (R : ℝ) (H : HTree XR) : Prop :=
  ∀ (i : Nat) (rl : RadiusLayer XR), H.radiusLayers[i]? = some rl → rl.rMin = XR.fin (R - i - 1) ∧ rl.rMax = XR.fin (R - i)

theorem rd_xw {w : List ℝ} {k : Nat} {x : ℝ} (h : w[k]? = some x) : rd (xw w) k = some (XR.fin x) := by
  unfold rd xw
  rw [List.getElem?_map, h]; rfl

theorem InArc.floor {l A : Nat} {a : ℝ} (hA : OnLv l A) (h : InArc l A a) : ⌊a / (2 * π) * 2 ^ l⌋.toNat = A + 1 - 2 ^ l := by
  have hpi := pi_pos
  have hN : (0 : ℝ) < 2 ^ l := by positivity
  have hw : (0 : ℝ) < 2 * π / 2 ^ l := by positivity
  have ea : a = a / (2 * π) * 2 ^ l * (2 * π / 2 ^ l) := by field_simp
  obtain ⟨h1, h2⟩ := h
  generalize a / (2 * π) * 2 ^ l = z at ea ⊢
  rw [ea] at h1 h2
  have k1 := le_of_mul_le_mul_right h1 hw
  have k2 := lt_of_mul_lt_mul_right h2 hw.le
  rw [onLv_iff] at hA
  have e : ⌊z⌋ = ((A + 1 - 2 ^ l : ℕ) : ℤ) := by
    rw [Int.floor_eq_iff]
    have hc : (((A + 1 - 2 ^ l : ℕ) : ℤ) : ℝ) = (A : ℝ) + 1 - 2 ^ l := by
      rw [Int.cast_natCast, Nat.cast_sub hA.1]; push_cast; ring
    rw [hc]
    exact ⟨k1, by linarith⟩
  rw [e]; simp

section exact
variable {ndebug : Bool} {radii angles : List ℝ} {T R : ℝ} {H : HTree XR}

theorem HBuiltX.place_checks (b : HBuiltX ndebug radii angles T R H) (hin : HypInput radii angles T R) (hrad : LayerRadii R H)
    {i l A : Nat} (l1 l2 : Nat) {rl : RadiusLayer XR} (hrl : rd H.radiusLayers i = some rl) (hl : l ≤ 30) {x : HPoint XR}
    (hx : x ∈ H.points) (hI : HIn (htgt R) ⌈R⌉.toNat x i l A) :
    ∃ L, HTree.placeChecks (xw radii) (xw angles) l1 l2 rl A l x = some L ∧ AllHold L := by
  obtain ⟨r, a, h1, h2, _, _, ha0, ha1, _, h3⟩ := b.point_data hin hx
  obtain ⟨h4, h5, h6⟩ := h3 i l A hI
  obtain ⟨e1, e2⟩ := hrad i rl hrl
  have hA := hI.onLv
  have hlt := onLv_lt hA (by omega)
  have hp1 : 1 ≤ 2 ^ l := Nat.one_le_two_pow
  unfold HTree.placeChecks
  rw [obind (rd_xw h2), obind (rd_xw h1), obind (Angle.firstCellOfLevel_eq (l := l) (by omega)),
    obind (cellForPoint_XR ha0 ha1 (t := l) (by omega)).1, e1, e2, InArc.floor hA h6, XR.fle_fin]
  rw [onLv_iff] at hA
  refine ⟨_, rfl, AllHold.cons (decide_eq_true ?_) (allHold_one ?_)⟩
  · rw [subU_eq (by omega) (by omega)]; omega
  · show ((XR.fin (R - i - 1) <. XR.fin r) && decide (r ≤ R - i)) = true
    rw [XR.lt_fin, decide_eq_true h4, decide_eq_true h5]; rfl

/-- the filter queries: only the acceptance shortcut can fail -/
theorem prob_checks {f : DistFilter XR} {u v : HPoint XR} {p x d : ℝ} (l1 l2 : Nat) (Z : Prop) (hR : H.R = XR.fin R) (hTe : H.T = XR.fin T)
    (hf : f = DistFilter.make (XR.fin p) (XR.fin R) (XR.fin T)) (hu : u.distCosh v = XR.fin (cosh d)) (hT : 0 < T) (h0 : 0 < p) (h1 : p ≤ 1)
    (hx0 : 0 ≤ x) (hx1 : x < p) (hd : 0 ≤ d) (hpos : 0 ≤ invProb (99 / 100 * p) R T ∨ (l2 = 331 ∧ Z)) :
    ∃ L, H.probChecks f l1 l2 u v (XR.fin x) = some L ∧ HMostly Z L := by
  obtain ⟨hl1, hl2⟩ := lookup_XR (R := R) (T := T) h0 h1 hx0 hx1
  have hq : (XR.fin x <. f.maxProb) = true := by rw [hf]; exact XR.lt_fin _ _ ▸ decide_eq_true hx1
  have hxd : XR.fin x *. HTree.probRec H.R H.T (CFloat.acosh (XR.fin (cosh d))) = XR.fin (x * (1 + Real.exp ((d - R) / (2 * T)))) := by
    rw [hR, hTe, XR.acosh_fin _ (one_le_cosh d), arcosh_cosh hd, probRec_XR hT, XR.mul_fin]
  have hE := Real.exp_pos ((d - R) / (2 * T))
  unfold HTree.probChecks
  simp only
  rw [hu, hxd, hq]
  subst hf
  rw [obind hl1]
  split
  · rename_i h
    refine ⟨_, rfl, (AllHold.cons rfl (allHold_one ?_)).hmostly _⟩
    have := upper_right hT h0 h1 hx0 hx1 hd h
    show Asserts.fle (CFloat.ofRat 1) (XR.fin (x * (1 + Real.exp ((d - R) / (2 * T))))) = true
    rw [XR.ofRat_eq, XR.fle_fin]
    apply decide_eq_true
    unfold hypProb at this
    rw [div_le_iff₀ (by positivity)] at this
    push_cast; linarith
  rw [obind hl2]
  split
  · rename_i h
    refine ⟨_, rfl, HMostly.append (L := [HAsserts.filter 45 true, HAsserts.filter 53 true])
      ((AllHold.cons rfl (allHold_one rfl)).hmostly _) ?_⟩
    intro c hc hfail
    simp only [List.mem_cons, List.not_mem_nil, or_false] at hc
    rcases hpos with hpos | ⟨rfl, hz⟩
    · exfalso
      have := lower_right hT h0 h1 hx0 hx1 hd hpos h
      unfold hypProb at this
      rw [lt_div_iff₀ (by positivity)] at this
      rw [hc] at hfail
      have h2 : (XR.fin (x * (1 + Real.exp ((d - R) / (2 * T)))) <. CFloat.ofRat 1) = true := by
        rw [XR.ofRat_eq, XR.lt_fin]; apply decide_eq_true; push_cast; linarith
      have h3 : (XR.fin (x * (1 + Real.exp ((d - R) / (2 * T)))) <. CFloat.ofRat 1) = false := hfail
      rw [h2] at h3; cases h3
    · refine ⟨?_, hz⟩
      rw [hc] at hfail ⊢
      show HAsserts.tree 331 _ = _
      rw [show (XR.fin (x * (1 + Real.exp ((d - R) / (2 * T)))) <. CFloat.ofRat 1) = false from hfail]
  · exact ⟨_, rfl, (AllHold.cons rfl (allHold_one rfl)).hmostly _⟩

/-- the acceptance shortcut of a type I call may be wrong -/
def ShortcutUnsafe (T R : ℝ) : Prop := 1 / 4503599627370496 < T ∧ R < 2 * T * Real.log 99

theorem HBuiltX.decide_checksI (b : HBuiltX ndebug radii angles T R H) (hin : HypInput radii angles T R) {rng : Tree.Rng XR}
    (ur : UnitRng rng) {u v : HPoint XR} (hu : u ∈ H.points) (hv : v ∈ H.points) (g : rng.G) :
    ∃ L, H.decideChecksI (xw radii) (xw angles) rng u v g = some L ∧ HMostly (ShortcutUnsafe T R) L := by
  obtain ⟨r, a, h1, h2, hr, hrR, _, _, eu, _⟩ := b.point_data hin hu
  obtain ⟨s, c, k1, k2, hs, hsR, _, _, ev, _⟩ := b.point_data hin hv
  have hR0 := HypInput.R_pos hin
  have e : H.coshR = XR.fin (cosh R) := b.coshR_eq
  unfold HTree.decideChecksI
  rw [b.threshold_iff]
  by_cases hT : T ≤ 1 / 4503599627370496
  · rw [decide_eq_true hT, if_pos rfl, obind (rd_xw h1), obind (rd_xw h2), obind (rd_xw k1), obind (rd_xw k2)]
    refine ⟨_, rfl, AllHold.hmostly ?_ _⟩
    refine AllHold.append (allHold_one ?_) ?_
    · have hsr : 0 < sinh r := sinh_pos_iff.2 hr
      rw [eu, make_XR hr, e]
      show (CFloat.ofRat 1 /. XR.fin (1 / sinh r) <. XR.fin (cosh R)) = true
      rw [XR.ofRat_eq, XR.div_fin _ _ (by positivity), XR.lt_fin]
      apply decide_eq_true
      have h3 : sinh r ≤ sinh R := sinh_le_sinh.2 hrR
      have h4 := sinh_lt_cosh R
      push_cast
      rw [one_div_one_div]; linarith
    · rw [e, eu, ev, below_XR hr hs, b.R_eq, hyperbolicDistance_XR, hypDist_eq hr hs]
      by_cases hd : hc r s (a - c) < cosh R
      · rw [decide_eq_true hd, if_pos rfl]
        exact allHold_one (XR.lt_fin _ _ ▸ decide_eq_true ((hypDist_lt_iff hr hs hR0).2 hd))
      · rw [decide_eq_false hd, if_neg (by simp)]
        exact allHold_nil
  · have hT0 : 0 < T := lt_trans (by norm_num) (not_le.1 hT)
    rw [decide_eq_false hT, if_neg (by simp)]
    obtain ⟨x, ex, hx0, hx1⟩ := ur.uniform g
    rw [ex]
    have hu' : u.distCosh v = XR.fin (cosh (hypDist r a s c)) := by
      rw [eu, ev, distCosh_XR hr hs, cosh_hypDist hr hs, ← hc_eq, max_eq_right (arcosh_hc hr hs)]
    refine prob_checks (p := 1) (T := T) (R := R) 325 331 _ b.R_eq b.T_eq ?_ hu' hT0 one_pos le_rfl hx0 hx1 (hypDist_nonneg r a s c hr hs) ?_
    · rw [b.filterI_eq, XR.ofRat_eq, Rat.cast_one]
    · by_cases hz : 2 * T * Real.log 99 ≤ R
      · exact Or.inl (invProb_nonneg_one.2 hz)
      · exact Or.inr ⟨rfl, not_le.1 hT, not_le.1 hz⟩

theorem HBuiltX.pair_checksI (b : HBuiltX ndebug radii angles T R H) (hin : HypInput radii angles T R) (hrad : LayerRadii R H)
    {rng : Tree.Rng XR} (ur : UnitRng rng) {t : Task} (ht : HTaskOK H (hpair R) t) {ra rb : Nat × Nat}
    (hr : HRangesOK H (htgt R) ⌈R⌉.toNat t ra rb) {c : Nat × Nat} (hc : c ∈ pairListI t ra rb) (g : rng.G) :
    ∃ L, H.pairChecksI (xw radii) (xw angles) rng t ra rb c g = some L ∧ HMostly (ShortcutUnsafe T R) L := by
  have ok := b.ok
  obtain ⟨wi, wj, lo⟩ := ok.layers_ok ht hr
  obtain ⟨p, q⟩ := c
  obtain ⟨hp, hq, hlt⟩ := hr.mem_pairListI.1 hc
  have hpn : p < H.points.length := by rw [ok.length_points]; have := hr.nA; omega
  have hqn : q < H.points.length := by rw [ok.length_points]; have := hr.nB; omega
  have ep : H.points[p]? = some H.points[p] := List.getElem?_eq_getElem hpn
  have eq : H.points[q]? = some H.points[q] := List.getElem?_eq_getElem hqn
  have inA := (hr.memA _ _ ep).1 hp
  have inB := (hr.memB _ _ eq).1 hq
  have hl30 : t.level ≤ 30 := le_trans lo.li lo.ti
  obtain ⟨L1, a1, a2⟩ := kth_checks 302 lo.ti lo.li ht.hA lo.kA hp.1 ep
  obtain ⟨L2, b1, b2⟩ := kth_checks 303 lo.tj lo.lj ht.hB lo.kB hq.1 eq
  obtain ⟨L3, c1, c2⟩ := b.place_checks hin hrad 306 310 lo.rdi hl30 (List.mem_of_getElem? ep) inA
  obtain ⟨L4, d1, d2⟩ := b.place_checks hin hrad 307 311 lo.rdj hl30 (List.mem_of_getElem? eq) inB
  obtain ⟨L5, e1, e2⟩ := b.decide_checksI hin ur (List.mem_of_getElem? ep) (List.mem_of_getElem? eq) g
  have hne : H.points[p].id ≠ H.points[q].id := by
    intro h
    have hpq : p = q := ok.idx_inj (by rw [← ok.length_points]; exact hpn) (by rw [← ok.length_points]; exact hqn)
      (by rw [HTree.idx_eq ep, HTree.idx_eq eq]; exact h)
    subst hpq
    have e1 := inA.layer_eq inB
    rw [e1] at inA
    have e2 := inA.cell_eq inB
    have := hlt ⟨e2, e1⟩
    omega
  unfold HTree.pairChecksI
  rw [obind (show rd H.points (p, q).1 = some H.points[p] from ep), obind (show rd H.points (p, q).2 = some H.points[q] from eq), obind lo.rdi, obind lo.rdj, obind a1, obind b1, obind c1, obind d1,
    obind e1]
  exact ⟨_, rfl, (((((a2.append b2).append c2).append d2).append (allHold_one (decide_eq_true hne))).hmostly _).append e2⟩

theorem HBuiltX.pairs_checksI (b : HBuiltX ndebug radii angles T R H) (hin : HypInput radii angles T R) (hrad : LayerRadii R H)
    {rng : Tree.Rng XR} (ur : UnitRng rng) {t : Task} (ht : HTaskOK H (hpair R) t) {ra rb : Nat × Nat}
    (hr : HRangesOK H (htgt R) ⌈R⌉.toNat t ra rb) : ∀ (L : List (Nat × Nat)), (∀ c ∈ L, c ∈ pairListI t ra rb) → ∀ g : rng.G,
    ∃ C, H.pairsChecksI (xw radii) (xw angles) rng t ra rb L g = some C ∧ HMostly (ShortcutUnsafe T R) C := by
  have ok := b.ok
  have hdr := b.draws hin.temp ur
  intro L
  induction L with
  | nil => intro _ g; exact ⟨[], rfl, allHold_nil.hmostly _⟩
  | cons c L ih =>
    intro hL g
    obtain ⟨C, h1, h2⟩ := b.pair_checksI hin hrad ur ht hr (hL c (by simp)) g
    obtain ⟨p, q⟩ := c
    obtain ⟨hp, hq, _⟩ := hr.mem_pairListI.1 (hL (p, q) (by simp))
    have hpn : p < H.points.length := by rw [ok.length_points]; have := hr.nA; omega
    have hqn : q < H.points.length := by rw [ok.length_points]; have := hr.nB; omega
    have ep : H.points[p]? = some H.points[p] := List.getElem?_eq_getElem hpn
    have eq : H.points[q]? = some H.points[q] := List.getElem?_eq_getElem hqn
    obtain ⟨d, hd⟩ := decideI_some hdr H.points[p] H.points[q] g
    obtain ⟨C', h3, h4⟩ := ih (fun c hc => hL c (by simp [hc])) d.2
    unfold HTree.pairsChecksI
    rw [obind h1, obind (show rd H.points (p, q).1 = some H.points[p] from ep), obind (show rd H.points (p, q).2 = some H.points[q] from eq), obind hd, obind h3]
    exact ⟨_, rfl, h2.append h4⟩

/-- type I calls -/
theorem HBuiltX.checks_typeI (b : HBuiltX ndebug radii angles T R H) (hin : HypInput radii angles T R) (hrad : LayerRadii R H)
    {rng : Tree.Rng XR} (ur : UnitRng rng) {t : Task} (ht : HTaskOK H (hpair R) t) (g : rng.G) :
    ∃ C, H.checksI (xw radii) (xw angles) rng t g = some C ∧ HMostly (ShortcutUnsafe T R) C := by
  obtain ⟨ra, rb, hr⟩ := b.ok.ranges_ok ht
  obtain ⟨wi, wj, lo⟩ := b.ok.layers_ok ht hr
  obtain ⟨L, h1, h2⟩ := lo.range_checks ht hr
  obtain ⟨C, h3, h4⟩ := b.pairs_checksI hin hrad ur ht hr (pairListI t ra rb) (fun _ h => h) g
  unfold HTree.checksI
  rw [obind h1, obind hr.eq]
  simp only
  split
  · exact ⟨_, rfl, h2.hmostly _⟩
  · rw [obind hr.pairsI_eq, obind h3]
    exact ⟨_, rfl, (h2.hmostly _).append h4⟩

end exact

end Girgs
