import Verif.Proofs.Determined
import Verif.Proofs.Wrapper
import Verif.Props.Build
import Verif.Props.Cells
/-
Type II calls in exact arithmetic: the bounds for weights and distances of the pairs of a non-touching pair of cells.
-/
namespace Girgs
open CFloat Tree Spec

variable {D : Nat} {ndebug : Bool} {w : List ℝ} {x : List (Fin D → ℝ)} {alpha : XR} {T : Tree XR D} {m : ℝ}

theorem BuiltX.W_pos (b : BuiltX D ndebug w x alpha T m) (s : SupportedInput D w x) : 0 < w.sum :=
  lt_of_lt_of_le (b.m_pos s) (sum_ge_mem s.wpos b.mem)

/-- bounds of a type II call -/
structure BoundsII (D : Nat) (w : List ℝ) (x : List (Fin D → ℝ)) (T : Tree XR D) (t : Task) (r wu : ℝ) : Prop where
  dist : Coord.dist D t.cellA t.cellB t.level = some (XR.fin r)
  rpos : 0 < r
  wUpper : T.wUpper t.i t.j = some (XR.fin wu)
  wpos : 0 < wu
  wle : wu ≤ r ^ D
  pair : ∀ y ∈ T.nodes, ∀ z ∈ T.nodes, ∀ u v p q, w[y.index]? = some u → w[z.index]? = some v → x[y.index]? = some p →
    x[z.index]? = some q → InLC T y t.i t.level t.cellA → InLC T z t.j t.level t.cellB →
    u * v / w.sum < wu ∧ r ≤ torusDist p q

theorem inBox_closed {D l A : Nat} {p : Fin D → ℝ} (h : InBox D l A p) : InClosedBox D l A p :=
  fun d => ⟨(h d).1, (h d).2.le⟩

theorem BuiltX.typeII (b : BuiltX D ndebug w x alpha T m) (s : SupportedInput D w x) {t : Task} (ht : TaskOK T t)
    (h2 : t.two = true) : ∃ r wu, BoundsII D w x T t r wu := by
  have ok := b.ok
  have hm := b.m_pos s
  have hW := b.W_pos s
  have hlev : t.level < T.levels := by
    have := ht.hl
    have := pbl_le_zero (D := D) (blc := T.blc) t.i t.j
    rw [ok.levels_eq]; omega
  have hd := ok.depth_le hlev
  have hi := ht.hi; have hj := ht.hj; have hly := ok.layers_le
  obtain ⟨r, h3, h4, _, h6⟩ := Props.C07_cell_distance D t.level t.cellA t.cellB s.D1 s.D5 hd ht.hA ht.hB
  have htouch : Coord.touching D t.cellA t.cellB t.level = some false := by
    rw [Coord.touching_eq ok.D1 ok.D5 hd ht.hA ht.hB]
    have := (ht.two h2).2
    unfold touchB at this
    rw [this]
  have hr := h6 htouch
  have hr0 : 0 < r := lt_of_lt_of_le (by positivity) hr
  -- the level is not the root level
  have hl1 : 1 ≤ t.level := by
    by_contra hc
    have h0 : t.level = 0 := by omega
    have hA := ht.hA; have hB := ht.hB
    rw [h0] at hA hB
    have e1 : levelStart D 1 = 1 := by simp [levelStart]
    unfold OnLevel at hA hB
    rw [levelStart_zero] at hA hB
    simp only [Nat.zero_add, e1] at hA hB
    exact (ht.two h2).1 (by omega)
  have hpbl : 0 < partitioningBaseLevel D T.blc t.i t.j := by have := ht.hl; omega
  refine ⟨r, 2 ^ (t.i + 1) * m * (2 ^ (t.j + 1) * m) / w.sum, h3, hr0, ?_, by positivity, ?_, ?_⟩
  · unfold Tree.wUpper
    rw [obind (Coord.shl1_eq (show t.i + 1 ≤ 30 by omega)), obind (Coord.shl1_eq (show t.j + 1 ≤ 30 by omega)), b.w0, b.W]
    simp only [XR.ofInt_eq, XR.mul_fin]
    rw [XR.div_fin _ _ hW.ne']
    congr 2
    push_cast
    ring
  · -- volume bound
    have h1 := Props.pbl_mul_le hpbl
    have hDl : 0 < D * partitioningBaseLevel D T.blc t.i t.j := Nat.mul_pos s.D1 hpbl
    have hblc : 0 < T.blc := by omega
    have hlow := b.blc_low hblc
    obtain ⟨N, hN⟩ : ∃ N : Nat, T.blc = N := ⟨T.blc.toNat, by omega⟩
    rw [hN, zpow_natCast] at hlow
    have hDl2 : D * t.level ≤ D * partitioningBaseLevel D T.blc t.i t.j := Nat.mul_le_mul_left _ ht.hl
    have hN2 : D * t.level + (t.i + 1) + (t.j + 1) ≤ N := by omega
    have h5 : 1 / (2 : ℝ) ^ (D * t.level) ≤ r ^ D := by
      have e : 1 / (2 : ℝ) ^ (D * t.level) = (1 / 2 ^ t.level) ^ D := by
        rw [div_pow, one_pow, ← pow_mul, Nat.mul_comm]
      rw [e]
      exact pow_le_pow_left₀ (by positivity) hr D
    refine le_trans ?_ h5
    rw [div_le_div_iff₀ hW (by positivity), one_mul]
    calc 2 ^ (t.i + 1) * m * (2 ^ (t.j + 1) * m) * 2 ^ (D * t.level)
        = 2 ^ (D * t.level + (t.i + 1) + (t.j + 1)) * m ^ 2 := by
          rw [pow_add (2 : ℝ) (D * t.level + (t.i + 1)) (t.j + 1), pow_add (2 : ℝ) (D * t.level) (t.i + 1)]; ring
      _ ≤ 2 ^ N * m ^ 2 := mul_le_mul_of_nonneg_right (pow_le_pow_right₀ (by norm_num) hN2) (by positivity)
      _ ≤ w.sum := hlow
  · intro y hy z hz u v p q hu hv hp hq hiy hiz
    have hly' : t.level ≤ weightLayerTargetLevel D T.blc t.i := le_trans ht.hl (pbl_le_target_left _ _)
    have hlz' : t.level ≤ weightLayerTargetLevel D T.blc t.j := le_trans ht.hl (pbl_le_target_right _ _)
    obtain ⟨a1, a2, a3⟩ := (b.inLC_iff s hy hu hp hi hly' ht.hA).1 hiy
    obtain ⟨b1, b2, b3⟩ := (b.inLC_iff s hz hv hq hj hlz' ht.hB).1 hiz
    have hu0 := s.wpos u (List.mem_of_getElem? hu)
    have hv0 := s.wpos v (List.mem_of_getElem? hv)
    constructor
    · rw [div_lt_div_iff_of_pos_right hW]
      exact mul_lt_mul a2 b2.le hv0 (by positivity)
    · obtain ⟨d, hd1, hd2⟩ := h4 p q (inBox_closed a3) (inBox_closed b3)
      rw [coordDistance_eq, XR.fin.injEq] at hd1
      rw [hd1]; exact hd2

/-- the two input nodes at positions `p`, `q` of the node array -/
theorem BuiltX.lookup (b : BuiltX D ndebug w x alpha T m) {p : Nat} {y : Node XR D} (hy : T.nodes[p]? = some y) :
    ∃ u a, w[y.index]? = some u ∧ x[y.index]? = some a ∧ y.weight = XR.fin u ∧ y.coord = fun d => XR.fin (a d) := by
  obtain ⟨u, a, k, h1, h2, h3, h4, _⟩ := b.node y (List.mem_of_getElem? hy)
  exact ⟨u, a, h1, h2, h3, h4⟩

theorem BuiltX.terms (b : BuiltX D ndebug w x alpha T m) (s : SupportedInput D w x) {y z : Node XR D} {u v : ℝ}
    {p q : Fin D → ℝ} (hu : y.weight = XR.fin u) (hv : z.weight = XR.fin v) (hp : y.coord = fun d => XR.fin (p d))
    (hq : z.coord = fun d => XR.fin (q d)) :
    T.wTerm y z = XR.fin (u * v / w.sum) ∧ dTerm y z = XR.fin (torusDist p q ^ D) := by
  constructor
  · unfold wTerm
    rw [hu, hv, b.W, XR.mul_fin, XR.div_fin _ _ (b.W_pos s).ne']
  · unfold dTerm Node.distance
    rw [hp, hq, coordDistance_eq, Props.C09_pow_to_the]

theorem BoundsII.maxProb {t : Task} {r wu : ℝ} (h : BoundsII D w x T t r wu) :
    T.maxProb t = some (fmin (CFloat.pow (XR.fin (wu / r ^ D)) T.alpha) (XR.fin 1)) := by
  unfold Tree.maxProb
  rw [obind h.wUpper, obind h.dist, Props.C09_pow_to_the, XR.div_fin _ _ (pow_pos h.rpos D).ne']
  simp

theorem BoundsII.ratio_pos {t : Task} {r wu : ℝ} (h : BoundsII D w x T t r wu) : 0 < wu / r ^ D :=
  div_pos h.wpos (pow_pos h.rpos D)

theorem BoundsII.ratio_le {t : Task} {r wu : ℝ} (h : BoundsII D w x T t r wu) : wu / r ^ D ≤ 1 :=
  (div_le_one (pow_pos h.rpos D)).2 h.wle

end Girgs

namespace Girgs
open CFloat Tree Spec Classical
variable {D : Nat} {w : List ℝ} {x : List (Fin D → ℝ)}

theorem torusDist_comm {D : Nat} (p q : Fin D → ℝ) : torusDist p q = torusDist q p := by
  unfold torusDist
  congr 1
  funext d r
  rw [circleDist_comm]

/-- a sampler that decides by the relation `R` returns the graph of `R` -/
theorem graph_of_rule (s : SupportedInput D w x) (alpha : XR) (env : Env) (rng : Rng XR) (hgeo : GeoBounded rng)
    (gens : Nat → rng.G) (R : Nat → Nat → Prop) (hsym : ∀ u v, R u v → R v u)
    (h : ∀ T m, BuiltX D env.ndebug w x alpha T m → Decided T rng (fun p q => decide (R (T.idx p) (T.idx q))) ∧
      (T.ndebug = true ∧ T.isThreshold = true → ∀ t, TaskOK T t → t.two = true → ∀ p q, Hit T t p q → ¬ R (T.idx p) (T.idx q)))
    {out : List (Nat × Nat)} {notice : Notice} (hg : GenerateEdges env rng gens (xw w) (xl x) alpha out notice) :
    IsGraphOf w.length R out ∧ notice = .none := by
  obtain ⟨⟨T, hT, calls, h1, h2⟩, h3⟩ := (generateEdges_xl s env rng gens alpha out notice).1 hg
  obtain ⟨m, b⟩ := hT.builtX s
  obtain ⟨calls', h4, _, h5⟩ := b.ok.callbacks env (startOK_XR s.D1 s.D5 env) rng hgeo gens
  rw [h1, Option.some.injEq] at h4
  subst h4
  have hperm := EdgeBuffer.IsMerge.perm (h2.isMerge (by unfold blockSize; omega))
  have hsimple := perm_simple hperm (h5.simple hgeo b.ok)
  rw [b.n_eq] at hsimple
  obtain ⟨hd, hrel⟩ := h T m b
  have hocc := h5.decided b.ok hd (fun p q _ _ => by
    have : R (T.idx p) (T.idx q) ↔ R (T.idx q) (T.idx p) := ⟨hsym _ _, hsym _ _⟩
    simp only [this]) (fun hr t ht h2 p q hh => by simpa using hrel hr t ht h2 p q hh)
  refine ⟨⟨hsimple.1, hsimple.2, ?_⟩, h3⟩
  intro u v hu hv huv
  have pos : ∀ u, u < w.length → ∃ p, p < T.n ∧ T.idx p = u := by
    intro u hu
    have : u ∈ T.nodes.map Node.index := b.ok.index_perm.mem_iff.2 (List.mem_range.2 (by rw [b.n_eq]; exact hu))
    obtain ⟨y, hy, rfl⟩ := List.mem_map.1 this
    obtain ⟨p, hp⟩ := List.mem_iff_getElem?.1 hy
    refine ⟨p, ?_, Tree.idx_eq hp⟩
    rw [← b.ok.length_nodes]
    exact (List.getElem?_eq_some_iff.1 hp).1
  obtain ⟨p, hp, rfl⟩ := pos u hu
  obtain ⟨q, hq, rfl⟩ := pos v hv
  have hpq : p ≠ q := fun h => huv (by rw [h])
  have := hocc p q hp hq hpq
  unfold occurrences at this
  rw [← hperm.count_eq, ← hperm.count_eq] at this
  constructor
  · intro hm
    by_contra hc
    simp only [hc, decide_false, Bool.false_eq_true, if_false] at this
    rcases hm with hm | hm
    · have := List.count_pos_iff.2 hm; omega
    · have := List.count_pos_iff.2 hm; omega
  · intro hR
    simp only [hR, decide_true, if_true] at this
    by_contra hc
    rw [not_or] at hc
    rw [List.count_eq_zero.2 hc.1, List.count_eq_zero.2 hc.2] at this
    omega

theorem ThresholdRule.symm {u v : Nat} (h : ThresholdRule w x u v) : ThresholdRule w x v u := by
  obtain ⟨a, b, p, q, h1, h2, h3, h4, h5⟩ := h
  exact ⟨b, a, q, p, h2, h1, h4, h3, by rw [torusDist_comm, mul_comm]; exact h5⟩

variable {ndebug : Bool} {T : Tree XR D} {m : ℝ} {alpha : XR}

theorem BuiltX.rule_iff (b : BuiltX D ndebug w x alpha T m) (s : SupportedInput D w x) {p q : Nat} {y z : Node XR D}
    (hp : T.nodes[p]? = some y) (hq : T.nodes[q]? = some z) :
    (dTerm y z <. T.wTerm y z) = decide (ThresholdRule w x (T.idx p) (T.idx q)) := by
  obtain ⟨u, a, h1, h2, h3, h4⟩ := b.lookup hp
  obtain ⟨v, c, h1', h2', h3', h4'⟩ := b.lookup hq
  obtain ⟨e1, e2⟩ := b.terms s h3 h3' h4 h4'
  rw [e1, e2, XR.lt_fin]
  simp only [decide_eq_decide]
  rw [Tree.idx_eq hp, Tree.idx_eq hq]
  constructor
  · intro h; exact ⟨u, v, a, c, h1, h1', h2, h2', h⟩
  · rintro ⟨u', v', a', c', g1, g2, g3, g4, g5⟩
    rw [h1, Option.some.injEq] at g1
    rw [h1', Option.some.injEq] at g2
    rw [h2, Option.some.injEq] at g3
    rw [h2', Option.some.injEq] at g4
    subst g1 g2 g3 g4
    exact g5

theorem BuiltX.hit_not_rule (b : BuiltX D ndebug w x alpha T m) (s : SupportedInput D w x) {t : Task} (ht : TaskOK T t)
    (h2 : t.two = true) {p q : Nat} (hh : Hit T t p q) : ¬ ThresholdRule w x (T.idx p) (T.idx q) := by
  obtain ⟨r, wu, hb⟩ := b.typeII s ht h2
  obtain ⟨y, z, hy, hz, h3, h4, _⟩ := hh
  rintro ⟨u, v, a, c, g1, g2, g3, g4, g5⟩
  rw [Tree.idx_eq hy] at g1 g3
  rw [Tree.idx_eq hz] at g2 g4
  obtain ⟨h5, h6⟩ := hb.pair y (List.mem_of_getElem? hy) z (List.mem_of_getElem? hz) u v a c g1 g2 g3 g4 h3 h4
  have h7 := pow_le_pow_left₀ hb.rpos.le h6 D
  have h8 := hb.wle
  linarith

theorem BuiltX.decided_threshold (b : BuiltX D ndebug w x XR.pinf T m) (s : SupportedInput D w x) (rng : Rng XR) :
    Decided T rng (fun p q => decide (ThresholdRule w x (T.idx p) (T.idx q))) := by
  constructor
  · intro p q y z hp hq g
    refine ⟨g, ?_⟩
    have hth : T.isThreshold = true := by unfold Tree.isThreshold; rw [b.alpha_eq]; rfl
    unfold decideI
    rw [if_pos hth, b.rule_iff s hp hq]
  · intro t ht h2 mp hmp
    obtain ⟨r, wu, hb⟩ := b.typeII s ht h2
    rw [hb.maxProb, Option.some.injEq, b.alpha_eq] at hmp
    subst hmp
    have hpos := hb.ratio_pos
    have hle := hb.ratio_le
    rcases hle.lt_or_eq with hlt | he
    · right
      have : CFloat.pow (XR.fin (wu / r ^ D)) XR.pinf = XR.fin 0 := by
        show XR.pow _ _ = _
        unfold XR.pow
        simp only [abs_of_pos hpos, hlt, if_true]
      rw [this]
      refine ⟨?_, fun p q hh => by simpa using b.hit_not_rule s ht h2 hh⟩
      intro k
      simp only [XR.fmin_fin, XR.ofNat_eq, XR.mul_fin, XR.ofRat_eq, XR.lt_fin, decide_eq_true_eq]
      rw [min_eq_left (by norm_num), mul_zero]
      norm_num
    · left
      have : CFloat.pow (XR.fin (wu / r ^ D)) XR.pinf = XR.fin 1 := by
        show XR.pow _ _ = _
        unfold XR.pow
        simp [he]
      rw [this]
      simp only [XR.fmin_fin, XR.ofRat_eq, XR.lt_fin, decide_eq_true_eq, min_self]
      norm_num

theorem XR.pow_zero (a : XR) : CFloat.pow a (XR.fin 0) = XR.fin 1 := by
  show XR.pow _ _ = _
  unfold XR.pow
  simp

theorem BuiltX.decided_complete (b : BuiltX D ndebug w x (XR.fin 0) T m) (s : SupportedInput D w x) (rng : Rng XR)
    (hu : ∀ g, ((rng.uniform g).1 <. XR.fin 1) = true) : Decided T rng (fun _ _ => @decide True (Classical.propDecidable True)) := by
  constructor
  · intro p q y z hp hq g
    refine ⟨(rng.uniform g).2, ?_⟩
    have hth : T.isThreshold = false := by unfold Tree.isThreshold; rw [b.alpha_eq]; rfl
    unfold decideI Tree.edgeProb
    rw [if_neg (by simp [hth]), b.alpha_eq, XR.pow_zero]
    simp only [hu]
    simp
  · intro t ht h2 mp hmp
    left
    obtain ⟨r, wu, hb⟩ := b.typeII s ht h2
    rw [hb.maxProb, Option.some.injEq, b.alpha_eq, XR.pow_zero] at hmp
    subst hmp
    simp only [XR.fmin_fin, XR.ofRat_eq, XR.lt_fin, decide_eq_true_eq, min_self]
    norm_num

end Girgs
