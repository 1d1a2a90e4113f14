import Verif.Proofs.HSmallDisk
import Verif.Props.HyperEdges
/-!
C68: disk radii `hypergirgs::generateEdges` does not support.  These theorems describe defects of the code; they show why the other
theorems about the hyperbolic sampler exclude these radii (`Spec.HypInput`).
-/
namespace Girgs.Props
open Spec Girgs HBuild
open Real

variable {radii angles : List ℝ} {R : ℝ}

/-- the requirements on the points: as many angles as radii, radii in `(0, R]`, angles in `[0, 2π)` -/
structure DiskPoints (radii angles : List ℝ) (R : ℝ) : Prop where
  len : angles.length = radii.length
  pos : 1 ≤ radii.length
  small : radii.length < 2147483648
  radius : ∀ r ∈ radii, 0 < r ∧ r ≤ R
  angle : ∀ a ∈ angles, 0 ≤ a ∧ a < 2 * π

/-- C68 (undefined behaviour).  In a disk with `1 < R < 4/3` that contains a point of radius at most `R - 1`, no execution of
`hypergirgs::generateEdges` is defined (whatever the temperature, thread count, build and random numbers): the constructor of the sampler
writes behind the end of its table of layer pairs. -/
theorem C68_undefined (hp : DiskPoints radii angles R) (h1 : 1 < R) (h2 : R < 4 / 3) (hex : ∃ r ∈ radii, r ≤ R - 1)
    (env : HEnv) (rng : Tree.Rng XR) (gens : ℕ → rng.G) (T : XR) (out : List (ℕ × ℕ)) :
    ¬ HGenerateEdges env rng gens (xw radii) (xw angles) T (XR.fin R) out := by
  rintro ⟨H, hH, _⟩
  exact middle_undefined h1 h2 hp.len hp.small hp.radius hp.angle hex env.ndebug T H hH

/-- two points of an execution's result in a disk of radius at most 1/2 -/
theorem small_no_edge (hp : DiskPoints radii angles R) (h1 : 1 / 100000000 ≤ R) (h2 : R ≤ 1 / 2) (env : HEnv) (rng : Tree.Rng XR)
    (ur : UnitRng rng) (gens : ℕ → rng.G) (out : List (ℕ × ℕ))
    (h : HGenerateEdges env rng gens (xw radii) (xw angles) (XR.fin 0) (XR.fin R) out) {u v : ℕ} (he : (u, v) ∈ out) :
    ∃ (l A B : ℕ) (a b : ℝ), 2 ≤ l ∧ OnLv l A ∧ OnLv l B ∧ Girgs.Angle.touchN l A B = true ∧ angles[u]? = some a ∧ angles[v]? = some b ∧
      InArc l A a ∧ InArc l B b := by
  obtain ⟨H, hH, calls, hc, ho⟩ := h
  have hok := small_inputOK h1 h2 hp.len hp.pos hp.small hp.radius hp.angle
  have b : HBuiltX env.ndebug radii angles 0 R H := hH.built hok
  have st := hstartOK_XR env
  have q1 := EdgeBuffer.IsMerge.perm (ho.isMerge (by unfold blockSize; omega))
  obtain ⟨t, p, q, ht, h3, hlev, e, x, y, hx, hy, hX, hY⟩ := b.ok.edge_typeI b.fo st ur.geo gens (by rw [b.threshold_iff]; norm_num)
    (by rw [b.tZero_iff]; simp) hc q1 he
  have hpd := fun {x : HPoint XR} => b.point_data_of (x := x) hp.radius hp.angle (by linarith) (fun i hi => hok.tgt_lt hi)
  obtain ⟨r, a, k1, k2, _, _, _, _, _, k3⟩ := hpd (List.mem_of_getElem? hx)
  obtain ⟨s, c, m1, m2, _, _, _, _, _, m3⟩ := hpd (List.mem_of_getElem? hy)
  obtain ⟨_, hge, _⟩ := small_level h1 h2
  have hc1 : ⌈R⌉.toNat = 1 := by rw [ceil_one (by linarith) (by linarith)]; rfl
  have hi : t.i = 0 := by have := lt_of_lt_of_le ht.hi b.layers_le; omega
  have hj : t.j = 0 := by have := lt_of_lt_of_le ht.hj b.layers_le; omega
  have e1 : u = x.id := by rw [← HTree.idx_eq hx]; exact congrArg Prod.fst e
  have e2 : v = y.id := by rw [← HTree.idx_eq hy]; exact congrArg Prod.snd e
  have hl2 : 2 ≤ t.level := by
    rw [hlev, hi, hj]
    unfold hpair
    simpa using hge
  exact ⟨t.level, t.cellA, t.cellB, a, c, hl2, ht.hA, ht.hB, ht.one h3, by rw [e1]; exact k2, by rw [e2]; exact m2,
    (k3 _ _ _ hX).2.2, (m3 _ _ _ hY).2.2⟩

/-- C68 (missing edge).  In a disk with `10^-8 ≤ R ≤ 1/2`, at temperature 0: two points with angles in `[0, π/2)` and `[π, 3π/2)` are not
joined by an edge in any execution of `hypergirgs::generateEdges`, even if (their radii add up to less than `R`) their distance is less than
`R`. -/
theorem C68_missing_edge (hp : DiskPoints radii angles R) (h1 : 1 / 100000000 ≤ R) (h2 : R ≤ 1 / 2) (env : HEnv) (rng : Tree.Rng XR)
    (ur : UnitRng rng) (gens : ℕ → rng.G) (out : List (ℕ × ℕ))
    (h : HGenerateEdges env rng gens (xw radii) (xw angles) (XR.fin 0) (XR.fin R) out)
    {u v : ℕ} {r s a b : ℝ} (hr : radii[u]? = some r) (hs : radii[v]? = some s) (ha : angles[u]? = some a) (hb : angles[v]? = some b)
    (ha2 : a < π / 2) (hb1 : π ≤ b) (hb2 : b < 3 * π / 2) (hrs : r + s < R) :
    HypRule radii angles R u v ∧ (u, v) ∉ out ∧ (v, u) ∉ out := by
  have hr0 := (hp.radius r (List.mem_of_getElem? hr)).1
  have hs0 := (hp.radius s (List.mem_of_getElem? hs)).1
  refine ⟨⟨r, s, a, b, hr, hs, ha, hb, ?_⟩, ?_, ?_⟩
  · rw [hypDist_lt_iff hr0 hs0 (by linarith)]
    have e1 : hc r s (a - b) ≤ cosh (r + s) := by
      rw [hc_eq', cosh_add]
      have := neg_one_le_cos (a - b)
      have h3 : 0 < sinh r * sinh s := mul_pos (sinh_pos_iff.2 hr0) (sinh_pos_iff.2 hs0)
      nlinarith
    have e2 : cosh (r + s) < cosh R := by
      rw [cosh_lt_cosh, abs_of_pos (by linarith), abs_of_pos (by linarith)]; exact hrs
    linarith
  · intro he
    obtain ⟨l, A, B, a', b', hl, hA, hB, ht, k1, k2, k3, k4⟩ := small_no_edge hp h1 h2 env rng ur gens out h he
    rw [ha, Option.some.injEq] at k1
    rw [hb, Option.some.injEq] at k2
    subst k1 k2
    rw [quarters_apart hl hA hB k3 k4 ha2 hb1 hb2] at ht
    cases ht
  · intro he
    obtain ⟨l, A, B, a', b', hl, hA, hB, ht, k1, k2, k3, k4⟩ := small_no_edge hp h1 h2 env rng ur gens out h he
    rw [hb, Option.some.injEq] at k1
    rw [ha, Option.some.injEq] at k2
    subst k1 k2
    rw [touchN_symm, quarters_apart hl hB hA k4 k3 ha2 hb1 hb2] at ht
    cases ht

/-- C68 (the missing edge is not for lack of executions): with one thread, `hypergirgs::generateEdges` returns in such a disk. -/
theorem C68_returns (hp : DiskPoints radii angles R) (h1 : 1 / 100000000 ≤ R) (h2 : R ≤ 1 / 2) (env : HEnv) (hth : env.threads = 1)
    (rng : Tree.Rng XR) (ur : UnitRng rng) (gens : ℕ → rng.G) :
    ∃ out, HGenerateEdges env rng gens (xw radii) (xw angles) (XR.fin 0) (XR.fin R) out := by
  have hok := small_inputOK h1 h2 hp.len hp.pos hp.small hp.radius hp.angle
  obtain ⟨H, hH⟩ := hconstructed_exists env.ndebug (XR.fin 0) hok env.threads env.threads_pos (by have := env.threads_le; omega)
  have b : HBuiltX env.ndebug radii angles 0 R H := hH.built hok
  have hd : HDraws H rng := ⟨fun h => (by rw [b.threshold_iff] at h; norm_num at h), fun h => (by rw [b.tZero_iff] at h; simp at h)⟩
  obtain ⟨calls, hc⟩ := b.ok.generate_exists ur.geo hd b.fo (hstartOK_XR env) gens (Or.inl hth)
  obtain ⟨out, ho⟩ := EdgeBuffer.run_exists (block := blockSize) (by unfold blockSize; omega) calls
  exact ⟨out, H, hH, calls, hc, ho⟩

/-- a disk of radius 1.2 with two points, one of them of radius 0.1 -/
example (env : HEnv) (rng : Tree.Rng XR) (gens : ℕ → rng.G) (T : XR) (out : List (ℕ × ℕ)) :
    ¬ HGenerateEdges env rng gens (xw [0.1, 1]) (xw [0, 3]) T (XR.fin 1.2) out := by
  refine C68_undefined (radii := [0.1, 1]) (angles := [0, 3]) (R := 1.2) ⟨rfl, by simp, by simp, ?_, ?_⟩ (by norm_num) (by norm_num) ⟨0.1, by simp, by norm_num⟩ env rng gens T out
  · intro r hr
    rcases List.mem_pair.1 hr with rfl | rfl <;> norm_num
  · intro a ha
    have := pi_gt_three
    rcases List.mem_pair.1 ha with rfl | rfl <;> constructor <;> linarith

/-- a disk of radius 1/2 with two points at distance less than 1/2: there are executions, and none of them returns the edge -/
example (env : HEnv) (hth : env.threads = 1) (rng : Tree.Rng XR) (ur : UnitRng rng) (gens : ℕ → rng.G) :
    (∃ out, HGenerateEdges env rng gens (xw [0.1, 0.1]) (xw [0, 3.5]) (XR.fin 0) (XR.fin (1 / 2)) out) ∧
    HypRule [0.1, 0.1] [0, 3.5] (1 / 2) 0 1 ∧
    ∀ out, HGenerateEdges env rng gens (xw [0.1, 0.1]) (xw [0, 3.5]) (XR.fin 0) (XR.fin (1 / 2)) out → (0, 1) ∉ out ∧ (1, 0) ∉ out := by
  have hpi := pi_gt_three
  have hpi2 := pi_lt_d2
  have hp : DiskPoints [0.1, 0.1] [0, 3.5] (1 / 2) := by
    refine ⟨rfl, by simp, by simp, ?_, ?_⟩
    · intro r hr
      rcases List.mem_pair.1 hr with rfl | rfl <;> norm_num
    · intro a ha
      rcases List.mem_pair.1 ha with rfl | rfl <;> constructor <;> linarith
  have key := fun out h => C68_missing_edge hp (by norm_num) le_rfl env rng ur gens out h (u := 0) (v := 1) (r := 0.1) (s := 0.1) (a := 0) (b := 3.5)
    rfl rfl rfl rfl (by linarith) (by linarith) (by linarith) (by norm_num)
  obtain ⟨out, ho⟩ := C68_returns hp (by norm_num) le_rfl env hth rng ur gens
  exact ⟨⟨out, ho⟩, (key out ho).1, fun out h => (key out h).2⟩

end Girgs.Props
