import Verif.Proofs.HAssertRun
import Verif.Proofs.HSmallDisk
/-
The assertion HyperbolicTree.inl:331 fires if the acceptance shortcut is unsafe, two points coincide and the draw is bad.
-/
namespace Girgs
open Real CFloat HTree Spec

theorem mem_concatM {α β : Type} {f : α → Option (List β)} : ∀ {L : List α} {l : List β}, Tree.concatM L f = some l → ∀ a ∈ L, ∀ x,
    (∃ m, f a = some m ∧ x ∈ m) → x ∈ l := by
  intro L
  induction L with
  | nil => intro l _ a ha; simp at ha
  | cons b L ih =>
    intro l h a ha x hx
    unfold Tree.concatM at h
    simp only [Option.bind_eq_bind, Option.bind_eq_some_iff, Option.some.injEq] at h
    obtain ⟨m, hm, r, hr, rfl⟩ := h
    rcases List.mem_cons.1 ha with rfl | ha
    · obtain ⟨m', h1, h2⟩ := hx
      rw [hm, Option.some.injEq] at h1
      subst h1
      exact List.mem_append_left _ h2
    · exact List.mem_append_right _ (ih hr a ha x hx)

theorem concatM_some_mem {α β : Type} {f : α → Option (List β)} : ∀ {L : List α} {l : List β}, Tree.concatM L f = some l → ∀ a ∈ L,
    ∃ m, f a = some m := by
  intro L
  induction L with
  | nil => intro l _ a ha; simp at ha
  | cons b L ih =>
    intro l h a ha
    unfold Tree.concatM at h
    simp only [Option.bind_eq_bind, Option.bind_eq_some_iff, Option.some.injEq] at h
    obtain ⟨m, hm, r, hr, rfl⟩ := h
    rcases List.mem_cons.1 ha with rfl | ha
    · exact ⟨m, hm⟩
    · exact ih hr a ha

section exact
variable {ndebug : Bool} {radii angles : List ℝ} {T R : ℝ} {H : HTree XR}

/-- a draw for which the shortcut wrongly connects two coinciding points -/
structure BadDraw (T R x : ℝ) : Prop where
  low : 98 / 100 < x
  high : x < 99 / 100
  prob : hypProb 0 R T ≤ x

/-- bad draws exist whenever the shortcut is unsafe -/
theorem ShortcutUnsafe.draw {T R : ℝ} (h : ShortcutUnsafe T R) : hypProb 0 R T < 99 / 100 := by
  have hT : 0 < T := lt_trans (by norm_num) h.1
  unfold hypProb
  rw [div_lt_iff₀ (by positivity)]
  have h1 : -Real.log 99 < (0 - R) / (2 * T) := by
    rw [lt_div_iff₀ (by positivity)]; linarith [h.2]
  have h2 := Real.exp_lt_exp.2 h1
  rw [Real.exp_neg, Real.exp_log (by norm_num)] at h2
  linarith

/-- the pair of coinciding points -/
theorem HBuiltX.decide_fires (b : HBuiltX ndebug radii angles T R H) (hin : HypInput radii angles T R) (hz : ShortcutUnsafe T R) {x : ℝ}
    (hx : BadDraw T R x) {rng : Tree.Rng XR} {g : rng.G} (hg : (rng.uniform g).1 = XR.fin x) {u v : HPoint XR} (hu : u ∈ H.points)
    (hv : v ∈ H.points) (hr : radii[u.id]? = radii[v.id]?) (ha : angles[u.id]? = angles[v.id]?) :
    ∃ L, H.decideChecksI (xw radii) (xw angles) rng u v g = some L ∧ HAsserts.tree 331 false ∈ L := by
  obtain ⟨r, a, h1, h2, hr0, hrR, _, _, eu, _⟩ := b.point_data hin hu
  obtain ⟨s, c, k1, k2, hs0, hsR, _, _, ev, _⟩ := b.point_data hin hv
  rw [h1, k1, Option.some.injEq] at hr
  rw [h2, k2, Option.some.injEq] at ha
  subst hr; subst ha
  have hT : 0 < T := lt_trans (by norm_num) hz.1
  have hx0 : 0 ≤ x := by linarith [hx.low]
  have hx1 : x < 1 := by linarith [hx.high]
  have hu' : u.distCosh v = XR.fin 1 := by
    rw [eu, ev, distCosh_XR hr0 hr0, hc_self, sub_self, cos_zero]; simp
  obtain ⟨hl1, hl2⟩ := lookup_XR (R := R) (T := T) one_pos le_rfl hx0 hx1
  have hfl : ⌊100 / 1 * x⌋.toNat = 98 := by
    have : ⌊100 / 1 * x⌋ = 98 := by
      rw [Int.floor_eq_iff]; push_cast
      constructor <;> linarith [hx.low, hx.high]
    rw [this]; rfl
  have hce : ⌈100 / 1 * x⌉.toNat = 99 := by
    have : ⌈100 / 1 * x⌉ = 99 := by
      rw [Int.ceil_eq_iff]; push_cast
      constructor <;> linarith [hx.low, hx.high]
    rw [this]; rfl
  rw [hfl] at hl1
  rw [hce] at hl2
  unfold stageX at hl1 hl2
  rw [if_neg (by norm_num), if_pos (by norm_num)] at hl1 hl2
  have hf : H.filterI = DistFilter.make (XR.fin 1) (XR.fin R) (XR.fin T) := by rw [b.filterI_eq, XR.ofRat_eq, Rat.cast_one]
  unfold HTree.decideChecksI
  rw [b.threshold_iff, decide_eq_false (not_le.2 hz.1), if_neg (by simp), hg]
  unfold HTree.probChecks
  simp only
  rw [hu', hf, obind hl1, if_neg (by
    simpa [CFloat.lt, XR.lt] using one_le_cosh _), obind hl2, if_pos (by
    have h3 : invProb (99 / 100 * 1) R T < 0 := not_le.1 fun h => absurd (invProb_nonneg_one.1 h) (not_le.2 hz.2)
    have h4 : (1 : ℝ) < cosh (invProb (1 / 100 * (99 : ℕ)) R T) := by
      rw [one_lt_cosh]
      have e : (1 / 100 * ((99 : ℕ) : ℝ)) = 99 / 100 * 1 := by norm_num
      rw [e]; exact h3.ne
    simpa [CFloat.lt, XR.lt] using h4)]
  refine ⟨_, rfl, ?_⟩
  have h5 : (XR.fin x *. HTree.probRec H.R H.T (CFloat.acosh (XR.fin 1)) <. CFloat.ofRat 1) = false := by
    have e : (XR.fin 1) = XR.fin (cosh 0) := by rw [cosh_zero]
    rw [e, b.R_eq, b.T_eq, XR.acosh_fin _ (one_le_cosh 0), arcosh_cosh le_rfl, probRec_XR hT, XR.mul_fin, XR.ofRat_eq, XR.lt_fin]
    apply decide_eq_false
    have h6 := hx.prob
    unfold hypProb at h6
    have hE := Real.exp_pos ((0 - R) / (2 * T))
    rw [div_le_iff₀ (by positivity)] at h6
    push_cast
    linarith
  rw [h5]
  simp

/-- two coinciding points are handled by a type I call -/
theorem HBuiltX.coincide_task (b : HBuiltX false radii angles T R H) (hin : HypInput radii angles T R) {i j : Nat} (hij : i ≠ j)
    (hi : i < radii.length) (hj : j < radii.length)
    (hr : radii[i]? = radii[j]?) (ha : angles[i]? = angles[j]?) :
    ∃ t ∈ hvisit H.layers H.levels (hpair R) true H.levels 0 0 0, t.two = false ∧ ∃ ra rb p q u v, HRangesOK H (htgt R) ⌈R⌉.toNat t ra rb ∧
      (p, q) ∈ pairListI t ra rb ∧ H.points[p]? = some u ∧ H.points[q]? = some v ∧ radii[u.id]? = radii[v.id]? ∧
      angles[u.id]? = angles[v.id]? := by
  have ok := b.ok
  have hn : H.n = radii.length := by rw [b.n_eq]; simp [xw]
  obtain ⟨cs, h1, h2⟩ := ok.eachPairOnce (List.Perm.refl (hvisit H.layers H.levels (hpair R) true H.levels 0 0 0))
  have h3 := h2.2 i j (by omega) (by omega) hij
  have h4 : ∃ c ∈ cs, H.idxPair c = (i, j) ∨ H.idxPair c = (j, i) := by
    unfold occurrences at h3
    have : 0 < (cs.map H.idxPair).count (i, j) ∨ 0 < (cs.map H.idxPair).count (j, i) := by omega
    rcases this with h | h
    · obtain ⟨c, hc, e⟩ := List.mem_map.1 (List.count_pos_iff.1 h)
      exact ⟨c, hc, Or.inl e⟩
    · obtain ⟨c, hc, e⟩ := List.mem_map.1 (List.count_pos_iff.1 h)
      exact ⟨c, hc, Or.inr e⟩
  obtain ⟨⟨p, q⟩, hc, hidx⟩ := h4
  have hex : ∀ (ts : List Task) (cs : List (Nat × Nat)), H.allCandidates ts = some cs → (p, q) ∈ cs →
      ∃ t ∈ ts, ∃ m, H.candidates t = some m ∧ (p, q) ∈ m := by
    intro ts
    induction ts with
    | nil =>
      intro cs h hc
      obtain rfl : [] = cs := Option.some.inj h
      simp at hc
    | cons t ts ih =>
      intro cs h hc
      unfold HTree.allCandidates Tree.concatM at h
      simp only [Option.bind_eq_bind, Option.bind_eq_some_iff, Option.some.injEq] at h
      obtain ⟨m, hm, r, hr, rfl⟩ := h
      rcases List.mem_append.1 hc with hc | hc
      · exact ⟨t, by simp, m, hm, hc⟩
      · obtain ⟨t', ht', h⟩ := ih r hr hc
        exact ⟨t', by simp [ht'], h⟩
  obtain ⟨t, ht, m, hm, hpq⟩ := hex _ _ h1 hc
  have htok := hvisit_ok _ _ _ _ onLv_zero onLv_zero t ht
  obtain ⟨ra, rb, hr'⟩ := ok.ranges_ok htok
  rw [hr'.candidates_eq, Option.some.injEq] at hm
  subst hm
  have hbnd : (ra.1 ≤ p ∧ p < ra.2) ∧ (rb.1 ≤ q ∧ q < rb.2) := by
    unfold candList at hpq
    split at hpq
    · exact mem_pairListII.1 hpq
    · exact ⟨(hr'.mem_pairListI.1 hpq).1, (hr'.mem_pairListI.1 hpq).2.1⟩
  have hpn : p < H.points.length := by rw [ok.length_points]; have := hr'.nA; omega
  have hqn : q < H.points.length := by rw [ok.length_points]; have := hr'.nB; omega
  have ep : H.points[p]? = some H.points[p] := List.getElem?_eq_getElem hpn
  have eq : H.points[q]? = some H.points[q] := List.getElem?_eq_getElem hqn
  have hids : radii[H.points[p].id]? = radii[H.points[q].id]? ∧ angles[H.points[p].id]? = angles[H.points[q].id]? := by
    unfold HTree.idxPair at hidx
    rw [HTree.idx_eq ep, HTree.idx_eq eq, Prod.mk.injEq, Prod.mk.injEq] at hidx
    rcases hidx with ⟨e1, e2⟩ | ⟨e1, e2⟩
    · rw [e1, e2]; exact ⟨hr, ha⟩
    · rw [e1, e2]; exact ⟨hr.symm, ha.symm⟩
  have htwo : t.two = false := by
    cases h2 : t.two with
    | false => rfl
    | true =>
      exfalso
      obtain ⟨r, a, d1, d2, hr0, _, _, _, _, d3⟩ := b.point_data hin (List.mem_of_getElem? ep)
      obtain ⟨s, c, e1, e2, hs0, _, _, _, _, e3⟩ := b.point_data hin (List.mem_of_getElem? eq)
      obtain ⟨f1, f2⟩ := htok.far b hin h2 (d3 _ _ _ ((hr'.memA _ _ ep).1 hbnd.1)) (e3 _ _ _ ((hr'.memB _ _ eq).1 hbnd.2))
      have g1 := hids.1
      have g2 := hids.2
      rw [d1, e1, Option.some.injEq] at g1
      rw [d2, e2, Option.some.injEq] at g2
      subst g1; subst g2
      rw [hc_self, sub_self, cos_zero] at f2
      have := one_le_cosh R
      linarith
  refine ⟨t, ht, htwo, ra, rb, p, q, _, _, hr', ?_, ep, eq, hids⟩
  unfold candList at hpq
  rwa [htwo] at hpq

/-- the checks of that call contain the failing assertion -/
theorem HBuiltX.task_fires (b : HBuiltX ndebug radii angles T R H) (hin : HypInput radii angles T R) (hz : ShortcutUnsafe T R) {x : ℝ}
    (hx : BadDraw T R x) {rng : Tree.Rng XR} (hg : ∀ g, (rng.uniform g).1 = XR.fin x) {t : Task} (h2 : t.two = false)
    {ra rb : Nat × Nat} {p q : Nat} {u v : HPoint XR} (hr' : HRangesOK H (htgt R) ⌈R⌉.toNat t ra rb)
    (hpq : (p, q) ∈ pairListI t ra rb) (hu : H.points[p]? = some u) (hv : H.points[q]? = some v) (hr : radii[u.id]? = radii[v.id]?)
    (ha : angles[u.id]? = angles[v.id]?) {g : rng.G} {C : List Check} (hC : H.taskChecks (xw radii) (xw angles) rng t g = some C) :
    HAsserts.tree 331 false ∈ C := by
  have key : ∀ (L : List (Nat × Nat)) (g : rng.G) (C : List Check), H.pairsChecksI (xw radii) (xw angles) rng t ra rb L g = some C →
      (p, q) ∈ L → HAsserts.tree 331 false ∈ C := by
    intro L
    induction L with
    | nil => intro g C _ h; simp at h
    | cons c L ih =>
      intro g C h hc
      unfold HTree.pairsChecksI at h
      simp only [Option.bind_eq_bind, Option.bind_eq_some_iff, Option.some.injEq] at h
      obtain ⟨pc, hpc, u', hu', v', hv', d, hd, rest, hrest, rfl⟩ := h
      rcases List.mem_cons.1 hc with rfl | hc
      · apply List.mem_append_left
        unfold HTree.pairChecksI at hpc
        simp only [Option.bind_eq_bind, Option.bind_eq_some_iff, Option.some.injEq] at hpc
        obtain ⟨u1, hu1, v1, hv1, wi, _, wj, _, ka, _, kb, _, pa, _, pb, _, D, hD, rfl⟩ := hpc
        have e1 : some u1 = some u := hu1.symm.trans hu
        have e2 : some v1 = some v := hv1.symm.trans hv
        rw [Option.some.injEq] at e1 e2
        subst e1; subst e2
        obtain ⟨D', f1, f2⟩ := b.decide_fires hin hz hx (hg g) (List.mem_of_getElem? hu) (List.mem_of_getElem? hv) hr ha
        rw [f1, Option.some.injEq] at hD
        subst hD
        exact List.mem_append_right _ f2
      · exact List.mem_append_right _ (ih _ _ hrest hc)
  unfold HTree.taskChecks at hC
  rw [h2] at hC
  simp only [Bool.false_eq_true, if_false] at hC
  unfold HTree.checksI at hC
  simp only [Option.bind_eq_bind, Option.bind_eq_some_iff] at hC
  obtain ⟨rc, _, ⟨ra', rb'⟩, hrr, hC⟩ := hC
  rw [hr'.eq, Option.some.injEq, Prod.mk.injEq] at hrr
  obtain ⟨rfl, rfl⟩ := hrr
  obtain ⟨m1, m2, _⟩ := hr'.mem_pairListI.1 hpq
  simp only at hC
  rw [if_neg (by omega), hr'.pairsI_eq] at hC
  simp only [Option.bind_eq_some_iff, Option.some.injEq] at hC
  obtain ⟨ps, rfl, pc, hpc, rfl⟩ := hC
  exact List.mem_append_right _ (key _ _ _ hpc hpq)

theorem tasks_fires {rng : Tree.Rng XR} {t : Task} {c : Check}
    (h : ∀ g C, H.taskChecks (xw radii) (xw angles) rng t g = some C → c ∈ C) : ∀ (ts : List Task) (g : rng.G) (C : List Check),
    H.tasksChecks (xw radii) (xw angles) rng ts g = some C → t ∈ ts → c ∈ C := by
  intro ts
  induction ts with
  | nil => intro g C _ ht; simp at ht
  | cons t' ts ih =>
    intro g C hC ht
    unfold HTree.tasksChecks at hC
    simp only [Option.bind_eq_bind, Option.bind_eq_some_iff, Option.some.injEq] at hC
    obtain ⟨C1, h1, x, h2, C2, h3, rfl⟩ := hC
    rcases List.mem_cons.1 ht with rfl | ht
    · exact List.mem_append_left _ (h _ _ h1)
    · exact List.mem_append_right _ (ih _ _ h3 ht)

/-- every execution evaluates the assertions of every sampling call of the recursion -/
theorem HBuiltX.generate_mem (b : HBuiltX false radii angles T R H) {rng : Tree.Rng XR} {gens : Nat → rng.G} {env : HEnv} {L : List Check}
    (hg : HTree.DebugGenerate env H (xw radii) (xw angles) rng gens (some L)) {t : Task} {c : Check}
    (ht : t ∈ hvisit H.layers H.levels (hpair R) true H.levels 0 0 0)
    (h : ∀ g C, H.taskChecks (xw radii) (xw angles) rng t g = some C → c ∈ C) : c ∈ L := by
  have ok := b.ok
  have st := hstartOK_XR env
  generalize hfl : startLevel env.threads = fpl at st
  have hfull := b.full_eq
  unfold HTree.DebugGenerate at hg
  by_cases h1 : env.threads = 1
  · rw [if_pos h1] at hg
    have hroot := ok.root_eq
    rw [hfull] at hroot
    replace hg := hg.symm
    simp only [Option.bind_eq_bind, Option.bind_eq_some_iff, Option.some.injEq] at hg
    obtain ⟨ts, h2, C, h3, f, h4, rfl⟩ := hg
    rw [hroot, Option.some.injEq] at h2
    subst h2
    exact List.mem_append_left _ (tasks_fires h _ _ _ h3 ht)
  · rw [if_neg h1] at hg
    obtain ⟨fpl', tasks, sched, s, h2, h3, h4, h5, h6⟩ := hg
    rw [st.eq h1, Option.some.injEq] at h2
    subst h2
    rw [ok.tasks_eq env (by have := st.two; omega) (by have := st.le; omega), Option.some.injEq] at h3
    subst h3
    have hth : 2 ≤ env.threads := by have := env.threads_pos; omega
    have hunits : hUnits env H (hpair R) fpl = (List.range (env.threads - 1)).map (hShare env H (hpair R) fpl) ++
        (hTasks env H fpl).map (hTaskCalls H (hpair R) fpl) := by unfold hUnits; rw [if_neg h1]
    obtain ⟨nt, hnte, hnt, hle, heq⟩ := length_hTasks (H := H) env st.two st.le
    have hb : (hTasks env H fpl).length + env.threads + 1 < 2 ^ 32 := by have := env.threads_le; omega
    have hinv := (TaskQueue.init_inv (n := env.threads) (m := (hTasks env H fpl).length) (gen := decide (fpl < H.levels)) hth (by
      intro hf
      unfold hTasks
      rw [if_neg (by simpa using hf)]; rfl)).of_run hb sched h4
    have hlog := hinv.done_log (by omega) h5
    replace h6 := h6.symm
    simp only [Option.bind_eq_bind, Option.bind_eq_some_iff, Option.some.injEq] at h6
    obtain ⟨nt', e1, A, e2, B, e3, calls, e4, calls', e5, f, e6, rfl⟩ := h6
    have hmem : t ∈ (hUnits env H (hpair R) fpl).flatten :=
      (ok.units_perm env (fpl := fpl) (by have := st.two; omega) hfull).mem_iff.2 ht
    rw [hunits, List.flatten_append, List.mem_append] at hmem
    rcases hmem with hm | hm
    · obtain ⟨l, hl, hm⟩ := List.mem_flatten.1 hm
      obtain ⟨k, hk, rfl⟩ := List.mem_map.1 hl
      have hkl := List.mem_range.1 hk
      have : c ∈ A := by
        have hall : ∃ m, H.shareChecks (xw radii) (xw angles) rng gens fpl env.threads k = some m := concatM_some_mem e2 k hk
        obtain ⟨m, hm'⟩ := hall
        refine mem_concatM e2 k hk c ⟨m, hm', ?_⟩
        unfold HTree.shareChecks at hm'
        rw [obind (ok.share_eq hth fpl k (by omega))] at hm'
        exact tasks_fires h _ _ _ hm' hm
      simp [this]
    · obtain ⟨l, hl, hm⟩ := List.mem_flatten.1 hm
      obtain ⟨pr, hpr, rfl⟩ := List.mem_map.1 hl
      obtain ⟨i, hi⟩ := List.getElem?_of_mem hpr
      have hil := (List.getElem?_eq_some_iff.1 hi).1
      have hk : i ∈ s.log.flatten := hlog.mem_iff.2 (List.mem_range.2 hil)
      have : c ∈ B := by
        obtain ⟨m, hm'⟩ : ∃ m, H.queuedChecks (xw radii) (xw angles) rng gens fpl env.threads (hTasks env H fpl) i = some m := concatM_some_mem e3 i hk
        refine mem_concatM e3 i hk c ⟨m, hm', ?_⟩
        unfold HTree.queuedChecks at hm'
        rw [obind hnte, obind (ok.queuedCalls_eq env hil), if_pos (by omega)] at hm'
        refine tasks_fires h _ _ _ hm' ?_
        rw [List.getD_eq_getElem?_getD, hi]
        exact hm
      simp [this]

end exact
end Girgs
