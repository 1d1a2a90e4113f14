import Verif.Proofs.HDecideProb
import Verif.Spec.Girg
/-!
Hyperbolic sampler at temperature 0: the edges are exactly the pairs at distance below `R`.
-/
namespace Girgs
open Angle Spec
open Real

section
variable {F : Type} [CFloat F] {H : HTree F} {tgt : Nat → Nat} {pbl : Nat → Nat → Nat} {nl : Nat}

/-- type I calls do not depend on the build type -/
theorem hvisit_typeI {layers levels : Nat} {full : Bool} : ∀ (k A B l : Nat) (t : Task), t.two = false →
    t ∈ hvisit layers levels pbl true k A B l → t ∈ hvisit layers levels pbl full k A B l := by
  intro k
  induction k with
  | zero => intro A B l t _ ht; simp [hvisit] at ht
  | succ k ih =>
    intro A B l t h2 ht
    rw [hvisit_succ] at ht ⊢
    split at ht
    · rw [if_pos rfl] at ht
      have := (mem_htasksII.1 ht).1
      rw [this] at h2; cases h2
    · rename_i htch
      rw [if_neg htch]
      rw [List.mem_append] at ht ⊢
      rcases ht with ht | ht
      · exact Or.inl ht
      · right
        split at ht
        · simp at ht
        · rename_i hk
          rw [if_neg hk]
          obtain ⟨p, hp, ht⟩ := List.mem_flatMap.1 ht
          exact List.mem_flatMap.2 ⟨p, hp, ih _ _ _ t h2 ht⟩

/-- every type I call is in some unit -/
theorem HTreeOK.mem_units (ok : HTreeOK H tgt pbl nl) (env : HEnv) {fpl : Nat} (h2 : 1 ≤ fpl) {t : Task} (ht2 : t.two = false)
    (ht : t ∈ hvisit H.layers H.levels pbl true H.levels 0 0 0) : t ∈ (hUnits env H pbl fpl).flatten := by
  unfold hUnits
  split
  · simpa using hvisit_typeI H.levels 0 0 0 t ht2 ht
  · rename_i hth
    have h1 : 2 ≤ env.threads := by have := env.threads_pos; omega
    rw [List.flatten_append, ← List.flatMap_def, ← List.flatMap_def]
    have hs := shares_perm (k := env.threads - 1) (by omega) (hupper H.layers H.levels pbl fpl H.levels 0 0 0)
    rw [List.mem_append]
    by_cases hf : fpl < H.levels
    · have hp := hupper_perm (pbl := pbl) (layers := H.layers) hf (fpl - 1) 0 0 0 (by omega)
      rw [show fpl - 1 + 1 = fpl by omega, Nat.sub_zero] at hp
      rcases List.mem_append.1 (hp.mem_iff.2 ht) with h | h
      · exact Or.inl (hs.mem_iff.2 h)
      · right
        obtain ⟨p, hp, ht⟩ := List.mem_flatMap.1 h
        refine List.mem_flatMap.2 ⟨p, ?_, hvisit_typeI _ _ _ _ t ht2 ht⟩
        unfold hTasks
        rw [if_pos hf]
        exact (env.partition_perm _).mem_iff.2 hp
    · left
      have e := hupper_all (pbl := pbl) (layers := H.layers) (levels := H.levels) (fpl := fpl) (by omega) H.levels 0 0 0 (by omega)
      rw [← e] at ht
      exact hs.mem_iff.2 ht

/-- in threshold mode the decisions are given by `dec` -/
structure HDecided (H : HTree F) (dec : Nat → Nat → Bool) : Prop where
  thr : H.inThresholdMode = true
  zero : H.tZero = true
  dec : ∀ (p q : Nat) (x y : HPoint F), H.points[p]? = some x → H.points[q]? = some y → x.isDistanceBelowR y H.coshR = dec p q

/-- the edges of a call -/
def hemit (H : HTree F) (dec : Nat → Nat → Bool) (t : Task) : List (Nat × Nat) :=
  if t.two then [] else
  match H.ranges t with
  | some (ra, rb) => ((pairListI t ra rb).filter fun c => dec c.1 c.2).map H.idxPair
  | none => []

theorem hrunPairsI_dec {rng : Tree.Rng F} {dec : Nat → Nat → Bool} (h : HDecided H dec) : ∀ (L : List (Nat × Nat)),
    (∀ c ∈ L, c.1 < H.points.length ∧ c.2 < H.points.length) →
    ∀ g : rng.G, HTree.runPairsI H rng L g = some ((L.filter fun c => dec c.1 c.2).map H.idxPair, g) := by
  intro L
  induction L with
  | nil => intro _ g; rfl
  | cons c L ih =>
    intro hL g
    obtain ⟨a, b⟩ := c
    obtain ⟨ha, hb⟩ := hL (a, b) (by simp)
    have ea : H.points[a]? = some H.points[a] := List.getElem?_eq_getElem ha
    have eb : H.points[b]? = some H.points[b] := List.getElem?_eq_getElem hb
    have h1 := ih (fun c hc => hL c (by simp [hc])) g
    unfold HTree.runPairsI
    refine (obind ea _).trans ?_
    refine (obind eb _).trans ?_
    have hdec : HTree.decideI H rng H.points[a] H.points[b] g = some (dec a b, g) := by
      unfold HTree.decideI; rw [if_pos h.thr, h.dec a b _ _ ea eb]
    refine (obind hdec _).trans ?_
    refine (obind h1 _).trans ?_
    have e : H.idxPair (a, b) = (H.points[a].id, H.points[b].id) := by
      unfold HTree.idxPair; rw [HTree.idx_eq ea, HTree.idx_eq eb]
    by_cases hdec : dec a b = true
    · simp [hdec, e]
    · simp [hdec]

theorem hrunTask_dec {rng : Tree.Rng F} (ok : HTreeOK H tgt pbl nl) {dec : Nat → Nat → Bool} (h : HDecided H dec) {t : Task}
    (ht : HTaskOK H pbl t) (g : rng.G) : HTree.runTask H rng t g = some (hemit H dec t, g) := by
  obtain ⟨ra, rb, hr⟩ := ok.ranges_ok ht
  unfold HTree.runTask hemit
  split
  · rename_i h2
    unfold HTree.sampleTypeII
    refine (obind hr.sizes _).trans ?_
    simp [h.zero]
  · unfold HTree.sampleTypeI
    refine (obind hr.eq _).trans ?_
    rw [hr.eq]
    simp only
    by_cases hc : ra.1 = ra.2 ∨ rb.1 = rb.2
    · have : pairListI t ra rb = [] := by
        rw [List.eq_nil_iff_forall_not_mem]
        rintro ⟨p, q⟩ hm
        have := hr.mem_pairListI.1 hm
        omega
      rw [if_pos hc, this]; simp
    · rw [if_neg hc, hr.pairsI_eq]
      exact hrunPairsI_dec h (pairListI t ra rb) (by
        rintro ⟨p, q⟩ hm
        rw [hr.mem_pairListI] at hm
        have := hr.nA; have := hr.nB
        rw [ok.length_points]; exact ⟨by omega, by omega⟩) g

theorem hrunTasks_dec {rng : Tree.Rng F} (ok : HTreeOK H tgt pbl nl) {dec : Nat → Nat → Bool} (h : HDecided H dec) : ∀ (ts : List Task),
    (∀ t ∈ ts, HTaskOK H pbl t) → ∀ g : rng.G, HTree.runTasks H rng ts g = some (ts.flatMap (hemit H dec), g) := by
  intro ts
  induction ts with
  | nil => intro _ g; rfl
  | cons t ts ih =>
    intro hts g
    unfold HTree.runTasks
    refine (obind (hrunTask_dec ok h (hts t (by simp)) g) _).trans ?_
    refine (obind (ih (fun t ht => hts t (by simp [ht])) g) _).trans ?_
    simp

theorem mem_hemit (ok : HTreeOK H tgt pbl nl) {dec : Nat → Nat → Bool} {t : Task} (ht : HTaskOK H pbl t) (h2 : t.two = false) {p q : Nat}
    (hd : dec p q = true) (hh : HHit H tgt nl t p q) : (H.idx p, H.idx q) ∈ hemit H dec t := by
  obtain ⟨ra, rb, hr⟩ := ok.ranges_ok ht
  unfold hemit
  rw [if_neg (by simp [h2]), hr.eq]
  obtain ⟨x, y, hx, hy, h3, h4, h5⟩ := hh
  refine List.mem_map.2 ⟨(p, q), List.mem_filter.2 ⟨hr.mem_pairListI.2 ⟨(hr.memA _ _ hx).2 h3, (hr.memB _ _ hy).2 h4, h5⟩, hd⟩, rfl⟩

theorem of_mem_hemit (ok : HTreeOK H tgt pbl nl) {dec : Nat → Nat → Bool} {t : Task} (ht : HTaskOK H pbl t) {e : Nat × Nat}
    (he : e ∈ hemit H dec t) : ∃ p q, p < H.n ∧ q < H.n ∧ dec p q = true ∧ e = (H.idx p, H.idx q) := by
  obtain ⟨ra, rb, hr⟩ := ok.ranges_ok ht
  unfold hemit at he
  split at he
  · simp at he
  · rw [hr.eq] at he
    obtain ⟨⟨p, q⟩, hm, rfl⟩ := List.mem_map.1 he
    obtain ⟨hm, hd⟩ := List.mem_filter.1 hm
    rw [hr.mem_pairListI] at hm
    have := hr.nA; have := hr.nB
    exact ⟨p, q, by omega, by omega, hd, rfl⟩

/-- a sampler in threshold mode returns the graph of the relation it decides by, if type II calls have no related pairs -/
theorem HTreeOK.graph_of_rule (ok : HTreeOK H tgt pbl nl) (fo : HFiltersOK H pbl) {env : HEnv} {fpl : Nat} (st : HStartOK F env fpl)
    {rng : Tree.Rng F} (hgeo : GeoBounded rng) (gens : Nat → rng.G) {rel : Nat → Nat → Prop} [DecidableRel rel] (hsym : ∀ u v, rel u v → rel v u)
    (hdec : HDecided H fun p q => decide (rel (H.idx p) (H.idx q)))
    (htwo : ∀ t, HTaskOK H pbl t → t.two = true → ∀ p q, HHit H tgt nl t p q → ¬ rel (H.idx p) (H.idx q))
    {calls : List (List (Nat × Nat))} (hg : HTree.Generate env H rng gens calls) {out : List (Nat × Nat)} (hout : out.Perm calls.flatten) :
    IsGraphOf H.n rel out := by
  have hd : HDraws H rng := ⟨fun h => (by rw [hdec.thr] at h; cases h), fun h => (by rw [hdec.zero] at h; cases h)⟩
  have h1 : 1 ≤ fpl := le_trans (by norm_num) st.two
  have hperm := hout.trans (ok.generate_perm hgeo hd fo st gens hg)
  have hsimple := perm_simple hperm (ok.units_simple hgeo hd fo st gens)
  have hue : ∀ k, k < (hUnits env H pbl fpl).length → unitEdges H rng gens (hUnits env H pbl fpl) k =
      ((hUnits env H pbl fpl).getD k []).flatMap (hemit H fun p q => decide (rel (H.idx p) (H.idx q))) := by
    intro k hk
    unfold unitEdges
    rw [hrunTasks_dec ok hdec _ (fun t ht => ok.units_ok env h1 _ (by
      rw [List.getD_eq_getElem?_getD, List.getElem?_eq_getElem hk]; exact List.getElem_mem hk) t ht)]
    rfl
  have hmem : ∀ e, e ∈ out ↔ ∃ t ∈ (hUnits env H pbl fpl).flatten, e ∈ hemit H (fun p q => decide (rel (H.idx p) (H.idx q))) t := by
    intro e
    rw [hperm.mem_iff, List.mem_flatMap]
    constructor
    · rintro ⟨k, hk, he⟩
      rw [List.mem_range] at hk
      rw [hue k hk] at he
      obtain ⟨t, ht, he⟩ := List.mem_flatMap.1 he
      refine ⟨t, List.mem_flatten.2 ⟨_, ?_, ht⟩, he⟩
      rw [List.getD_eq_getElem?_getD, List.getElem?_eq_getElem hk]; exact List.getElem_mem hk
    · rintro ⟨t, ht, he⟩
      obtain ⟨ts, hts, ht⟩ := List.mem_flatten.1 ht
      obtain ⟨k, hk, rfl⟩ := List.getElem_of_mem hts
      refine ⟨k, List.mem_range.2 hk, ?_⟩
      rw [hue k hk]
      refine List.mem_flatMap.2 ⟨t, ?_, he⟩
      rw [List.getD_eq_getElem?_getD, List.getElem?_eq_getElem hk]; exact ht
  have htok : ∀ t ∈ (hUnits env H pbl fpl).flatten, HTaskOK H pbl t := by
    intro t ht
    obtain ⟨ts, hts, ht⟩ := List.mem_flatten.1 ht
    exact ok.units_ok env h1 ts hts t ht
  refine ⟨hsimple.1, hsimple.2, ?_⟩
  intro u v hu hv huv
  obtain ⟨p, hp, rfl⟩ := ok.idx_surj hu
  obtain ⟨q, hq, rfl⟩ := ok.idx_surj hv
  have hp' := hp; have hq' := hq
  rw [← ok.length_points] at hp' hq'
  have hsound : ∀ p q, p < H.n → q < H.n → (H.idx p, H.idx q) ∈ out → rel (H.idx p) (H.idx q) := by
    intro p q _ _ he
    obtain ⟨t, ht, he⟩ := (hmem _).1 he
    obtain ⟨p', q', _, _, hd, e⟩ := of_mem_hemit ok (htok t ht) he
    have e1 : H.idx p = H.idx p' := congrArg Prod.fst e
    have e2 : H.idx q = H.idx q' := congrArg Prod.snd e
    rw [e1, e2]
    simpa using hd
  constructor
  · rintro (h | h)
    · exact hsound p q hp hq h
    · exact hsym _ _ (hsound q p hq hp h)
  · intro hrel
    have hone := hcnt_visit_root ok (List.getElem?_eq_getElem hp') (List.getElem?_eq_getElem hq') (fun h => huv (by rw [h]))
    have key : ∀ p q, rel (H.idx p) (H.idx q) → 0 < hcnt H tgt nl (hvisit H.layers H.levels pbl true H.levels 0 0 0) p q →
        (H.idx p, H.idx q) ∈ out := by
      intro p q hr hpos
      unfold hcnt at hpos
      obtain ⟨t, ht, hh⟩ := List.countP_pos_iff.1 hpos
      have hh : HHit H tgt nl t p q := by simpa using hh
      have htk := hvisit_ok _ _ _ _ onLv_zero onLv_zero t ht
      have h2 : t.two = false := by
        by_contra hc
        exact htwo t htk (by simpa using hc) p q hh hr
      exact (hmem _).2 ⟨t, ok.mem_units env h1 h2 ht, mem_hemit ok htk h2 (by simpa using hr) hh⟩
    rcases Nat.eq_zero_or_pos (hcnt H tgt nl (hvisit H.layers H.levels pbl true H.levels 0 0 0) p q) with h0 | h0
    · exact Or.inr (key q p (hsym _ _ hrel) (by omega))
    · exact Or.inl (key p q hrel h0)
end

theorem hypDist_comm (r a s b : ℝ) : hypDist r a s b = hypDist s b r a := by
  unfold hypDist
  rw [← hc_eq, ← hc_eq, hc_symm, ← hc_neg, neg_sub]

theorem hypRule_symm {radii angles : List ℝ} {R : ℝ} {u v : Nat} (h : HypRule radii angles R u v) : HypRule radii angles R v u := by
  obtain ⟨r, s, a, b, h1, h2, h3, h4, h5⟩ := h
  exact ⟨s, r, b, a, h2, h1, h4, h3, by rw [hypDist_comm]; exact h5⟩

theorem HypInput.R_pos {radii angles : List ℝ} {T R : ℝ} (hin : HypInput radii angles T R) : 0 < R := by
  rcases hin.disk with h | h <;> linarith [h.1]

section
variable {ndebug : Bool} {radii angles : List ℝ} {T R : ℝ} {H : HTree XR}

open Classical in
theorem HBuiltX.decided (b : HBuiltX ndebug radii angles 0 R H) (hin : HypInput radii angles 0 R) :
    HDecided H fun p q => decide (HypRule radii angles R (H.idx p) (H.idx q)) := by
  refine ⟨?_, ?_, ?_⟩
  · rw [b.threshold_iff]; norm_num
  · rw [b.tZero_iff]; simp
  · intro p q x y hx hy
    obtain ⟨r, a, h1, h2, h3, h4, _, _, h5, _⟩ := b.point_data hin (List.mem_of_getElem? hx)
    obtain ⟨s, c, k1, k2, k3, k4, _, _, k5, _⟩ := b.point_data hin (List.mem_of_getElem? hy)
    have e : H.coshR = XR.fin (cosh R) := b.coshR_eq
    rw [e, h5, k5, below_XR h3 k3, decide_eq_decide, HTree.idx_eq hx, HTree.idx_eq hy]
    rw [← hypDist_lt_iff h3 k3 (HypInput.R_pos hin)]
    constructor
    · intro h; exact ⟨r, s, a, c, h1, k1, h2, k2, h⟩
    · rintro ⟨r', s', a', c', e1, e2, e3, e4, h⟩
      rw [h1, Option.some.injEq] at e1; rw [k1, Option.some.injEq] at e2
      rw [h2, Option.some.injEq] at e3; rw [k2, Option.some.injEq] at e4
      subst e1 e2 e3 e4; exact h

/-- the points of a pair of a type II call -/
theorem HBuiltX.hit_data (b : HBuiltX ndebug radii angles T R H) (hin : HypInput radii angles T R) {t : Task} (ht : HTaskOK H (hpair R) t)
    (h2 : t.two = true) {p q : Nat} (hh : HHit H (htgt R) ⌈R⌉.toNat t p q) : ∃ r a s c, radii[H.idx p]? = some r ∧ radii[H.idx q]? = some s ∧
      angles[H.idx p]? = some a ∧ angles[H.idx q]? = some c ∧ 0 < r ∧ r ≤ R ∧ 0 < s ∧ s ≤ R ∧
      cosh R < hc (R - t.i - 1) (R - t.j - 1) (betweenN t.level t.cellA t.cellB * (2 * π / 2 ^ t.level)) ∧
      hc (R - t.i - 1) (R - t.j - 1) (betweenN t.level t.cellA t.cellB * (2 * π / 2 ^ t.level)) ≤ hc r s (a - c) := by
  obtain ⟨x, y, hx, hy, h3, h4, _⟩ := hh
  obtain ⟨r, a, h1, h2', h3', h4', _, _, _, hX⟩ := b.point_data hin (List.mem_of_getElem? hx)
  obtain ⟨s, c, k1, k2, k3, k4, _, _, _, hY⟩ := b.point_data hin (List.mem_of_getElem? hy)
  rw [← HTree.idx_eq hx] at h1 h2'
  rw [← HTree.idx_eq hy] at k1 k2
  have := ht.far b hin h2 (hX _ _ _ h3) (hY _ _ _ h4)
  exact ⟨r, a, s, c, h1, k1, h2', k2, h3', h4', k3, k4, this.1, this.2⟩

theorem HBuiltX.hit_not_rule (b : HBuiltX ndebug radii angles T R H) (hin : HypInput radii angles T R) {t : Task} (ht : HTaskOK H (hpair R) t)
    (h2 : t.two = true) {p q : Nat} (hh : HHit H (htgt R) ⌈R⌉.toNat t p q) : ¬ HypRule radii angles R (H.idx p) (H.idx q) := by
  obtain ⟨r, a, s, c, h1, k1, h2, k2, h3, _, k3, _, hX, hY⟩ := b.hit_data hin ht h2 hh
  rintro ⟨r', s', a', c', e1, e2, e3, e4, h⟩
  rw [h1, Option.some.injEq] at e1; rw [k1, Option.some.injEq] at e2
  rw [h2, Option.some.injEq] at e3; rw [k2, Option.some.injEq] at e4
  subst e1 e2 e3 e4
  rw [hypDist_lt_iff h3 k3 (HypInput.R_pos hin)] at h
  linarith
end

end Girgs
