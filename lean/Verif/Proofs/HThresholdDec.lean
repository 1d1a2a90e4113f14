import Verif.Proofs.HThreshold
/-!
Hyperbolic sampler in threshold mode, for decisions that need not be symmetric (as those of floating point arithmetic).
-/
namespace Girgs
open Angle Spec

variable {F : Type} [CFloat F] {H : HTree F} {tgt : Nat → Nat} {pbl : Nat → Nat → Nat} {nl : Nat}

/-- in threshold mode, every edge is a pair that the distance test accepts, and every pair is an edge that the test accepts in both orders, if it
is not in a type II call -/
theorem HTreeOK.graph_of_dec (ok : HTreeOK H tgt pbl nl) (fo : HFiltersOK H pbl) {env : HEnv} {fpl : Nat} (st : HStartOK F env fpl)
    {rng : Tree.Rng F} (hgeo : GeoBounded rng) (gens : Nat → rng.G) {dec : Nat → Nat → Bool} (hdec : HDecided H dec)
    {calls : List (List (Nat × Nat))} (hg : HTree.Generate env H rng gens calls) {out : List (Nat × Nat)} (hout : out.Perm calls.flatten) :
    (∀ p q, p < H.n → q < H.n → (H.idx p, H.idx q) ∈ out → dec p q = true) ∧
    (∀ p q, p < H.n → q < H.n → p ≠ q → dec p q = true → dec q p = true →
      (∀ t, HTaskOK H pbl t → t.two = true → ¬ HHit H tgt nl t p q ∧ ¬ HHit H tgt nl t q p) →
      (H.idx p, H.idx q) ∈ out ∨ (H.idx q, H.idx p) ∈ out) := by
  have hd : HDraws H rng := ⟨fun h => (by rw [hdec.thr] at h; cases h), fun h => (by rw [hdec.zero] at h; cases h)⟩
  have h1 : 1 ≤ fpl := le_trans (by norm_num) st.two
  have hperm := hout.trans (ok.generate_perm hgeo hd fo st gens hg)
  have hue : ∀ k, k < (hUnits env H pbl fpl).length → unitEdges H rng gens (hUnits env H pbl fpl) k =
      ((hUnits env H pbl fpl).getD k []).flatMap (hemit H dec) := by
    intro k hk
    unfold unitEdges
    rw [hrunTasks_dec ok hdec _ (fun t ht => ok.units_ok env h1 _ (by
      rw [List.getD_eq_getElem?_getD, List.getElem?_eq_getElem hk]; exact List.getElem_mem hk) t ht)]
    rfl
  have hmem : ∀ e, e ∈ out ↔ ∃ t ∈ (hUnits env H pbl fpl).flatten, e ∈ hemit H dec t := by
    intro e
    rw [hperm.mem_iff, List.mem_flatMap]
    constructor
    · rintro ⟨k, hk, he⟩
      rw [List.mem_range] at hk
      rw [hue k hk] at he
      obtain ⟨t, ht, he⟩ := List.mem_flatMap.1 he
      refine ⟨t, List.mem_flatten.2 ⟨_, ?_, ht⟩, he⟩
      rw [List.getD_eq_getElem?_getD, List.getElem?_eq_getElem hk]; exact List.getElem_mem hk
    · rintro ⟨t, ht, he⟩
      obtain ⟨ts, hts, ht⟩ := List.mem_flatten.1 ht
      obtain ⟨k, hk, rfl⟩ := List.getElem_of_mem hts
      refine ⟨k, List.mem_range.2 hk, ?_⟩
      rw [hue k hk]
      refine List.mem_flatMap.2 ⟨t, ?_, he⟩
      rw [List.getD_eq_getElem?_getD, List.getElem?_eq_getElem hk]; exact ht
  have htok : ∀ t ∈ (hUnits env H pbl fpl).flatten, HTaskOK H pbl t := by
    intro t ht
    obtain ⟨ts, hts, ht⟩ := List.mem_flatten.1 ht
    exact ok.units_ok env h1 ts hts t ht
  refine ⟨?_, ?_⟩
  · intro p q hp hq he
    obtain ⟨t, ht, he⟩ := (hmem _).1 he
    obtain ⟨p', q', hp', hq', hd, e⟩ := of_mem_hemit ok (htok t ht) he
    have e1 : H.idx p = H.idx p' := congrArg Prod.fst e
    have e2 : H.idx q = H.idx q' := congrArg Prod.snd e
    rw [ok.idx_inj hp hp' e1, ok.idx_inj hq hq' e2]
    exact hd
  · intro p q hp hq hpq hd1 hd2 htwo
    have hp' := hp; have hq' := hq
    rw [← ok.length_points] at hp' hq'
    have hone := hcnt_visit_root ok (List.getElem?_eq_getElem hp') (List.getElem?_eq_getElem hq') hpq
    have key : ∀ p q, dec p q = true → (∀ t, HTaskOK H pbl t → t.two = true → ¬ HHit H tgt nl t p q) →
        0 < hcnt H tgt nl (hvisit H.layers H.levels pbl true H.levels 0 0 0) p q → (H.idx p, H.idx q) ∈ out := by
      intro p q hr htw hpos
      unfold hcnt at hpos
      obtain ⟨t, ht, hh⟩ := List.countP_pos_iff.1 hpos
      have hh : HHit H tgt nl t p q := by simpa using hh
      have htk := hvisit_ok _ _ _ _ onLv_zero onLv_zero t ht
      have h2 : t.two = false := by
        by_contra hc
        exact htw t htk (by simpa using hc) hh
      exact (hmem _).2 ⟨t, ok.mem_units env h1 h2 ht, mem_hemit ok htk h2 hr hh⟩
    rcases Nat.eq_zero_or_pos (hcnt H tgt nl (hvisit H.layers H.levels pbl true H.levels 0 0 0) p q) with h0 | h0
    · exact Or.inr (key q p hd2 (fun t ht h2 => (htwo t ht h2).2) (by omega))
    · exact Or.inl (key p q hd1 (fun t ht h2 => (htwo t ht h2).1) h0)

/-- the decisions of the distance test -/
def belowDec (H : HTree F) (p q : Nat) : Bool :=
  match H.points[p]?, H.points[q]? with
  | some x, some y => x.isDistanceBelowR y H.coshR
  | _, _ => false

theorem hdecided_below (h1 : H.inThresholdMode = true) (h2 : H.tZero = true) : HDecided H (belowDec H) :=
  ⟨h1, h2, fun p q x y hx hy => by unfold belowDec; rw [hx, hy]⟩

end Girgs
