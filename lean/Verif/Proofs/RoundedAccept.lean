import Verif.Spec.RoundedAbove
import Verif.Proofs.B64Rounded
import Verif.Proofs.RoundedThreshold
import Verif.Proofs.Determined
/-
Pairs that every type I call accepts are callbacks unless they belong to a type II call; close pairs are accepted whatever the
random number is.
-/
namespace Girgs
open Spec CFloat Build Tree

section
variable {F : Type} [CFloat F] {D : Nat} {T : Tree F D}

/-- type I calls accept the pairs of node positions in `acc`, whatever the random numbers -/
def AcceptsI (T : Tree F D) (rng : Rng F) (acc : Nat → Nat → Prop) : Prop :=
  ∀ (p q : Nat) (x y : Node F D), T.nodes[p]? = some x → T.nodes[q]? = some y → acc p q → ∀ g, (decideI T rng x y g).1 = true

theorem runPairsI_accepts (rng : Rng F) {acc : Nat → Nat → Prop} (h : AcceptsI T rng acc) : ∀ (L : List (Nat × Nat)) (g : rng.G)
    (r : List (Nat × Nat) × rng.G), runPairsI T rng L g = some r → ∀ c ∈ L, acc c.1 c.2 → T.idxPair c ∈ r.1 := by
  intro L
  induction L with
  | nil => intro g r _ c hc; simp at hc
  | cons e L ih =>
    obtain ⟨a, b⟩ := e
    intro g r hr c hc hacc
    unfold runPairsI at hr
    simp only [Option.bind_eq_bind, Option.bind_eq_some_iff, Option.some.injEq] at hr
    obtain ⟨x, hx, y, hy, rest, hrest, rfl⟩ := hr
    have ex : T.nodes[a]? = some x := hx
    have ey : T.nodes[b]? = some y := hy
    rcases List.mem_cons.1 hc with rfl | hc
    · have hd := h a b x y ex ey hacc g
      simp only [hd, if_true]
      have e : T.idxPair (a, b) = (x.index, y.index) := by
        unfold Tree.idxPair; rw [Tree.idx_eq ex, Tree.idx_eq ey]
      rw [e]
      exact List.mem_cons_self
    · have := ih _ _ hrest c hc hacc
      dsimp only
      split
      · exact List.mem_cons_of_mem _ this
      · exact this

theorem runTask_accepts (rng : Rng F) (ok : TreeOK T) {acc : Nat → Nat → Prop} (h : AcceptsI T rng acc) {t : Task} (ht : TaskOK T t)
    (h2 : t.two = false) {g : rng.G} {r : List (Nat × Nat) × rng.G} (hr : runTask T rng t g = some r) {p q : Nat} (hh : Hit T t p q)
    (hacc : acc p q) : (T.idx p, T.idx q) ∈ r.1 := by
  obtain ⟨ra, rb, hrg⟩ := ok.ranges_ok ht
  obtain ⟨x, y, hx, hy, h3, h4, h5⟩ := hh
  have hA := (hrg.memA _ _ hx).2 h3
  have hB := (hrg.memB _ _ hy).2 h4
  have hm : (p, q) ∈ pairListI t ra rb := hrg.mem_pairListI.2 ⟨hA, hB, h5⟩
  unfold runTask at hr
  rw [h2] at hr
  simp only [Bool.false_eq_true, if_false] at hr
  unfold sampleTypeI at hr
  rw [obind hrg.eq] at hr
  have hne : ¬ (ra.1 = ra.2 ∨ rb.1 = rb.2) := by omega
  simp only [hne, if_false] at hr
  rw [hrg.pairsI_eq] at hr
  exact runPairsI_accepts rng h _ _ _ hr _ hm hacc

theorem runTasks_accepts (rng : Rng F) (ok : TreeOK T) {acc : Nat → Nat → Prop} (h : AcceptsI T rng acc) {t : Task} (ht : TaskOK T t)
    (h2 : t.two = false) {p q : Nat} (hh : Hit T t p q) (hacc : acc p q) : ∀ (ts : List Task), t ∈ ts → ∀ (g : rng.G)
    (r : List (Nat × Nat) × rng.G), runTasks T rng ts g = some r → (T.idx p, T.idx q) ∈ r.1 := by
  intro ts
  induction ts with
  | nil => intro hm; simp at hm
  | cons s ts ih =>
    intro hm g r hr
    unfold runTasks at hr
    simp only [Option.bind_eq_bind, Option.bind_eq_some_iff, Option.some.injEq] at hr
    obtain ⟨r1, h3, r2, h4, rfl⟩ := hr
    rcases List.mem_cons.1 hm with rfl | hm
    · exact List.mem_append_left _ (runTask_accepts rng ok h ht h2 h3 hh hacc)
    · exact List.mem_append_right _ (ih hm _ _ h4)

/-- every pair of nodes is accepted by its type I call, or belongs to a type II call of the full recursion -/
theorem Distributed.accepts {rng : Rng F} {calls : List (List (Nat × Nat))} (d : Distributed T rng calls) (ok : TreeOK T)
    {acc : Nat → Nat → Prop} (h : AcceptsI T rng acc) : ∀ p q, p < T.n → q < T.n → p ≠ q →
      (∃ t, TaskOK T t ∧ t.two = true ∧ (Hit T t p q ∨ Hit T t q p)) ∨
      (acc p q → acc q p → (T.idx p, T.idx q) ∈ calls.flatten ∨ (T.idx q, T.idx p) ∈ calls.flatten) := by
  intro p q hp hq hpq
  have hon : OnLevel D 0 0 := ⟨by simp [levelStart], by simp [levelStart]⟩
  have hdok : ∀ t ∈ visitP T.debug T.levels 0 0 0, TaskOK T t := fun t ht => by
    have := visitP_ok (T := T.debug) _ _ _ _ hon hon t ht
    exact ⟨this.hi, this.hj, this.hA, this.hB, this.hl, this.two, this.one⟩
  have hmem : ∀ t, t ∈ visitP T.debug T.levels 0 0 0 → t.two = false → t ∈ visitP T T.levels 0 0 0 := by
    intro t ht h2
    by_cases hr : T.ndebug = true ∧ T.isThreshold = true
    · rw [visitP_release hr, List.mem_filter]
      exact ⟨ht, by simp [h2]⟩
    · rwa [visitP_debug_of_full hr] at ht
  have hnd : ¬ (T.debug.ndebug = true ∧ T.debug.isThreshold = true) := by simp [Tree.debug]
  have hp' := hp; have hq' := hq
  rw [← ok.length_nodes] at hp' hq'
  have hc := cnt_visit_root ok.debug hnd (List.getElem?_eq_getElem hp') (List.getElem?_eq_getElem hq') hpq
  change cnt T (visitP T.debug T.levels 0 0 0) p q + cnt T (visitP T.debug T.levels 0 0 0) q p = 1 at hc
  have hpos : ∀ p q, 0 < cnt T (visitP T.debug T.levels 0 0 0) p q → ∃ t ∈ visitP T.debug T.levels 0 0 0, Hit T t p q := by
    intro p q h0
    by_contra hne
    push Not at hne
    rw [cnt_zero hne] at h0
    omega
  obtain ⟨t, ht, hh⟩ : ∃ t ∈ visitP T.debug T.levels 0 0 0, Hit T t p q ∨ Hit T t q p := by
    rcases Nat.eq_zero_or_pos (cnt T (visitP T.debug T.levels 0 0 0) p q) with h0 | h0
    · obtain ⟨t, h1, h2⟩ := hpos q p (by omega)
      exact ⟨t, h1, Or.inr h2⟩
    · obtain ⟨t, h1, h2⟩ := hpos p q h0
      exact ⟨t, h1, Or.inl h2⟩
  cases h2 : t.two
  · right
    intro d1 d2
    obtain ⟨tss, hlen, hperm, hrun⟩ := d.ex
    obtain ⟨ts, hts, htt⟩ := List.mem_flatten.1 (hperm.mem_iff.2 (hmem t ht h2))
    obtain ⟨k, hk⟩ := List.mem_iff_getElem?.1 hts
    obtain ⟨g, r, hr, hcall⟩ := hrun k ts hk
    have hin : ∀ e ∈ r.1, e ∈ calls.flatten := fun e he => List.mem_flatten.2 ⟨_, List.mem_of_getElem? hcall, he⟩
    rcases hh with hh | hh
    · exact Or.inl (hin _ (runTasks_accepts rng ok h (hdok t ht) h2 hh d1 ts htt g r hr))
    · exact Or.inr (hin _ (runTasks_accepts rng ok h (hdok t ht) h2 hh d2 ts htt g r hr))
  · exact Or.inl ⟨t, hdok t ht, h2, hh⟩

end

variable {F : Type} [CFloat F] {u lam : ℝ} {A : Rounded F u lam} {D : Nat} {ndebug : Bool} {w : List ℝ} {x : List (Fin D → ℝ)}
  {alpha : F} {T : Tree F D} {m S : ℝ}

theorem dTerm_nonneg (A : Rounded F u lam) (hu : u ≤ 1 / 2 ^ 34) (hD : D ≤ 5) {y z : Node F D} {p q : Fin D → ℝ}
    (hp : ∀ d, A.val (y.coord d) = some (p d)) (hq : ∀ d, A.val (z.coord d) = some (q d)) (up : ∀ d, 0 ≤ p d ∧ p d < 1)
    (uq : ∀ d, 0 ≤ q d ∧ q d < 1) : ∃ t, A.val (dTerm y z) = some t ∧ 0 ≤ t := by
  obtain ⟨r, e1, h0, h1, h2⟩ := A.val_coordDistance hp hq up uq
  obtain ⟨t, e2, h3, _⟩ := A.val_powHelper hu D (by omega) _ r e1 h0 h1
  exact ⟨t, e2, h3⟩

/-- a close pair is accepted whatever the random number is -/
theorem BuiltR.accepts (b : BuiltR A D ndebug w x alpha T m S) (s : RoundableInput D w x) (hu : u ≤ 1 / 2 ^ 34) (above : RoundedAbove A)
    (halpha : CFloat.eq alpha CFloat.inf = true ∨ ∃ a, A.val alpha = some a ∧ 0 < a) {rng : Rng F} (hrng : A.UnitRng rng)
    {y z : Node F D} (hy : y ∈ T.nodes) (hz : z ∈ T.nodes) (hc : SurelyClose u lam w x y.index z.index) (g : rng.G) :
    (decideI T rng y z g).1 = true := by
  have hd := (b.rule s hu hy hz).2 hc
  unfold decideI
  by_cases hth : T.isThreshold = true
  · rw [if_pos hth]; exact hd
  · rw [if_neg hth]
    have ha : ∃ a, A.val alpha = some a ∧ 0 < a := by
      rcases halpha with h | h
      · exact absurd (by unfold Tree.isThreshold; rw [b.alpha_eq]; exact h) hth
      · exact h
    obtain ⟨a, ha1, ha2⟩ := ha
    obtain ⟨v, p, _, f1, f2, f3, f4, _⟩ := b.node y hy
    obtain ⟨v', q, _, g1, g2, g3, g4, _⟩ := b.node z hz
    obtain ⟨W, eW, _, _⟩ := b.wTerm_val s hu f3 g3 (List.mem_of_getElem? f1) (List.mem_of_getElem? g1)
    obtain ⟨t, et, ht⟩ := dTerm_nonneg A hu s.D5 f4 g4 (s.unit p (List.mem_of_getElem? f2)) (s.unit q (List.mem_of_getElem? g2))
    have hlt := (A.lt _ _ _ _ et eW).1 hd
    have h1 := above.div _ _ _ _ eW et ht hlt
    have h2 := above.pow _ _ _ h1 ha1 ha2
    obtain ⟨r, er, hr⟩ := hrng g
    show (_ <. T.edgeProb y z) = true
    unfold Tree.edgeProb
    rw [b.alpha_eq]
    rcases h2 with h2 | ⟨c, hc1, hc2⟩
    · exact above.lt_inf _ _ _ er h2
    · exact (A.lt _ _ _ _ er hc1).2 (lt_of_lt_of_le hr hc2)

namespace B64

theorem one_le_rnd {x : ℝ} (h : 1 ≤ x) : 1 ≤ rnd x := by
  have h1 : rnd 1 = 1 := by have := rnd_int (z := 1) (by norm_num); exact_mod_cast this
  have := rnd_mono h
  rwa [h1] at this

theorem eq_inf_iff {q : B64} : CFloat.eq q CFloat.inf = true ↔ q.1 = XR.pinf := by
  show CFloat.eq q.1 XR.pinf = true ↔ _
  cases q.1 <;> simp [CFloat.eq, XR.eq]

theorem atLeastOne_round {x : ℝ} (h : 1 ≤ x) : rounded.AtLeastOne (round (XR.fin x)) := by
  by_cases hb : |rnd x| < 2 ^ 1024
  · right
    refine ⟨rnd x, ?_, one_le_rnd h⟩
    show val _ = _
    rw [val_iff]
    simp only [round, hb, dite_true]
  · left
    rw [eq_inf_iff]
    have : 0 < x := by linarith
    simp only [round, hb, dite_false, this, if_true]

theorem atLeastOne_inf : rounded.AtLeastOne (round XR.pinf) := Or.inl (eq_inf_iff.2 rfl)

/-- binary64 with correctly rounded quotients and powers -/
theorem above : RoundedAbove rounded where
  div a b x y ha hb h0 h1 := by
    show rounded.AtLeastOne (round (a.1 /. b.1))
    rw [val_iff.1 ha, val_iff.1 hb]
    rcases h0.eq_or_lt with h0 | h0
    · have e : (XR.fin x /. XR.fin y : XR) = XR.pinf := by
        show XR.div _ _ = _
        have hx : 0 < x := by linarith
        simp [XR.div, ← h0, XR.infOf, hx]
      rw [e]; exact atLeastOne_inf
    · have e : (XR.fin x /. XR.fin y : XR) = XR.fin (x / y) := by
        show XR.div _ _ = _
        simp [XR.div, h0.ne']
      rw [e]
      exact atLeastOne_round ((one_le_div h0).2 h1.le)
  pow q e y hq he hy := by
    show rounded.AtLeastOne (round (CFloat.pow q.1 e.1))
    rw [val_iff.1 he]
    rcases hq with hq | ⟨z, hz, h1⟩
    · rw [eq_inf_iff.1 hq]
      have e : (CFloat.pow XR.pinf (XR.fin y) : XR) = XR.pinf := by
        show XR.pow _ _ = _
        simp [XR.pow, hy, hy.ne']
      rw [e]; exact atLeastOne_inf
    · rw [val_iff.1 hz, XR.pow_fin _ _ (by linarith)]
      exact atLeastOne_round (Real.one_le_rpow h1 hy.le)
  lt_inf a x q ha hq := by
    show (a.1 <. q.1) = true
    rw [val_iff.1 ha, eq_inf_iff.1 hq]
    rfl

end B64

namespace XR

theorem above : RoundedAbove rounded where
  div a b x y ha hb h0 h1 := by
    rw [val_iff.1 ha, val_iff.1 hb]
    rcases h0.eq_or_lt with h0 | h0
    · left
      have e : (XR.fin x /. XR.fin y : XR) = XR.pinf := by
        show XR.div _ _ = _
        have hx : 0 < x := by linarith
        simp [XR.div, ← h0, XR.infOf, hx]
      rw [e]; rfl
    · right
      have e : (XR.fin x /. XR.fin y : XR) = XR.fin (x / y) := by
        show XR.div _ _ = _
        simp [XR.div, h0.ne']
      rw [e]
      exact ⟨_, rfl, (one_le_div h0).2 h1.le⟩
  pow q e y hq he hy := by
    rw [val_iff.1 he]
    rcases hq with hq | ⟨z, hz, h1⟩
    · left
      have hq' : q = XR.pinf := by
        cases q <;> simp_all [CFloat.eq, XR.eq, CFloat.inf]
      rw [hq']
      have e : (CFloat.pow XR.pinf (XR.fin y) : XR) = XR.pinf := by
        show XR.pow _ _ = _
        simp [XR.pow, hy, hy.ne']
      rw [e]; rfl
    · right
      rw [val_iff.1 hz, XR.pow_fin _ _ (by linarith)]
      exact ⟨_, rfl, Real.one_le_rpow h1 hy.le⟩
  lt_inf a x q ha hq := by
    have hq' : q = XR.pinf := by
      cases q <;> simp_all [CFloat.eq, XR.eq, CFloat.inf]
    rw [val_iff.1 ha, hq']
    rfl

end XR
end Girgs
