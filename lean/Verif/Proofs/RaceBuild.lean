import Verif.Model.Races
import Verif.Proofs.BuildIndex
/-
Data races of the index construction: the marking loop has none, the repair loop has them exactly at the chunk borders.
-/
namespace Girgs
open Spec

/-- a property kept by every step holds in every reachable state -/
theorem Spec.Region.Reaches.inv {S Act Loc : Type} {R : Region S Act Loc} {s0 s : S} (I : S → Prop) (h0 : I s0)
    (hstep : ∀ s a s', I s → R.step s a = some s' → I s') (h : R.Reaches s0 s) : I s := by
  obtain ⟨sched, hs⟩ := h
  induction sched generalizing s0 with
  | nil => cases hs; exact h0
  | cons a sched ih =>
    rw [List.foldlM_cons] at hs
    cases e : R.step s0 a with
    | none => rw [e] at hs; cases hs
    | some s1 =>
      rw [obind e] at hs
      exact ih (hstep _ _ _ h0 e) hs

theorem Spec.Region.Reaches.trans {S Act Loc : Type} {R : Region S Act Loc} {s0 s1 s : S} (h1 : R.Reaches s0 s1)
    (h2 : R.Reaches s1 s) : R.Reaches s0 s := by
  obtain ⟨l1, e1⟩ := h1
  obtain ⟨l2, e2⟩ := h2
  exact ⟨l1 ++ l2, by rw [List.foldlM_append, obind e1]; exact e2⟩

theorem Spec.Region.Reaches.refl {S Act Loc : Type} {R : Region S Act Loc} {s0 : S} : R.Reaches s0 s0 := ⟨[], rfl⟩

theorem Spec.Region.Reaches.single {S Act Loc : Type} {R : Region S Act Loc} {s0 s : S} {a : Act} (h : R.step s0 a = some s) :
    R.Reaches s0 s := ⟨[a], by rw [List.foldlM_cons, obind h]; rfl⟩

theorem Spec.Region.Reaches.snoc {S Act Loc : Type} {R : Region S Act Loc} {s0 s1 s : S} {a : Act} (h1 : R.Reaches s0 s1)
    (h : R.step s1 a = some s) : R.Reaches s0 s := h1.trans (.single h)

namespace IntSort
variable {T : Type}

/-- static condition for loops whose iterations write: the writes of different threads go to different elements -/
def Separate (wss : List (List (Nat × T))) : Prop :=
  ∀ (t u : Nat) (w w' : Nat × T), t ≠ u → (∃ l, wss[t]? = some l ∧ w ∈ l) → (∃ l, wss[u]? = some l ∧ w' ∈ l) → w.1 ≠ w'.1

theorem writeStep_inv {s s' : WriteState T} {a : Nat} (h : writeStep s a = some s') :
    s' = s ∨ ∃ w ws, s.todo[a]? = some (w :: ws) ∧ s'.todo = s.todo.set a ws ∧ wr s.mem w.1 w.2 = some s'.mem := by
  unfold writeStep at h
  simp only [Option.bind_eq_bind, Option.bind_eq_some_iff] at h
  obtain ⟨l, hl, h⟩ := h
  cases l with
  | nil => simp only [Option.some.injEq] at h; exact Or.inl h.symm
  | cons w ws =>
    simp only [Option.bind_eq_some_iff, Option.some.injEq] at h
    obtain ⟨m, hm, rfl⟩ := h
    exact Or.inr ⟨w, ws, hl, rfl, hm⟩

theorem Separate.raceFree {wss : List (List (Nat × T))} (h : Separate wss) (m0 : List T) :
    (writeRegion (T := T)).RaceFree ⟨wss, m0⟩ := by
  intro s hs
  have hI : Separate s.todo := by
    refine hs.inv (fun s => Separate s.todo) h ?_
    intro s a s' hI hst
    rcases writeStep_inv hst with rfl | ⟨w, ws, h1, h2, _⟩
    · exact hI
    · have sub : ∀ (t : Nat) (v : Nat × T), (∃ l, s'.todo[t]? = some l ∧ v ∈ l) → ∃ l, s.todo[t]? = some l ∧ v ∈ l := by
        rintro t v ⟨l, hl, hv⟩
        rw [h2, List.getElem?_set] at hl
        split at hl
        · rename_i e; subst e
          split at hl
          · cases hl; exact ⟨_, h1, by simp [hv]⟩
          · cases hl
        · exact ⟨l, hl, hv⟩
      intro t u v v' hne hv hv'
      exact hI t u v v' hne (sub _ _ hv) (sub _ _ hv')
  rintro t u l ⟨hne, h1, w', h2⟩
  simp only [writeRegion] at h1 h2
  split at h1
  · rename_i w ws ht
    split at h2
    · rename_i v vs hu
      simp only [List.mem_singleton, Prod.mk.injEq, and_true] at h1 h2
      exact hI t u w v hne ⟨_, ht, by simp⟩ ⟨_, hu, by simp⟩ (h1.symm.trans h2.1)
    · simp at h2
  · simp at h1

theorem write_honest : (writeRegion (T := T)).Honest id (fun s (l : Nat) => s.mem[l]?) (fun s t => s.todo[t]?) where
  writes := by
    intro s t s' l h hne
    have h : writeStep s t = some s' := h
    rcases writeStep_inv h with rfl | ⟨w, ws, h1, _, h3⟩
    · exact absurd rfl hne
    · simp only [writeRegion, h1, List.mem_singleton, Prod.mk.injEq, and_true]
      unfold wr at h3
      split at h3
      · by_contra hc
        apply hne
        show s'.mem[l]? = s.mem[l]?
        rw [← Option.some.inj h3, List.getElem?_set_ne (fun e => hc e.symm)]
      · cases h3
  exist := by
    intro s t s' l h
    have h : writeStep s t = some s' := h
    rcases writeStep_inv h with rfl | ⟨w, ws, h1, _, h3⟩
    · rfl
    · unfold wr at h3
      split at h3
      · have e := Option.some.inj h3
        simp only [← e]
        rw [Bool.eq_iff_iff]
        simp
      · cases h3
  reads := by
    intro s1 s2 t hv hex _
    have hlen : s1.mem.length = s2.mem.length := by
      have : ∀ i, i < s1.mem.length ↔ i < s2.mem.length := by
        intro i
        have := hex i
        rw [Bool.eq_iff_iff] at this
        simpa using this
      have a := this s1.mem.length
      have b := this s2.mem.length
      omega
    refine ⟨by simp only [writeRegion, hv], ?_⟩
    simp only [writeRegion, writeStep, rd, hv, wr, id]
    cases e : s2.todo[t]? with
    | none => simp
    | some l =>
      have ht : t < s2.todo.length := (List.getElem?_eq_some_iff.1 e).1
      have ht1 : t < s1.todo.length := (List.getElem?_eq_some_iff.1 (hv.trans e)).1
      cases l with
      | nil => simp [hv, e]
      | cons w ws =>
        simp only [Option.bind_eq_bind, Option.bind_some, hlen]
        by_cases hw : w.1 < s2.mem.length
        · simp [hw, ht, ht1, hlen]
        · simp [hw]

end IntSort

namespace Build
open IntSort

theorem Cells.marks_addr_inj {M : Nat} {cells : List Nat} (h : Cells M cells) : ((marks cells).map Prod.fst).Nodup := by
  rw [List.nodup_iff_injective_getElem]
  have hnd : (marks cells).Nodup := by
    unfold marks
    apply List.Nodup.filterMap
    · intro a b c hc hc'
      simp only [Option.mem_def] at hc hc'
      split at hc
      · split at hc
        · split at hc'
          · split at hc'
            · cases hc; cases hc'; rfl
            · cases hc'
          · cases hc'
        · cases hc
      · cases hc
    · exact List.nodup_range'
  intro i j hij
  have hi := i.2
  have hj := j.2
  simp only [List.length_map] at hi hj
  simp only [List.getElem_map] at hij
  have e : (marks cells)[i.1] = (marks cells)[j.1] := by
    have a := h.mem_marks.1 (List.getElem_mem hi : ((marks cells)[i.1].1, (marks cells)[i.1].2) ∈ marks cells)
    have b := h.mem_marks.1 (List.getElem_mem hj : ((marks cells)[j.1].1, (marks cells)[j.1].2) ∈ marks cells)
    apply Prod.ext hij
    exact a.2.1.trans ((congrArg _ hij).trans b.2.1.symm)
  exact Fin.ext ((List.Nodup.getElem_inj_iff hnd).1 e)

/-- the marking loop, distributed over threads in any way, writes every element at most once -/
theorem Cells.marks_separate {M : Nat} {cells : List Nat} (h : Cells M cells) {wss : List (List (Nat × Nat))}
    (hp : wss.flatten.Perm (marks cells)) : Separate wss := by
  have hn : (wss.flatten.map Prod.fst).Nodup := (hp.map _).nodup_iff.2 h.marks_addr_inj
  rw [List.map_flatten] at hn
  rw [List.nodup_flatten] at hn
  have hd := hn.2
  intro t u w w' hne ⟨l, hl, hw⟩ ⟨l', hl', hw'⟩ he
  rw [List.pairwise_map] at hd
  have key : ∀ (a b : Nat) (la lb : List (Nat × Nat)), a < b → wss[a]? = some la → wss[b]? = some lb →
      ∀ v ∈ la, ∀ v' ∈ lb, v.1 ≠ v'.1 := by
    intro a b la lb hab ha hb v hv v' hv' e
    obtain ⟨ha1, rfl⟩ := List.getElem?_eq_some_iff.1 ha
    obtain ⟨hb1, rfl⟩ := List.getElem?_eq_some_iff.1 hb
    have := List.pairwise_iff_getElem.1 hd a b ha1 hb1 hab
    exact this (List.mem_map.2 ⟨v, hv, rfl⟩) (e ▸ List.mem_map.2 ⟨v', hv', rfl⟩)
  rcases Nat.lt_or_gt_of_ne hne with hlt | hgt
  · exact key t u l l' hlt hl hl' w hw w' hw' he
  · exact key u t l' l hgt hl' hl w' hw' w hw he.symm

section
variable {M : Nat} {cells : List Nat}

theorem repairStep_inv {M t : Nat} {g g' : List RState × List Nat} {r : Nat} (h : repairStep M t g r = some g') :
    ∃ s x, g.1[r]? = some s ∧ rstep (chunkBegin M t r) s g.2 = some x ∧ g' = (g.1.set r x.1, x.2) := by
  unfold repairStep at h
  simp only [Option.bind_eq_bind, Option.bind_eq_some_iff, Option.some.injEq] at h
  obtain ⟨s, hs, x, hx, rfl⟩ := h
  exact ⟨s, x, hs, hx, rfl⟩

theorem repair_reach {t c : Nat} (hc : Chunks M t c) (h : Cells M cells) {g0 g : List RState × List Nat}
    (h0 : GI M t c cells g0) (hr : (repairRegion M t).Reaches g0 g) : GI M t c cells g := by
  refine hr.inv (GI M t c cells) h0 ?_
  intro g r g' hg hst
  have hrt : r < t := by
    obtain ⟨s, _, hs, _⟩ := repairStep_inv hst
    rw [← hg.len]
    exact (List.getElem?_eq_some_iff.1 hs).1
  obtain ⟨g'', e, hg', _⟩ := repairStep_spec hc h hg hrt
  have : g' = g'' := by
    have : repairStep M t g r = some g' := hst
    rw [e] at this; exact (Option.some.inj this).symm
  rw [this]; exact hg'

/-- where a thread of the repair loop with chunk `[b, e)` accesses the array: writes in the chunk, reads at most one further -/
theorem RInv.access {b e : Nat} {s : RState} {a : List Nat} (h : RInv cells b e s a) (hp : ∀ p, s.phase = .load3 p → p = s.i ∨ p = s.i + 1)
    {l : Nat} {w : Bool} (hl : (l, w) ∈ raccess s) : b ≤ l ∧ l ≤ e ∧ b < e ∧ (w = true → l < e ∧ s.i = l ∧ ∃ v, s.phase = .store v) := by
  obtain ⟨i, ph⟩ := s
  cases ph with
  | test => simp [raccess] at hl
  | exit => simp [raccess] at hl
  | load1 =>
    simp only [raccess, List.mem_singleton, Prod.mk.injEq] at hl
    obtain ⟨rfl, rfl⟩ := hl
    obtain ⟨h1, h2, _⟩ := h
    simp only at h1 h2
    exact ⟨h1, by omega, by omega, by simp⟩
  | load2 x =>
    simp only [raccess, List.mem_singleton, Prod.mk.injEq] at hl
    obtain ⟨rfl, rfl⟩ := hl
    obtain ⟨h1, h2, _⟩ := h
    simp only at h1 h2
    exact ⟨by omega, by omega, by omega, by simp⟩
  | load3 p =>
    simp only [raccess, List.mem_singleton, Prod.mk.injEq] at hl
    obtain ⟨rfl, rfl⟩ := hl
    obtain ⟨h1, h2, _⟩ := h
    simp only at h1 h2
    have := hp l rfl
    simp only at this
    exact ⟨by omega, by omega, by omega, by simp⟩
  | store v =>
    simp only [raccess, List.mem_singleton, Prod.mk.injEq] at hl
    obtain ⟨rfl, rfl⟩ := hl
    obtain ⟨h1, h2, _⟩ := h
    simp only at h1 h2
    exact ⟨h1, by omega, by omega, fun _ => ⟨h2, rfl, v, rfl⟩⟩

/-- the chosen reference is one of the two arguments -/
def RefOk (g : List RState × List Nat) : Prop :=
  ∀ (r : Nat) (s : RState), g.1[r]? = some s → ∀ p, s.phase = .load3 p → p = s.i ∨ p = s.i + 1

theorem refOk_reach {t : Nat} {g0 g : List RState × List Nat} (h0 : RefOk g0) (hr : (repairRegion M t).Reaches g0 g) : RefOk g := by
  refine hr.inv RefOk h0 ?_
  intro g r g' hg hst
  obtain ⟨s, x, hs, hx, rfl⟩ := repairStep_inv hst
  intro q u hu p hp
  simp only [List.getElem?_set] at hu
  split at hu
  · rename_i e
    subst e
    split at hu
    · cases hu
      obtain ⟨i, ph⟩ := s
      cases ph <;> simp only [rstep] at hx
      · split at hx <;> (cases hx; simp at hp)
      · simp only [Option.bind_eq_bind, Option.bind_eq_some_iff] at hx
        obtain ⟨_, _, hx⟩ := hx
        cases hx; simp at hp
      · simp only [Option.bind_eq_bind, Option.bind_eq_some_iff] at hx
        obtain ⟨y, _, hx⟩ := hx
        cases hx
        simp only [RPhase.load3.injEq] at hp
        subst hp
        simp only
        split
        · exact Or.inr rfl
        · exact Or.inl rfl
      · simp only [Option.bind_eq_bind, Option.bind_eq_some_iff] at hx
        obtain ⟨_, _, hx⟩ := hx
        cases hx; simp at hp
      · simp only [Option.bind_eq_bind, Option.bind_eq_some_iff] at hx
        obtain ⟨_, _, hx⟩ := hx
        cases hx; simp at hp
      · cases hx; simp at hp
    · cases hu
  · exact hg q u hu p hp

theorem refOk_init {t : Nat} {a : List Nat} : RefOk ((List.range t).map (rinit M t), a) := by
  intro r s hs p hp
  simp only [List.getElem?_map, Option.map_eq_some_iff] at hs
  obtain ⟨q, _, rfl⟩ := hs
  simp [rinit] at hp

/-- every race of the repair loops: the writer is the next thread and the location is the first element of its chunk -/
theorem repair_conflict {t c : Nat} (hc : Chunks M t c) (h : Cells M cells) {g0 g : List RState × List Nat}
    (h0 : GI M t c cells g0) (h0' : RefOk g0) (hr : (repairRegion M t).Reaches g0 g) {w r l : Nat}
    (hcf : (repairRegion M t).Conflict g w r l) :
    w = r + 1 ∧ w < t ∧ l = c * w ∧ l < M ∧ (l, false) ∈ (repairRegion M t).access g r := by
  have hg := repair_reach hc h h0 hr
  have hg' := refOk_reach h0' hr
  obtain ⟨hne, h1, b, h2⟩ := hcf
  simp only [repairRegion] at h1 h2
  split at h1
  · rename_i s hs
    split at h2
    · rename_i u hu
      have hw : w < t := by rw [← hg.len]; exact (List.getElem?_eq_some_iff.1 hs).1
      have hrt : r < t := by rw [← hg.len]; exact (List.getElem?_eq_some_iff.1 hu).1
      obtain ⟨s', hs', hI⟩ := hg.inv w hw
      rw [hs] at hs'; cases hs'
      obtain ⟨u', hu', hJ⟩ := hg.inv r hrt
      rw [hu] at hu'; cases hu'
      obtain ⟨a1, a2, a3, a4⟩ := hI.access (hg' w s hs) h1
      obtain ⟨b1, b2, b3, b4⟩ := hJ.access (hg' r u hu) h2
      have a5 := (a4 rfl).1
      rcases Nat.lt_or_gt_of_ne hne with hlt | hgt
      · have : c * (w + 1) ≤ c * r := Nat.mul_le_mul_left _ hlt
        omega
      · have e1 : c * (r + 1) ≤ c * w := Nat.mul_le_mul_left _ hgt
        have hwr : w = r + 1 := by
          by_contra hh
          have : c * (r + 2) ≤ c * w := Nat.mul_le_mul_left _ (by omega)
          have : c * (r + 2) = c * (r + 1) + c := by ring
          have := hc.pos
          omega
        refine ⟨hwr, hw, by subst hwr; omega, by omega, ?_⟩
        have hb : b = false := by
          cases b with
          | false => rfl
          | true => have := (b4 rfl).1; omega
        subst hb
        simp only [repairRegion, hu]
        exact h2
    · simp at h2
  · simp at h1

/-- one step of thread `r` only changes its own state -/
theorem repair_move {t c : Nat} (hc : Chunks M t c) {g : List RState × List Nat} {r : Nat} (hr : r < t) {s s' : RState}
    {a' : List Nat} (hs : g.1[r]? = some s) (hst : rstep (min M (c * r)) s g.2 = some (s', a')) :
    ∃ g', (repairRegion M t).step g r = some g' ∧ g'.1[r]? = some s' ∧ (∀ q, q ≠ r → g'.1[q]? = g.1[q]?) ∧ g'.2 = a' := by
  refine ⟨(g.1.set r s', a'), ?_, ?_, ?_, rfl⟩
  · show repairStep M t g r = _
    unfold repairStep
    rw [obind (show rd g.1 r = some s from hs), hc.be r hr, obind hst]
  · simp only
    rw [List.getElem?_set_self (List.getElem?_eq_some_iff.1 hs).1]
  · intro q hq
    simp only
    rw [List.getElem?_set_ne (fun e => hq e.symm)]

/-- a thread standing at the loop test with index `b + j + 1` (`b` the begin of its chunk) reaches the assignment to element `b` -/
theorem reach_store {t c : Nat} (hc : Chunks M t c) (h : Cells M cells) {r : Nat} (hr : r < t) (j : Nat) :
    ∀ {g : List RState × List Nat}, GI M t c cells g → g.1[r]? = some { i := min M (c * r) + j + 1, phase := .test } →
      ∃ g' v, (repairRegion M t).Reaches g g' ∧ g'.1[r]? = some { i := min M (c * r), phase := .store v } ∧
        ∀ q, q ≠ r → g'.1[q]? = g.1[q]? := by
  induction j with
  | zero =>
    intro g hg hs
    obtain ⟨s0, e0, hI⟩ := hg.inv r hr
    rw [hs] at e0; cases e0
    obtain ⟨_, h2, _⟩ := hI
    simp only [Nat.add_zero] at h2
    generalize hb : min M (c * r) = b at *
    have hlen := hg.part.1
    obtain ⟨g1, r1, s1, o1, m1⟩ := repair_move hc hr (s' := { i := b, phase := .load1 }) (a' := g.2) hs (by simp [rstep, hb])
    obtain ⟨x, hx⟩ : ∃ x, g.2[b]? = some x := ⟨_, List.getElem?_eq_getElem (by omega)⟩
    obtain ⟨y, hy⟩ : ∃ y, g.2[b + 1]? = some y := ⟨_, List.getElem?_eq_getElem (by omega)⟩
    obtain ⟨g2, r2, s2, o2, m2⟩ := repair_move hc hr (s' := { i := b, phase := .load2 x }) (a' := g.2) s1 (by simp [rstep, rd, m1, hx])
    obtain ⟨g3, r3, s3, o3, m3⟩ := repair_move hc hr (s' := { i := b, phase := .load3 (if y < x then b + 1 else b) }) (a' := g.2) s2
      (by simp [rstep, rd, m2, hy])
    obtain ⟨v, hv⟩ : ∃ v, g.2[if y < x then b + 1 else b]? = some v := by split <;> exact ⟨_, by assumption⟩
    obtain ⟨g4, r4, s4, o4, m4⟩ := repair_move hc hr (s' := { i := b, phase := .store v }) (a' := g.2) s3 (by simp [rstep, rd, m3, hv])
    exact ⟨g4, v, (((Region.Reaches.single r1).snoc r2).snoc r3).snoc r4, s4, fun q hq => by rw [o4 q hq, o3 q hq, o2 q hq, o1 q hq]⟩
  | succ j ih =>
    intro g hg hs
    obtain ⟨s0, e0, hI⟩ := hg.inv r hr
    rw [hs] at e0; cases e0
    obtain ⟨_, h2, _⟩ := hI
    simp only at h2
    generalize hb : min M (c * r) = b at *
    have hlen := hg.part.1
    obtain ⟨g1, r1, s1, o1, m1⟩ := repair_move hc hr (s' := { i := b + j + 1, phase := .load1 }) (a' := g.2) hs
      (by simp [rstep, hb]; omega)
    obtain ⟨x, hx⟩ : ∃ x, g.2[b + j + 1]? = some x := ⟨_, List.getElem?_eq_getElem (by omega)⟩
    obtain ⟨y, hy⟩ : ∃ y, g.2[b + j + 1 + 1]? = some y := ⟨_, List.getElem?_eq_getElem (by omega)⟩
    obtain ⟨g2, r2, s2, o2, m2⟩ := repair_move hc hr (s' := { i := b + j + 1, phase := .load2 x }) (a' := g.2) s1 (by simp [rstep, rd, m1, hx])
    obtain ⟨g3, r3, s3, o3, m3⟩ := repair_move hc hr (s' := { i := b + j + 1, phase := .load3 (if y < x then b + j + 1 + 1 else b + j + 1) })
      (a' := g.2) s2 (by simp [rstep, rd, m2, hy])
    obtain ⟨v, hv⟩ : ∃ v, g.2[if y < x then b + j + 1 + 1 else b + j + 1]? = some v := by split <;> exact ⟨_, by assumption⟩
    obtain ⟨g4, r4, s4, o4, m4⟩ := repair_move hc hr (s' := { i := b + j + 1, phase := .store v }) (a' := g.2) s3 (by simp [rstep, rd, m3, hv])
    obtain ⟨g5, r5, s5, o5, m5⟩ := repair_move hc hr (s' := { i := b + j + 1, phase := .test }) (a' := g.2.set (b + j + 1) v) s4
      (by simp only [rstep, m4, wr]; rw [if_pos (by omega)]; rfl)
    have hreach := ((((Region.Reaches.single r1).snoc r2).snoc r3).snoc r4).snoc r5
    obtain ⟨g6, v', r6, s6, o6⟩ := ih (repair_reach hc h hg hreach) s5
    exact ⟨g6, v', hreach.trans r6, s6, fun q hq => by rw [o6 q hq, o5 q hq, o4 q hq, o3 q hq, o2 q hq, o1 q hq]⟩

/-- two non-empty neighbouring chunks: a race is reached -/
theorem repair_race {t c : Nat} (hc : Chunks M t c) (h : Cells M cells) {a2 : List Nat}
    (h0 : GI M t c cells ((List.range t).map (rinit M t), a2)) {r : Nat} (hr : r + 1 < t) (hne : c * (r + 1) < M) :
    ∃ g, (repairRegion M t).Reaches ((List.range t).map (rinit M t), a2) g ∧ (repairRegion M t).Conflict g (r + 1) r (c * (r + 1)) := by
  have hpos := hc.pos
  have e2 : c * (r + 1 + 1) = c * (r + 1) + c := by ring
  have e1 : c * (r + 1) = c * r + c := by ring
  have hs : ((List.range t).map (rinit M t))[r + 1]? =
      some { i := min M (c * (r + 1)) + (min M (c * (r + 1 + 1)) - c * (r + 1) - 1) + 1, phase := .test } := by
    rw [List.getElem?_map, List.getElem?_range hr, Option.map_some, hc.ini (r + 1) hr]
    congr 2
    omega
  obtain ⟨g1, v, r1, s1, o1⟩ := reach_store hc h hr _ h0 hs
  have hs0 : g1.1[r]? = some { i := c * (r + 1), phase := .test } := by
    rw [o1 r (by omega)]
    show ((List.range t).map (rinit M t))[r]? = _
    rw [List.getElem?_map, List.getElem?_range (by omega), Option.map_some, hc.ini r (by omega)]
    congr 2
    omega
  have hg1 := repair_reach hc h h0 r1
  have hlen := hg1.part.1
  obtain ⟨g2, r2, s2, o2, m2⟩ := repair_move hc (show r < t by omega) (s' := { i := c * (r + 1) - 1, phase := .load1 }) (a' := g1.2) hs0
    (by simp only [rstep]; rw [if_pos (by omega)])
  obtain ⟨x, hx⟩ : ∃ x, g1.2[c * (r + 1) - 1]? = some x := ⟨_, List.getElem?_eq_getElem (by omega)⟩
  obtain ⟨g3, r3, s3, o3, m3⟩ := repair_move hc (show r < t by omega) (s' := { i := c * (r + 1) - 1, phase := .load2 x }) (a' := g1.2) s2
    (by simp [rstep, rd, m2, hx])
  refine ⟨g3, (r1.snoc r2).snoc r3, by omega, ?_, false, ?_⟩
  · simp only [repairRegion]
    rw [o3 (r + 1) (by omega), o2 (r + 1) (by omega), s1]
    simp only [raccess, List.mem_singleton, Prod.mk.injEq, and_true]
    omega
  · simp only [repairRegion, s3, raccess, List.mem_singleton, Prod.mk.injEq, and_true]
    omega

/-- the chunk size is smaller than the number of cells iff there are two non-empty chunks -/
theorem Chunks.lt_iff {t c : Nat} (hM1 : 1 ≤ M) (hM : M < 2147483648) (ht : 1 ≤ t) (ht2 : t < 2147483648) (hc : Chunks M t c) :
    c = (M + t - 1) / t ∧ (c < M ↔ 2 ≤ t ∧ 2 ≤ M) := by
  have e : u32 (M + t - 1) = M + t - 1 := by
    unfold u32; exact Nat.mod_eq_of_lt (by omega)
  have hs : c = (M + t - 1) / t := by rw [← hc.size, chunkSize, e]
  refine ⟨hs, ?_⟩
  rw [hs, Nat.div_lt_iff_lt_mul (by omega)]
  constructor
  · intro hlt
    constructor
    · by_contra hh
      have : t = 1 := by omega
      subst this; omega
    · by_contra hh
      have : M = 1 := by omega
      subst this; omega
  · rintro ⟨h1, h2⟩
    obtain ⟨k, rfl⟩ := Nat.exists_eq_add_of_le h1
    obtain ⟨j, rfl⟩ := Nat.exists_eq_add_of_le h2
    have : (2 + j) * (2 + k) = 4 + 2 * j + 2 * k + j * k := by ring
    omega

theorem repair_honest {t : Nat} : (repairRegion M t).Honest id (fun g (l : Nat) => g.2[l]?) (fun g r => g.1[r]?) where
  writes := by
    intro g r g' l h hne
    have h : repairStep M t g r = some g' := h
    obtain ⟨s, x, hs, hx, rfl⟩ := repairStep_inv h
    simp only [repairRegion, hs]
    obtain ⟨i, ph⟩ := s
    cases ph <;> simp only [rstep] at hx
    · split at hx <;> (cases hx; exact absurd rfl hne)
    · simp only [Option.bind_eq_bind, Option.bind_eq_some_iff] at hx
      obtain ⟨_, _, hx⟩ := hx
      cases hx; exact absurd rfl hne
    · simp only [Option.bind_eq_bind, Option.bind_eq_some_iff] at hx
      obtain ⟨_, _, hx⟩ := hx
      cases hx; exact absurd rfl hne
    · simp only [Option.bind_eq_bind, Option.bind_eq_some_iff] at hx
      obtain ⟨_, _, hx⟩ := hx
      cases hx; exact absurd rfl hne
    · simp only [Option.bind_eq_bind, Option.bind_eq_some_iff] at hx
      obtain ⟨a', ha, hx⟩ := hx
      cases hx
      unfold wr at ha
      split at ha
      · cases ha
        simp only [raccess, List.mem_singleton, Prod.mk.injEq, and_true]
        by_contra hc
        exact hne (List.getElem?_set_ne (fun e => hc e.symm))
      · cases ha
    · cases hx; exact absurd rfl hne
  exist := by
    intro g r g' l h
    have h : repairStep M t g r = some g' := h
    obtain ⟨s, x, hs, hx, rfl⟩ := repairStep_inv h
    have hlen : x.2.length = g.2.length := by
      obtain ⟨i, ph⟩ := s
      cases ph <;> simp only [rstep] at hx
      · split at hx <;> (cases hx; rfl)
      · simp only [Option.bind_eq_bind, Option.bind_eq_some_iff] at hx
        obtain ⟨_, _, hx⟩ := hx
        cases hx; rfl
      · simp only [Option.bind_eq_bind, Option.bind_eq_some_iff] at hx
        obtain ⟨_, _, hx⟩ := hx
        cases hx; rfl
      · simp only [Option.bind_eq_bind, Option.bind_eq_some_iff] at hx
        obtain ⟨_, _, hx⟩ := hx
        cases hx; rfl
      · simp only [Option.bind_eq_bind, Option.bind_eq_some_iff] at hx
        obtain ⟨a', ha, hx⟩ := hx
        cases hx
        unfold wr at ha
        split at ha
        · cases ha; simp
        · cases ha
      · cases hx; rfl
    simp only
    rw [Bool.eq_iff_iff]
    simp [hlen]
  reads := by
    intro g1 g2 r hv hex hrd
    have hlen : g1.2.length = g2.2.length := by
      have : ∀ i, i < g1.2.length ↔ i < g2.2.length := by
        intro i
        have := hex i
        rw [Bool.eq_iff_iff] at this
        simpa using this
      have a := this g1.2.length
      have b := this g2.2.length
      omega
    refine ⟨by simp only [repairRegion, hv], ?_⟩
    simp only [repairRegion, repairStep, rd, hv, id] at hrd ⊢
    cases e : g2.1[r]? with
    | none => simp
    | some s =>
      have ht : r < g2.1.length := (List.getElem?_eq_some_iff.1 e).1
      have ht1 : r < g1.1.length := (List.getElem?_eq_some_iff.1 (hv.trans e)).1
      rw [e] at hrd
      obtain ⟨i, ph⟩ := s
      cases ph <;> simp only [raccess, List.mem_singleton, Prod.mk.injEq, and_true, forall_eq, Bool.false_eq_true, and_false] at hrd <;>
        simp only [rstep, rd, wr, Option.bind_eq_bind, Option.bind_some, raccess]
      · split <;> simp [ht, ht1]
      · rw [hrd]; cases g2.2[i]? <;> simp [ht, ht1]
      · rw [hrd]; cases g2.2[i + 1]? <;> simp [ht, ht1]
      · rw [hrd]; rename_i p; cases g2.2[p]? <;> simp [ht, ht1]
      · rw [hlen]
        by_cases hi : i < g2.2.length
        · simp [hi, ht, ht1, hlen]
        · simp [hi]
      · simp [ht, ht1]

end
end Build
end Girgs
