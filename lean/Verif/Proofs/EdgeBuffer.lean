import Verif.Model.EdgeBuffer
import Verif.Spec.Merge
import Mathlib.Data.List.Basic
import Mathlib.Tactic.Linarith
/- C24: the edge buffers lose and duplicate nothing. -/
namespace Girgs.EdgeBuffer
open Spec
variable {E : Type}

/-- what a thread has pushed but not yet copied to the result -/
def Th.pending (th : Th E) : List E :=
  match th.pc with
  | .idle => th.buf
  | .acquire => th.buf
  | .copy k => th.buf.drop k
  | .release => []
  | .clear => []

/-- thread `t` is between lock and unlock -/
def Th.inside (th : Th E) : Prop := (∃ k, th.pc = .copy k) ∨ th.pc = .release

/-- invariant of all executions -/
structure Inv (block : Nat) (calls : List (List E)) (s : State E) : Prop where
  len : s.ths.length = calls.length
  mutex : ∀ (t : Nat) (th : Th E), s.ths[t]? = some th → (th.inside ↔ s.owner = some t)
  holder : ∀ o, s.owner = some o → ∃ (t : Nat) (th : Th E), s.ths[t]? = some th ∧ th.inside
  merge : ∃ tagged : List (Nat × E), tagged.map Prod.snd = s.result ∧ (∀ p ∈ tagged, p.1 < calls.length) ∧
    ∀ t th l, s.ths[t]? = some th → calls[t]? = some l →
      (tagged.filter fun p => p.1 = t).map Prod.snd ++ th.pending ++ th.todo = l
  room : ∀ th ∈ s.ths, (th.pc = .idle → th.buf.length < block) ∧ th.buf.length ≤ block

theorem init_inv (block : Nat) (hb : 1 ≤ block) (calls : List (List E)) : Inv block calls (init calls) := by
  refine ⟨by simp [init], ?_, ?_, ⟨[], rfl, by simp, ?_⟩, ?_⟩
  · intro t th h
    simp only [init, List.getElem?_map, Option.map_eq_some_iff] at h
    obtain ⟨l, _, rfl⟩ := h
    simp [Th.inside, init]
  · intro o h
    cases h
  · intro t th l h hl
    simp only [init, List.getElem?_map, Option.map_eq_some_iff] at h
    obtain ⟨l', hl', rfl⟩ := h
    rw [hl] at hl'
    simpa [Th.pending] using hl'.symm
  · intro th h
    simp only [init, List.mem_map] at h
    obtain ⟨l, _, rfl⟩ := h
    simp; omega

/-- change of one thread that keeps result and mutual exclusion bookkeeping -/
theorem Inv.set {block : Nat} {calls : List (List E)} {s : State E} (h : Inv block calls s) {t : Nat} {th th' : Th E}
    (ht : s.ths[t]? = some th) (owner : Option Nat)
    (hmu : (th'.inside ↔ owner = some t) ∧ ∀ t', t' ≠ t → (s.owner = some t' ↔ owner = some t'))
    (hp : th'.pending ++ th'.todo = th.pending ++ th.todo)
    (hr : (th'.pc = .idle → th'.buf.length < block) ∧ th'.buf.length ≤ block) :
    Inv block calls { ths := s.ths.set t th', owner := owner, result := s.result } := by
  have htl : t < s.ths.length := (List.getElem?_eq_some_iff.1 ht).1
  refine ⟨by simp [h.len], ?_, ?_, ?_, ?_⟩
  · intro t' th2 h2
    simp only [List.getElem?_set] at h2
    split at h2
    · rename_i e; subst e
      simp only [htl, if_true, Option.some.injEq] at h2
      subst h2; exact hmu.1
    · rename_i e
      rw [← hmu.2 t' (fun e' => e e'.symm)]
      exact h.mutex t' th2 h2
  · intro o ho
    simp only at ho
    by_cases e : o = t
    · subst e
      exact ⟨o, th', by simp [htl], hmu.1.2 ho⟩
    · have ho' := (hmu.2 o e).2 ho
      obtain ⟨t2, th2, h2, h3⟩ := h.holder o ho'
      have e2 : t2 = o := by
        have := (h.mutex t2 th2 h2).1 h3
        rw [ho', Option.some.injEq] at this
        exact this.symm
      subst e2
      exact ⟨t2, th2, by simp only [List.getElem?_set]; rw [if_neg (fun e' => e e'.symm)]; exact h2, h3⟩
  · obtain ⟨tg, h1, h2, h3⟩ := h.merge
    refine ⟨tg, h1, h2, ?_⟩
    intro t' th2 l h4 h5
    simp only [List.getElem?_set] at h4
    split at h4
    · rename_i e; subst e
      simp only [htl, if_true, Option.some.injEq] at h4
      subst h4
      rw [List.append_assoc, hp, ← List.append_assoc]
      exact h3 _ _ _ ht h5
    · exact h3 _ _ _ h4 h5
  · intro th2 h2
    rcases List.mem_or_eq_of_mem_set h2 with h2 | h2
    · exact h.room th2 h2
    · subst h2; exact hr

theorem step_inv {block : Nat} {calls : List (List E)} {s : State E} (hb : 1 ≤ block) (h : Inv block calls s) {t : Nat}
    (ht : t < calls.length) : ∃ s', step block s t = some s' ∧ Inv block calls s' := by
  have htl : t < s.ths.length := by rw [h.len]; exact ht
  obtain ⟨th, hth⟩ : ∃ th, s.ths[t]? = some th := ⟨_, List.getElem?_eq_getElem htl⟩
  have hmem := List.mem_of_getElem? hth
  have hmx := h.mutex t th hth
  unfold step
  rw [obind (show rd s.ths t = some th from hth)]
  cases hpc : th.pc with
  | idle =>
    cases htd : th.todo with
    | nil => exact ⟨s, rfl, h⟩
    | cons e es =>
      refine ⟨_, rfl, ?_⟩
      have hni : ¬ s.owner = some t := by
        rw [← hmx]; simp [Th.inside, hpc]
      have hlt := (h.room th hmem).1 hpc
      refine h.set hth s.owner ⟨?_, fun _ _ => Iff.rfl⟩ ?_ ?_
      · constructor
        · intro hi
          exfalso
          unfold Th.inside at hi
          simp only at hi
          split at hi <;> simp at hi
        · intro hi; exact absurd hi hni
      · unfold Th.pending
        rw [hpc, htd]
        simp only
        by_cases hq : (th.buf ++ [e]).length = block
        · rw [if_pos hq]; simp
        · rw [if_neg hq]; simp
      · simp only [List.length_append, List.length_singleton]
        constructor
        · intro hi
          split at hi
          · cases hi
          · omega
        · omega
  | acquire =>
    cases how : s.owner with
    | some o => exact ⟨s, rfl, h⟩
    | none =>
      refine ⟨_, rfl, ?_⟩
      refine h.set hth (some t) ⟨?_, ?_⟩ ?_ ?_
      · simp [Th.inside]
      · intro t' hne
        rw [how]
        simp [Ne.symm hne]
      · simp [Th.pending, hpc]
      · exact ⟨by simp, (h.room th hmem).2⟩
  | copy k =>
    have hown : s.owner = some t := hmx.1 (Or.inl ⟨k, hpc⟩)
    cases hbk : th.buf[k]? with
    | none =>
      simp only [hbk]
      refine ⟨_, rfl, ?_⟩
      refine h.set hth s.owner ⟨?_, fun _ _ => Iff.rfl⟩ ?_ ⟨by simp, (h.room th hmem).2⟩
      · simp [Th.inside, hown]
      · have : th.buf.length ≤ k := List.getElem?_eq_none_iff.1 hbk
        simp [Th.pending, hpc, List.drop_eq_nil_of_le this]
    | some e =>
      simp only [hbk]
      refine ⟨_, rfl, ?_⟩
      have hk : k < th.buf.length := (List.getElem?_eq_some_iff.1 hbk).1
      have hdrop : th.buf.drop k = e :: th.buf.drop (k + 1) := by
        rw [List.drop_eq_getElem_cons hk]
        congr 1
        exact (List.getElem?_eq_some_iff.1 hbk).2
      refine ⟨by simp [h.len], ?_, ?_, ?_, ?_⟩
      · intro t' th2 h2
        simp only [List.getElem?_set] at h2
        split at h2
        · rename_i e'; subst e'
          simp only [htl, if_true, Option.some.injEq] at h2
          subst h2
          simp [Th.inside, hown]
        · exact h.mutex t' th2 h2
      · intro o _
        exact ⟨t, _, by simp only [List.getElem?_set, if_true, htl]; rfl, Or.inl ⟨k + 1, rfl⟩⟩
      · obtain ⟨tg, h1, h2, h3⟩ := h.merge
        refine ⟨tg ++ [(t, e)], by simp [h1], ?_, ?_⟩
        · intro p hp
          rcases List.mem_append.1 hp with hp | hp
          · exact h2 p hp
          · simp only [List.mem_singleton] at hp; subst hp; exact ht
        · intro t' th2 l h4 h5
          simp only [List.getElem?_set] at h4
          rw [List.filter_append, List.map_append]
          split at h4
          · rename_i e'; subst e'
            simp only [htl, if_true, Option.some.injEq] at h4
            subst h4
            have := h3 _ _ _ hth h5
            rw [← this]
            simp [Th.pending, hpc, hdrop]
          · rename_i e'
            have := h3 _ _ _ h4 h5
            rw [← this]
            simp [e']
      · intro th2 h2
        rcases List.mem_or_eq_of_mem_set h2 with h2 | h2
        · exact h.room th2 h2
        · subst h2; exact ⟨by simp, (h.room th hmem).2⟩
  | release =>
    refine ⟨_, rfl, ?_⟩
    have hown : s.owner = some t := hmx.1 (Or.inr hpc)
    refine h.set hth none ⟨by simp [Th.inside], ?_⟩ (by simp [Th.pending, hpc]) ⟨by simp, (h.room th hmem).2⟩
    intro t' hne
    rw [hown]; simp [Ne.symm hne]
  | clear =>
    refine ⟨_, rfl, ?_⟩
    have hni : ¬ s.owner = some t := by
      rw [← hmx]; simp [Th.inside, hpc]
    refine h.set hth s.owner ⟨?_, fun _ _ => Iff.rfl⟩ (by simp [Th.pending, hpc]) ⟨fun _ => hb, by simp⟩
    simpa [Th.inside] using hni

theorem run_inv {block : Nat} {calls : List (List E)} (hb : 1 ≤ block) (sched : List Nat) (hs : ∀ t ∈ sched, t < calls.length) :
    ∀ s : State E, Inv block calls s → ∃ s', run block s sched = some s' ∧ Inv block calls s' := by
  induction sched with
  | nil => intro s h; exact ⟨s, rfl, h⟩
  | cons t sched ih =>
    intro s h
    obtain ⟨s1, e1, h1⟩ := step_inv hb h (hs t (by simp))
    obtain ⟨s2, e2, h2⟩ := ih (fun t ht => hs t (by simp [ht])) s1 h1
    refine ⟨s2, ?_, h2⟩
    unfold run
    rw [List.foldlM_cons, obind e1]
    exact e2

theorem step_length {block : Nat} {s s' : State E} {t : Nat} (h : step block s t = some s') :
    t < s.ths.length ∧ s'.ths.length = s.ths.length := by
  unfold step at h
  cases hr : rd s.ths t with
  | none => rw [hr] at h; cases h
  | some th =>
    have htl : t < s.ths.length := (List.getElem?_eq_some_iff.1 (show s.ths[t]? = some th from hr)).1
    rw [obind hr] at h
    refine ⟨htl, ?_⟩
    split at h
    · split at h
      · cases h; rfl
      · cases h; simp
    · split at h
      · cases h; simp
      · cases h; rfl
    · split at h
      · cases h; simp
      · cases h; simp
    · cases h; simp
    · cases h; simp

/-- a schedule that runs names existing threads only -/
theorem run_range {block : Nat} (sched : List Nat) : ∀ (s s' : State E), run block s sched = some s' → ∀ t ∈ sched, t < s.ths.length := by
  induction sched with
  | nil => intro s s' _ t ht; cases ht
  | cons a sched ih =>
    intro s s' h t ht
    unfold run at h
    rw [List.foldlM_cons] at h
    cases e1 : step block s a with
    | none => rw [e1] at h; cases h
    | some s1 =>
      rw [obind e1] at h
      obtain ⟨h1, h2⟩ := step_length e1
      rcases List.mem_cons.1 ht with rfl | ht
      · exact h1
      · rw [← h2]; exact ih s1 s' h t ht

theorem reach_inv {block : Nat} {calls : List (List E)} (hb : 1 ≤ block) {sched : List Nat} {s : State E}
    (h : run block (init calls) sched = some s) : Inv block calls s := by
  have hr := run_range sched _ _ h
  simp only [init, List.length_map] at hr
  obtain ⟨s', e, hi⟩ := run_inv hb sched hr _ (init_inv block hb calls)
  rw [h] at e
  cases e; exact hi

theorem filter_tagged (bufs : List (List E)) : ∀ (s t : Nat),
    ((bufs.zipIdx s).flatMap fun p => p.1.map fun e => (p.2, e)).filter (fun p => p.1 = t) =
      match bufs[t - s]? with
      | some l => if s ≤ t then l.map fun e => (t, e) else []
      | none => [] := by
  induction bufs with
  | nil => intro s t; rfl
  | cons b bufs ih =>
    intro s t
    rw [List.zipIdx_cons, List.flatMap_cons, List.filter_append, ih]
    by_cases h : s = t
    · subst h
      have e1 : List.filter (fun p => decide (p.1 = s)) (b.map fun e => (s, e)) = b.map fun e => (s, e) := by
        rw [List.filter_eq_self]
        intro p hp
        obtain ⟨e, _, rfl⟩ := List.mem_map.1 hp
        simp
      rw [e1]
      have e2 : ¬ s + 1 ≤ s := by omega
      simp only [e2, if_false, Nat.sub_self, List.getElem?_cons_zero, le_refl, if_true]
      split <;> simp
    · have e1 : List.filter (fun p => decide (p.1 = t)) (b.map fun e => (s, e)) = [] := by
        rw [List.filter_eq_nil_iff]
        intro p hp
        obtain ⟨e, _, rfl⟩ := List.mem_map.1 hp
        simpa using h
      rw [e1, List.nil_append]
      by_cases h2 : s < t
      · have : t - s = (t - (s + 1)) + 1 := by omega
        rw [this, List.getElem?_cons_succ]
        split
        · rw [if_pos (by omega), if_pos (by omega)]
        · rfl
      · have e2 : ¬ s + 1 ≤ t := by omega
        have e3 : ¬ s ≤ t := by omega
        simp only [e2, e3, if_false]
        split <;> split <;> rfl

/-- C24 core -/
theorem Run.isMerge {block : Nat} {calls : List (List E)} (hb : 1 ≤ block) {out : List E} (h : Run block calls out) :
    IsMerge calls out := by
  obtain ⟨sched, s, hrun, hfin, rfl⟩ := h
  have hi := reach_inv hb hrun
  obtain ⟨tg, h1, h2, h3⟩ := hi.merge
  refine ⟨tg ++ ((s.ths.map Th.buf).zipIdx 0).flatMap fun p => p.1.map fun e => (p.2, e), ?_, ?_, ?_⟩
  · rw [List.map_append, h1, finalFlush]
    congr 1
    rw [List.map_flatMap]
    have : ∀ (L : List (List E)) (k : Nat), (L.zipIdx k).flatMap (fun p => (p.1.map fun e => (p.2, e)).map Prod.snd) = L.flatten := by
      intro L
      induction L with
      | nil => intro k; rfl
      | cons l L ih => intro k; rw [List.zipIdx_cons, List.flatMap_cons, ih, List.flatten_cons]; simp
    exact this _ _
  · intro p hp
    rcases List.mem_append.1 hp with hp | hp
    · exact h2 p hp
    · obtain ⟨q, hq, hpq⟩ := List.mem_flatMap.1 hp
      obtain ⟨e, _, rfl⟩ := List.mem_map.1 hpq
      have := List.mem_zipIdx hq
      rw [← hi.len]
      simp only [List.length_map] at this
      show q.2 < _
      omega
  · intro t l hl
    have htl : t < s.ths.length := by rw [hi.len]; exact (List.getElem?_eq_some_iff.1 hl).1
    obtain ⟨th, hth⟩ : ∃ th, s.ths[t]? = some th := ⟨_, List.getElem?_eq_getElem htl⟩
    have h4 := h3 t th l hth hl
    obtain ⟨f1, f2⟩ := hfin th (List.mem_of_getElem? hth)
    rw [List.filter_append, List.map_append, filter_tagged]
    simp only [Nat.sub_zero, List.getElem?_map, hth, Option.map_some, Nat.zero_le, if_true]
    rw [← h4, f2]
    simp [Th.pending, f1]

theorem IsMerge.perm {calls : List (List E)} {out : List E} (h : IsMerge calls out) : out.Perm calls.flatten := by
  obtain ⟨tg, h1, h2, h3⟩ := h
  have key : ∀ (calls : List (List E)) (s : Nat) (tg : List (Nat × E)), (∀ p ∈ tg, s ≤ p.1 ∧ p.1 < s + calls.length) →
      (∀ t l, calls[t]? = some l → (tg.filter fun p => p.1 = s + t).map Prod.snd = l) → (tg.map Prod.snd).Perm calls.flatten := by
    intro calls
    induction calls with
    | nil =>
      intro s tg h _
      cases tg with
      | nil => simp
      | cons p tg => have := h p (by simp); simp at this; omega
    | cons l calls ih =>
      intro s tg h hf
      have h0 := hf 0 l rfl
      have hperm := List.filter_append_perm (fun p : Nat × E => p.1 = s) tg
      have e2 := ih (s + 1) (tg.filter fun p => !decide (p.1 = s)) (by
        intro p hp
        have hp' := List.mem_filter.1 hp
        have := h p hp'.1
        simp only [List.length_cons, Bool.not_eq_true', decide_eq_false_iff_not] at this hp'
        omega) (by
        intro t l' hl'
        rw [List.filter_filter]
        have e3 := hf (t + 1) l' (by simpa using hl')
        rw [← e3]
        congr 1
        apply List.filter_congr
        intro p _
        simp only [← Bool.decide_and, ← decide_not]
        have : (p.1 = s + 1 + t ∧ ¬p.1 = s) ↔ p.1 = s + (t + 1) := by omega
        exact decide_eq_decide.2 this)
      rw [List.flatten_cons, ← h0]
      refine ((hperm.map Prod.snd).symm).trans ?_
      rw [List.map_append]
      exact List.Perm.append_left _ e2
  rw [← h1]
  refine key calls 0 tg (fun p hp => ⟨Nat.zero_le _, by simpa using h2 p hp⟩) ?_
  intro t l hl
  simpa using h3 t l hl

/-! ### without full blocks -/

structure Quiet (block : Nat) (calls : List (List E)) (s : State E) : Prop where
  len : s.ths.length = calls.length
  res : s.result = []
  th : ∀ (t : Nat) (th : Th E) (l : List E), s.ths[t]? = some th → calls[t]? = some l → th.pc = .idle ∧ th.buf ++ th.todo = l

theorem quiet_step {block : Nat} {calls : List (List E)} (hsm : ∀ l ∈ calls, l.length < block) {s s' : State E}
    (h : Quiet block calls s) {t : Nat} (hs : step block s t = some s') : Quiet block calls s' := by
  have htl := (step_length hs).1
  obtain ⟨th, hth⟩ : ∃ th, s.ths[t]? = some th := ⟨_, List.getElem?_eq_getElem htl⟩
  obtain ⟨l, hl⟩ : ∃ l, calls[t]? = some l := ⟨_, List.getElem?_eq_getElem (by rw [← h.len]; exact htl)⟩
  obtain ⟨h1, h2⟩ := h.th t th l hth hl
  unfold step at hs
  rw [obind (show rd s.ths t = some th from hth)] at hs
  simp only [h1] at hs
  split at hs
  · cases hs; exact h
  · rename_i e es htd
    cases hs
    refine ⟨by simp [h.len], h.res, ?_⟩
    intro t' th2 l' h4 h5
    simp only [List.getElem?_set] at h4
    split at h4
    · rename_i e'; subst e'
      simp only [htl, if_true, Option.some.injEq] at h4
      subst h4
      rw [hl, Option.some.injEq] at h5
      subst h5
      rw [htd] at h2
      have hlen := hsm l (List.mem_of_getElem? hl)
      rw [← h2] at hlen ⊢
      simp only [List.length_append, List.length_cons] at hlen
      refine ⟨?_, by simp⟩
      simp only [List.length_append, List.length_cons, List.length_nil]
      rw [if_neg (by omega)]
    · exact h.th t' th2 l' h4 h5

theorem Run.eq_flatten {block : Nat} {calls : List (List E)} (hsm : ∀ l ∈ calls, l.length < block) {out : List E}
    (h : Run block calls out) : out = calls.flatten := by
  obtain ⟨sched, s, hrun, hfin, rfl⟩ := h
  have h0 : Quiet block calls (init calls) := by
    refine ⟨by simp [init], rfl, ?_⟩
    intro t th l h hl
    simp only [init, List.getElem?_map, Option.map_eq_some_iff] at h
    obtain ⟨l', hl', rfl⟩ := h
    rw [hl] at hl'
    simpa using hl'.symm
  have hq : Quiet block calls s := by
    clear hfin
    generalize init calls = s0 at hrun h0
    induction sched generalizing s0 with
    | nil => simp [run] at hrun; subst hrun; exact h0
    | cons a sched ih =>
      unfold run at hrun
      rw [List.foldlM_cons] at hrun
      cases e1 : step block s0 a with
      | none => rw [e1] at hrun; cases hrun
      | some s1 =>
        rw [obind e1] at hrun
        exact ih s1 hrun (quiet_step hsm h0 e1)
  rw [finalFlush, hq.res, List.nil_append]
  congr 1
  apply List.ext_getElem?
  intro t
  by_cases ht : t < calls.length
  · obtain ⟨th, hth⟩ : ∃ th, s.ths[t]? = some th := ⟨_, List.getElem?_eq_getElem (by rw [hq.len]; exact ht)⟩
    obtain ⟨l, hl⟩ : ∃ l, calls[t]? = some l := ⟨_, List.getElem?_eq_getElem ht⟩
    obtain ⟨_, h2⟩ := hq.th t th l hth hl
    obtain ⟨_, f2⟩ := hfin th (List.mem_of_getElem? hth)
    rw [List.getElem?_map, hth, hl]
    simpa [f2] using h2
  · rw [List.getElem?_eq_none (by rw [List.length_map, hq.len]; omega), List.getElem?_eq_none (by omega)]

/-! ### progress -/

/-- steps a thread still has to make, at most -/
def Th.mu (block : Nat) (th : Th E) : Nat :=
  th.todo.length * (block + 5) +
    match th.pc with
    | .idle => 0
    | .acquire => block + 4
    | .copy k => (block - k) + 3
    | .release => 2
    | .clear => 1

theorem sum_set_lt {α : Type} (f : α → Nat) (L : List α) (t : Nat) (a b : α) (h : L[t]? = some a) (hlt : f b < f a) :
    ((L.set t b).map f).sum < (L.map f).sum := by
  induction L generalizing t with
  | nil => simp at h
  | cons x L ih =>
    cases t with
    | zero =>
      simp only [List.getElem?_cons_zero, Option.some.injEq] at h
      subst h
      simp only [List.set_cons_zero, List.map_cons, List.sum_cons]
      omega
    | succ t =>
      rw [List.getElem?_cons_succ] at h
      simp only [List.set_cons_succ, List.map_cons, List.sum_cons]
      have := ih t h
      omega

/-- some thread can make progress as long as not all have finished: no deadlock -/
theorem progress {block : Nat} {calls : List (List E)} {s : State E} (hb : 1 ≤ block) (h : Inv block calls s)
    (hnf : ¬ ∀ th ∈ s.ths, th.finished) :
    ∃ t s', t < calls.length ∧ step block s t = some s' ∧ ((s'.ths.map (Th.mu block)).sum < (s.ths.map (Th.mu block)).sum) := by
  -- the owner of the mutex, or else any thread that has not finished
  have hex : ∃ (t : Nat) (th : Th E), s.ths[t]? = some th ∧ ¬ th.finished ∧ (th.inside ∨ s.owner = none) := by
    cases how : s.owner with
    | none =>
      push Not at hnf
      obtain ⟨th, hm, hn⟩ := hnf
      obtain ⟨t, ht⟩ := List.mem_iff_getElem?.1 hm
      exact ⟨t, th, ht, hn, Or.inr rfl⟩
    | some o =>
      by_cases hin : ∃ (t : Nat) (th : Th E), s.ths[t]? = some th ∧ th.inside
      · obtain ⟨t, th, ht, hi⟩ := hin
        refine ⟨t, th, ht, ?_, Or.inl hi⟩
        rintro ⟨h1, _⟩
        rcases hi with ⟨k, h2⟩ | h2 <;> rw [h1] at h2 <;> cases h2
      · exfalso
        exact hin (h.holder o how)
  obtain ⟨t, th, ht, hn, hin⟩ := hex
  have htl : t < s.ths.length := (List.getElem?_eq_some_iff.1 ht).1
  have hmem := List.mem_of_getElem? ht
  refine ⟨t, ?_⟩
  unfold step
  rw [obind (show rd s.ths t = some th from ht)]
  cases hpc : th.pc with
  | idle =>
    cases htd : th.todo with
    | nil => exact absurd ⟨hpc, htd⟩ hn
    | cons e es =>
      refine ⟨_, by rw [← h.len]; exact htl, rfl, ?_⟩
      refine sum_set_lt _ _ _ _ _ ht ?_
      unfold Th.mu
      rw [hpc, htd]
      simp only [List.length_cons, Nat.add_mul, Nat.one_mul]
      by_cases hq : (th.buf ++ [e]).length = block
      · rw [if_pos hq]; simp only; omega
      · rw [if_neg hq]; simp only; omega
  | acquire =>
    rcases hin with hi | how
    · unfold Th.inside at hi; rw [hpc] at hi; simp at hi
    · simp only [how]
      refine ⟨_, by rw [← h.len]; exact htl, rfl, ?_⟩
      refine sum_set_lt _ _ _ _ _ ht ?_
      unfold Th.mu
      rw [hpc]
      simp only
      omega
  | copy k =>
    cases hbk : th.buf[k]? with
    | none =>
      simp only [hbk]
      refine ⟨_, by rw [← h.len]; exact htl, rfl, ?_⟩
      refine sum_set_lt _ _ _ _ _ ht ?_
      unfold Th.mu
      rw [hpc]
      simp only
      omega
    | some e =>
      simp only [hbk]
      refine ⟨_, by rw [← h.len]; exact htl, rfl, ?_⟩
      refine sum_set_lt _ _ _ _ _ ht ?_
      have hk : k < th.buf.length := (List.getElem?_eq_some_iff.1 hbk).1
      have hk2 := (h.room th hmem).2
      unfold Th.mu
      rw [hpc]
      simp only
      omega
  | release =>
    refine ⟨_, by rw [← h.len]; exact htl, rfl, ?_⟩
    refine sum_set_lt _ _ _ _ _ ht ?_
    unfold Th.mu
    rw [hpc]
    simp only
    omega
  | clear =>
    refine ⟨_, by rw [← h.len]; exact htl, rfl, ?_⟩
    refine sum_set_lt _ _ _ _ _ ht ?_
    unfold Th.mu
    rw [hpc]
    simp only
    omega

/-- every execution can be continued to its end -/
theorem finish_exists {block : Nat} {calls : List (List E)} (hb : 1 ≤ block) : ∀ (k : Nat) (s : State E), Inv block calls s →
    (s.ths.map (Th.mu block)).sum ≤ k → ∃ sched s', run block s sched = some s' ∧ ∀ th ∈ s'.ths, th.finished := by
  intro k
  induction k with
  | zero =>
    intro s h hk
    by_cases hf : ∀ th ∈ s.ths, th.finished
    · exact ⟨[], s, rfl, hf⟩
    · obtain ⟨t, s', _, _, h3⟩ := progress hb h hf
      omega
  | succ k ih =>
    intro s h hk
    by_cases hf : ∀ th ∈ s.ths, th.finished
    · exact ⟨[], s, rfl, hf⟩
    · obtain ⟨t, s', h1, h2, h3⟩ := progress hb h hf
      obtain ⟨s2, e2, hi⟩ := step_inv hb h h1
      rw [h2] at e2
      cases e2
      obtain ⟨sched, s3, e3, hf3⟩ := ih s' hi (by omega)
      refine ⟨t :: sched, s3, ?_, hf3⟩
      unfold run
      rw [List.foldlM_cons, obind h2]
      exact e3

theorem run_append {block : Nat} {s s1 s2 : State E} {a b : List Nat} (h1 : run block s a = some s1)
    (h2 : run block s1 b = some s2) : run block s (a ++ b) = some s2 := by
  unfold run at *
  rw [List.foldlM_append, obind h1]
  exact h2

end Girgs.EdgeBuffer
