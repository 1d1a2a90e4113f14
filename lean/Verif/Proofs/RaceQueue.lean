import Verif.Proofs.RaceBuild
import Verif.Proofs.TaskQueueRun
/-
Data races of the task queue of the hyperbolic sampler.
-/
namespace Girgs.TaskQueue
open Spec

theorem queue_conflict {n m : Nat} {gen : Bool} {s : State} (h : Inv n m gen s) (hn : 2 ≤ n) {t u : Nat} {l : Var}
    (hc : (region m).Conflict s t u l) :
    l = .flag ∧ t + 1 = n ∧ s.pcs[t]? = some .setFlag ∧ s.pcs[u]? = some .readFlag := by
  obtain ⟨hne, h1, w, h2⟩ := hc
  simp only [region] at h1 h2
  split at h1
  · rename_i p hp
    split at h2
    · rename_i q hq
      have key : before p = true → t + 1 = n := by
        intro hb
        by_contra hl
        have := (h.work t p hp hl).1
        rw [hb] at this; cases this
      cases p <;> simp [paccess] at h1
      · -- create
        subst h1
        exfalso
        have htn := key rfl
        have hl := (h.last .create (by rw [show n - 1 = t by omega]; exact hp)).2.1
        have hf : s.flag = false := by
          cases e : s.flag with
          | false => rfl
          | true => have := (hl.1 e).2; simp [early] at this
        have hw := (h.work u q hq (by omega)).2
        cases q <;> simp [paccess] at h2
        · have hb := (h.work u .create hq (by omega)).1; simp [before] at hb
        · have := hw rfl; rw [hf] at this; cases this
        · have := hw rfl; rw [hf] at this; cases this
      · subst h1
        have htn := key rfl
        have ho := (h.mutex t _ hp).1 rfl
        cases q <;> simp [paccess] at h2
        · have := (h.mutex u _ hq).1 rfl
          rw [ho] at this; exact absurd (Option.some.inj this) hne
        · exact ⟨rfl, htn, hp, hq⟩
        · have := (h.mutex u _ hq).1 rfl
          rw [ho] at this; exact absurd (Option.some.inj this) hne
    · simp at h2
  · simp at h1

theorem reach_inv {n m : Nat} {gen : Bool} (hb : m + n + 1 < 2 ^ 32) {s0 s : State} (h : Inv n m gen s0)
    (hr : (region m).Reaches s0 s) : Inv n m gen s :=
  hr.inv (Inv n m gen) h fun _ _ _ hI hs => hI.of_step hb hs

/-- the step of a thread at position `p` -/
def pcStep (m : Nat) (s : State) (t : Nat) (p : PC) : Option State :=
    match p with
    | .create => some { s with pcs := s.pcs.set t .setLock, size := m }
    | .setLock => if s.owner = none then some { s with pcs := s.pcs.set t .setFlag, owner := some t } else some s
    | .setFlag => some { s with pcs := s.pcs.set t .setUnlock, flag := true }
    | .setUnlock => some { s with pcs := s.pcs.set t .notify, owner := none }
    | .notify => some { s with pcs := (wakeAll s.pcs).set t .fetch }
    | .share => some { s with pcs := s.pcs.set t .readFlag }
    | .readFlag => some { s with pcs := s.pcs.set t (if s.flag then .fetch else .waitLock) }
    | .waitLock => if s.owner = none then some { s with pcs := s.pcs.set t .waitTest, owner := some t } else some s
    | .waitTest =>
      if s.flag then some { s with pcs := s.pcs.set t .waitUnlock }
      else some { s with pcs := s.pcs.set t .waiting, owner := none }
    | .waiting => some s
    | .waitUnlock => some { s with pcs := s.pcs.set t .fetch, owner := none }
    | .fetch => some { s with pcs := s.pcs.set t (.compare s.counter), counter := u32 (s.counter + 1) }
    | .compare i => some { s with pcs := s.pcs.set t (if s.size ≤ i then .done else .exec i) }
    | .exec i => do
      let l ← rd s.log t
      some { s with pcs := s.pcs.set t .fetch, log := s.log.set t (l ++ [i]) }
    | .done => some s

theorem run_pc {m : Nat} {s : State} {t : Nat} {p : PC} (hp : s.pcs[t]? = some p) : step m s (.run t) = pcStep m s t p := by
  show (rd s.pcs t >>= _) = _
  rw [obind (show rd s.pcs t = some p from hp)]
  cases p <;> rfl

/-- `n - 1` and `0` in the start state -/
theorem init_pcs {n : Nat} (hn : 2 ≤ n) : (init n true).pcs[n - 1]? = some .create ∧ (init n true).pcs[0]? = some .share := by
  unfold init
  simp only [List.getElem?_map]
  rw [List.getElem?_range (by omega), List.getElem?_range (by omega)]
  simp only [Option.map_some, Option.some.injEq]
  exact ⟨by rw [if_pos (by omega)]; simp, by rw [if_neg (by omega)]⟩

theorem queue_race {n m : Nat} (hn : 2 ≤ n) : ∃ s, (region m).Reaches (init n true) s ∧ (region m).Conflict s (n - 1) 0 .flag := by
  obtain ⟨hL, h0⟩ := init_pcs hn
  have hlen : n - 1 < (init n true).pcs.length := (List.getElem?_eq_some_iff.1 hL).1
  have hne : n - 1 ≠ 0 := by omega
  let p1 := (init n true).pcs.set (n - 1) .setLock
  let p2 := p1.set (n - 1) .setFlag
  let p3 := p2.set 0 .readFlag
  have e1 : step m (init n true) (.run (n - 1)) = some { init n true with pcs := p1, size := m } := (run_pc hL).trans rfl
  have e2 : step m { init n true with pcs := p1, size := m } (.run (n - 1)) =
      some { init n true with pcs := p2, size := m, owner := some (n - 1) } :=
    (run_pc (p := .setLock) (by show p1[n - 1]? = _; simp [p1, hlen])).trans rfl
  have e3 : step m { init n true with pcs := p2, size := m, owner := some (n - 1) } (.run 0) =
      some { init n true with pcs := p3, size := m, owner := some (n - 1) } :=
    (run_pc (p := .share) (by show p2[0]? = _; simp only [p2, p1]; rw [List.getElem?_set_ne hne, List.getElem?_set_ne hne]; exact h0)).trans rfl
  have r1 : (region m).step (init n true) (.run (n - 1)) = _ := e1
  have r2 : (region m).step _ (.run (n - 1)) = _ := e2
  have r3 : (region m).step _ (.run 0) = _ := e3
  refine ⟨_, ((Region.Reaches.single r1).snoc r2).snoc r3, hne, ?_, false, ?_⟩
  · have : p3[n - 1]? = some .setFlag := by
      simp only [p3, p2, p1]
      rw [List.getElem?_set_ne hne.symm, List.getElem?_set_self (by simpa using hlen)]
    simp [region, this, paccess]
  · have : p3[0]? = some .readFlag := by
      simp only [p3, p2, p1]
      rw [List.getElem?_set_self (by simp only [List.length_set]; omega)]
    simp [region, this, paccess]

/-- contents of the plain variables: the number of tasks and the flag -/
def queueVal (s : State) : Var → Option Nat
  | .tasks => some s.size
  | .flag => some (if s.flag then 1 else 0)

theorem queue_honest (m : Nat) : (region m).Honest Act.run queueVal (fun s t => (s.pcs[t]?, s.owner, s.counter, s.log[t]?)) where
  writes := by
    intro s t s' l h hne
    have h : step m s (.run t) = some s' := h
    cases hp : s.pcs[t]? with
    | none =>
      rw [step_none (by simpa [Act.thread] using List.getElem?_eq_none_iff.1 hp)] at h; cases h
    | some p =>
      rw [run_pc hp] at h
      unfold pcStep at h
      simp only [region, hp]
      cases p <;> simp only at h
      case create =>
        cases h
        cases l with
        | tasks => simp [paccess]
        | flag => exact absurd rfl hne
      case setFlag =>
        cases h
        cases l with
        | flag => simp [paccess]
        | tasks => exact absurd rfl hne
      case exec =>
        simp only [Option.bind_eq_bind, Option.bind_eq_some_iff] at h
        obtain ⟨_, _, h⟩ := h
        cases h; exact absurd (by cases l <;> rfl) hne
      all_goals
        first
        | (cases h; exact absurd (by cases l <;> rfl) hne)
        | (split at h <;> (cases h; exact absurd (by cases l <;> rfl) hne))
  exist := by
    intro s t s' l _
    cases l <;> rfl
  reads := by
    intro s1 s2 t hv _ hrd
    simp only [Prod.mk.injEq] at hv
    obtain ⟨hv1, hv2, hv3, hv4⟩ := hv
    refine ⟨by simp only [region, hv1], ?_⟩
    cases hp : s2.pcs[t]? with
    | none =>
      have a1 : step m s1 (.run t) = none :=
        step_none (by simpa [Act.thread] using List.getElem?_eq_none_iff.1 (hv1.trans hp))
      have a2 : step m s2 (.run t) = none := step_none (by simpa [Act.thread] using List.getElem?_eq_none_iff.1 hp)
      simp [region, a1, a2]
    | some p =>
      have hp1 := hv1.trans hp
      have ht : t < s2.pcs.length := (List.getElem?_eq_some_iff.1 hp).1
      have ht1 : t < s1.pcs.length := (List.getElem?_eq_some_iff.1 hp1).1
      have hpe : s1.pcs[t] = s2.pcs[t] := (List.getElem?_eq_some_iff.1 hp1).2.trans (List.getElem?_eq_some_iff.1 hp).2.symm
      have hsize : (Var.tasks, false) ∈ paccess p → s1.size = s2.size := by
        intro h
        have := hrd .tasks (by simpa [region, hp1] using h)
        simpa [queueVal] using this
      have hflag : (Var.flag, false) ∈ paccess p → s1.flag = s2.flag := by
        intro h
        have := hrd .flag (by simpa [region, hp1] using h)
        cases a : s1.flag <;> cases b : s2.flag <;> simp [queueVal, a, b] at this ⊢
      simp only [region, run_pc hp, run_pc hp1, hp1]
      unfold pcStep
      cases p with
      | exec i =>
        have hl : rd s1.log t = rd s2.log t := hv4
        simp only [hl]
        cases e : rd s2.log t with
        | none => simp
        | some l =>
          have h1 : t < s1.log.length := (List.getElem?_eq_some_iff.1 (hv4.trans e)).1
          have h2 : t < s2.log.length := (List.getElem?_eq_some_iff.1 e).1
          simp [ht, ht1, hv2, hv3, h1, h2, paccess]
      | create => simp [ht, ht1, hv2, hv3, hv4, paccess, queueVal]
      | setFlag => simp [ht, ht1, hv2, hv3, hv4, paccess, queueVal]
      | setLock => simp only [hv2]; split <;> simp [ht, ht1, hv2, hv3, hv4, paccess, hpe]
      | waitLock => simp only [hv2]; split <;> simp [ht, ht1, hv2, hv3, hv4, paccess, hpe]
      | waitTest => simp only [hflag (by simp [paccess])]; split <;> simp [ht, ht1, hv2, hv3, hv4, paccess]
      | readFlag => simp only [hflag (by simp [paccess])]; simp [ht, ht1, hv2, hv3, hv4, paccess]
      | compare i => simp only [hsize (by simp [paccess])]; simp [ht, ht1, hv2, hv3, hv4, paccess]
      | notify => simp [wakeAll, ht, ht1, hv2, hv3, hv4, paccess]
      | _ => simp [ht, ht1, hv2, hv3, hv4, paccess, hpe]

/-! ### happens-before -/

theorem trace_append {m : Nat} : ∀ (l1 : List Act) (s : State) (l2 : List Act), trace m s (l1 ++ l2) =
    (trace m s l1).bind fun r => (trace m r.2 l2).map fun q => (r.1 ++ q.1, q.2)
  | [], s, l2 => by
    simp only [List.nil_append, trace, Option.bind_some]
    cases trace m s l2 <;> rfl
  | a :: l1, s, l2 => by
    simp only [List.cons_append, trace]
    cases e : step m s a with
    | none => rfl
    | some s' =>
      simp only [Option.bind_eq_bind, Option.bind_some]
      rw [trace_append l1 s' l2]
      cases trace m s' l1 with
      | none => rfl
      | some r => cases h : trace m r.2 l2 <;> simp [h]

theorem trace_run {m : Nat} : ∀ (sched : List Act) (s : State), (trace m s sched).map Prod.snd = run m s sched
  | [], s => rfl
  | a :: l, s => by
    unfold run
    rw [List.foldlM_cons]
    simp only [trace]
    cases e : step m s a with
    | none => rfl
    | some s' =>
      simp only [Option.bind_eq_bind, Option.bind_some]
      rw [show List.foldlM (step m) s' l = run m s' l from rfl, ← trace_run l s']
      cases trace m s' l <;> rfl

theorem Ordered.append {tr tr' : List (Event Var Sync)} {i j : Nat} (h : Ordered tr i j) : Ordered (tr ++ tr') i j := by
  obtain ⟨h1, e, f, h2, h3, h4⟩ := h
  have l1 := (List.getElem?_eq_some_iff.1 h2).1
  have l2 := (List.getElem?_eq_some_iff.1 h3).1
  exact ⟨h1, e, f, by rw [List.getElem?_append_left l1]; exact h2, by rw [List.getElem?_append_left l2]; exact h3, h4⟩

theorem hb_append {tr tr' : List (Event Var Sync)} {i j : Nat} (h : HappensBefore tr i j) : HappensBefore (tr ++ tr') i j :=
  Relation.TransGen.mono (p := Ordered (tr ++ tr')) (fun _ _ => Ordered.append) i j h

/-- an event of thread `u` is ordered after event `i` -/
def Knows (tr : List (Event Var Sync)) (i u : Nat) : Prop := ∃ k e, tr[k]? = some e ∧ e.thread = u ∧ HappensBefore tr i k

/-- no event of thread `u` locks the mutex -/
def NeverLocked (tr : List (Event Var Sync)) (u : Nat) : Prop := ∀ e ∈ tr, e.thread = u → Sync.mutex ∉ e.acquire

theorem Knows.append {tr tr' : List (Event Var Sync)} {i u : Nat} (h : Knows tr i u) : Knows (tr ++ tr') i u := by
  obtain ⟨k, e, h1, h2, h3⟩ := h
  exact ⟨k, e, by rw [List.getElem?_append_left (List.getElem?_eq_some_iff.1 h1).1]; exact h1, h2, hb_append h3⟩

/-- event `i` writes the task list -/
def Writes (tr : List (Event Var Sync)) (i : Nat) : Prop := ∃ e, tr[i]? = some e ∧ (Var.tasks, true) ∈ e.access

/-- what the trace `tr` leading to state `s` says about who knows the task list -/
structure KInv (n : Nat) (tr : List (Event Var Sync)) (s : State) : Prop where
  released : s.flag = true → s.owner ≠ some (n - 1) → ∀ i, Writes tr i →
    ∃ r f, i < r ∧ tr[r]? = some f ∧ f.thread = n - 1 ∧ Sync.mutex ∈ f.release
  locked : ∀ (u : Nat) (p : PC), u + 1 ≠ n → s.pcs[u]? = some p → (p = .waitTest ∨ p = .waitUnlock) → s.flag = true →
    ∀ i, Writes tr i → Knows tr i u
  behind : ∀ (u : Nat) (p : PC), u + 1 ≠ n → s.pcs[u]? = some p → phase2 p = true →
    NeverLocked tr u ∨ ∀ i, Writes tr i → Knows tr i u
  fresh : ∀ (u : Nat) (p : PC), u + 1 ≠ n → s.pcs[u]? = some p → (p = .share ∨ p = .readFlag) → NeverLocked tr u
  write : ∀ e ∈ tr, (Var.tasks, true) ∈ e.access → e.thread = n - 1 ∧ s.pcs[n - 1]? ≠ some .create

theorem NeverLocked.snoc {tr : List (Event Var Sync)} {u : Nat} {ev : Event Var Sync} (h : NeverLocked tr u)
    (he : ev.thread = u → Sync.mutex ∉ ev.acquire) : NeverLocked (tr ++ [ev]) u := by
  intro e hm
  rcases List.mem_append.1 hm with hm | hm
  · exact h e hm
  · rw [List.mem_singleton] at hm; subst hm; exact he

theorem KInv.move {n : Nat} {tr : List (Event Var Sync)} {s s' : State} (hk : KInv n tr s) {ev : Event Var Sync}
    (hev : (Var.tasks, true) ∉ ev.access)
    (hrel : s'.flag = true → s'.owner ≠ some (n - 1) →
      (s.flag = true ∧ s.owner ≠ some (n - 1)) ∨ (ev.thread = n - 1 ∧ Sync.mutex ∈ ev.release))
    (hlock : ∀ (u : Nat) (p : PC), u + 1 ≠ n → s'.pcs[u]? = some p → (p = .waitTest ∨ p = .waitUnlock) → s'.flag = true →
      s.flag = true ∧ ((∃ p', s.pcs[u]? = some p' ∧ (p' = .waitTest ∨ p' = .waitUnlock)) ∨
        (s.owner = none ∧ ev.thread = u ∧ Sync.mutex ∈ ev.acquire)))
    (hpass : ∀ (u : Nat) (p : PC), u + 1 ≠ n → s'.pcs[u]? = some p → phase2 p = true →
      (s.pcs[u]? = some .waitUnlock ∧ s.flag = true) ∨ ((∃ p', s.pcs[u]? = some p' ∧ (phase2 p' = true ∨ p' = .readFlag)) ∧
        (ev.thread = u → Sync.mutex ∉ ev.acquire)))
    (hfresh : ∀ (u : Nat) (p : PC), u + 1 ≠ n → s'.pcs[u]? = some p → (p = .share ∨ p = .readFlag) →
      (∃ p', s.pcs[u]? = some p' ∧ (p' = .share ∨ p' = .readFlag)) ∧ (ev.thread = u → Sync.mutex ∉ ev.acquire))
    (hwr : s.pcs[n - 1]? ≠ some .create → s'.pcs[n - 1]? ≠ some .create) : KInv n (tr ++ [ev]) s' := by
  have hW : ∀ i, Writes (tr ++ [ev]) i → Writes tr i ∧ i < tr.length := by
    rintro i ⟨e, h1, h2⟩
    have hl : i < tr.length := by
      by_contra hc
      have hi := (List.getElem?_eq_some_iff.1 h1).1
      rw [List.length_append, List.length_singleton] at hi
      have : i = tr.length := by omega
      subst this
      rw [List.getElem?_append_right (le_refl _), Nat.sub_self] at h1
      cases h1; exact hev h2
    rw [List.getElem?_append_left hl] at h1
    exact ⟨⟨e, h1, h2⟩, hl⟩
  have hlast : (tr ++ [ev])[tr.length]? = some ev := by simp
  refine ⟨?_, ?_, ?_, ?_, ?_⟩
  · intro h1 h2 i hi
    obtain ⟨hi, hil⟩ := hW i hi
    rcases hrel h1 h2 with ⟨h3, h4⟩ | ⟨h3, h4⟩
    · obtain ⟨r, f, hr, hf, h5⟩ := hk.released h3 h4 i hi
      exact ⟨r, f, hr, by rw [List.getElem?_append_left (List.getElem?_eq_some_iff.1 hf).1]; exact hf, h5⟩
    · exact ⟨tr.length, ev, hil, hlast, h3, h4⟩
  · intro u p hu hp hpp hfl i hi
    obtain ⟨hi, hil⟩ := hW i hi
    obtain ⟨h1, h2⟩ := hlock u p hu hp hpp hfl
    rcases h2 with ⟨p', h2, h3⟩ | ⟨h2, h3, h4⟩
    · exact (hk.locked u p' hu h2 h3 h1 i hi).append
    · obtain ⟨r, f, hr, hf, hft, hfr⟩ := hk.released h1 (by rw [h2]; simp) i hi
      obtain ⟨e, he1, he2⟩ := hi
      have hrl := (List.getElem?_eq_some_iff.1 hf).1
      refine ⟨tr.length, ev, hlast, h3, ?_⟩
      refine Relation.TransGen.tail (b := r) (.single ⟨hr, e, f, ?_, ?_, Or.inl ?_⟩) ⟨hrl, f, ev, ?_, hlast, Or.inr ⟨_, hfr, h4⟩⟩
      · rw [List.getElem?_append_left hil]; exact he1
      · rw [List.getElem?_append_left hrl]; exact hf
      · rw [hft]; exact (hk.write e (List.mem_of_getElem? he1) he2).1
      · rw [List.getElem?_append_left hrl]; exact hf
  · intro u p hu hp hpp
    rcases hpass u p hu hp hpp with ⟨h1, h2⟩ | ⟨⟨p', h1, h2⟩, h3⟩
    · right
      intro i hi
      exact (hk.locked u _ hu h1 (Or.inr rfl) h2 i (hW i hi).1).append
    · rcases h2 with h2 | h2
      · rcases hk.behind u p' hu h1 h2 with h4 | h4
        · exact Or.inl (h4.snoc h3)
        · exact Or.inr fun i hi => (h4 i (hW i hi).1).append
      · exact Or.inl ((hk.fresh u p' hu h1 (Or.inr h2)).snoc h3)
  · intro u p hu hp hpp
    obtain ⟨⟨p', h1, h2⟩, h3⟩ := hfresh u p hu hp hpp
    exact (hk.fresh u p' hu h1 h2).snoc h3
  · intro e he h
    rcases List.mem_append.1 he with he | he
    · obtain ⟨h1, h2⟩ := hk.write e he h
      exact ⟨h1, hwr h2⟩
    · rw [List.mem_singleton] at he; subst he; exact absurd h hev

/-- thread `t` moves from `p` to `q`; the other threads stay (`wakeAll` only moves threads to `waitLock`) -/
theorem KInv.set {n : Nat} {tr : List (Event Var Sync)} {s s' : State} (hk : KInv n tr s) {ev : Event Var Sync} {t : Nat} {p q : PC}
    (hp : s.pcs[t]? = some p) (hpcs : ∀ u r, s'.pcs[u]? = some r → (u = t ∧ r = q) ∨ (u ≠ t ∧ (s.pcs[u]? = some r ∨ r = .waitLock)))
    (hq : q ≠ .create) (ht : ev.thread = t) (hev : (Var.tasks, true) ∉ ev.access)
    (hrel : s'.flag = true → s'.owner ≠ some (n - 1) → (s.flag = true ∧ s.owner ≠ some (n - 1)) ∨ (t = n - 1 ∧ Sync.mutex ∈ ev.release))
    (hflag : s'.flag = true → s.flag = true ∨ ∀ (u : Nat) (r : PC), u ≠ t → s.pcs[u]? = some r → r ≠ .waitTest ∧ r ≠ .waitUnlock)
    (hlock : t + 1 ≠ n → (q = .waitTest ∨ q = .waitUnlock) → (s'.flag = true → s.flag = true) ∧
      ((p = .waitTest ∨ p = .waitUnlock) ∨ (s.owner = none ∧ Sync.mutex ∈ ev.acquire)))
    (hpass : t + 1 ≠ n → phase2 q = true → (p = .waitUnlock ∧ s.flag = true) ∨ ((phase2 p = true ∨ p = .readFlag) ∧ Sync.mutex ∉ ev.acquire))
    (hfresh : t + 1 ≠ n → (q = .share ∨ q = .readFlag) → (p = .share ∨ p = .readFlag) ∧ Sync.mutex ∉ ev.acquire) :
    KInv n (tr ++ [ev]) s' := by
  refine hk.move hev (by rw [ht]; exact hrel) ?_ ?_ ?_ ?_
  · intro u r hu hr hrr hfl
    rcases hpcs u r hr with ⟨rfl, rfl⟩ | ⟨h1, h2⟩
    · obtain ⟨h1, h2⟩ := hlock hu hrr
      refine ⟨h1 hfl, ?_⟩
      rcases h2 with h2 | h2
      · exact Or.inl ⟨p, hp, h2⟩
      · exact Or.inr ⟨h2.1, ht, h2.2⟩
    · rcases h2 with h2 | h2
      · refine ⟨?_, Or.inl ⟨r, h2, hrr⟩⟩
        rcases hflag hfl with h3 | h3
        · exact h3
        · have := h3 u r h1 h2
          rcases hrr with rfl | rfl
          · exact absurd rfl this.1
          · exact absurd rfl this.2
      · subst h2; rcases hrr with h | h <;> cases h
  · intro u r hu hr hrr
    rcases hpcs u r hr with ⟨rfl, rfl⟩ | ⟨h1, h2⟩
    · rcases hpass hu hrr with ⟨h3, h4⟩ | ⟨h3, h4⟩
      · subst h3; exact Or.inl ⟨hp, h4⟩
      · exact Or.inr ⟨⟨p, hp, h3⟩, fun _ => h4⟩
    · rcases h2 with h2 | h2
      · exact Or.inr ⟨⟨r, h2, Or.inl hrr⟩, fun e => absurd (e.symm.trans ht) h1⟩
      · subst h2; cases hrr
  · intro u r hu hr hrr
    rcases hpcs u r hr with ⟨rfl, rfl⟩ | ⟨h1, h2⟩
    · obtain ⟨h3, h4⟩ := hfresh hu hrr
      exact ⟨⟨p, hp, h3⟩, fun _ => h4⟩
    · rcases h2 with h2 | h2
      · exact ⟨⟨r, h2, hrr⟩, fun e => absurd (e.symm.trans ht) h1⟩
      · subst h2; rcases hrr with h | h <;> cases h
  · intro hne hc
    rcases hpcs _ _ hc with ⟨_, h⟩ | ⟨_, h⟩
    · exact hq h.symm
    · rcases h with h | h
      · exact hne h
      · cases h

theorem pcs_set {L : List PC} {t : Nat} {p q : PC} (hp : L[t]? = some p) : ∀ u r, (L.set t q)[u]? = some r →
    (u = t ∧ r = q) ∨ (u ≠ t ∧ (L[u]? = some r ∨ r = .waitLock)) := by
  intro u r h
  rcases getElem?_set' (List.getElem?_eq_some_iff.1 hp).1 h with h | ⟨h1, h2⟩
  · exact Or.inl h
  · exact Or.inr ⟨h1, Or.inl h2⟩

theorem pcs_wake {L : List PC} {t : Nat} {p q : PC} (hp : L[t]? = some p) : ∀ u r, ((wakeAll L).set t q)[u]? = some r →
    (u = t ∧ r = q) ∨ (u ≠ t ∧ (L[u]? = some r ∨ r = .waitLock)) := by
  intro u r h
  rcases getElem?_set' (by simp only [wakeAll, List.length_map]; exact (List.getElem?_eq_some_iff.1 hp).1) h with h | ⟨h1, h2⟩
  · exact Or.inl h
  · refine Or.inr ⟨h1, ?_⟩
    simp only [wakeAll, List.getElem?_map, Option.map_eq_some_iff] at h2
    obtain ⟨x, hx, h2⟩ := h2
    split at h2
    · exact Or.inr h2.symm
    · subst h2; exact Or.inl hx

theorem pcs_same {L : List PC} {t : Nat} {p : PC} (hp : L[t]? = some p) : ∀ u r, L[u]? = some r →
    (u = t ∧ r = p) ∨ (u ≠ t ∧ (L[u]? = some r ∨ r = .waitLock)) := by
  intro u r h
  by_cases e : u = t
  · subst e; rw [hp] at h; exact Or.inl ⟨rfl, (Option.some.inj h).symm⟩
  · exact Or.inr ⟨e, Or.inl h⟩

theorem event_run {s : State} {t : Nat} {p : PC} (hp : s.pcs[t]? = some p) :
    event s (.run t) = { thread := t, access := paccess p, acquire := acquires s p, release := releases s p } := by
  simp only [event, hp]

theorem flag_mono {m : Nat} {s s' : State} {a : Act} (hs : step m s a = some s') (hf : s.flag = true) : s'.flag = true := by
  have hlen : a.thread < s.pcs.length := by
    by_contra hc
    rw [step_none (by omega)] at hs; cases hs
  cases a with
  | spurious t =>
    obtain ⟨p, hp⟩ : ∃ p, s.pcs[t]? = some p := ⟨_, List.getElem?_eq_getElem hlen⟩
    have hs : (if p = .waiting then some { s with pcs := s.pcs.set t .waitLock } else some s) = some s' :=
      (obind (show rd s.pcs t = some p from hp) _).symm.trans hs
    split at hs <;> (cases hs; exact hf)
  | run t =>
    obtain ⟨p, hp⟩ : ∃ p, s.pcs[t]? = some p := ⟨_, List.getElem?_eq_getElem hlen⟩
    rw [run_pc hp] at hs
    cases p <;> simp only [pcStep] at hs
    case setFlag => cases hs; rfl
    case exec =>
      simp only [Option.bind_eq_bind, Option.bind_eq_some_iff] at hs
      obtain ⟨_, _, hs⟩ := hs
      cases hs; exact hf
    all_goals
      first
      | (cases hs; exact hf)
      | (split at hs <;> (cases hs; exact hf))

theorem flag_mono_trace {m : Nat} : ∀ (sched : List Act) {s s' : State} {tr : List (Event Var Sync)}, trace m s sched = some (tr, s') →
    s.flag = true → s'.flag = true := by
  intro sched
  induction sched with
  | nil => intro s s' tr h hf; cases h; exact hf
  | cons a l ih =>
    intro s s' tr h hf
    simp only [trace, Option.bind_eq_bind, Option.bind_eq_some_iff, Option.some.injEq, Prod.mk.injEq] at h
    obtain ⟨s1, h1, ⟨tr1, s2⟩, h2, rfl, rfl⟩ := h
    exact ih h2 (flag_mono h1 hf)

theorem passed_of_phase2 {p : PC} (h : phase2 p = true) : passed p = true := by
  cases p <;> first | rfl | cases h

theorem KInv.step {n m : Nat} {gen : Bool} {tr : List (Event Var Sync)} {s s' : State} (hn : 2 ≤ n) (h : Inv n m gen s) (hk : KInv n tr s)
    {a : Act} (hs : step m s a = some s') : KInv n (tr ++ [event s a]) s' := by
  have hlen : a.thread < s.pcs.length := by
    by_contra hc
    rw [step_none (by omega)] at hs; cases hs
  cases a with
  | spurious t =>
    obtain ⟨p, hp⟩ : ∃ p, s.pcs[t]? = some p := ⟨_, List.getElem?_eq_getElem hlen⟩
    have hs : (if p = .waiting then some { s with pcs := s.pcs.set t .waitLock } else some s) = some s' :=
      (obind (show rd s.pcs t = some p from hp) _).symm.trans hs
    by_cases e : p = .waiting
    · rw [if_pos e] at hs
      cases hs
      subst e
      refine hk.set hp (pcs_set hp) (by simp) rfl (by simp [event]) (fun h1 h2 => Or.inl ⟨h1, h2⟩) (fun h => Or.inl h) ?_ ?_ ?_ <;> simp [phase2, acquires]
    · rw [if_neg e] at hs
      cases hs
      refine hk.move (by simp [event]) (fun h1 h2 => Or.inl ⟨h1, h2⟩) (fun u r _ h2 h3 h4 => ⟨h4, Or.inl ⟨r, h2, h3⟩⟩)
        (fun u r _ h2 h3 => Or.inr ⟨⟨r, h2, Or.inl h3⟩, by simp [event]⟩) (fun u r _ h2 h3 => ⟨⟨r, h2, h3⟩, by simp [event]⟩) (fun h => h)
  | run t =>
    obtain ⟨p, hp⟩ : ∃ p, s.pcs[t]? = some p := ⟨_, List.getElem?_eq_getElem hlen⟩
    replace hlen : t < s.pcs.length := hlen
    rw [run_pc hp] at hs
    rw [event_run hp]
    have isLast : before p = true → t = n - 1 := by
      intro hb
      by_contra hl
      have := (h.work t p hp (by omega)).1
      rw [hb] at this; cases this
    have own : holds p = true → s.owner = some t := (h.mutex t p hp).1
    have workp : t + 1 ≠ n → passed p = true → s.flag = true := fun hne => (h.work t p hp hne).2
    have notLast : before p = false → phase2 p = false → t ≠ n - 1 := by
      intro h1 h2 e
      subst e
      rcases (h.last p hp).1 with ⟨h3, _⟩ | h3
      · rw [h1] at h3; cases h3
      · rw [h2] at h3; cases h3
    cases p with
    | create =>
      cases hs
      have ht := isLast rfl
      subst ht
      have hf : s.flag = false := by
        cases e : s.flag with
        | false => rfl
        | true => have := ((h.last _ hp).2.1.1 e).2; simp [early] at this
      refine ⟨?_, ?_, ?_, ?_, ?_⟩
      · intro h1; simp only at h1; rw [hf] at h1; cases h1
      · intro u p _ _ _ h1; simp only at h1; rw [hf] at h1; cases h1
      · intro u p hu hpu hpp
        simp only at hpu
        rcases getElem?_set' hlen hpu with ⟨rfl, _⟩ | ⟨_, h2⟩
        · omega
        · have := (h.work u p h2 hu).2 (passed_of_phase2 hpp)
          rw [hf] at this; cases this
      · intro u p hu hpu hpp
        simp only at hpu
        rcases getElem?_set' hlen hpu with ⟨rfl, _⟩ | ⟨_, h2⟩
        · omega
        · exact (hk.fresh u p hu h2 hpp).snoc (by simp [acquires])
      · intro e he hw
        refine ⟨?_, ?_⟩
        · rcases List.mem_append.1 he with he | he
          · exact (hk.write e he hw).1
          · rw [List.mem_singleton] at he; subst he; rfl
        · simp only
          rw [List.getElem?_set_self hlen]
          simp
    | setLock =>
      have ht := isLast rfl
      subst ht
      simp only [pcStep] at hs
      by_cases e : s.owner = none
      · rw [if_pos e] at hs; cases hs
        refine hk.set hp (pcs_set hp) (by simp) rfl (by simp [paccess]) ?_ (fun h => Or.inl h) ?_ ?_ ?_ <;> simp [phase2, acquires]
      · rw [if_neg e] at hs; cases hs
        refine hk.set hp (pcs_same hp) (by simp) rfl (by simp [paccess]) (fun h1 h2 => Or.inl ⟨h1, h2⟩) (fun h => Or.inl h) ?_ ?_ ?_ <;> simp [phase2, acquires]
    | setFlag =>
      have ht := isLast rfl
      subst ht
      have ho := own rfl
      cases hs
      refine hk.set hp (pcs_set hp) (by simp) rfl (by simp [paccess]) (fun _ h2 => absurd ho h2) ?_ ?_ ?_ ?_
      · intro _
        right
        intro u r hu hr
        constructor <;>
        · rintro rfl
          have := (h.mutex u _ hr).1 rfl
          rw [ho] at this
          exact hu (Option.some.inj this).symm
      all_goals simp [phase2, acquires]
    | setUnlock =>
      have ht := isLast rfl
      subst ht
      cases hs
      refine hk.set hp (pcs_set hp) (by simp) rfl (by simp [paccess]) (fun _ _ => Or.inr ⟨rfl, by simp [releases]⟩) (fun h => Or.inl h) ?_ ?_ ?_ <;> simp [phase2, acquires]
    | notify =>
      have ht := isLast rfl
      subst ht
      cases hs
      refine hk.set hp (pcs_wake hp) (by simp) rfl (by simp [paccess]) (fun h1 h2 => Or.inl ⟨h1, h2⟩) (fun h => Or.inl h) ?_ ?_ ?_ <;>
        first | (intro h; omega)
    | share =>
      cases hs
      refine hk.set hp (pcs_set hp) (by simp) rfl (by simp [paccess]) (fun h1 h2 => Or.inl ⟨h1, h2⟩) (fun h => Or.inl h) ?_ ?_ ?_ <;> simp [phase2, acquires]
    | readFlag =>
      cases hs
      refine hk.set (q := if s.flag then .fetch else .waitLock) hp (pcs_set hp) (by split <;> simp) rfl (by simp [paccess])
        (fun h1 h2 => Or.inl ⟨h1, h2⟩) (fun h => Or.inl h) ?_ ?_ ?_
      all_goals cases s.flag <;> simp [phase2, acquires]
    | waitLock =>
      have ht := notLast rfl rfl
      simp only [pcStep] at hs
      by_cases e : s.owner = none
      · rw [if_pos e] at hs; cases hs
        refine hk.set hp (pcs_set hp) (by simp) rfl (by simp [paccess]) (fun h1 _ => Or.inl ⟨h1, by rw [e]; simp⟩) (fun h => Or.inl h) ?_ ?_ ?_ <;> simp [phase2, acquires, e]
      · rw [if_neg e] at hs; cases hs
        refine hk.set hp (pcs_same hp) (by simp) rfl (by simp [paccess]) (fun h1 h2 => Or.inl ⟨h1, h2⟩) (fun h => Or.inl h) ?_ ?_ ?_ <;> simp [phase2, acquires]
    | waitTest =>
      have ht := notLast rfl rfl
      have ho := own rfl
      simp only [pcStep] at hs
      by_cases e : s.flag = true
      · rw [if_pos e] at hs; cases hs
        refine hk.set hp (pcs_set hp) (by simp) rfl (by simp [paccess]) (fun h1 h2 => Or.inl ⟨h1, h2⟩) (fun h => Or.inl h) ?_ ?_ ?_ <;> simp [phase2, acquires]
      · rw [if_neg e] at hs; cases hs
        refine hk.set hp (pcs_set hp) (by simp) rfl (by simp [paccess]) (fun h1 _ => absurd h1 e) (fun h => Or.inl h) ?_ ?_ ?_ <;> simp [phase2, acquires]
    | waiting =>
      cases hs
      refine hk.set hp (pcs_same hp) (by simp) rfl (by simp [paccess]) (fun h1 h2 => Or.inl ⟨h1, h2⟩) (fun h => Or.inl h) ?_ ?_ ?_ <;> simp [phase2, acquires]
    | waitUnlock =>
      have ht := notLast rfl rfl
      have ho := own rfl
      cases hs
      refine hk.set hp (pcs_set hp) (by simp) rfl (by simp [paccess]) (fun h1 _ => Or.inl ⟨h1, by rw [ho]; simpa using ht⟩) (fun h => Or.inl h) ?_ ?_ ?_
      · simp
      · intro hne _; exact Or.inl ⟨rfl, workp hne rfl⟩
      · simp
    | fetch =>
      cases hs
      refine hk.set hp (pcs_set hp) (by simp) rfl (by simp [paccess]) (fun h1 h2 => Or.inl ⟨h1, h2⟩) (fun h => Or.inl h) ?_ ?_ ?_ <;> simp [phase2, acquires]
    | compare i =>
      cases hs
      refine hk.set (q := if s.size ≤ i then .done else .exec i) hp (pcs_set hp) (by split <;> simp) rfl (by simp [paccess])
        (fun h1 h2 => Or.inl ⟨h1, h2⟩) (fun h => Or.inl h) ?_ ?_ ?_
      all_goals by_cases e : s.size ≤ i <;> simp [phase2, acquires, e]
    | exec i =>
      simp only [pcStep, Option.bind_eq_bind, Option.bind_eq_some_iff] at hs
      obtain ⟨_, _, hs⟩ := hs
      cases hs
      refine hk.set hp (pcs_set hp) (by simp) rfl (by simp [paccess]) (fun h1 h2 => Or.inl ⟨h1, h2⟩) (fun h => Or.inl h) ?_ ?_ ?_ <;> simp [phase2, acquires]
    | done =>
      cases hs
      refine hk.set hp (pcs_same hp) (by simp) rfl (by simp [paccess]) (fun h1 h2 => Or.inl ⟨h1, h2⟩) (fun h => Or.inl h) ?_ ?_ ?_ <;> simp [phase2, acquires]

theorem KInv.trace {n m : Nat} {gen : Bool} (hn : 2 ≤ n) (hb : m + n + 1 < 2 ^ 32) : ∀ (sched : List Act) {tr0 tr : List (Event Var Sync)} {s s' : State},
    Inv n m gen s → KInv n tr0 s → TaskQueue.trace m s sched = some (tr, s') → Inv n m gen s' ∧ KInv n (tr0 ++ tr) s' := by
  intro sched
  induction sched with
  | nil =>
    intro tr0 tr s s' h hk ht
    cases ht
    exact ⟨h, by simpa using hk⟩
  | cons a l ih =>
    intro tr0 tr s s' h hk ht
    simp only [TaskQueue.trace, Option.bind_eq_bind, Option.bind_eq_some_iff, Option.some.injEq, Prod.mk.injEq] at ht
    obtain ⟨s1, h1, ⟨tr1, s2⟩, h2, rfl, rfl⟩ := ht
    have := ih (h.of_step hb h1) (hk.step hn h h1) h2
    simpa using this

theorem kinv_init {n : Nat} {gen : Bool} : KInv n [] (init n gen) := by
  refine ⟨?_, ?_, ?_, ?_, ?_⟩
  · rintro _ _ i ⟨e, h, _⟩; simp at h
  · rintro _ _ _ _ _ _ i ⟨e, h, _⟩; simp at h
  · intro _ _ _ _ _; left; intro e he; simp at he
  · intro _ _ _ _ _ e he; simp at he
  · intro e he; simp at he

/-- a thread that has locked the mutex before it accesses the task list is ordered after its creation -/
theorem locked_ordered {n m : Nat} {gen : Bool} (hn : 2 ≤ n) (hb : m + n + 1 < 2 ^ 32) (hg : gen = false → m = 0)
    {sched : List Act} {tr : List (Event Var Sync)} {s : State} (ht : trace m (init n gen) sched = some (tr, s))
    {i j : Nat} {e f : Event Var Sync} (hi : tr[i]? = some e) (hj : tr[j]? = some f) (he : (Var.tasks, true) ∈ e.access) {w : Bool}
    (hf : (Var.tasks, w) ∈ f.access) (hne : e.thread ≠ f.thread)
    (hl : ∃ (k : Nat) (g : Event Var Sync), k < j ∧ tr[k]? = some g ∧ g.thread = f.thread ∧ Sync.mutex ∈ g.acquire) : HappensBefore tr i j := by
  -- split the execution before event `j`
  have split : ∀ (sched : List Act) (s0 : State) (tr : List (Event Var Sync)) (s : State) (j : Nat) (f : Event Var Sync),
      trace m s0 sched = some (tr, s) → tr[j]? = some f → ∃ l1 a s1 l2, trace m s0 l1 = some (tr.take j, s1) ∧ f = event s1 a ∧
        trace m s1 l2 = some (tr.drop j, s) := by
    intro sched
    induction sched with
    | nil => intro s0 tr s j f ht hj; cases ht; simp at hj
    | cons a l ih =>
      intro s0 tr s j f ht hj
      simp only [trace, Option.bind_eq_bind, Option.bind_eq_some_iff, Option.some.injEq, Prod.mk.injEq] at ht
      obtain ⟨s1, h1, ⟨tr1, s2⟩, h2, rfl, rfl⟩ := ht
      cases j with
      | zero =>
        simp only [List.getElem?_cons_zero, Option.some.injEq] at hj
        exact ⟨[], a, s0, a :: l, rfl, hj.symm, by simp [trace, h1, h2]⟩
      | succ j =>
        simp only [List.getElem?_cons_succ] at hj
        obtain ⟨l1, b, s3, l2, g1, g2, g3⟩ := ih s1 tr1 s2 j f h2 hj
        refine ⟨a :: l1, b, s3, l2, ?_, g2, g3⟩
        simp [trace, h1, g1]
  obtain ⟨l1, a, s1, l2, g1, rfl, g2⟩ := split sched _ tr s j f ht hj
  obtain ⟨hI, hK⟩ := KInv.trace hn hb l1 (init_inv hn hg) kinv_init g1
  rw [List.nil_append] at hK
  have hjl := (List.getElem?_eq_some_iff.1 hj).1
  cases a with
  | spurious t => simp [event] at hf
  | run t =>
    cases hp : s1.pcs[t]? with
    | none => simp [event, hp] at hf
    | some p =>
      rw [event_run hp] at hf hne hl hj
      simp only at hf hne hl
      have hKall := (KInv.trace hn hb sched (init_inv hn hg) kinv_init ht).2
      rw [List.nil_append] at hKall
      have heL := (hKall.write e (List.mem_of_getElem? hi) he).1
      have htn : t + 1 ≠ n := by intro hc; apply hne; rw [heL]; omega
      have hph : phase2 p = true := by
        cases p <;> simp [paccess] at hf <;> try rfl
        exfalso
        have := (hI.work t _ hp htn).1
        simp [before] at this
      -- the creation is before event j
      have hij : i < j := by
        by_contra hc
        have hfl := (hI.work t p hp htn).2 (passed_of_phase2 hph)
        have hij : i ≠ j := by
          rintro rfl
          rw [hi] at hj
          have := Option.some.inj hj
          rw [this] at hne
          exact hne rfl
        obtain ⟨l3, b, s3, l4, q1, q2, q3⟩ := split l2 s1 (tr.drop j) s (i - j) e g2
          (by rw [List.getElem?_drop, show j + (i - j) = i by omega]; exact hi)
        have hI3 : Inv n m gen s3 := (KInv.trace hn hb (l1 ++ l3) (init_inv hn hg) kinv_init
          (by rw [trace_append, g1, Option.bind_some, q1]; rfl)).1
        have hfl3 := flag_mono_trace l3 q1 hfl
        subst q2
        cases b with
        | spurious _ => simp [event] at he
        | run v =>
          cases hv : s3.pcs[v]? with
          | none => simp [event, hv] at he
          | some q =>
            rw [event_run hv] at he heL
            simp only at he heL
            cases q <;> simp [paccess] at he
            subst heL
            have := ((hI3.last _ hv).2.1.1 hfl3).2
            simp [early] at this
      obtain ⟨k, g, hkj, hk1, hk2, hk3⟩ := hl
      rcases hK.behind t p htn hp hph with h1 | h1
      · exfalso
        refine h1 g ?_ hk2 hk3
        refine List.mem_of_getElem? (i := k) ?_
        rw [List.getElem?_take_of_lt hkj]; exact hk1
      · obtain ⟨k', e', q1, q2, q3⟩ := h1 i ⟨e, by rw [List.getElem?_take_of_lt hij]; exact hi, he⟩
        have hk'j : k' < j := by
          have := (List.getElem?_eq_some_iff.1 q1).1
          rw [List.length_take] at this; omega
        have q4 : HappensBefore tr i k' := by
          have := hb_append (tr' := tr.drop j) q3
          rwa [List.take_append_drop] at this
        refine q4.tail ⟨hk'j, e', _, ?_, hj, Or.inl q2⟩
        rw [List.getElem?_take_of_lt hk'j] at q1; exact q1

end Girgs.TaskQueue
