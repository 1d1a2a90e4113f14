import Verif.Model.HyperGenerate
import Mathlib.Algebra.BigOperators.Group.List.Basic
import Mathlib.Tactic.Linarith
/-!
The task queue of the hyperbolic sampler: invariant, completeness, absence of deadlock (and the deadlock if no task list is
created).
-/
namespace Girgs.TaskQueue

/-! ### classification of positions -/

/-- holding the mutex -/
def holds : PC → Bool
  | .setFlag => true | .setUnlock => true | .waitTest => true | .waitUnlock => true | _ => false

/-- the flag has not been set -/
def early : PC → Bool
  | .create => true | .setLock => true | .setFlag => true | _ => false

/-- not yet notified -/
def before : PC → Bool
  | .create => true | .setLock => true | .setFlag => true | .setUnlock => true | .notify => true | _ => false

/-- positions in phase 2 -/
def phase2 : PC → Bool
  | .fetch => true | .compare _ => true | .exec _ => true | .done => true | _ => false

/-- positions that require the flag -/
def passed : PC → Bool
  | .waitUnlock => true | p => phase2 p

/-- holds task `i` -/
def held (i : Nat) : PC → Nat
  | .compare j => if j = i then 1 else 0
  | .exec j => if j = i then 1 else 0
  | _ => 0

/-- got a number behind the last task -/
def over (m : Nat) : PC → Nat
  | .compare j => if m ≤ j then 1 else 0
  | .done => 1
  | _ => 0

/-- weight for the termination measure -/
def weight (n : Nat) : PC → Nat
  | .done => 0 | .fetch => 1 | .exec _ => 2 | .compare _ => 3 | .waitUnlock => 2 | .waiting => 3 | .waitTest => 4 | .waitLock => 5
  | .readFlag => 6 | .share => 7 | .notify => 2 * n + 2 | .setUnlock => 2 * n + 3 | .setFlag => 2 * n + 4 | .setLock => 2 * n + 5
  | .create => 2 * n + 6

theorem sum_set {α : Type} (f : α → Nat) : ∀ (L : List α) (t : Nat) (a b : α), L[t]? = some a →
    ((L.set t b).map f).sum + f a = (L.map f).sum + f b := by
  intro L
  induction L with
  | nil => intro t a b h; simp at h
  | cons x L ih =>
    intro t a b h
    cases t with
    | zero =>
      simp only [List.getElem?_cons_zero, Option.some.injEq] at h
      subst h
      simp [Nat.add_comm, Nat.add_left_comm]
    | succ t =>
      rw [List.getElem?_cons_succ] at h
      have := ih t a b h
      simp only [List.set_cons_succ, List.map_cons, List.sum_cons]
      omega

theorem sum_le_of_le {α : Type} (f g : α → Nat) (L : List α) (h : ∀ a ∈ L, f a ≤ g a) : (L.map f).sum ≤ (L.map g).sum := by
  induction L with
  | nil => simp
  | cons x L ih =>
    have := h x (by simp)
    have := ih (fun a ha => h a (by simp [ha]))
    simp only [List.map_cons, List.sum_cons]; omega

theorem getElem?_set' {α : Type} {L : List α} {t u : Nat} {a b : α} (ht : t < L.length) (h : (L.set t b)[u]? = some a) :
    (u = t ∧ a = b) ∨ (u ≠ t ∧ L[u]? = some a) := by
  rw [List.getElem?_set] at h
  split at h
  · rename_i e; subst e
    simp only [ht, if_true, Option.some.injEq] at h
    exact Or.inl ⟨rfl, h.symm⟩
  · rename_i e; exact Or.inr ⟨fun e' => e e'.symm, h⟩

/-- mutex, flag, task list -/
structure Ctl (n m : Nat) (gen : Bool) (s : State) : Prop where
  len : s.pcs.length = n
  owner_lt : ∀ t : Nat, s.owner = some t → t < n
  mutex : ∀ (t : Nat) (p : PC), s.pcs[t]? = some p → (holds p = true ↔ s.owner = some t)
  work : ∀ (t : Nat) (p : PC), s.pcs[t]? = some p → t + 1 ≠ n → before p = false ∧ (passed p = true → s.flag = true)
  last : ∀ p : PC, s.pcs[n - 1]? = some p → (before p = true ∧ gen = true ∨ phase2 p = true) ∧ (s.flag = true ↔ gen = true ∧ early p = false) ∧
    (s.size = if p = PC.create then 0 else m) ∧ (gen = true → ∀ t : Nat, s.pcs[t]? = some PC.waiting → before p = true)

/-- who got which task -/
structure Cnt (n m : Nat) (s : State) : Prop where
  loglen : s.log.length = n
  count : ∀ i, i < m → s.log.flatten.count i + (s.pcs.map (held i)).sum = if i < s.counter then 1 else 0
  log_lt : ∀ l ∈ s.log, ∀ i ∈ l, i < m
  pc_lt : ∀ (t i : Nat), s.pcs[t]? = some (PC.exec i) → i < m
  cmp_lt : ∀ (t i : Nat), s.pcs[t]? = some (PC.compare i) → i < s.counter
  done_ge : ∀ t : Nat, s.pcs[t]? = some PC.done → m ≤ s.counter
  counter_le : s.counter ≤ m + (s.pcs.map (over m)).sum

structure Inv (n m : Nat) (gen : Bool) (s : State) : Prop extends Ctl n m gen s, Cnt n m s

/-- the termination measure -/
def measure (n m : Nat) (s : State) : Nat := (s.pcs.map (weight n)).sum + 4 * (m + n - s.counter)

theorem init_get {n t : Nat} {gen : Bool} {p : PC} (h : (init n gen).pcs[t]? = some p) :
    t < n ∧ p = if t + 1 = n then (if gen then .create else .fetch) else .share := by
  unfold init at h
  simp only [List.getElem?_map] at h
  by_cases ht : t < n
  · rw [List.getElem?_range ht] at h
    simp only [Option.map_some, Option.some.injEq] at h
    exact ⟨ht, h.symm⟩
  · rw [List.getElem?_eq_none (by simpa using ht)] at h; cases h

theorem sum_zero {α : Type} (f : α → Nat) (L : List α) (h : ∀ a ∈ L, f a = 0) : (L.map f).sum = 0 := by
  induction L with
  | nil => rfl
  | cons x L ih => simp [h x (by simp), ih (fun a ha => h a (by simp [ha]))]

theorem init_inv {n m : Nat} {gen : Bool} (hn : 2 ≤ n) (hg : gen = false → m = 0) : Inv n m gen (init n gen) := by
  have hmem : ∀ p ∈ (init n gen).pcs, p = .create ∨ p = .fetch ∨ p = .share := by
    intro p hp
    obtain ⟨t, ht, rfl⟩ := List.getElem_of_mem hp
    obtain ⟨_, e⟩ := init_get (List.getElem?_eq_getElem ht)
    rw [e]; split
    · cases gen <;> simp
    · simp
  refine ⟨⟨?_, ?_, ?_, ?_, ?_⟩, ⟨?_, ?_, ?_, ?_, ?_, ?_, ?_⟩⟩
  · simp [init]
  · intro t h; simp [init] at h
  · intro t p h
    have := hmem p (List.mem_of_getElem? h)
    rcases this with rfl | rfl | rfl <;> simp [holds, init]
  · intro t p h hne
    obtain ⟨_, rfl⟩ := init_get h
    rw [if_neg hne]
    simp [before, passed, phase2]
  · intro p h
    obtain ⟨_, rfl⟩ := init_get h
    rw [if_pos (by omega)]
    cases gen
    · simp [before, phase2, init, hg rfl]
    · simp [before, phase2, init, early]
  · simp [init]
  · intro i _
    rw [sum_zero _ _ (by intro p hp; rcases hmem p hp with rfl | rfl | rfl <;> rfl)]
    have : (init n gen).log.flatten = [] := by
      show (List.replicate n []).flatten = []
      induction n with
      | zero => rfl
      | succ k ih => simp
    rw [this]
    simp [init]
  · intro l hl i hi
    have : l = [] := by
      have := List.eq_of_mem_replicate (show l ∈ List.replicate n [] from hl)
      exact this
    rw [this] at hi; simp at hi
  · intro t i h
    rcases hmem _ (List.mem_of_getElem? h) with h | h | h <;> cases h
  · intro t i h
    rcases hmem _ (List.mem_of_getElem? h) with h | h | h <;> cases h
  · intro t h
    rcases hmem _ (List.mem_of_getElem? h) with h | h | h <;> cases h
  · simp [init]

/-- a step of thread `t` that moves it from `p` to `p'` without touching counter, log or the waiting threads -/
theorem Ctl.move {n m : Nat} {gen : Bool} {s : State} (h : Ctl n m gen s) {t : Nat} {p p' : PC} (ht : s.pcs[t]? = some p)
    {o : Option Nat} {f : Bool} {z : Nat}
    (howner : (holds p' = true ∧ o = some t ∧ (s.owner = none ∨ holds p = true)) ∨ (holds p' = false ∧ holds p = true ∧ o = none) ∨
      (holds p' = false ∧ holds p = false ∧ o = s.owner))
    (hwork : t + 1 ≠ n → before p' = false ∧ (passed p' = true → f = true) ∧ f = s.flag ∧ z = s.size ∧
      (p' = .waiting → s.flag = false))
    (hlast : t + 1 = n → (before p' = true ∧ gen = true ∨ phase2 p' = true) ∧ (f = true ↔ gen = true ∧ early p' = false) ∧
      (s.flag = true → f = true) ∧ (z = if p' = .create then 0 else m) ∧ p' ≠ .waiting ∧ ((before p = true → before p' = true) ∨ ∀ u : Nat, s.pcs[u]? ≠ some PC.waiting))
    {c : Nat} {lg : List (List Nat)} :
    Ctl n m gen { pcs := s.pcs.set t p', owner := o, flag := f, size := z, counter := c, log := lg } := by
  have htl : t < s.pcs.length := (List.getElem?_eq_some_iff.1 ht).1
  have htn : t < n := by rw [← h.len]; exact htl
  obtain ⟨pl, hpl⟩ : ∃ pl, s.pcs[n - 1]? = some pl := ⟨_, List.getElem?_eq_getElem (by rw [h.len]; omega)⟩
  have hLp := h.last pl hpl
  refine ⟨?_, ?_, ?_, ?_, ?_⟩
  · simp [h.len]
  · intro u hu
    simp only at hu
    rcases howner with ⟨_, e, _⟩ | ⟨_, _, e⟩ | ⟨_, _, e⟩
    · rw [e, Option.some.injEq] at hu; omega
    · rw [e] at hu; cases hu
    · rw [e] at hu; exact h.owner_lt u hu
  · intro u q hq
    simp only at hq ⊢
    rcases getElem?_set' htl hq with ⟨rfl, rfl⟩ | ⟨hne, hq⟩
    · rcases howner with ⟨e1, e2, _⟩ | ⟨e1, _, e2⟩ | ⟨e1, e3, e2⟩
      · simp [e1, e2]
      · simp [e1, e2]
      · rw [e1, e2]
        have := h.mutex u p ht
        rw [e3] at this
        simpa using this
    · have hm := h.mutex u q hq
      have hm' := h.mutex t p ht
      rcases howner with ⟨e1, e2, e3⟩ | ⟨e1, e3, e2⟩ | ⟨e1, e3, e2⟩
      · rw [e2]
        have : ¬ (holds q = true) := by
          intro hh
          have h1 := hm.1 hh
          rcases e3 with e3 | e3
          · rw [e3] at h1; cases h1
          · have := hm'.1 e3
            rw [this, Option.some.injEq] at h1
            exact hne h1.symm
        constructor
        · intro hh; exact absurd hh this
        · intro hh; exact absurd (Option.some.inj hh).symm hne
      · rw [e2]
        have h1 := hm'.1 e3
        constructor
        · intro hh
          rw [hm.1 hh, Option.some.injEq] at h1
          exact absurd h1 hne
        · intro hh; cases hh
      · rw [e2]; exact hm
  · intro u q hq hu
    simp only at hq ⊢
    rcases getElem?_set' htl hq with ⟨rfl, rfl⟩ | ⟨hne, hq⟩
    · exact ⟨(hwork hu).1, (hwork hu).2.1⟩
    · have h1 := h.work u q hq hu
      refine ⟨h1.1, fun hp => ?_⟩
      have hf := h1.2 hp
      by_cases hl : t + 1 = n
      · exact (hlast hl).2.2.1 hf
      · rw [(hwork hl).2.2.1]; exact hf
  · intro q hq
    simp only at hq ⊢
    rcases getElem?_set' htl hq with ⟨e, rfl⟩ | ⟨hne, hq⟩
    · have hl : t + 1 = n := by omega
      obtain ⟨h1, h2, h3, h4, h5, h6⟩ := hlast hl
      refine ⟨h1, h2, h4, ?_⟩
      intro hg u hu
      rcases getElem?_set' htl hu with ⟨_, e'⟩ | ⟨_, hu⟩
      · exact absurd e'.symm h5
      · have : s.pcs[n - 1]? = some p := by rw [e]; exact ht
        rcases h6 with h6 | h6
        · exact h6 ((h.last p this).2.2.2 hg u hu)
        · exact absurd hu (h6 u)
    · have hl : t + 1 ≠ n := by omega
      obtain ⟨h1, h2, h3, h4, h5⟩ := hwork hl
      obtain ⟨g1, g2, g3, g4⟩ := h.last q hq
      refine ⟨g1, by rw [h3]; exact g2, by rw [h4]; exact g3, ?_⟩
      intro hg u hu
      rcases getElem?_set' htl hu with ⟨_, e'⟩ | ⟨_, hu⟩
      · have hf := h5 e'.symm
        have : early q = true := by
          by_contra hne
          have := g2.2 ⟨hg, by simpa using hne⟩
          rw [hf] at this; cases this
        cases q <;> simp [early, before] at this ⊢
      · exact g4 hg u hu

/-- a step that does not take or execute a task -/
theorem Cnt.move {n m : Nat} {s : State} (h : Cnt n m s) {t : Nat} {p p' : PC} (ht : s.pcs[t]? = some p)
    {o : Option Nat} {f : Bool} {z : Nat}
    (hheld : ∀ i, i < m → held i p' = held i p) (hover : over m p' = over m p)
    (hex : ∀ i, p' = .exec i → i < m) (hcmp : ∀ i, p' = .compare i → i < s.counter) (hdone : p' = .done → m ≤ s.counter) :
    Cnt n m { pcs := s.pcs.set t p', owner := o, flag := f, size := z, counter := s.counter, log := s.log } := by
  have htl : t < s.pcs.length := (List.getElem?_eq_some_iff.1 ht).1
  refine ⟨h.loglen, ?_, h.log_lt, ?_, ?_, ?_, ?_⟩
  · intro i hi
    have h1 := h.count i hi
    have h2 := sum_set (held i) s.pcs t p p' ht
    rw [hheld i hi] at h2
    simp only
    omega
  · intro u i hu
    rcases getElem?_set' htl hu with ⟨_, e⟩ | ⟨_, hu⟩
    · exact hex i e.symm
    · exact h.pc_lt u i hu
  · intro u i hu
    rcases getElem?_set' htl hu with ⟨_, e⟩ | ⟨_, hu⟩
    · exact hcmp i e.symm
    · exact h.cmp_lt u i hu
  · intro u hu
    rcases getElem?_set' htl hu with ⟨_, e⟩ | ⟨_, hu⟩
    · exact hdone e.symm
    · exact h.done_ge u hu
  · have h1 := h.counter_le
    have h2 := sum_set (over m) s.pcs t p p' ht
    rw [hover] at h2
    simp only
    omega

/-- `fetch_add` -/
theorem Cnt.fetch {n m : Nat} {s : State} (h : Cnt n m s) {t : Nat} (ht : s.pcs[t]? = some PC.fetch)
    {o : Option Nat} {f : Bool} {z : Nat} :
    Cnt n m { pcs := s.pcs.set t (.compare s.counter), owner := o, flag := f, size := z, counter := s.counter + 1, log := s.log } := by
  have htl : t < s.pcs.length := (List.getElem?_eq_some_iff.1 ht).1
  refine ⟨h.loglen, ?_, h.log_lt, ?_, ?_, ?_, ?_⟩
  · intro i hi
    have h1 := h.count i hi
    have h2 := sum_set (held i) s.pcs t _ (.compare s.counter) ht
    simp only [held] at h2
    simp only
    split_ifs at h1 h2 ⊢ <;> omega
  · intro u i hu
    rcases getElem?_set' htl hu with ⟨_, e⟩ | ⟨_, hu⟩
    · cases e
    · exact h.pc_lt u i hu
  · intro u i hu
    simp only
    rcases getElem?_set' htl hu with ⟨_, e⟩ | ⟨_, hu⟩
    · obtain rfl := PC.compare.inj e; omega
    · have := h.cmp_lt u i hu; omega
  · intro u hu
    simp only
    rcases getElem?_set' htl hu with ⟨_, e⟩ | ⟨_, hu⟩
    · cases e
    · have := h.done_ge u hu; omega
  · have h1 := h.counter_le
    have h2 := sum_set (over m) s.pcs t _ (.compare s.counter) ht
    simp only [over] at h2
    simp only
    split_ifs at h2 <;> omega

theorem count_flatten_set {i x : Nat} : ∀ (L : List (List Nat)) (t : Nat) (l : List Nat), L[t]? = some l →
    (L.set t (l ++ [x])).flatten.count i = L.flatten.count i + (if x = i then 1 else 0) := by
  intro L
  induction L with
  | nil => intro t l h; simp at h
  | cons a L ih =>
    intro t l h
    cases t with
    | zero =>
      simp only [List.getElem?_cons_zero, Option.some.injEq] at h
      subst h
      simp only [List.set_cons_zero, List.flatten_cons, List.count_append, List.count_singleton, beq_iff_eq]
      omega
    | succ t =>
      rw [List.getElem?_cons_succ] at h
      simp only [List.set_cons_succ, List.flatten_cons, List.count_append]
      rw [ih t l h]; omega

/-- executing a task -/
theorem Cnt.exec {n m : Nat} {s : State} (h : Cnt n m s) {t i : Nat} {l : List Nat} (ht : s.pcs[t]? = some (PC.exec i)) (hl : s.log[t]? = some l)
    {o : Option Nat} {f : Bool} {z : Nat} :
    Cnt n m { pcs := s.pcs.set t .fetch, owner := o, flag := f, size := z, counter := s.counter, log := s.log.set t (l ++ [i]) } := by
  have htl : t < s.pcs.length := (List.getElem?_eq_some_iff.1 ht).1
  have htl' : t < s.log.length := (List.getElem?_eq_some_iff.1 hl).1
  refine ⟨by simpa using h.loglen, ?_, ?_, ?_, ?_, ?_, ?_⟩
  · intro j hj
    have h1 := h.count j hj
    have h2 := sum_set (held j) s.pcs t _ .fetch ht
    simp only [held] at h2
    simp only
    rw [count_flatten_set s.log t l hl]
    split_ifs at h1 h2 ⊢ <;> omega
  · intro k hk j hj
    obtain ⟨u, hu, e⟩ := List.getElem_of_mem hk
    have e' : (s.log.set t (l ++ [i]))[u]? = some k := by rw [List.getElem?_eq_getElem hu, e]
    rcases getElem?_set' htl' e' with ⟨rfl, rfl⟩ | ⟨_, e'⟩
    · rw [List.mem_append] at hj
      rcases hj with hj | hj
      · exact h.log_lt l (List.mem_of_getElem? hl) j hj
      · rw [List.mem_singleton] at hj; subst hj; exact h.pc_lt u j ht
    · exact h.log_lt k (List.mem_of_getElem? e') j hj
  · intro u j hu
    rcases getElem?_set' htl hu with ⟨_, e⟩ | ⟨_, hu⟩
    · cases e
    · exact h.pc_lt u j hu
  · intro u j hu
    rcases getElem?_set' htl hu with ⟨_, e⟩ | ⟨_, hu⟩
    · cases e
    · exact h.cmp_lt u j hu
  · intro u hu
    rcases getElem?_set' htl hu with ⟨_, e⟩ | ⟨_, hu⟩
    · cases e
    · exact h.done_ge u hu
  · have h1 := h.counter_le
    have h2 := sum_set (over m) s.pcs t _ .fetch ht
    simp only [over] at h2
    simp only
    omega

theorem wake_get {pcs : List PC} {u : Nat} {q : PC} (h : (wakeAll pcs)[u]? = some q) :
    ∃ p, pcs[u]? = some p ∧ q = (if p = .waiting then .waitLock else p) ∧ q ≠ .waiting := by
  unfold wakeAll at h
  rw [List.getElem?_map] at h
  cases hp : pcs[u]? with
  | none => rw [hp] at h; cases h
  | some p =>
    rw [hp] at h
    simp only [Option.map_some, Option.some.injEq] at h
    refine ⟨p, rfl, h.symm, ?_⟩
    rw [← h]
    split
    · intro e; cases e
    · assumption

theorem wake_get_of {pcs : List PC} {u : Nat} {p : PC} (h : pcs[u]? = some p) (hp : p ≠ .waiting) : (wakeAll pcs)[u]? = some p := by
  unfold wakeAll
  rw [List.getElem?_map, h, Option.map_some, if_neg hp]

theorem sum_wake (f : PC → Nat) (hf : f .waiting = f .waitLock) (pcs : List PC) : ((wakeAll pcs).map f).sum = (pcs.map f).sum := by
  unfold wakeAll
  rw [List.map_map]
  congr 1
  apply List.map_congr_left
  intro p _
  simp only [Function.comp_apply]
  split
  · rename_i h; rw [h, hf]
  · rfl

/-- `notify_all` -/
theorem Inv.wake {n m : Nat} {gen : Bool} {s : State} (h : Inv n m gen s) : Inv n m gen { s with pcs := wakeAll s.pcs } := by
  have hc : ∀ (P : PC → Bool), P .waiting = P .waitLock → ∀ p : PC, P (if p = .waiting then .waitLock else p) = P p := by
    intro P hP p
    split
    · rename_i e; rw [e, hP]
    · rfl
  refine ⟨⟨?_, h.owner_lt, ?_, ?_, ?_⟩, ⟨h.loglen, ?_, h.log_lt, ?_, ?_, ?_, ?_⟩⟩
  · simpa [wakeAll] using h.len
  · intro t q hq
    obtain ⟨p, hp, rfl, _⟩ := wake_get hq
    rw [hc holds rfl]; exact h.mutex t p hp
  · intro t q hq hne
    obtain ⟨p, hp, rfl, _⟩ := wake_get hq
    rw [hc before rfl, hc passed rfl]; exact h.work t p hp hne
  · intro q hq
    obtain ⟨p, hp, rfl, _⟩ := wake_get hq
    obtain ⟨h1, h2, h3, h4⟩ := h.last p hp
    rw [hc before rfl, hc phase2 rfl, hc early rfl]
    refine ⟨h1, h2, ?_, ?_⟩
    · simp only; rw [h3]
      by_cases e : p = .waiting
      · simp [e]
      · simp [e]
    · intro hg t ht
      obtain ⟨_, _, _, hne⟩ := wake_get ht
      exact absurd rfl hne
  · intro i hi
    simp only
    rw [sum_wake _ rfl]; exact h.count i hi
  · intro t i ht
    obtain ⟨p, hp, e, _⟩ := wake_get ht
    split at e
    · cases e
    · subst e; exact h.pc_lt t i hp
  · intro t i ht
    obtain ⟨p, hp, e, _⟩ := wake_get ht
    split at e
    · cases e
    · subst e; exact h.cmp_lt t i hp
  · intro t ht
    obtain ⟨p, hp, e, _⟩ := wake_get ht
    split at e
    · cases e
    · subst e; exact h.done_ge t hp
  · simp only
    rw [sum_wake _ rfl]; exact h.counter_le

/-- the thread cannot do anything now -/
def blocked (s : State) (t : Nat) : Prop :=
  s.pcs[t]? = some PC.done ∨ s.pcs[t]? = some PC.waiting ∨
    ((s.pcs[t]? = some PC.setLock ∨ s.pcs[t]? = some PC.waitLock) ∧ s.owner ≠ none)

theorem measure_set {n m : Nat} {s : State} {t : Nat} {p p' : PC} (ht : s.pcs[t]? = some p) (hw : weight n p' < weight n p)
    {o : Option Nat} {f : Bool} {z : Nat} {lg : List (List Nat)} :
    measure n m { pcs := s.pcs.set t p', owner := o, flag := f, size := z, counter := s.counter, log := lg } < measure n m s := by
  unfold measure
  have := sum_set (weight n) s.pcs t p p' ht
  simp only
  omega

theorem sum_le_length {α : Type} (f : α → Nat) (L : List α) (h : ∀ a ∈ L, f a ≤ 1) : (L.map f).sum ≤ L.length := by
  induction L with
  | nil => simp
  | cons x L ih =>
    have := h x (by simp)
    have := ih (fun a ha => h a (by simp [ha]))
    simp only [List.map_cons, List.sum_cons, List.length_cons]; omega

theorem over_le (m : Nat) (p : PC) : over m p ≤ 1 := by
  cases p <;> simp [over]
  split <;> omega

theorem Inv.counter_lt {n m : Nat} {gen : Bool} {s : State} (h : Inv n m gen s) {t : Nat} (ht : s.pcs[t]? = some PC.fetch) :
    s.counter < m + n := by
  have h1 := sum_set (over m) s.pcs t _ .done ht
  have h2 := sum_le_length (over m) (s.pcs.set t .done) (fun a _ => over_le m a)
  simp only [over, List.length_set] at h1 h2
  have := h.counter_le
  have := h.len
  omega

theorem wake_weight (n : Nat) (pcs : List PC) : ((wakeAll pcs).map (weight n)).sum ≤ (pcs.map (weight n)).sum + 2 * pcs.length := by
  induction pcs with
  | nil => simp [wakeAll]
  | cons p L ih =>
    simp only [wakeAll, List.map_cons, List.sum_cons, List.length_cons] at ih ⊢
    by_cases e : p = .waiting
    · rw [if_pos e, e]; simp only [weight]; omega
    · rw [if_neg e]; omega

theorem Inv.size_eq {n m : Nat} {gen : Bool} {s : State} (h : Inv n m gen s) {t : Nat} {p : PC} (ht : s.pcs[t]? = some p)
    (hp : phase2 p = true) : s.size = m := by
  have htl : t < s.pcs.length := (List.getElem?_eq_some_iff.1 ht).1
  have hlen := h.len
  obtain ⟨pl, hpl⟩ : ∃ pl, s.pcs[n - 1]? = some pl := ⟨_, List.getElem?_eq_getElem (by omega)⟩
  obtain ⟨h1, h2, h3, h4⟩ := h.last pl hpl
  by_cases hl : t + 1 = n
  · have : p = pl := by
      have e : t = n - 1 := by omega
      rw [← e, ht] at hpl; exact Option.some.inj hpl
    subst this
    rw [h3, if_neg]
    intro e; subst e; simp [phase2] at hp
  · have hf := (h.work t p ht hl).2 (by cases p <;> simp_all [passed, phase2])
    have := (h2.1 hf).2
    rw [h3, if_neg]
    intro e; subst e; simp [early] at this

set_option maxHeartbeats 2000000 in
/-- a step keeps the invariant, and changes the state only if it decreases the measure -/
theorem Inv.next {n m : Nat} {gen : Bool} {s : State} (h : Inv n m gen s) {t : Nat} (ht : t < n) (hb : m + n + 1 < 2 ^ 32) :
    ∃ s', step m s (.run t) = some s' ∧ Inv n m gen s' ∧ ((blocked s t ∧ s' = s) ∨ (¬ blocked s t ∧ measure n m s' < measure n m s)) := by
  have hlen := h.len
  have htl : t < s.pcs.length := by omega
  obtain ⟨p, hp⟩ : ∃ p, s.pcs[t]? = some p := ⟨_, List.getElem?_eq_getElem htl⟩
  have hrd : rd s.pcs t = some p := hp
  obtain ⟨pl, hpl⟩ : ∃ pl, s.pcs[n - 1]? = some pl := ⟨_, List.getElem?_eq_getElem (by omega)⟩
  have hL := h.last pl hpl
  have hmut := h.mutex t p hp
  have hlastp : t + 1 = n → pl = p := by
    intro hl
    have e : n - 1 = t := by omega
    rw [e, hp] at hpl; exact (Option.some.inj hpl).symm
  have hnb : ∀ q : PC, p = q → q ≠ .done → q ≠ .waiting → ((q = .setLock ∨ q = .waitLock) → s.owner = none) → ¬ blocked s t := by
    intro q e h1 h2 h3 hbl
    subst e
    unfold blocked at hbl
    rw [hp] at hbl
    simp only [Option.some.injEq] at hbl
    rcases hbl with e | e | ⟨e, e'⟩
    · exact h1 e
    · exact h2 e
    · exact e' (h3 e)
  cases p with
  | create =>
    have hl : t + 1 = n := by
      by_contra hl
      have := (h.work t _ hp hl).1; simp [before] at this
    have hpe := hlastp hl; subst hpe
    refine ⟨_, (obind hrd _).trans rfl, ⟨h.toCtl.move hp ?_ ?_ ?_, h.toCnt.move hp ?_ ?_ ?_ ?_ ?_⟩, Or.inr ⟨hnb _ rfl ?_ ?_ ?_, measure_set hp ?_⟩⟩
    all_goals (try simp_all [holds, before, phase2, early, held, over, weight])
  | setLock =>
    have hl : t + 1 = n := by
      by_contra hl
      have := (h.work t _ hp hl).1; simp [before] at this
    have hpe := hlastp hl; subst hpe
    by_cases ho : s.owner = none
    · refine ⟨_, (obind hrd _).trans (if_pos ho), ⟨h.toCtl.move hp ?_ ?_ ?_, h.toCnt.move hp ?_ ?_ ?_ ?_ ?_⟩, Or.inr ⟨hnb _ rfl ?_ ?_ ?_, measure_set hp ?_⟩⟩
      all_goals (try simp_all [holds, before, phase2, early, held, over, weight])
    · exact ⟨s, (obind hrd _).trans (if_neg ho), h, Or.inl ⟨Or.inr (Or.inr ⟨Or.inl hp, ho⟩), rfl⟩⟩
  | setFlag =>
    have hl : t + 1 = n := by
      by_contra hl
      have := (h.work t _ hp hl).1; simp [before] at this
    have hpe := hlastp hl; subst hpe
    refine ⟨_, (obind hrd _).trans rfl, ⟨h.toCtl.move hp ?_ ?_ ?_, h.toCnt.move hp ?_ ?_ ?_ ?_ ?_⟩, Or.inr ⟨hnb _ rfl ?_ ?_ ?_, measure_set hp ?_⟩⟩
    all_goals (try simp_all [holds, before, phase2, early, held, over, weight])
  | setUnlock =>
    have hl : t + 1 = n := by
      by_contra hl
      have := (h.work t _ hp hl).1; simp [before] at this
    have hpe := hlastp hl; subst hpe
    refine ⟨_, (obind hrd _).trans rfl, ⟨h.toCtl.move hp ?_ ?_ ?_, h.toCnt.move hp ?_ ?_ ?_ ?_ ?_⟩, Or.inr ⟨hnb _ rfl ?_ ?_ ?_, measure_set hp ?_⟩⟩
    all_goals (try simp_all [holds, before, phase2, early, held, over, weight])
  | notify =>
    have hl : t + 1 = n := by
      by_contra hl
      have := (h.work t _ hp hl).1; simp [before] at this
    have hpe := hlastp hl; subst hpe
    have hw := h.wake
    have hp' : ({ s with pcs := wakeAll s.pcs } : State).pcs[t]? = some PC.notify := wake_get_of hp (by intro e; cases e)
    have hno : ∀ u : Nat, ({ s with pcs := wakeAll s.pcs } : State).pcs[u]? ≠ some PC.waiting := by
      intro u hu
      obtain ⟨_, _, _, hne⟩ := wake_get hu
      exact hne rfl
    refine ⟨_, (obind hrd _).trans rfl, ⟨hw.toCtl.move hp' ?_ ?_ ?_, hw.toCnt.move hp' ?_ ?_ ?_ ?_ ?_⟩, Or.inr ⟨hnb _ rfl ?_ ?_ ?_, ?_⟩⟩
    case refine_3 =>
      intro _
      refine ⟨Or.inr rfl, ?_, ?_, ?_, ?_, Or.inr hno⟩
      all_goals (try simp_all [holds, before, phase2, early, held, over, weight])
    case refine_12 =>
      have h1 := sum_set (weight n) (wakeAll s.pcs) t _ .fetch hp'
      have h2 := wake_weight n s.pcs
      unfold measure
      simp only [weight] at h1 ⊢
      omega
    all_goals (try simp_all [holds, before, phase2, early, held, over, weight])
  | share =>
    have hl : t + 1 ≠ n := by
      intro hl
      have hpe := hlastp hl; subst hpe
      simp [before, phase2] at hL
    refine ⟨_, (obind hrd _).trans rfl, ⟨h.toCtl.move hp ?_ ?_ ?_, h.toCnt.move hp ?_ ?_ ?_ ?_ ?_⟩, Or.inr ⟨hnb _ rfl ?_ ?_ ?_, measure_set hp ?_⟩⟩
    all_goals (try simp_all [holds, before, phase2, early, held, over, weight, passed])
  | readFlag =>
    have hl : t + 1 ≠ n := by
      intro hl
      have hpe := hlastp hl; subst hpe
      simp [before, phase2] at hL
    refine ⟨_, (obind hrd _).trans rfl, ?_⟩
    cases hf : s.flag
    · refine ⟨⟨h.toCtl.move hp ?_ ?_ ?_, h.toCnt.move hp ?_ ?_ ?_ ?_ ?_⟩, Or.inr ⟨hnb _ rfl ?_ ?_ ?_, measure_set hp ?_⟩⟩
      all_goals (try simp_all [holds, before, phase2, early, held, over, weight, passed])
    · refine ⟨⟨h.toCtl.move hp ?_ ?_ ?_, h.toCnt.move hp ?_ ?_ ?_ ?_ ?_⟩, Or.inr ⟨hnb _ rfl ?_ ?_ ?_, measure_set hp ?_⟩⟩
      all_goals (try simp_all [holds, before, phase2, early, held, over, weight, passed])
  | waitLock =>
    have hl : t + 1 ≠ n := by
      intro hl
      have hpe := hlastp hl; subst hpe
      simp [before, phase2] at hL
    by_cases ho : s.owner = none
    · refine ⟨_, (obind hrd _).trans (if_pos ho), ⟨h.toCtl.move hp ?_ ?_ ?_, h.toCnt.move hp ?_ ?_ ?_ ?_ ?_⟩, Or.inr ⟨hnb _ rfl ?_ ?_ ?_, measure_set hp ?_⟩⟩
      all_goals (try simp_all [holds, before, phase2, early, held, over, weight, passed])
    · exact ⟨s, (obind hrd _).trans (if_neg ho), h, Or.inl ⟨Or.inr (Or.inr ⟨Or.inr hp, ho⟩), rfl⟩⟩
  | waitTest =>
    have hl : t + 1 ≠ n := by
      intro hl
      have hpe := hlastp hl; subst hpe
      simp [before, phase2] at hL
    cases hf : s.flag
    · refine ⟨_, (obind hrd _).trans (if_neg (by simp [hf])), ⟨h.toCtl.move hp ?_ ?_ ?_, h.toCnt.move hp ?_ ?_ ?_ ?_ ?_⟩, Or.inr ⟨hnb _ rfl ?_ ?_ ?_, measure_set hp ?_⟩⟩
      all_goals (try simp_all [holds, before, phase2, early, held, over, weight, passed])
    · refine ⟨_, (obind hrd _).trans (if_pos hf), ⟨h.toCtl.move hp ?_ ?_ ?_, h.toCnt.move hp ?_ ?_ ?_ ?_ ?_⟩, Or.inr ⟨hnb _ rfl ?_ ?_ ?_, measure_set hp ?_⟩⟩
      all_goals (try simp_all [holds, before, phase2, early, held, over, weight, passed])
  | waiting => exact ⟨s, (obind hrd _).trans rfl, h, Or.inl ⟨Or.inr (Or.inl hp), rfl⟩⟩
  | waitUnlock =>
    have hl : t + 1 ≠ n := by
      intro hl
      have hpe := hlastp hl; subst hpe
      simp [before, phase2] at hL
    have hf := (h.work t _ hp hl).2 rfl
    refine ⟨_, (obind hrd _).trans rfl, ⟨h.toCtl.move hp ?_ ?_ ?_, h.toCnt.move hp ?_ ?_ ?_ ?_ ?_⟩, Or.inr ⟨hnb _ rfl ?_ ?_ ?_, measure_set hp ?_⟩⟩
    all_goals (try simp_all [holds, before, phase2, early, held, over, weight, passed])
  | fetch =>
    have hc := h.counter_lt hp
    have hu : u32 (s.counter + 1) = s.counter + 1 := by
      unfold u32; exact Nat.mod_eq_of_lt (by omega)
    refine ⟨_, (obind hrd _).trans rfl, ?_⟩
    rw [hu]
    have hz := h.size_eq hp rfl
    have hflag : t + 1 ≠ n → s.flag = true := fun hl => (h.work t _ hp hl).2 rfl
    refine ⟨⟨h.toCtl.move hp ?_ ?_ ?_, h.toCnt.fetch hp⟩, Or.inr ⟨hnb _ rfl ?_ ?_ ?_, ?_⟩⟩
    case refine_7 =>
      have h1 := sum_set (weight n) s.pcs t _ (.compare s.counter) hp
      unfold measure
      simp only [weight] at h1 ⊢
      omega
    case refine_3 =>
      intro hl
      have := hlastp hl; subst this
      simp_all [holds, before, phase2, early, held, over, weight, passed]
    all_goals (try simp_all [holds, before, phase2, early, held, over, weight, passed])
  | compare i =>
    have hz := h.size_eq hp rfl
    have hflag : t + 1 ≠ n → s.flag = true := fun hl => (h.work t _ hp hl).2 rfl
    have hci := h.cmp_lt t i hp
    refine ⟨_, (obind hrd _).trans rfl, ?_⟩
    rw [hz]
    by_cases hi : m ≤ i
    · rw [if_pos hi]
      refine ⟨⟨h.toCtl.move hp ?_ ?_ ?_, h.toCnt.move hp ?_ ?_ ?_ ?_ ?_⟩, Or.inr ⟨hnb _ rfl ?_ ?_ ?_, measure_set hp ?_⟩⟩
      case refine_3 =>
        intro hl
        have := hlastp hl; subst this
        simp_all [holds, before, phase2, early, held, over, weight, passed]
      case refine_4 => intro j hj; simp only [held]; rw [if_neg (by omega)]
      case refine_8 => intro _; omega
      all_goals (try simp_all [holds, before, phase2, early, held, over, weight, passed])
    · rw [if_neg hi]
      refine ⟨⟨h.toCtl.move hp ?_ ?_ ?_, h.toCnt.move hp ?_ ?_ ?_ ?_ ?_⟩, Or.inr ⟨hnb _ rfl ?_ ?_ ?_, measure_set hp ?_⟩⟩
      case refine_3 =>
        intro hl
        have := hlastp hl; subst this
        simp_all [holds, before, phase2, early, held, over, weight, passed]
      case refine_6 => intro j hj; cases hj; omega
      all_goals (try simp_all [holds, before, phase2, early, held, over, weight, passed])
  | exec i =>
    have hz := h.size_eq hp rfl
    have hflag : t + 1 ≠ n → s.flag = true := fun hl => (h.work t _ hp hl).2 rfl
    have htl' : t < s.log.length := by rw [h.loglen]; exact ht
    have hlg : s.log[t]? = some s.log[t] := List.getElem?_eq_getElem htl'
    refine ⟨_, (obind hrd _).trans (obind (show rd s.log t = some _ from hlg) _), ?_⟩
    refine ⟨⟨h.toCtl.move hp ?_ ?_ ?_, h.toCnt.exec hp hlg⟩, Or.inr ⟨hnb _ rfl ?_ ?_ ?_, measure_set hp ?_⟩⟩
    case refine_3 =>
      intro hl
      have := hlastp hl; subst this
      simp_all [holds, before, phase2, early, held, over, weight, passed]
    all_goals (try simp_all [holds, before, phase2, early, held, over, weight, passed])
  | done => exact ⟨s, (obind hrd _).trans rfl, h, Or.inl ⟨Or.inl hp, rfl⟩⟩

end Girgs.TaskQueue
