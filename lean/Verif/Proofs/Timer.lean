import Verif.Model.Timer
/-
What calls of methods do to a timer and to the world.
-/
namespace Girgs
namespace Timer
variable {F : Type} [CFloat F]

/-- the calls that print -/
def Op.reports : Op → Bool
  | .report => true
  | .reportAs _ => true
  | _ => false

theorem calls_append (ndebug : Bool) (a b : List Op) (t : Timer) (w : World F) :
    calls ndebug (a ++ b) t w = (calls ndebug a t w).bind fun r => calls ndebug b r.1 r.2 := by
  induction a generalizing t w with
  | nil => rfl
  | cons o os ih =>
    simp only [List.cons_append, calls, Option.bind_eq_bind]
    cases h : call ndebug o t w with
    | none => rfl
    | some r => simp only [Option.bind_some]; exact ih r.1 r.2

/-- the effect of one call -/
theorem call_some {ndebug : Bool} {o : Op} {t t' : Timer} {w w' : World F} (h : call ndebug o t w = some (t', w')) :
    w'.clock = w.clock ∧ w'.reads = w.reads + 1 ∧ w'.vars = w.vars ∧ t'.label = t.label ∧ t'.output = t.output ∧
    (∃ rs, w'.out = w.out ++ rs ∧ rs.length = if o.reports then 1 else 0) ∧
    (o ≠ .start → t' = t) ∧ (o = .start → t'.started = true ∧ t'.start = w.clock w.reads) := by
  cases o with
  | start =>
    simp only [call, doStart, now, Option.some.injEq, Prod.mk.injEq] at h
    obtain ⟨rfl, rfl⟩ := h
    exact ⟨rfl, rfl, rfl, rfl, rfl, ⟨[], by simp [Op.reports]⟩, by simp, by simp⟩
  | elapsed =>
    simp only [call, elapsed, now, Option.some.injEq, Prod.mk.injEq] at h
    obtain ⟨rfl, rfl⟩ := h
    exact ⟨rfl, rfl, rfl, rfl, rfl, ⟨[], by simp [Op.reports]⟩, by simp, by simp⟩
  | report =>
    simp only [call, report, reportAs, elapsed, now, Option.map_eq_some_iff] at h
    obtain ⟨r, h1, h2⟩ := h
    split at h1
    · cases h1
    · cases h1
      simp only [Prod.mk.injEq] at h2
      obtain ⟨rfl, rfl⟩ := h2
      exact ⟨rfl, rfl, rfl, rfl, rfl, ⟨_, rfl, by simp [Op.reports]⟩, by simp, by simp⟩
  | reportAs label =>
    simp only [call, reportAs, elapsed, now, Option.map_eq_some_iff] at h
    obtain ⟨r, h1, h2⟩ := h
    split at h1
    · cases h1
    · cases h1
      simp only [Prod.mk.injEq] at h2
      obtain ⟨rfl, rfl⟩ := h2
      exact ⟨rfl, rfl, rfl, rfl, rfl, ⟨_, rfl, by simp [Op.reports]⟩, by simp, by simp⟩

/-- a call aborts iff it prints and the timer is not started, in a debug build -/
theorem call_none {ndebug : Bool} {o : Op} {t : Timer} {w : World F} :
    call ndebug o t w = none ↔ ndebug = false ∧ t.started = false ∧ o.reports = true := by
  cases o <;> simp [call, report, reportAs, Op.reports]

/-- the effect of calls -/
theorem calls_some {ndebug : Bool} {os : List Op} {t t' : Timer} {w w' : World F} (h : calls ndebug os t w = some (t', w')) :
    w'.clock = w.clock ∧ w'.reads = w.reads + os.length ∧ w'.vars = w.vars ∧ t'.label = t.label ∧ t'.output = t.output ∧
    (∃ rs, w'.out = w.out ++ rs ∧ rs.length = os.countP Op.reports) ∧ (Op.start ∉ os → t' = t) ∧ (Op.start ∈ os → t'.started = true) := by
  induction os generalizing t w with
  | nil =>
    simp only [calls, Option.some.injEq, Prod.mk.injEq] at h
    obtain ⟨rfl, rfl⟩ := h
    exact ⟨rfl, rfl, rfl, rfl, rfl, ⟨[], by simp⟩, by simp, by simp⟩
  | cons o os ih =>
    simp only [calls, Option.bind_eq_bind, Option.bind_eq_some_iff] at h
    obtain ⟨⟨t1, w1⟩, h1, h2⟩ := h
    obtain ⟨a1, a2, a3, a4, a5, ⟨r1, a6, a6'⟩, a7, a8⟩ := call_some h1
    obtain ⟨b1, b2, b3, b4, b5, ⟨r2, b6, b6'⟩, b7, b8⟩ := ih h2
    refine ⟨b1.trans a1, by rw [b2, a2, List.length_cons]; omega, b3.trans a3, b4.trans a4, b5.trans a5, ⟨r1 ++ r2, by rw [b6, a6, List.append_assoc], ?_⟩, ?_, ?_⟩
    · rw [List.length_append, a6', b6', List.countP_cons]; omega
    · intro hn
      rw [List.mem_cons, not_or] at hn
      rw [b7 hn.2, a7 (Ne.symm hn.1)]
    · intro hm
      by_cases hs : Op.start ∈ os
      · exact b8 hs
      · rw [b7 hs]
        rcases List.mem_cons.1 hm with e | e
        · exact (a8 e.symm).1
        · exact absurd e hs

/-- calls abort iff a call prints before the timer is started, in a debug build -/
theorem calls_none {ndebug : Bool} {os : List Op} {t : Timer} {w : World F} :
    calls ndebug os t w = none ↔ ndebug = false ∧ t.started = false ∧ ∃ a o b, os = a ++ o :: b ∧ o.reports = true ∧ Op.start ∉ a := by
  induction os generalizing t w with
  | nil => simp [calls]
  | cons o os ih =>
    simp only [calls, Option.bind_eq_bind]
    cases h : call ndebug o t w with
    | none =>
      obtain ⟨h1, h2, h3⟩ := call_none.1 h
      simp only [Option.bind_none, true_iff]
      exact ⟨h1, h2, [], o, os, rfl, h3, by simp⟩
    | some r =>
      obtain ⟨t1, w1⟩ := r
      simp only [Option.bind_some]
      rw [ih]
      obtain ⟨-, -, -, -, -, -, a7, a8⟩ := call_some h
      have hno : ¬ (ndebug = false ∧ t.started = false ∧ o.reports = true) := fun hh => by
        rw [call_none.2 hh] at h; cases h
      by_cases ho : o = .start
      · have := (a8 ho).1
        constructor
        · rintro ⟨-, h2, -⟩; rw [this] at h2; cases h2
        · rintro ⟨h1, h2, a, p, b, e, hp, hs⟩
          exfalso
          cases a with
          | nil =>
            simp only [List.nil_append, List.cons.injEq] at e
            rw [← e.1] at hp
            exact hno ⟨h1, h2, hp⟩
          | cons q a =>
            simp only [List.cons_append, List.cons.injEq] at e
            rw [← e.1, ho] at hs
            simp at hs
      · rw [a7 ho]
        refine and_congr_right fun h1 => and_congr_right fun h2 => ?_
        constructor
        · rintro ⟨a, p, b, e, hp, hs⟩
          exact ⟨o :: a, p, b, by rw [e]; rfl, hp, by simp [hs, Ne.symm ho]⟩
        · rintro ⟨a, p, b, e, hp, hs⟩
          cases a with
          | nil =>
            simp only [List.nil_append, List.cons.injEq] at e
            rw [← e.1] at hp
            exact absurd ⟨h1, h2, hp⟩ hno
          | cons q a =>
            simp only [List.cons_append, List.cons.injEq] at e
            exact ⟨a, p, b, e.2, hp, fun hh => hs (List.mem_cons_of_mem _ hh)⟩

/-- the destructor of a started timer -/
theorem destruct_started {ndebug : Bool} {t : Timer} (ht : t.started = true) (w : World F) :
    destruct ndebug t w = some
      { clock := w.clock
        reads := w.reads + (if t.label = "" then 0 else 1) + (if t.output = none then 0 else 1)
        out := w.out ++ (if t.label = "" then [] else [.elapsed t.label (toMs F (w.clock w.reads - t.start))])
        vars := fun x => if t.output = some x then some (toMs F (w.clock (w.reads + if t.label = "" then 0 else 1) - t.start)) else w.vars x } := by
  obtain ⟨b, s, l, o⟩ := t
  simp only at ht
  subst ht
  by_cases hl : l = "" <;> cases o with
  | none => simp [destruct, hl, report, reportAs, elapsed, now]
  | some v =>
    have : ∀ x, (v = x) = (x = v) := fun x => propext eq_comm
    simp [destruct, hl, report, reportAs, elapsed, now, this]

end Timer
end Girgs
