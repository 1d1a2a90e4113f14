import Verif.Model.BenchHyper
import Mathlib.Data.List.Basic
/-! The loops of `main` of bench_hyper. -/
namespace Girgs
namespace Bench
open CFloat Tools

section loop
variable {α β S E : Type}

theorem Loop.append_iff {body : α → S → List E → S → Prop} : ∀ (l l' : List α) (s : S) (es : List E) (s' : S),
    Loop body (l ++ l') s es s' ↔ ∃ e1 s1 e2, Loop body l s e1 s1 ∧ Loop body l' s1 e2 s' ∧ es = e1 ++ e2 := by
  intro l
  induction l with
  | nil =>
    intro l' s es s'
    constructor
    · intro h; exact ⟨[], s, es, .done _, h, rfl⟩
    · rintro ⟨e1, s1, e2, h1, h2, rfl⟩
      cases h1; exact h2
  | cons x l ih =>
    intro l' s es s'
    constructor
    · intro h
      cases h with
      | step hb hr =>
        obtain ⟨e1, s1, e2, h1, h2, rfl⟩ := (ih _ _ _ _).1 hr
        exact ⟨_, _, _, .step hb h1, h2, by simp⟩
    · rintro ⟨e1, s1, e2, h1, h2, rfl⟩
      cases h1 with
      | step hb hr =>
        rw [List.append_assoc]
        exact .step hb ((ih _ _ _ _).2 ⟨_, _, _, hr, h2, rfl⟩)

theorem Loop.flatMap_iff {body : α → S → List E → S → Prop} (f : β → List α) : ∀ (l : List β) (s : S) (es : List E) (s' : S),
    Loop (fun x => Loop body (f x)) l s es s' ↔ Loop body (l.flatMap f) s es s' := by
  intro l
  induction l with
  | nil =>
    intro s es s'
    constructor <;> intro h <;> cases h <;> exact .done _
  | cons x l ih =>
    intro s es s'
    rw [List.flatMap_cons, Loop.append_iff]
    constructor
    · intro h
      cases h with
      | step hb hr => exact ⟨_, _, _, hb, (ih _ _ _).1 hr, rfl⟩
    · rintro ⟨e1, s1, e2, h1, h2, rfl⟩
      exact .step h1 ((ih _ _ _).2 h2)

theorem Loop.map_iff {body : α → S → List E → S → Prop} (f : β → α) : ∀ (l : List β) (s : S) (es : List E) (s' : S),
    Loop (fun x => body (f x)) l s es s' ↔ Loop body (l.map f) s es s' := by
  intro l
  induction l with
  | nil =>
    intro s es s'
    constructor <;> intro h <;> cases h <;> exact .done _
  | cons x l ih =>
    intro s es s'
    rw [List.map_cons]
    constructor
    · intro h
      cases h with
      | step hb hr => exact .step hb ((ih _ _ _).1 hr)
    · intro h
      cases h with
      | step hb hr => exact .step hb ((ih _ _ _).2 hr)

theorem Loop.congr {b b' : α → S → List E → S → Prop} : ∀ (l : List α), (∀ x ∈ l, ∀ s es s', b x s es s' ↔ b' x s es s') →
    ∀ (s : S) (es : List E) (s' : S), Loop b l s es s' ↔ Loop b' l s es s' := by
  intro l
  induction l with
  | nil =>
    intro _ s es s'
    constructor <;> intro h <;> cases h <;> exact .done _
  | cons x l ih =>
    intro hb s es s'
    constructor
    · intro h
      cases h with
      | step h1 hr => exact .step ((hb x (by simp) _ _ _).1 h1) ((ih (fun y hy => hb y (by simp [hy])) _ _ _).1 hr)
    · intro h
      cases h with
      | step h1 hr => exact .step ((hb x (by simp) _ _ _).2 h1) ((ih (fun y hy => hb y (by simp [hy])) _ _ _).2 hr)

end loop

variable {F : Type} [CFloat F]

/-- the sizes the loop runs through from `n` on, when the counter is `ni` -/
def SizesFrom (F : Type) [CFloat F] : Nat → Nat → List Nat → Prop
  | n, _, [] => ¬ n ≤ nMax
  | n, ni, x :: l => x = n ∧ n ≤ nMax ∧ ∃ n', nextSize F ni = some n' ∧ SizesFrom F n' (ni + 1) l

/-- one execution of the body for a size that is large enough -/
def SizeStep (m : Machine F) (threads : Nat) (g : HGroup F) (c : Nat × Nat) (s : HMState) (es : List (HEntry F)) (s' : HMState) : Prop :=
  ∃ o : Option (HRow F × F), es = [⟨c.1, c.2, s.seed, o⟩] ∧ s'.seed = (s.seed + 10) % 4294967296 ∧
    (∀ row time, o = some (row, time) → c.2 < s.skip ∧ Benchmark m threads c.2 c.1 g.alpha g.T s.seed row ∧ s'.skip = if timeout F <. time then c.2 else s.skip) ∧
    (o = none → ¬ c.2 < s.skip ∧ s'.skip = s.skip)

theorem sizeLoop_iff {m : Machine F} {threads : Nat} {g : HGroup F} {d : Nat} : ∀ (l : List Nat) (n ni : Nat), SizesFrom F n ni l → ∀ s es s',
    SizeLoop m threads g d n ni s es s' ↔ Loop (SizeStep m threads g) ((l.filter fun n => decide (d * 20 ≤ n)).map fun n => (d, n)) s es s' := by
  intro l
  induction l with
  | nil =>
    intro n ni hl s es s'
    constructor
    · intro h
      cases h with
      | done => exact .done _
      | small h => exact absurd h hl
      | run _ h => exact absurd h hl
      | skip h => exact absurd h hl
    · intro h
      cases h
      exact .done hl
  | cons x l ih =>
    intro n ni hl s es s'
    obtain ⟨rfl, hx, n', hn', hl⟩ := hl
    by_cases hd : d * 20 ≤ x
    · rw [List.filter_cons_of_pos (by simpa using hd), List.map_cons]
      constructor
      · intro h
        cases h with
        | done h => exact absurd hx h
        | small _ h => omega
        | run time _ _ h3 h4 h5 h6 =>
          cases hn'.symm.trans h5
          refine .step (es := [_]) ⟨some (_, time), rfl, rfl, ?_, by simp⟩ ((ih _ _ hl _ _ _).1 h6)
          rintro row time e; cases e
          exact ⟨h3, h4, rfl⟩
        | skip _ _ h3 h5 h6 =>
          cases hn'.symm.trans h5
          exact .step (es := [_]) (s' := ⟨(s.seed + 10) % 4294967296, s.skip⟩) ⟨none, rfl, rfl, by simp, fun _ => ⟨h3, rfl⟩⟩ ((ih _ _ hl _ _ _).1 h6)
      · intro h
        cases h with
        | @step _ _ _ _ s1 _ _ hb hr =>
          obtain ⟨o, rfl, h1, h2, h3⟩ := hb
          obtain ⟨sd, sk⟩ := s1
          rcases o with _ | ⟨row, time⟩
          · obtain ⟨h4, h5⟩ := h3 rfl
            simp only at h1 h5
            subst h1 h5
            exact .skip hx (by omega) h4 hn' ((ih _ _ hl _ _ _).2 hr)
          · obtain ⟨h4, h5, h6⟩ := h2 _ _ rfl
            simp only at h1 h6
            subst h1 h6
            exact .run time hx (by omega) h4 h5 hn' ((ih _ _ hl _ _ _).2 hr)
    · rw [List.filter_cons_of_neg (by simpa using hd)]
      constructor
      · intro h
        cases h with
        | done h => exact absurd hx h
        | small _ _ h5 h6 =>
          cases hn'.symm.trans h5
          exact (ih _ _ hl _ _ _).1 h6
        | run _ _ h => omega
        | skip _ h => omega
      · intro h
        exact .small hx (by omega) hn' ((ih _ _ hl _ _ _).2 h)

/-- what the loop over the configurations `cs` does when it starts with `seed` and `skip` -/
structure Steps (m : Machine F) (threads : Nat) (g : HGroup F) (cs : List (Nat × Nat)) (seed skip : Nat) (entries : List (HEntry F)) : Prop where
  configs : entries.map (fun e => (e.avgDeg, e.n)) = cs
  seeds : ∀ i e, entries[i]? = some e → e.seed = seed + 10 * i
  runs : ∀ (i : Nat) e row time, entries[i]? = some e → e.outcome = some (row, time) → Benchmark m threads e.n e.avgDeg g.alpha g.T e.seed row
  skips : ∀ (i : Nat) e, entries[i]? = some e → (e.outcome = none ↔ skip ≤ e.n ∨ ∃ (j : Nat) (e' : HEntry F) (row : HRow F) (time : F),
    j < i ∧ entries[j]? = some e' ∧ e'.outcome = some (row, time) ∧ (timeout F <. time) = true ∧ e'.n ≤ e.n)

theorem loop_steps {m : Machine F} {threads : Nat} {g : HGroup F} : ∀ (cs : List (Nat × Nat)) (s : HMState) (es : List (HEntry F)) (seed' : Nat),
    s.seed + 10 * cs.length < 4294967296 →
    ((∃ s', Loop (SizeStep m threads g) cs s es s' ∧ s'.seed = seed') ↔ Steps m threads g cs s.seed s.skip es ∧ seed' = s.seed + 10 * cs.length) := by
  intro cs
  induction cs with
  | nil =>
    intro s es seed' hs
    constructor
    · rintro ⟨s', h, rfl⟩
      cases h
      exact ⟨⟨rfl, by simp, by simp, by simp⟩, by simp⟩
    · rintro ⟨h, rfl⟩
      have := h.configs
      simp only [List.map_eq_nil_iff] at this
      subst this
      exact ⟨s, .done _, by simp⟩
  | cons c cs ih =>
    intro s es seed' hs
    simp only [List.length_cons] at hs
    have hmod : (s.seed + 10) % 4294967296 = s.seed + 10 := Nat.mod_eq_of_lt (by omega)
    constructor
    · rintro ⟨s', h, rfl⟩
      cases h with
      | @step _ _ _ _ s1 es' _ hb hr =>
        obtain ⟨o, rfl, h1, h2, h3⟩ := hb
        rw [hmod] at h1
        obtain ⟨hst, hseed⟩ := (ih s1 es' s'.seed (by omega)).1 ⟨s', hr, rfl⟩
        refine ⟨⟨by simp [hst.configs], ?_, ?_, ?_⟩, by simp only [List.length_cons]; omega⟩
        · rintro (_ | i) e he
          · cases he; simp
          · have := hst.seeds i e (by simpa using he); omega
        · rintro (_ | i) e row time he ho
          · cases he; exact (h2 row time ho).2.1
          · exact hst.runs i e row time (by simpa using he) ho
        · rintro (_ | i) e he
          · cases he
            simp only [Nat.not_lt_zero, false_and, exists_false, or_false]
            rcases o with _ | ⟨row, time⟩
            · have := (h3 rfl).1
              simp; omega
            · have := (h2 _ _ rfl).1
              simp; omega
          · rw [hst.skips i e (by simpa using he)]
            have key : s1.skip ≤ e.n ↔ s.skip ≤ e.n ∨ ∃ row time, o = some (row, time) ∧ (timeout F <. time) = true ∧ c.2 ≤ e.n := by
              rcases o with _ | ⟨row, time⟩
              · rw [(h3 rfl).2]; simp
              · obtain ⟨h4, h5, h6⟩ := h2 _ _ rfl
                rw [h6]
                split
                · rename_i ht
                  constructor
                  · intro h; exact Or.inr ⟨row, time, rfl, ht, h⟩
                  · rintro (h | ⟨_, _, _, _, h⟩) <;> omega
                · rename_i ht
                  constructor
                  · intro h; exact Or.inl h
                  · rintro (h | ⟨_, _, h, h', _⟩)
                    · exact h
                    · cases h; exact absurd h' ht
            rw [key]
            constructor
            · rintro ((h | ⟨row, time, h, ht, hn⟩) | ⟨j, e', row, time, hj, he', ho, ht, hn⟩)
              · exact Or.inl h
              · exact Or.inr ⟨0, _, row, time, by omega, rfl, h, ht, hn⟩
              · exact Or.inr ⟨j + 1, e', row, time, by omega, by simpa using he', ho, ht, hn⟩
            · rintro (h | ⟨_ | j, e', row, time, hj, he', ho, ht, hn⟩)
              · exact Or.inl (Or.inl h)
              · cases he'
                exact Or.inl (Or.inr ⟨row, time, ho, ht, hn⟩)
              · exact Or.inr ⟨j, e', row, time, by omega, by simpa using he', ho, ht, hn⟩
    · rintro ⟨h, rfl⟩
      have hc := h.configs
      rcases es with _ | ⟨e0, es⟩
      · simp at hc
      simp only [List.map_cons, List.cons.injEq] at hc
      obtain ⟨hc0, hc⟩ := hc
      have hs0 := h.seeds 0 e0 rfl
      have hk0 := h.skips 0 e0 rfl
      simp only [Nat.not_lt_zero, false_and, exists_false, or_false] at hk0
      -- the state after the first step
      let sk : Nat := match e0.outcome with
        | none => s.skip
        | some (_, time) => if timeout F <. time then e0.n else s.skip
      have hrest : Steps m threads g cs (s.seed + 10) sk es := by
        refine ⟨hc, ?_, ?_, ?_⟩
        · intro i e he
          have := h.seeds (i + 1) e (by simpa using he); omega
        · intro i e row time he ho
          exact h.runs (i + 1) e row time (by simpa using he) ho
        · intro i e he
          rw [h.skips (i + 1) e (by simpa using he)]
          have key : sk ≤ e.n ↔ s.skip ≤ e.n ∨ ∃ row time, e0.outcome = some (row, time) ∧ (timeout F <. time) = true ∧ e0.n ≤ e.n := by
            rcases ho : e0.outcome with _ | ⟨row, time⟩
            · simp [sk, ho]
            · have hlt : e0.n < s.skip := by
                by_contra hcon
                have := hk0.2 (by omega)
                rw [this] at ho; cases ho
              simp only [sk, ho]
              split
              · rename_i ht
                constructor
                · intro h; exact Or.inr ⟨row, time, rfl, ht, h⟩
                · rintro (h | ⟨_, _, _, _, h⟩) <;> omega
              · rename_i ht
                constructor
                · intro h; exact Or.inl h
                · rintro (h | ⟨_, _, h, h', _⟩)
                  · exact h
                  · cases h; exact absurd h' ht
          rw [key]
          constructor
          · rintro (h | ⟨_ | j, e', row, time, hj, he', ho, ht, hn⟩)
            · exact Or.inl (Or.inl h)
            · cases he'
              exact Or.inl (Or.inr ⟨row, time, ho, ht, hn⟩)
            · exact Or.inr ⟨j, e', row, time, by omega, by simpa using he', ho, ht, hn⟩
          · rintro ((h | ⟨row, time, h, ht, hn⟩) | ⟨j, e', row, time, hj, he', ho, ht, hn⟩)
            · exact Or.inl h
            · exact Or.inr ⟨0, _, row, time, by omega, rfl, h, ht, hn⟩
            · exact Or.inr ⟨j + 1, e', row, time, by omega, by simpa using he', ho, ht, hn⟩
      obtain ⟨s', hl, hs'⟩ := (ih ⟨s.seed + 10, sk⟩ es _ (by show s.seed + 10 + 10 * cs.length < _; omega)).2 ⟨hrest, rfl⟩
      refine ⟨s', .step (es := [e0]) ⟨e0.outcome, ?_, hmod.symm, ?_, ?_⟩ hl, by rw [hs', List.length_cons]; show s.seed + 10 + _ = _; omega⟩
      · rw [← hc0]
        obtain ⟨a, b, c, d⟩ := e0
        simp only at hs0
        simp [hs0]
      · intro row time ho
        rw [← hc0]
        refine ⟨?_, ?_, by simp only [sk, ho]⟩
        · by_contra hcon
          have hcon : s.skip ≤ e0.n := Nat.le_of_not_lt hcon
          have := hk0.2 hcon
          rw [this] at ho; cases ho
        · have := h.runs 0 e0 row time rfl ho
          rw [hs0] at this
          exact this
      · intro ho
        rw [← hc0]
        have := hk0.1 ho
        exact ⟨by simpa using this, by simp only [sk, ho]⟩

end Bench
end Girgs
