import Verif.Base.XR
import Verif.Model.WeightScaling
import Mathlib.Topology.Order.LeftRightLim
import Mathlib.Topology.Algebra.Order.Field
import Mathlib.Topology.Instances.Real.Lemmas
import Mathlib.Topology.Order.MonotoneConvergence
import Mathlib.Analysis.SpecificLimits.Basic
/-
Proofs about `exponentialSearch`.
-/
namespace Girgs.Scaling
open CFloat
open XR (fin)

section generic
variable {F : Type} [CFloat F] {S : Type}

theorem run_running_of_succ {f : F → S → Option (F × S)} {des acc : F} :
    ∀ (k : Nat) (o : Outcome F S), run f des acc (k + 1) o = run f des acc 1 (run f des acc k o)
  | 0, o => by cases o <;> rfl
  | k + 1, .running s => by
    show run f des acc (k + 1) (step f des acc s) = run f des acc 1 (run f des acc k (step f des acc s))
    exact run_running_of_succ k _
  | k + 1, .returned _ _ => rfl
  | k + 1, .undefined => rfl

/-- an invariant of the states of a run -/
theorem run_induct {f : F → S → Option (F × S)} {des acc : F} {P : Outcome F S → Prop} {o : Outcome F S} (h0 : P o)
    (hs : ∀ s, P (.running s) → P (step f des acc s)) (k : Nat) : P (run f des acc k o) := by
  induction k generalizing o with
  | zero => exact h0
  | succ k ih =>
    cases o with
    | running s => exact ih (hs s h0)
    | returned c st => exact h0
    | undefined => exact h0

/-- the value of `mid` is the last value of `f` -/
def MidOk (f : F → S → Option (F × S)) (des acc : F) : Outcome F S → Prop
  | .running s => match s.phase with
    | .bisect mid => ∃ st, f (midpoint s) st = some (mid, s.st)
    | _ => True
  | .returned c st' => ∃ st v, f c st = some (v, st') ∧ (acc <. CFloat.abs (v -. des)) = false
  | .undefined => True

theorem enterBisect_midOk (f : F → S → Option (F × S)) (des acc : F) (s : Search F S) :
    MidOk f des acc (enterBisect f s) := by
  unfold enterBisect
  split
  · trivial
  · rename_i mid st h
    show ∃ st', f (midpoint _) st' = some (mid, st)
    exact ⟨s.st, h⟩

theorem step_midOk {f : F → S → Option (F × S)} {des acc : F} (s : Search F S) (h : MidOk f des acc (.running s)) :
    MidOk f des acc (step f des acc s) := by
  obtain ⟨ph, lo, up, st⟩ := s
  cases ph with
  | grow =>
    simp only [step]
    split
    · trivial
    · split <;> trivial
  | shrink =>
    simp only [step]
    split
    · trivial
    · split
      · trivial
      · exact enterBisect_midOk _ _ _ _
  | bisect mid =>
    simp only [step]
    split
    · split <;> exact enterBisect_midOk _ _ _ _
    · rename_i hn
      obtain ⟨st', h'⟩ := h
      exact ⟨st', mid, h', by simpa using hn⟩

theorem returns_accurate {f : F → S → Option (F × S)} {des : F} {st : S} {c : F} (h : Returns f des st c) :
    ∃ st₁ st₂ v, f c st₁ = some (v, st₂) ∧ (accuracy <. CFloat.abs (v -. des)) = false := by
  obtain ⟨k, st', h⟩ := h
  have := run_induct (f := f) (des := des) (acc := accuracy) (P := MidOk f des accuracy) (o := start st) trivial
    (fun s => step_midOk s) k
  rw [h] at this
  obtain ⟨st₁, v, h1, h2⟩ := this
  exact ⟨st₁, st', v, h1, h2⟩

end generic

/-! ### exact arithmetic -/
section exact
variable {S : Type}

/-- `f` can be evaluated at every positive number, whatever has been evaluated before, and its values are as described by
`Val` -/
structure Evaluates (f : XR → S → Option (XR × S)) (Inv : S → Prop) (Val : ℝ → ℝ → Prop) : Prop where
  eval : ∀ st, Inv st → ∀ x, 0 < x → ∃ v st', f (fin x) st = some (fin v, st') ∧ Inv st' ∧ Val x v

/-- the real numbers in the local variables -/
def At (s : Search XR S) (l u : ℝ) : Prop := s.lower = fin l ∧ s.upper = fin u ∧ 0 < l ∧ l < u

theorem At.midpoint {s : Search XR S} {l u : ℝ} (h : At s l u) : midpoint s = fin ((u + l) / 2) := by
  obtain ⟨h1, h2, _, _⟩ := h
  unfold Scaling.midpoint
  rw [h1, h2]
  show (fin u +. fin l) /. fin ((2 : ℚ) : ℝ) = _
  rw [XR.add_fin, XR.div_fin _ _ (by norm_num)]
  norm_num

/-- invariant of the search for given `f` -/
def SInv (Inv : S → Prop) (Val : ℝ → ℝ → Prop) (des : ℝ) : Outcome XR S → Prop
  | .running s => Inv s.st ∧ ∃ l u, At s l u ∧
    match s.phase with
    | .grow => ∃ j : ℕ, u = 2 ^ (j + 1) ∧ l = 2 ^ j
    | .shrink => (∃ v, Val u v ∧ des ≤ v)
    | .bisect mid => ∃ m, mid = fin m ∧ Val ((u + l) / 2) m ∧ (∃ v, Val l v ∧ v ≤ des) ∧ (∃ v, Val u v ∧ des ≤ v)
  | .returned c st => Inv st ∧ ∃ l u v, c = fin ((u + l) / 2) ∧ 0 < l ∧ l < u ∧ Val ((u + l) / 2) v ∧
      |v - des| ≤ 1 / 50
  | .undefined => False

theorem enterBisect_eq {f : XR → S → Option (XR × S)} {Inv : S → Prop} {Val : ℝ → ℝ → Prop} (hf : Evaluates f Inv Val)
    {s : Search XR S} {l u : ℝ} (hi : Inv s.st) (ha : At s l u) :
    ∃ m st', enterBisect f s = .running { s with phase := .bisect (fin m), st := st' } ∧ Inv st' ∧ Val ((u + l) / 2) m := by
  obtain ⟨v, st', h1, h2, h3⟩ := hf.eval s.st hi ((u + l) / 2) (by obtain ⟨_, _, h, h'⟩ := ha; linarith)
  refine ⟨v, st', ?_, h2, h3⟩
  unfold enterBisect
  rw [ha.midpoint, h1]

theorem accuracy_eq : (accuracy : XR) = fin (1 / 50) := by
  show fin (((2 / 100 : ℚ)) : ℝ) = _
  norm_num

set_option maxHeartbeats 400000 in
theorem step_sinv {f : XR → S → Option (XR × S)} {Inv : S → Prop} {Val : ℝ → ℝ → Prop} (hf : Evaluates f Inv Val)
    {des : ℝ} (s : Search XR S) (h : SInv Inv Val des (.running s)) :
    SInv Inv Val des (step f (fin des) accuracy s) := by
  obtain ⟨ph, lo, up, st⟩ := s
  obtain ⟨hi, l, u, ⟨h1, h2, h3, h4⟩, hp⟩ := h
  simp only at h1 h2 hi
  subst h1 h2
  cases ph with
  | grow =>
    obtain ⟨j, hu, hl⟩ := hp
    obtain ⟨v, st', e, hi', hv⟩ := hf.eval st hi u (by linarith)
    simp only [step, e]
    by_cases hlt : v < des
    · rw [if_pos (by simpa [XR.lt_fin] using hlt)]
      refine ⟨hi', u, u * 2, ⟨rfl, ?_, by linarith, by linarith⟩, j + 1, by rw [hu]; ring, hu⟩
      show fin u *. fin ((2 : ℚ) : ℝ) = _
      rw [XR.mul_fin]; norm_num
    · rw [if_neg (by simpa [XR.lt_fin] using hlt)]
      exact ⟨hi', l, u, ⟨rfl, rfl, h3, h4⟩, v, hv, not_lt.1 hlt⟩
  | shrink =>
    obtain ⟨v, st', e, hi', hv⟩ := hf.eval st hi l h3
    simp only [step, e]
    by_cases hlt : des < v
    · rw [if_pos (by simpa [XR.lt_fin] using hlt)]
      refine ⟨hi', l / 2, l, ⟨?_, rfl, by linarith, by linarith⟩, v, hv, hlt.le⟩
      show fin l /. fin ((2 : ℚ) : ℝ) = _
      rw [XR.div_fin _ _ (by norm_num)]; norm_num
    · rw [if_neg (by simpa [XR.lt_fin] using hlt)]
      have ha : At (S := S) ⟨.shrink, fin l, fin u, st'⟩ l u := ⟨rfl, rfl, h3, h4⟩
      obtain ⟨m, st'', e', hi'', hm⟩ := enterBisect_eq hf hi' ha
      rw [e']
      exact ⟨hi'', l, u, ⟨rfl, rfl, h3, h4⟩, m, rfl, hm, ⟨v, hv, not_lt.1 hlt⟩, hp⟩
  | bisect mid =>
    obtain ⟨m, rfl, hm, hlo, hup⟩ := hp
    have ha0 : At (S := S) ⟨.bisect (fin m), fin l, fin u, st⟩ l u := ⟨rfl, rfl, h3, h4⟩
    simp only [step, accuracy_eq, XR.sub_fin, XR.abs_fin, ha0.midpoint]
    by_cases hacc : 1 / 50 < |m - des|
    · rw [if_pos (by simpa [XR.lt_fin] using hacc)]
      by_cases hlt : m < des
      · rw [if_pos (by simpa [XR.lt_fin] using hlt)]
        have ha : At (S := S) ⟨.bisect (fin m), fin ((u + l) / 2), fin u, st⟩ ((u + l) / 2) u :=
          ⟨rfl, rfl, by linarith, by linarith⟩
        obtain ⟨m', st'', e', hi'', hm'⟩ := enterBisect_eq hf hi ha
        rw [e']
        exact ⟨hi'', (u + l) / 2, u, ⟨rfl, rfl, by linarith, by linarith⟩, m', rfl, hm', ⟨m, hm, hlt.le⟩, hup⟩
      · rw [if_neg (by simpa [XR.lt_fin] using hlt)]
        have ha : At (S := S) ⟨.bisect (fin m), fin l, fin ((u + l) / 2), st⟩ l ((u + l) / 2) :=
          ⟨rfl, rfl, by linarith, by linarith⟩
        obtain ⟨m', st'', e', hi'', hm'⟩ := enterBisect_eq hf hi ha
        rw [e']
        exact ⟨hi'', l, (u + l) / 2, ⟨rfl, rfl, by linarith, by linarith⟩, m', rfl, hm', hlo, ⟨m, hm, not_lt.1 hlt⟩⟩
    · rw [if_neg (by simpa [XR.lt_fin] using hacc)]
      exact ⟨hi, l, u, m, rfl, h3, h4, hm, not_lt.1 hacc⟩

theorem start_sinv {Inv : S → Prop} {Val : ℝ → ℝ → Prop} {des : ℝ} {st : S} (h : Inv st) :
    SInv Inv Val des (start st) := by
  refine ⟨h, 1, 2, ⟨?_, ?_, by norm_num, by norm_num⟩, 0, by norm_num, by norm_num⟩
  · show fin ((1 : ℚ) : ℝ) = _; norm_num
  · show fin ((2 : ℚ) : ℝ) = _; norm_num

theorem run_sinv {f : XR → S → Option (XR × S)} {Inv : S → Prop} {Val : ℝ → ℝ → Prop} (hf : Evaluates f Inv Val)
    {des : ℝ} {st : S} (h : Inv st) (k : Nat) : SInv Inv Val des (run f (fin des) accuracy k (start st)) :=
  run_induct (start_sinv h) (fun s => step_sinv hf s) k

/-! ### termination -/
open Filter Topology

theorem run_add {F S : Type} [CFloat F] {f : F → S → Option (F × S)} {des acc : F} :
    ∀ (j k : Nat) (o : Outcome F S), run f des acc (j + k) o = run f des acc k (run f des acc j o)
  | 0, k, o => by rw [Nat.zero_add]; rfl
  | j + 1, k, .running s => by
    rw [show j + 1 + k = (j + k) + 1 by omega]
    show run f des acc (j + k) (step f des acc s) = run f des acc k (run f des acc j (step f des acc s))
    exact run_add j k _
  | j + 1, k, .returned _ _ => by rw [show j + 1 + k = (j + k) + 1 by omega]; cases k <;> rfl
  | j + 1, k, .undefined => by rw [show j + 1 + k = (j + k) + 1 by omega]; cases k <;> rfl

/-- `f` jumps only downwards -/
def DownJumps (Val : ℝ → ℝ → Prop) : Prop :=
  ∀ x, 0 < x → ∀ v, Val x v → ∀ ε, 0 < ε →
    (∀ᶠ z in 𝓝[<] x, ∀ u, Val z u → v - ε < u) ∧ (∀ᶠ z in 𝓝[>] x, ∀ u, Val z u → u < v + ε)

variable {f : XR → S → Option (XR × S)} {Inv : S → Prop} {Val : ℝ → ℝ → Prop} {des : ℝ}

theorem grow_ends (hf : Evaluates f Inv Val) {X : ℝ} (hX : ∀ x, X ≤ x → ∀ v, Val x v → des ≤ v) :
    ∀ (N : ℕ) (s : Search XR S) (u : ℝ), SInv Inv Val des (.running s) → s.phase = .grow → s.upper = fin u → X ≤ u * 2 ^ N →
      ∃ k s', run f (fin des) accuracy k (.running s) = .running s' ∧ s'.phase = .shrink := by
  intro N
  induction N with
  | zero =>
    intro s u hs hp hu hXu
    obtain ⟨hi, l, u', ⟨h1, h2, h3, h4⟩, -⟩ := hs
    rw [hu] at h2; cases h2
    obtain ⟨v, st', e, hi', hv⟩ := hf.eval s.st hi u (by linarith)
    refine ⟨1, { s with phase := .shrink, st := st' }, ?_, rfl⟩
    show step f (fin des) accuracy s = _
    have : des ≤ v := hX u (by simpa using hXu) v hv
    simp only [step, hp, hu, e]
    rw [if_neg (by simpa [XR.lt_fin] using this)]
  | succ N ih =>
    intro s u hs hp hu hXu
    have hs' := step_sinv hf s hs
    obtain ⟨hi, l, u', ⟨h1, h2, h3, h4⟩, -⟩ := hs
    rw [hu] at h2; cases h2
    obtain ⟨v, st', e, hi', hv⟩ := hf.eval s.st hi u (by linarith)
    by_cases hlt : v < des
    · have est : step f (fin des) accuracy s =
          .running { s with lower := s.upper, upper := s.upper *. CFloat.ofRat 2, st := st' } := by
        simp only [step, hp, hu, e]
        rw [if_pos (by simpa [XR.lt_fin] using hlt)]
      rw [est] at hs'
      obtain ⟨k, s'', h⟩ := ih _ (u * 2) hs' hp (by
        rw [hu]; show fin u *. fin ((2 : ℚ) : ℝ) = _
        rw [XR.mul_fin]; norm_num) (by rw [pow_succ] at hXu; linarith)
      refine ⟨k + 1, s'', ?_, h.2⟩
      show run _ _ _ k (step f (fin des) accuracy s) = _
      rw [est]; exact h.1
    · refine ⟨1, { s with phase := .shrink, st := st' }, ?_, rfl⟩
      show step f (fin des) accuracy s = _
      simp only [step, hp, hu, e]
      rw [if_neg (by simpa [XR.lt_fin] using hlt)]

theorem shrink_ends (hf : Evaluates f Inv Val) {X : ℝ} (hX : ∀ x, 0 < x → x ≤ X → ∀ v, Val x v → v ≤ des) :
    ∀ (N : ℕ) (s : Search XR S) (l : ℝ), SInv Inv Val des (.running s) → s.phase = .shrink → s.lower = fin l → l ≤ X * 2 ^ N →
      ∃ k s' m, run f (fin des) accuracy k (.running s) = .running s' ∧ s'.phase = .bisect m := by
  have fin2 : ∀ (s : Search XR S) (l u : ℝ) (st' : S), s.phase = .shrink → At s l u → Inv st' →
      ∀ v, f (fin l) s.st = some (fin v, st') → v ≤ des →
      ∃ k s' m, run f (fin des) accuracy k (.running s) = .running s' ∧ s'.phase = .bisect m := by
    intro s l u st' hp ha hi v e hv
    have ha' : At { s with st := st' } l u := ha
    obtain ⟨m, st'', e', -, -⟩ := enterBisect_eq hf (s := { s with st := st' }) hi ha'
    refine ⟨1, { s with phase := .bisect (fin m), st := st'' }, fin m, ?_, rfl⟩
    show step f (fin des) accuracy s = _
    simp only [step, hp, ha.1, e]
    rw [if_neg (by simpa [XR.lt_fin] using hv)]
    rw [← ha.1]
    exact e'
  intro N
  induction N with
  | zero =>
    intro s l hs hp hl hXl
    obtain ⟨hi, l', u, ha, -⟩ := hs
    have := ha.1; rw [hl] at this; cases this
    obtain ⟨v, st', e, hi', hv⟩ := hf.eval s.st hi l ha.2.2.1
    exact fin2 s l u st' hp ha hi' v e (hX l ha.2.2.1 (by simpa using hXl) v hv)
  | succ N ih =>
    intro s l hs hp hl hXl
    have hs' := step_sinv hf s hs
    obtain ⟨hi, l', u, ha, -⟩ := hs
    have := ha.1; rw [hl] at this; cases this
    obtain ⟨v, st', e, hi', hv⟩ := hf.eval s.st hi l ha.2.2.1
    by_cases hlt : des < v
    · have est : step f (fin des) accuracy s =
          .running { s with upper := s.lower, lower := s.lower /. CFloat.ofRat 2, st := st' } := by
        simp only [step, hp, hl, e]
        rw [if_pos (by simpa [XR.lt_fin] using hlt)]
      rw [est] at hs'
      obtain ⟨k, s'', m, h⟩ := ih _ (l / 2) hs' hp (by
        rw [hl]; show fin l /. fin ((2 : ℚ) : ℝ) = _
        rw [XR.div_fin _ _ (by norm_num)]; norm_num) (by rw [pow_succ] at hXl; linarith)
      refine ⟨k + 1, s'', m, ?_, h.2⟩
      show run _ _ _ k (step f (fin des) accuracy s) = _
      rw [est]; exact h.1
    · exact fin2 s l u st' hp ha hi' v e (not_lt.1 hlt)

/-- a bisection step that does not return -/
theorem bisect_step (hf : Evaluates f Inv Val) {s : Search XR S} {m : XR} (hs : SInv Inv Val des (.running s))
    (hp : s.phase = .bisect m) {l u : ℝ} (ha : At s l u)
    (hn : ∀ c st, step f (fin des) accuracy s ≠ .returned c st) :
    ∃ s' m' l' u', step f (fin des) accuracy s = .running s' ∧ s'.phase = .bisect m' ∧ At s' l' u' ∧
      u' - l' = (u - l) / 2 ∧ ((l' = l ∧ u' < u ∧ ∃ v, Val u' v ∧ des + 1 / 50 < v) ∨
        (u' = u ∧ l < l' ∧ ∃ v, Val l' v ∧ v < des - 1 / 50)) := by
  obtain ⟨ph, lo, up, st⟩ := s
  simp only at hp
  subst hp
  obtain ⟨hi, l₁, u₁, ha', hp⟩ := hs
  obtain ⟨h1, h2, h3, h4⟩ := ha
  simp only at h1 h2
  subst h1 h2
  have e1 := ha'.1; have e2 := ha'.2.1
  simp only at e1 e2
  cases e1; cases e2
  obtain ⟨m, rfl, hm, -, -⟩ := hp
  simp only [step, accuracy_eq, XR.sub_fin, XR.abs_fin, ha'.midpoint] at hn ⊢
  by_cases hacc : 1 / 50 < |m - des|
  · rw [if_pos (by simpa [XR.lt_fin] using hacc)]
    by_cases hlt : m < des
    · rw [if_pos (by simpa [XR.lt_fin] using hlt)]
      have ha : At (S := S) ⟨.bisect (fin m), fin ((u + l) / 2), fin u, st⟩ ((u + l) / 2) u :=
        ⟨rfl, rfl, by linarith, by linarith⟩
      obtain ⟨m', st'', e', hi'', hm'⟩ := enterBisect_eq hf (s := _) (by exact hi) ha
      refine ⟨{ phase := .bisect (fin m'), lower := _, upper := _, st := st'' }, fin m', (u + l) / 2, u, e', rfl, ⟨rfl, rfl, by linarith, by linarith⟩, by ring, Or.inr ⟨rfl, by linarith, m, hm, ?_⟩⟩
      rw [abs_of_neg (by linarith)] at hacc; linarith
    · rw [if_neg (by simpa [XR.lt_fin] using hlt)]
      have ha : At (S := S) ⟨.bisect (fin m), fin l, fin ((u + l) / 2), st⟩ l ((u + l) / 2) :=
        ⟨rfl, rfl, by linarith, by linarith⟩
      obtain ⟨m', st'', e', hi'', hm'⟩ := enterBisect_eq hf (s := _) (by exact hi) ha
      refine ⟨{ phase := .bisect (fin m'), lower := _, upper := _, st := st'' }, fin m', l, (u + l) / 2, e', rfl, ⟨rfl, rfl, by linarith, by linarith⟩, by ring, Or.inl ⟨rfl, by linarith, m, hm, ?_⟩⟩
      rw [abs_of_nonneg (by linarith)] at hacc; linarith
  · rw [if_neg (by simpa [XR.lt_fin] using hacc)] at hn
    exact absurd rfl (hn _ _)

set_option maxHeartbeats 1000000 in
theorem bisect_ends (hf : Evaluates f Inv Val) (hj : DownJumps Val) {s : Search XR S} {m : XR}
    (hs : SInv Inv Val des (.running s)) (hp : s.phase = .bisect m) :
    ∃ k c st, run f (fin des) accuracy k (.running s) = .returned c st := by
  by_contra hcon
  push Not at hcon
  -- the states
  have hall : ∀ k, ∃ s' m' l' u', run f (fin des) accuracy k (.running s) = .running s' ∧ s'.phase = .bisect m' ∧
      At s' l' u' := by
    intro k
    induction k with
    | zero =>
      obtain ⟨-, l, u, ha, -⟩ := hs
      exact ⟨s, m, l, u, rfl, hp, ha⟩
    | succ k ih =>
      obtain ⟨s', m', l', u', h1, h2, h3⟩ := ih
      have hs' := run_induct (P := SInv Inv Val des) hs (fun s => step_sinv hf s) k
      rw [h1] at hs'
      obtain ⟨s2, m2, l2, u2, e, hp2, ha2, -⟩ := bisect_step hf hs' h2 h3 (fun c st hc => by
        refine hcon (k + 1) c st ?_
        rw [run_running_of_succ, h1]; exact hc)
      exact ⟨s2, m2, l2, u2, by rw [run_running_of_succ, h1]; exact e, hp2, ha2⟩
  choose t mm l u hr hph ha using hall
  have hinv : ∀ k, SInv Inv Val des (.running (t k)) := fun k => by
    rw [← hr k]; exact run_induct hs (fun s => step_sinv hf s) k
  have hstep : ∀ k, u (k + 1) - l (k + 1) = (u k - l k) / 2 ∧
      ((l (k + 1) = l k ∧ u (k + 1) < u k ∧ ∃ v, Val (u (k + 1)) v ∧ des + 1 / 50 < v) ∨
        (u (k + 1) = u k ∧ l k < l (k + 1) ∧ ∃ v, Val (l (k + 1)) v ∧ v < des - 1 / 50)) := by
    intro k
    obtain ⟨s2, m2, l2, u2, e, hp2, ha2, h⟩ := bisect_step hf (hinv k) (hph k) (ha k) (fun c st hc => by
      refine hcon (k + 1) c st ?_
      rw [run_running_of_succ, hr k]; exact hc)
    have : run f (fin des) accuracy (k + 1) (.running s) = .running s2 := by
      rw [run_running_of_succ, hr k]; exact e
    rw [hr (k + 1)] at this
    have : t (k + 1) = s2 := by injection this
    subst this
    have a1 := (ha (k + 1)).1; have a2 := (ha (k + 1)).2.1
    rw [ha2.1] at a1; rw [ha2.2.1] at a2
    cases a1; cases a2
    exact h
  have hlu : ∀ k, l k < u k := fun k => (ha k).2.2.2
  have hl0 : ∀ k, 0 < l k := fun k => (ha k).2.2.1
  have hlm : Monotone l := monotone_nat_of_le_succ fun k => by
    rcases (hstep k).2 with h | h
    · exact h.1.ge
    · exact h.2.1.le
  have hum : Antitone u := antitone_nat_of_succ_le fun k => by
    rcases (hstep k).2 with h | h
    · exact h.2.1.le
    · exact h.1.le
  have hbd : ∀ i j, l i ≤ u j := fun i j =>
    (hlm (le_max_left i j)).trans ((hlu _).le.trans (hum (le_max_right i j)))
  have hdiff : ∀ k, u k - l k = (u 0 - l 0) / 2 ^ k := by
    intro k
    induction k with
    | zero => simp
    | succ k ih => rw [(hstep k).1, ih, pow_succ]; field_simp
  have hba : BddAbove (Set.range l) := ⟨u 0, by rintro _ ⟨i, rfl⟩; exact hbd i 0⟩
  obtain ⟨x, hx⟩ : ∃ x, x = ⨆ i, l i := ⟨_, rfl⟩
  have hlx : ∀ k, l k ≤ x := fun k => hx ▸ le_ciSup hba k
  have hxu : ∀ k, x ≤ u k := fun k => hx ▸ ciSup_le fun i => hbd i k
  have hx0 : 0 < x := (hl0 0).trans_le (hlx 0)
  have hltend : Tendsto l atTop (𝓝 x) := hx ▸ tendsto_atTop_ciSup hlm hba
  have hutend : Tendsto u atTop (𝓝 x) := by
    have h1 : Tendsto (fun k : ℕ => (u 0 - l 0) / 2 ^ k) atTop (𝓝 0) := by
      have := (tendsto_pow_atTop_nhds_zero_of_lt_one (r := (1 / 2 : ℝ)) (by norm_num) (by norm_num)).const_mul (u 0 - l 0)
      simp only [mul_zero] at this
      refine this.congr fun k => ?_
      rw [div_pow, one_pow]; ring
    have h2 := hltend.add h1
    rw [add_zero] at h2
    refine h2.congr fun k => ?_
    rw [← hdiff k]; ring
  -- values at the ends
  have hlval : ∀ k, l k = l 0 ∨ ∃ v, Val (l k) v ∧ v < des - 1 / 50 := by
    intro k
    induction k with
    | zero => exact Or.inl rfl
    | succ k ih =>
      rcases (hstep k).2 with h | h
      · rw [h.1]; exact ih
      · exact Or.inr h.2.2
  have huval : ∀ k, u k = u 0 ∨ ∃ v, Val (u k) v ∧ des + 1 / 50 < v := by
    intro k
    induction k with
    | zero => exact Or.inl rfl
    | succ k ih =>
      rcases (hstep k).2 with h | h
      · exact Or.inr h.2.2
      · rw [h.1]; exact ih
  have hends : ∀ k, (∃ v, Val (l k) v ∧ v ≤ des) ∧ (∃ v, Val (u k) v ∧ des ≤ v) := by
    intro k
    have := hinv k
    obtain ⟨-, l', u', ha', hh⟩ := this
    rw [hph k] at hh
    have a1 := (ha k).1; have a2 := (ha k).2.1
    rw [ha'.1] at a1; rw [ha'.2.1] at a2
    cases a1; cases a2
    obtain ⟨_, -, -, h1, h2⟩ := hh
    exact ⟨h1, h2⟩
  -- right side
  have hright : (∀ k, x < u k) → ∀ v, Val x v → des < v := by
    intro hxs v hv
    have h1 := (hj x hx0 v hv (1 / 100) (by norm_num)).2
    have h2 : Tendsto u atTop (𝓝[>] x) :=
      tendsto_nhdsWithin_iff.2 ⟨hutend, Eventually.of_forall fun k => hxs k⟩
    have h3 := h2.eventually h1
    have h4 : ∀ᶠ k in atTop, u k < u 0 := hutend.eventually (gt_mem_nhds (hxs 0))
    obtain ⟨k, hk, hk'⟩ := (h3.and h4).exists
    rcases huval k with h | ⟨w, hw, hw'⟩
    · exact absurd h hk'.ne
    · have := hk w hw; linarith
  have hleft : (∀ k, l k < x) → ∀ v, Val x v → v < des := by
    intro hxs v hv
    have h1 := (hj x hx0 v hv (1 / 100) (by norm_num)).1
    have h2 : Tendsto l atTop (𝓝[<] x) :=
      tendsto_nhdsWithin_iff.2 ⟨hltend, Eventually.of_forall fun k => hxs k⟩
    have h3 := h2.eventually h1
    have h4 : ∀ᶠ k in atTop, l 0 < l k := hltend.eventually (lt_mem_nhds (hxs 0))
    obtain ⟨k, hk, hk'⟩ := (h3.and h4).exists
    rcases hlval k with h | ⟨w, hw, hw'⟩
    · exact absurd h hk'.ne'
    · have := hk w hw; linarith
  obtain ⟨v, _, _, _, hv⟩ := hf.eval (t 0).st (hinv 0).1 x hx0
  by_cases hA : ∀ k, l k < x
  · have h1 := hleft hA
    by_cases hB : ∀ k, x < u k
    · exact absurd (h1 v hv) (not_lt.2 (hright hB v hv).le)
    · push Not at hB
      obtain ⟨k, hk⟩ := hB
      have : u k = x := le_antisymm hk (hxu k)
      obtain ⟨w, hw, hw'⟩ := (hends k).2
      rw [this] at hw
      exact absurd (h1 w hw) (not_lt.2 hw')
  · push Not at hA
    obtain ⟨k, hk⟩ := hA
    have hlk : l k = x := le_antisymm (hlx k) hk
    have hB : ∀ j, x < u j := by
      intro j
      have h1 : l (max j k) = x := le_antisymm (hlx _) (hlk ▸ hlm (le_max_right j k))
      calc x = l (max j k) := h1.symm
        _ < u (max j k) := hlu _
        _ ≤ u j := hum (le_max_left j k)
    obtain ⟨w, hw, hw'⟩ := (hends k).1
    rw [hlk] at hw
    exact absurd (hright hB w hw) (not_lt.2 hw')

/-- the search returns -/
theorem search_returns (hf : Evaluates f Inv Val) (hj : DownJumps Val) {st : S} (hst : Inv st)
    (hX : ∃ X, ∀ x, X ≤ x → ∀ v, Val x v → des ≤ v)
    (hY : ∃ Y, 0 < Y ∧ ∀ x, 0 < x → x ≤ Y → ∀ v, Val x v → v ≤ des) :
    ∃ c, Returns f (fin des) st c := by
  obtain ⟨X, hX⟩ := hX
  obtain ⟨Y, hY0, hY⟩ := hY
  have h0 := start_sinv (Inv := Inv) (Val := Val) (des := des) hst
  obtain ⟨N, hN⟩ := pow_unbounded_of_one_lt X (one_lt_two : (1 : ℝ) < 2)
  obtain ⟨k1, s1, h1, p1⟩ := grow_ends hf hX N ⟨.grow, CFloat.ofRat 1, CFloat.ofRat 2, st⟩ 2 h0 rfl
    (by show fin ((2 : ℚ) : ℝ) = _; norm_num) (by nlinarith [pow_pos (two_pos : (0:ℝ) < 2) N])
  have hs1 := run_induct (P := SInv Inv Val des) h0 (fun s => step_sinv hf s) k1
  have h1' : run f (fin des) accuracy k1 (start st) = .running s1 := h1
  rw [h1'] at hs1
  have hs1' := hs1
  obtain ⟨-, l, u, ha, -⟩ := hs1'
  obtain ⟨M, hM⟩ := pow_unbounded_of_one_lt (l / Y) (one_lt_two : (1 : ℝ) < 2)
  obtain ⟨k2, s2, m, h2, p2⟩ := shrink_ends hf hY M s1 l hs1 p1 ha.1 (by
    rw [div_lt_iff₀ hY0] at hM; linarith)
  have hs2 := run_induct (P := SInv Inv Val des) hs1 (fun s => step_sinv hf s) k2
  rw [h2] at hs2
  obtain ⟨k3, c, st3, h3⟩ := bisect_ends hf hj hs2 p2
  refine ⟨c, k1 + (k2 + k3), st3, ?_⟩
  rw [run_add, h1', run_add, h2, h3]

/-- if `f` stays below the target the search runs forever -/
theorem search_diverges_high (hf : Evaluates f Inv Val) {st : S} (hst : Inv st)
    (hX : ∀ x, 0 < x → ∀ v, Val x v → v < des) : Diverges f (fin des) st := by
  have key : ∀ k, ∃ s, run f (fin des) accuracy k (start st) = .running s ∧ s.phase = .grow := by
    intro k
    induction k with
    | zero => exact ⟨_, rfl, rfl⟩
    | succ k ih =>
      obtain ⟨s, h1, h2⟩ := ih
      have hs := run_sinv (des := des) hf hst k
      rw [h1] at hs
      obtain ⟨hi, l, u, ⟨h3, h4, h5, h6⟩, -⟩ := hs
      obtain ⟨v, st', e, hi', hv⟩ := hf.eval s.st hi u (by linarith)
      refine ⟨{ s with lower := s.upper, upper := s.upper *. CFloat.ofRat 2, st := st' }, ?_, h2⟩
      rw [run_running_of_succ, h1]
      show step f (fin des) accuracy s = _
      simp only [step, h2, h4, e]
      rw [if_pos (by simpa [XR.lt_fin] using hX u (by linarith) v hv)]
  intro k
  obtain ⟨s, h, -⟩ := key k
  exact ⟨s, h⟩

/-- if `f` stays above the target the search runs forever -/
theorem search_diverges_low (hf : Evaluates f Inv Val) {st : S} (hst : Inv st)
    (hX : ∀ x, 0 < x → ∀ v, Val x v → des < v) : Diverges f (fin des) st := by
  have key : ∀ k, ∃ s, run f (fin des) accuracy k (start st) = .running s ∧ (s.phase = .grow ∨ s.phase = .shrink) := by
    intro k
    induction k with
    | zero => exact ⟨_, rfl, Or.inl rfl⟩
    | succ k ih =>
      obtain ⟨s, h1, h2⟩ := ih
      have hs := run_sinv (des := des) hf hst k
      rw [h1] at hs
      obtain ⟨hi, l, u, ⟨h3, h4, h5, h6⟩, -⟩ := hs
      rw [run_running_of_succ, h1]
      rcases h2 with h2 | h2
      · obtain ⟨v, st', e, hi', hv⟩ := hf.eval s.st hi u (by linarith)
        refine ⟨{ s with phase := .shrink, st := st' }, ?_, Or.inr rfl⟩
        show step f (fin des) accuracy s = _
        simp only [step, h2, h4, e]
        rw [if_neg (by simpa [XR.lt_fin] using (hX u (by linarith) v hv).le)]
      · obtain ⟨v, st', e, hi', hv⟩ := hf.eval s.st hi l h5
        refine ⟨{ s with upper := s.lower, lower := s.lower /. CFloat.ofRat 2, st := st' }, ?_, Or.inr h2⟩
        show step f (fin des) accuracy s = _
        simp only [step, h2, h3, e]
        rw [if_pos (by simpa [XR.lt_fin] using hX l h5 v hv)]
  intro k
  obtain ⟨s, h, -⟩ := key k
  exact ⟨s, h⟩

end exact
end Girgs.Scaling
