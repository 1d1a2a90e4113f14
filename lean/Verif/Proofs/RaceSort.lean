import Verif.Proofs.RaceBuild
import Verif.Proofs.IntSort
/-
`intsort`: no data races in the counting loop, the scattering loop and the bucket loop.
-/
namespace Girgs.IntSort
open Spec
variable {T : Type}

theorem mapM_of_get {α β : Type} {f : α → Option β} : ∀ {l : List α} {r : List β}, r.length = l.length →
    (∀ (i : Nat) (a : α) (b : β), l[i]? = some a → r[i]? = some b → f a = some b) → l.mapM f = some r
  | [], r, hl, _ => by
    cases r with
    | nil => rfl
    | cons _ _ => simp at hl
  | a :: l, r, hl, h => by
    cases r with
    | nil => simp at hl
    | cons b r =>
      have h0 := h 0 a b rfl rfl
      have ih := mapM_of_get (f := f) (l := l) (r := r) (by simpa using hl) (fun i x y hx hy => h (i + 1) x y (by simpa using hx) (by simpa using hy))
      rw [List.mapM_cons, h0, ih]; rfl

theorem count_raceFree (key : T → Nat) (c : Cfg) (s0 : CountState T) : (countRegion key c).RaceFree s0 := by
  rintro s _ t u l ⟨hne, h1, w, h2⟩
  simp only [countRegion] at h1 h2
  split at h1
  · split at h2
    · simp only [List.mem_cons, Prod.mk.injEq, Bool.true_eq_false, and_false, and_true, List.not_mem_nil, or_false, false_or] at h1 h2
      rcases h2 with ⟨h2, _⟩ | ⟨h2, _⟩ <;> (rw [h2] at h1; exact hne (congrArg Prod.fst h1).symm)
    · simp at h2
  · simp at h1

/-- the counting loops: what remains to be counted and what has been counted always add up to the chunk -/
theorem count_reach {key : T → Nat} {c : Cfg} {s0 s : CountState T} (hl : s0.counters.length = s0.todo.length)
    (hr : (countRegion key c).Reaches s0 s) :
    s.counters.length = s0.todo.length ∧ s.todo.length = s0.todo.length ∧
    ∀ (t : Nat) (xs row xs0 row0 : _), s.todo[t]? = some xs → s.counters[t]? = some row → s0.todo[t]? = some xs0 → s0.counters[t]? = some row0 →
      xs.foldlM (fun cs x => bump cs (key x >>> c.msbShift)) row = xs0.foldlM (fun cs x => bump cs (key x >>> c.msbShift)) row0 := by
  refine hr.inv (fun s => s.counters.length = s0.todo.length ∧ s.todo.length = s0.todo.length ∧
    ∀ (t : Nat) (xs row xs0 row0 : _), s.todo[t]? = some xs → s.counters[t]? = some row → s0.todo[t]? = some xs0 → s0.counters[t]? = some row0 →
      xs.foldlM (fun cs x => bump cs (key x >>> c.msbShift)) row = xs0.foldlM (fun cs x => bump cs (key x >>> c.msbShift)) row0)
    ⟨hl, rfl, ?_⟩ ?_
  · intro t xs row xs0 row0 h1 h2 h3 h4
    rw [h1] at h3; rw [h2] at h4
    cases h3; cases h4; rfl
  · rintro s a s' ⟨hI1, hI2, hI⟩ hst
    have hst : countStep key c s a = some s' := hst
    unfold countStep at hst
    simp only [Option.bind_eq_bind, Option.bind_eq_some_iff] at hst
    obtain ⟨l, hl, hst⟩ := hst
    cases l with
    | nil => simp only [Option.some.injEq] at hst; subst hst; exact ⟨hI1, hI2, hI⟩
    | cons x xs =>
      simp only [Option.bind_eq_some_iff, Option.some.injEq] at hst
      obtain ⟨row, hrow, row', hrow', rfl⟩ := hst
      refine ⟨by simpa using hI1, by simpa using hI2, ?_⟩
      intro t ys r ys0 r0 h1 h2 h3 h4
      have ha1 : a < s.todo.length := (List.getElem?_eq_some_iff.1 (show s.todo[a]? = _ from hl)).1
      have ha2 : a < s.counters.length := (List.getElem?_eq_some_iff.1 (show s.counters[a]? = _ from hrow)).1
      by_cases e : a = t
      · subst e
        simp only [List.getElem?_set_self ha1, List.getElem?_set_self ha2, Option.some.injEq] at h1 h2
        subst h1; subst h2
        rw [← hI a (x :: xs) row ys0 r0 hl hrow h3 h4, List.foldlM_cons, obind hrow']
      · simp only [List.getElem?_set_ne e] at h1 h2
        exact hI t ys r ys0 r0 h1 h2 h3 h4

theorem count_honest (key : T → Nat) (c : Cfg) : (countRegion key c).Honest id
    (fun s (l : Nat × Nat) => s.counters[l.1]?.bind fun row => row[l.2]?) (fun s t => (s.todo[t]?)) where
  writes := by
    intro s t s' l h hne
    have hst : countStep key c s t = some s' := h
    unfold countStep at hst
    simp only [Option.bind_eq_bind, Option.bind_eq_some_iff] at hst
    obtain ⟨m, hl, hst⟩ := hst
    cases m with
    | nil => simp only [Option.some.injEq] at hst; subst hst; exact absurd rfl hne
    | cons x xs =>
      simp only [Option.bind_eq_some_iff, Option.some.injEq] at hst
      obtain ⟨row, hrow, row', hrow', rfl⟩ := hst
      simp only [countRegion, show s.todo[t]? = _ from hl]
      have ha2 : t < s.counters.length := (List.getElem?_eq_some_iff.1 (show s.counters[t]? = _ from hrow)).1
      unfold bump at hrow'
      simp only [Option.bind_eq_bind, Option.bind_eq_some_iff] at hrow'
      obtain ⟨v, hv, hrow'⟩ := hrow'
      unfold wr at hrow'
      split at hrow'
      · cases hrow'
        by_contra hc
        apply hne
        obtain ⟨l1, l2⟩ := l
        simp only
        by_cases e : t = l1
        · subst e
          rw [List.getElem?_set_self ha2, show s.counters[t]? = _ from hrow]
          simp only [Option.bind_some]
          refine List.getElem?_set_ne ?_
          intro e; subst e; simp at hc
        · rw [List.getElem?_set_ne e]
      · cases hrow'
  exist := by
    intro s t s' l h
    have hst : countStep key c s t = some s' := h
    unfold countStep at hst
    simp only [Option.bind_eq_bind, Option.bind_eq_some_iff] at hst
    obtain ⟨m, hl, hst⟩ := hst
    cases m with
    | nil => simp only [Option.some.injEq] at hst; subst hst; rfl
    | cons x xs =>
      simp only [Option.bind_eq_some_iff, Option.some.injEq] at hst
      obtain ⟨row, hrow, row', hrow', rfl⟩ := hst
      have ha2 : t < s.counters.length := (List.getElem?_eq_some_iff.1 (show s.counters[t]? = _ from hrow)).1
      unfold bump at hrow'
      simp only [Option.bind_eq_bind, Option.bind_eq_some_iff] at hrow'
      obtain ⟨v, hv, hrow'⟩ := hrow'
      unfold wr at hrow'
      split at hrow'
      · cases hrow'
        obtain ⟨l1, l2⟩ := l
        simp only
        by_cases e : t = l1
        · subst e
          rw [List.getElem?_set_self ha2, show s.counters[t]? = _ from hrow]
          simp only [Option.bind_some]
          rw [Bool.eq_iff_iff]; simp
        · rw [List.getElem?_set_ne e]
      · cases hrow'
  reads := by
    intro s1 s2 t hv hex hrd
    refine ⟨by simp only [countRegion, hv], ?_⟩
    simp only [countRegion, countStep, rd, hv, id] at hrd ⊢
    cases e : s2.todo[t]? with
    | none => simp
    | some l =>
      have ht : t < s2.todo.length := (List.getElem?_eq_some_iff.1 e).1
      have ht1 : t < s1.todo.length := (List.getElem?_eq_some_iff.1 (hv.trans e)).1
      cases l with
      | nil => simp [hv, e]
      | cons x xs =>
        rw [e] at hrd
        simp only [List.mem_cons, Prod.mk.injEq, Bool.false_eq_true, and_false, and_true, List.not_mem_nil, or_false, false_or,
          forall_eq] at hrd
        simp only [Option.bind_eq_bind, Option.bind_some]
        generalize key x >>> c.msbShift = q at *
        cases e1 : s1.counters[t]? with
        | none =>
          rw [e1] at hrd
          cases e2 : s2.counters[t]? with
          | none => simp
          | some r2 =>
            rw [e2] at hrd
            have hn : r2[q]? = none := by simpa using hrd.symm
            simp [bump, rd, hn]
        | some r1 =>
          have h1 : t < s1.counters.length := (List.getElem?_eq_some_iff.1 e1).1
          rw [e1] at hrd
          cases e2 : s2.counters[t]? with
          | none =>
            rw [e2] at hrd
            have hn : r1[q]? = none := by simpa using hrd
            simp [bump, rd, hn]
          | some r2 =>
            have h2 : t < s2.counters.length := (List.getElem?_eq_some_iff.1 e2).1
            rw [e2] at hrd
            simp only [Option.bind_some] at hrd
            cases e3 : r1[q]? with
            | none =>
              have e4 : r2[q]? = none := by rw [← hrd, e3]
              simp [bump, rd, e3, e4]
            | some v =>
              have e4 : r2[q]? = some v := by rw [← hrd, e3]
              have l1 : q < r1.length := (List.getElem?_eq_some_iff.1 e3).1
              have l2 : q < r2.length := (List.getElem?_eq_some_iff.1 e4).1
              simp [bump, rd, wr, e3, e4, l1, l2, ht, ht1, h1, h2]
              exact (List.getElem?_eq_some_iff.1 e3).2.trans (List.getElem?_eq_some_iff.1 e4).2.symm

/-! ### scattering -/

theorem msd_separate {key : T → Nat} {c : Cfg} {t : Nat} {A : List T} (ht : 1 ≤ t) (hn : (t - 1) * (t - 1) ≤ A.length)
    (hk : ∀ x ∈ A, key x >>> c.msbShift < 256) {wss : List (List (Nat × T))} {sp : List Nat} (h : msdPhase key c t A = some (wss, sp)) :
    Separate wss := by
  intro a b w w' hne ⟨l, hl, hw⟩ ⟨l', hl', hw'⟩ he
  obtain ⟨k, hk1⟩ := List.mem_iff_getElem?.1 hw
  obtain ⟨k', hk2⟩ := List.mem_iff_getElem?.1 hw'
  obtain ⟨wss', h', _, hA⟩ := msd_spec_addr (c := c) ht hn hk
  rw [h] at h'
  obtain ⟨rfl, _⟩ := Prod.mk.inj (Option.some.inj h')
  have H := hA a l hl
  have H' := hA b l' hl'
  obtain ⟨x, hx, rfl⟩ := H k w hk1
  obtain ⟨x', hx', rfl⟩ := H' k' w' hk2
  have g1 := (chunk_get hx).1
  have g2 := (chunk_get hx').1
  have e := pos_inj g1 g2 he
  have lx : k < idivCeil A.length t := by
    have := (List.getElem?_eq_some_iff.1 hx).1
    unfold chunkL at this
    rw [List.length_take, Nat.mul_add, Nat.mul_one] at this
    omega
  have lx' : k' < idivCeil A.length t := by
    have := (List.getElem?_eq_some_iff.1 hx').1
    unfold chunkL at this
    rw [List.length_take, Nat.mul_add, Nat.mul_one] at this
    omega
  generalize idivCeil A.length t = s at *
  rcases Nat.lt_or_gt_of_ne hne with hlt | hgt
  · have : s * (a + 1) ≤ s * b := Nat.mul_le_mul_left _ hlt
    rw [Nat.mul_add] at this
    omega
  · have : s * (b + 1) ≤ s * a := Nat.mul_le_mul_left _ hgt
    rw [Nat.mul_add] at this
    omega

/-- complete schedules of the writing loops are exactly the interleavings of the threads' writes -/
theorem write_complete_iff {wss : List (List (Nat × T))} {m0 m : List T} :
    (∃ ws, Interleaving wss ws ∧ applyWrites m0 ws = some m) ↔
      ∃ s, (writeRegion (T := T)).Reaches ⟨wss, m0⟩ s ∧ (∀ l ∈ s.todo, l = []) ∧ s.mem = m := by
  constructor
  · rintro ⟨ws, hi, ha⟩
    induction hi generalizing m0 with
    | done ls h =>
      simp only [applyWrites, List.foldlM_nil] at ha
      cases ha
      exact ⟨_, .refl, h, rfl⟩
    | step pre post a l ms _ ih =>
      unfold applyWrites at ha
      rw [List.foldlM_cons] at ha
      cases e : wr m0 a.1 a.2 with
      | none => rw [e] at ha; cases ha
      | some m1 =>
        rw [obind e] at ha
        obtain ⟨s, h1, h2, h3⟩ := ih ha
        refine ⟨s, (Region.Reaches.single (a := pre.length) ?_).trans h1, h2, h3⟩
        show writeStep _ _ = _
        unfold writeStep
        simp only
        rw [obind (show rd (pre ++ (a :: l) :: post) pre.length = some (a :: l) by simp [rd])]
        simp only
        rw [obind e]
        simp
  · rintro ⟨s, ⟨sched, hs⟩, h2, rfl⟩
    induction sched generalizing wss m0 with
    | nil =>
      cases hs
      exact ⟨[], .done _ h2, rfl⟩
    | cons a sched ih =>
      rw [List.foldlM_cons] at hs
      cases e : writeStep ⟨wss, m0⟩ a with
      | none => rw [show (writeRegion (T := T)).step _ a = none from e] at hs; cases hs
      | some s1 =>
        rw [obind (show (writeRegion (T := T)).step _ a = some s1 from e)] at hs
        rcases writeStep_inv e with rfl | ⟨w, ws, h3, h4, h5⟩
        · exact ih hs
        · obtain ⟨todo, mem⟩ := s1
          simp only at h3 h4 h5
          subst h4
          obtain ⟨ws', i1, i2⟩ := ih hs
          obtain ⟨hlt, hget⟩ := List.getElem?_eq_some_iff.1 h3
          have e1 : wss = wss.take a ++ (w :: ws) :: wss.drop (a + 1) := by
            rw [← hget, List.getElem_cons_drop, List.take_append_drop]
          have e2 : wss.set a ws = wss.take a ++ ws :: wss.drop (a + 1) := List.set_eq_take_append_cons_drop .. |>.trans (if_pos hlt)
          refine ⟨w :: ws', ?_, ?_⟩
          · rw [e1]
            refine .step _ _ _ _ _ ?_
            rw [← e2]; exact i1
          · unfold applyWrites
            rw [List.foldlM_cons, obind h5]
            exact i2

/-! ### buckets -/

theorem baccess_range {key : T → Nat} {c : Cfg} {lo : Nat} {X : List T} {s : BState} {A B : List T}
    (h : LInv key c lo X s A B) {l : Bool × Nat} {w : Bool} (hl : (l, w) ∈ baccess key c lo X.length s A B) :
    lo ≤ l.2 ∧ l.2 < lo + X.length := by
  obtain ⟨ph, k, ptr, cs⟩ := s
  cases ph with
  | count =>
    simp only [baccess] at hl
    split at hl
    · simp only [List.mem_singleton, Prod.mk.injEq] at hl
      obtain ⟨rfl, _⟩ := hl
      simp only; omega
    · simp at hl
  | done => simp [baccess] at hl
  | move it =>
    obtain ⟨h1, h2, h3, h4, h5, h6⟩ := h
    simp only at h2 h4
    simp only [baccess] at hl
    split at hl
    · rename_i hk
      rcases List.mem_cons.1 hl with hl | hl
      · simp only [Prod.mk.injEq] at hl
        obtain ⟨rfl, _⟩ := hl
        simp only; omega
      · split at hl
        · rename_i x hx
          split at hl
          · rename_i index hi
            simp only [List.mem_singleton, Prod.mk.injEq] at hl
            obtain ⟨rfl, _⟩ := hl
            simp only
            have hlen := Sn_length key c X it
            have hx' : (Sn key c X it)[k]? = some x := by
              have := h3 k (by omega)
              rw [← this]; exact hx
            have hpos := pos_lt_length (key := key) (c := c) (it := it) hx'
            have hp1 : rd ptr (digit c it (key x)) = some (pos (dg key c it) (Sn key c X it) k x) := by
              rw [h4]; exact rd_tab (dg_lt key c it x)
            have : index = pos (dg key c it) (Sn key c X it) k x := by
              rw [rd, hi] at hp1; exact Option.some.inj hp1
            omega
          · simp at hl
        · simp at hl
    · simp at hl

theorem lsd_raceFree {key : T → Nat} {c : Cfg} {N : Nat} {L : Nat → Nat} {X : Nat → List T} {n : Nat} {g0 : Global T}
    {splitter : List Nat} (hI : 1 ≤ c.noIters) (hspl : ∀ i ≤ N, splitter[i]? = some (L i))
    (hL : ∀ i < N, L (i + 1) = L i + (X i).length) (hn : L N ≤ n) (h : GInv key c N L X n g0) :
    (lsdRegion key c splitter).RaceFree g0 := by
  have mono : ∀ a b, a ≤ b → b ≤ N → L a ≤ L b := by
    intro a b hab
    induction b, hab using Nat.le_induction with
    | base => intro _; exact le_refl _
    | succ b hab ih =>
      intro hb
      rw [hL b (by omega)]
      have := ih (by omega)
      omega
  intro g hr
  have hg : GInv key c N L X n g := by
    refine hr.inv (GInv key c N L X n) h ?_
    intro g i g' hg hst
    have hst : gstep key c splitter g i = some g' := hst
    have hi : i < N := by
      rw [← hg.lenP]
      unfold gstep at hst
      simp only [Option.bind_eq_bind, Option.bind_eq_some_iff] at hst
      obtain ⟨s, hs, _⟩ := hst
      exact (List.getElem?_eq_some_iff.1 (show g.priv[i]? = _ from hs)).1
    obtain ⟨g'', e, hg', _⟩ := gstep_spec hI hspl hL hn hg hi
    rw [e] at hst; cases hst; exact hg'
  have acc : ∀ i l w, (l, w) ∈ (lsdRegion key c splitter).access g i → i < N ∧ L i ≤ l.2 ∧ l.2 < L (i + 1) := by
    intro i l w hl
    simp only [lsdRegion] at hl
    split at hl
    · rename_i s lo hi hs h1 h2
      have hiN : i < N := by rw [← hg.lenP]; exact (List.getElem?_eq_some_iff.1 hs).1
      rw [hspl i (by omega)] at h1
      rw [hspl (i + 1) (by omega)] at h2
      cases h1; cases h2
      obtain ⟨s', hs', hinv⟩ := hg.inv i hiN
      rw [hs] at hs'; cases hs'
      rw [hL i hiN, Nat.add_sub_cancel_left] at hl
      have := baccess_range hinv hl
      rw [hL i hiN]
      exact ⟨hiN, this⟩
    · simp at hl
  rintro i j l ⟨hne, h1, w, h2⟩
  obtain ⟨a1, a2, a3⟩ := acc i l _ h1
  obtain ⟨b1, b2, b3⟩ := acc j l _ h2
  rcases Nat.lt_or_gt_of_ne hne with hlt | hgt
  · have := mono (i + 1) j hlt (by omega); omega
  · have := mono (j + 1) i hgt (by omega); omega

/-- contents of the two arrays -/
def lsdVal (g : Global T) (l : Bool × Nat) : Option T := if l.1 then g.B[l.2]? else g.A[l.2]?

theorem lsd_honest (key : T → Nat) (c : Cfg) (splitter : List Nat) :
    (lsdRegion key c splitter).Honest id lsdVal (fun g i => g.priv[i]?) where
  writes := by
    intro g i g' l h hne
    have h : gstep key c splitter g i = some g' := h
    unfold gstep at h
    simp only [Option.bind_eq_bind, Option.bind_eq_some_iff, Option.some.injEq] at h
    obtain ⟨s, hs, lo, hlo, hi, hhi, r, hr, rfl⟩ := h
    simp only [rd] at hs hlo hhi
    simp only [lsdRegion, hs, hlo, hhi]
    obtain ⟨ph, k, ptr, cs⟩ := s
    cases ph with
    | count =>
      simp only [bstep] at hr
      split at hr
      · simp only [Option.bind_eq_bind, Option.bind_eq_some_iff, Option.some.injEq] at hr
        obtain ⟨_, _, _, _, rfl⟩ := hr
        exact absurd rfl hne
      · cases hr; exact absurd rfl hne
    | done => cases hr; exact absurd rfl hne
    | move it =>
      simp only [bstep] at hr
      split at hr
      · rename_i hk
        simp only [Option.bind_eq_bind, Option.bind_eq_some_iff] at hr
        obtain ⟨x, hx, index, hix, _, _, _, _, hr⟩ := hr
        simp only [rd] at hx hix
        simp only [baccess, if_pos hk, hx, hix, List.mem_cons, List.not_mem_nil, or_false]
        right
        obtain ⟨l1, l2⟩ := l
        by_cases e : it % 2 = 0
        · simp only [if_pos e, Option.bind_eq_some_iff, Option.some.injEq] at hr
          obtain ⟨A', hA, rfl⟩ := hr
          unfold wr at hA
          split at hA
          · cases hA
            simp only [lsdVal] at hne
            cases l1 with
            | true => exact absurd rfl hne
            | false =>
              simp only [Prod.mk.injEq, and_true]
              refine ⟨by simp [e], ?_⟩
              by_contra hc
              apply hne
              simp only [Bool.false_eq_true, if_false]
              exact List.getElem?_set_ne (fun e => hc e.symm)
          · cases hA
        · simp only [if_neg e, Option.bind_eq_some_iff, Option.some.injEq] at hr
          obtain ⟨A', hA, rfl⟩ := hr
          unfold wr at hA
          split at hA
          · cases hA
            simp only [lsdVal] at hne
            cases l1 with
            | false => exact absurd rfl hne
            | true =>
              simp only [Prod.mk.injEq, and_true]
              refine ⟨by simp [e], ?_⟩
              by_contra hc
              apply hne
              simp only [if_true]
              exact List.getElem?_set_ne (fun e => hc e.symm)
          · cases hA
      · split at hr <;> (cases hr; exact absurd rfl hne)
  exist := by
    intro g i g' l h
    have h : gstep key c splitter g i = some g' := h
    unfold gstep at h
    simp only [Option.bind_eq_bind, Option.bind_eq_some_iff, Option.some.injEq] at h
    obtain ⟨s, hs, lo, hlo, hi, hhi, r, hr, rfl⟩ := h
    have hlen : r.2.1.length = g.A.length ∧ r.2.2.length = g.B.length := by
      obtain ⟨ph, k, ptr, cs⟩ := s
      cases ph with
      | count =>
        simp only [bstep] at hr
        split at hr
        · simp only [Option.bind_eq_bind, Option.bind_eq_some_iff, Option.some.injEq] at hr
          obtain ⟨_, _, _, _, rfl⟩ := hr
          exact ⟨rfl, rfl⟩
        · cases hr; exact ⟨rfl, rfl⟩
      | done => cases hr; exact ⟨rfl, rfl⟩
      | move it =>
        simp only [bstep] at hr
        split at hr
        · simp only [Option.bind_eq_bind, Option.bind_eq_some_iff] at hr
          obtain ⟨x, hx, index, hix, _, _, _, _, hr⟩ := hr
          by_cases e : it % 2 = 0
          · simp only [if_pos e, Option.bind_eq_some_iff, Option.some.injEq] at hr
            obtain ⟨A', hA, rfl⟩ := hr
            unfold wr at hA
            split at hA
            · cases hA; simp
            · cases hA
          · simp only [if_neg e, Option.bind_eq_some_iff, Option.some.injEq] at hr
            obtain ⟨A', hA, rfl⟩ := hr
            unfold wr at hA
            split at hA
            · cases hA; simp
            · cases hA
        · split at hr <;> (cases hr; exact ⟨rfl, rfl⟩)
    obtain ⟨l1, l2⟩ := l
    rw [Bool.eq_iff_iff]
    cases l1 <;> simp [lsdVal, hlen]
  reads := by
    intro g1 g2 i hv hex hrd
    have hlen : g1.A.length = g2.A.length ∧ g1.B.length = g2.B.length := by
      have hA : ∀ j, j < g1.A.length ↔ j < g2.A.length := by
        intro j
        have := hex (false, j)
        rw [Bool.eq_iff_iff] at this
        simpa [lsdVal] using this
      have hB : ∀ j, j < g1.B.length ↔ j < g2.B.length := by
        intro j
        have := hex (true, j)
        rw [Bool.eq_iff_iff] at this
        simpa [lsdVal] using this
      have := hA g1.A.length
      have := hA g2.A.length
      have := hB g1.B.length
      have := hB g2.B.length
      omega
    obtain ⟨hlA, hlB⟩ := hlen
    simp only [lsdRegion, gstep, rd, hv, id] at hrd ⊢
    cases e : g2.priv[i]? with
    | none => simp
    | some s =>
      have ht : i < g2.priv.length := (List.getElem?_eq_some_iff.1 e).1
      have ht1 : i < g1.priv.length := (List.getElem?_eq_some_iff.1 (hv.trans e)).1
      rw [e] at hrd
      cases e1 : splitter[i]? with
      | none => simp
      | some lo =>
        cases e2 : splitter[i + 1]? with
        | none => simp
        | some hi =>
          rw [e1, e2] at hrd
          simp only [Option.bind_eq_bind, Option.bind_some] at hrd ⊢
          generalize hi - lo = size at *
          obtain ⟨ph, k, ptr, cs⟩ := s
          cases ph with
          | count =>
            simp only [baccess, bstep] at hrd ⊢
            by_cases hk : k < size
            · simp only [if_pos hk, List.mem_singleton, Prod.mk.injEq, and_true, forall_eq, rd, lsdVal, if_true] at hrd ⊢
              rw [hrd]
              cases g2.B[lo + k]? with
              | none => simp
              | some x =>
                cases e3 : bump cs (digit c 0 (key x)) with
                | none => simp [e3]
                | some cs' => simp [e3, ht, ht1]
            · simp [if_neg hk, ht, ht1]
          | done => simp [baccess, bstep, ht, ht1]
          | move it =>
            simp only [baccess, bstep] at hrd ⊢
            by_cases hk : k < size
            · simp only [if_pos hk, List.mem_cons, Prod.mk.injEq, and_true, rd] at hrd ⊢
              have hsrc : (if it % 2 = 0 then g1.B else g1.A)[lo + k]? = (if it % 2 = 0 then g2.B else g2.A)[lo + k]? := by
                have := hrd (decide (it % 2 = 0), lo + k) (Or.inl rfl)
                by_cases e : it % 2 = 0
                · simpa [lsdVal, e] using this
                · simpa [lsdVal, e] using this
              rw [hsrc]
              refine ⟨rfl, ?_⟩
              cases e3 : (if it % 2 = 0 then g2.B else g2.A)[lo + k]? with
              | none => simp
              | some x =>
                simp only [Option.bind_eq_bind, Option.bind_some]
                cases e4 : ptr[digit c it (key x)]? with
                | none => simp
                | some index =>
                  simp only [Option.bind_some]
                  cases e5 : bump ptr (digit c it (key x)) with
                  | none => simp
                  | some ps =>
                    simp only [Option.bind_some]
                    generalize (if it + 1 < c.noIters then bump cs (digit c (it + 1) (key x)) else some cs) = o
                    cases o with
                    | none => simp
                    | some cs' =>
                      simp only [Option.bind_some, wr, hlA, hlB]
                      by_cases e : it % 2 = 0
                      · simp only [if_pos e]
                        by_cases hw : lo + index < g2.A.length
                        · simp [hw, ht, ht1, e, lsdVal, hlA]
                        · simp [hw]
                      · simp only [if_neg e]
                        by_cases hw : lo + index < g2.B.length
                        · simp [hw, ht, ht1, e, lsdVal, hlB]
                        · simp [hw]
            · simp only [if_neg hk]
              split <;> simp [ht, ht1]

end Girgs.IntSort
