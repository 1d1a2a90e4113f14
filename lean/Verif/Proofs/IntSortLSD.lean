import Verif.Proofs.IntSortMSD
/-
The LSD phase of `intsort`: sorting one bucket, frame property, schedules.
-/
namespace Girgs.IntSort
variable {T : Type}

/-- digit of an element -/
def dg (key : T → Nat) (c : Cfg) (it : Nat) (x : T) : Nat := digit c it (key x)

/-- contents of a bucket after `it` iterations -/
def Sn (key : T → Nat) (c : Cfg) (X : List T) : Nat → List T
  | 0 => X
  | it + 1 => bc (dg key c it) (2 ^ c.adaptiveWidth) (Sn key c X it)

theorem dg_lt (key : T → Nat) (c : Cfg) (it : Nat) (x : T) : dg key c it x < 2 ^ c.adaptiveWidth :=
  Nat.mod_lt _ (Nat.two_pow_pos _)

theorem Sn_perm (key : T → Nat) (c : Cfg) (X : List T) (it : Nat) : (Sn key c X it).Perm X := by
  induction it with
  | zero => exact List.Perm.refl _
  | succ it ih => exact (bc_perm (fun x _ => dg_lt key c it x)).trans ih

theorem Sn_length (key : T → Nat) (c : Cfg) (X : List T) (it : Nat) : (Sn key c X it).length = X.length :=
  (Sn_perm key c X it).length_eq

theorem Sn_sorted (key : T → Nat) (c : Cfg) (X : List T) (it : Nat) :
    StablySorted (fun x => key x % 2 ^ (it * c.adaptiveWidth)) X (Sn key c X it) := by
  induction it with
  | zero =>
    constructor
    · simp only [Nat.zero_mul, Nat.pow_zero, Nat.mod_one]
      exact List.pairwise_of_forall (fun _ _ => le_refl _)
    · intro k; rfl
  | succ it ih =>
    refine stablySorted_bc (d := dg key c it) (fun x _ => dg_lt key c it x) ?_ ?_ ih
    all_goals
      intro x y
      have e : ∀ z, key z % 2 ^ ((it + 1) * c.adaptiveWidth) =
          key z % 2 ^ (it * c.adaptiveWidth) + 2 ^ (it * c.adaptiveWidth) * dg key c it z := by
        intro z
        rw [Nat.add_mul, Nat.one_mul, Nat.pow_add, Nat.mod_mul, dg, digit, Nat.shiftRight_eq_div_pow]
      rw [e, e]
      have h1 := Nat.mod_lt (key x) (Nat.two_pow_pos (it * c.adaptiveWidth))
      have h2 := Nat.mod_lt (key y) (Nat.two_pow_pos (it * c.adaptiveWidth))
      generalize key x % 2 ^ (it * c.adaptiveWidth) = a at *
      generalize key y % 2 ^ (it * c.adaptiveWidth) = b at *
      generalize 2 ^ (it * c.adaptiveWidth) = m at *
      generalize dg key c it x = p at *
      generalize dg key c it y = q at *
      intro h
    · rcases h with h | ⟨h, h'⟩
      · have : m * (p + 1) ≤ m * q := Nat.mul_le_mul_left _ h
        rw [Nat.mul_add, Nat.mul_one] at this
        omega
      · subst h; omega
    · have hpq : p = q := by
        have e1 : (a + m * p) / m = p := by
          rw [Nat.add_mul_div_left _ _ (by omega), Nat.div_eq_of_lt h1, Nat.zero_add]
        have e2 : (b + m * q) / m = q := by
          rw [Nat.add_mul_div_left _ _ (by omega), Nat.div_eq_of_lt h2, Nat.zero_add]
        rw [← e1, ← e2, h]
      subst hpq
      exact ⟨rfl, by omega⟩

/-- the slice of `L` starting at `lo` is `X` -/
def Sl (L : List T) (lo : Nat) (X : List T) : Prop := ∀ k < X.length, L[lo + k]? = X[k]?

def src (it : Nat) (A B : List T) : List T := if it % 2 = 0 then B else A
def dst (it : Nat) (A B : List T) : List T := if it % 2 = 0 then A else B

theorem dst_eq_src (it : Nat) (A B : List T) : dst it A B = src (it + 1) A B := by
  unfold dst src
  by_cases h : it % 2 = 0
  · rw [if_pos h, if_neg (by omega)]
  · rw [if_neg h, if_pos (by omega)]

/-- invariant of one bucket -/
def LInv (key : T → Nat) (c : Cfg) (lo : Nat) (X : List T) (s : BState) (A B : List T) : Prop :=
  match s.phase with
  | .count => s.k ≤ X.length ∧ Sl B lo X ∧
      s.counters = tab (2 ^ c.adaptiveWidth) (fun q => (X.take s.k).countP (fun y => dg key c 0 y == q))
  | .move it => it < c.noIters ∧ s.k ≤ X.length ∧ Sl (src it A B) lo (Sn key c X it) ∧
      s.pointers = tab (2 ^ c.adaptiveWidth) (fun q => (Sn key c X it).countP (fun y => decide (dg key c it y < q)) +
        ((Sn key c X it).take s.k).countP (fun y => dg key c it y == q)) ∧
      (∀ j x, j < s.k → (Sn key c X it)[j]? = some x →
        (dst it A B)[lo + pos (dg key c it) (Sn key c X it) j x]? = some x) ∧
      (it + 1 < c.noIters → s.counters = tab (2 ^ c.adaptiveWidth) (fun q =>
        ((Sn key c X it).take s.k).countP (fun y => dg key c (it + 1) y == q)))
  | .done => Sl (src c.noIters A B) lo (Sn key c X c.noIters)

/-- steps left -/
def mu (c : Cfg) (size : Nat) (s : BState) : Nat :=
  match s.phase with
  | .count => (c.noIters + 1) * (size + 1) - s.k
  | .move it => (c.noIters - it) * (size + 1) - s.k
  | .done => 0

theorem pos_lt_length {key : T → Nat} {c : Cfg} {it : Nat} {X : List T} {j : Nat} {x : T} (h : X[j]? = some x) :
    pos (dg key c it) X j x < X.length := by
  have := bc_get (d := dg key c it) (Q := 2 ^ c.adaptiveWidth) h (dg_lt key c it x)
  rw [← bc_length (d := dg key c it) (Q := 2 ^ c.adaptiveWidth) (fun x _ => dg_lt key c it x)]
  by_contra h
  rw [List.getElem?_eq_none (by omega)] at this
  simp at this

theorem LInv.frame {key : T → Nat} {c : Cfg} {lo : Nat} {X : List T} {s : BState} {A B A' B' : List T}
    (h : LInv key c lo X s A B) (hA : ∀ p, lo ≤ p → p < lo + X.length → A'[p]? = A[p]?)
    (hB : ∀ p, lo ≤ p → p < lo + X.length → B'[p]? = B[p]?) : LInv key c lo X s A' B' := by
  have hs : ∀ it p, lo ≤ p → p < lo + X.length → (src it A' B')[p]? = (src it A B)[p]? := by
    intro it p h1 h2
    unfold src; split
    · exact hB p h1 h2
    · exact hA p h1 h2
  have sl : ∀ it (Y : List T), Y.length = X.length → Sl (src it A B) lo Y → Sl (src it A' B') lo Y := by
    intro it Y hY h k hk
    rw [hs it _ (by omega) (by omega)]
    exact h k hk
  unfold LInv at h ⊢
  split at h
  · obtain ⟨h1, h2, h3⟩ := h
    exact ⟨h1, sl 0 X rfl h2, h3⟩
  · rename_i it e
    obtain ⟨h1, h2, h3, h4, h5, h6⟩ := h
    refine ⟨h1, h2, sl it _ (Sn_length ..) h3, h4, ?_, h6⟩
    intro j x hj hx
    have := pos_lt_length (key := key) (c := c) (it := it) hx
    rw [Sn_length] at this
    rw [dst_eq_src, hs _ _ (by omega) (by omega), ← dst_eq_src]
    exact h5 j x hj hx
  · exact sl _ _ (Sn_length ..) h

theorem rd_eq {α : Type} {L : List α} {i : Nat} {a : α} (h : L[i]? = some a) : rd L i = some a := h

theorem startMove_inv {key : T → Nat} {c : Cfg} {lo : Nat} {X : List T} {s : BState} {A B : List T} {it : Nat}
    (hit : it < c.noIters) (h1 : Sl (src it A B) lo (Sn key c X it))
    (h2 : s.counters = tab (2 ^ c.adaptiveWidth) (fun q => (Sn key c X it).countP (fun y => dg key c it y == q))) :
    LInv key c lo X (startMove c it s) A B := by
  show _ ∧ _
  refine ⟨hit, Nat.zero_le _, h1, ?_, ?_, ?_⟩
  · show prefixSums 0 s.counters = _
    rw [h2, prefixSums_tab]
    apply tab_congr
    intro q _
    rw [sum_countP]
    show 0 + _ = _ + (List.take 0 _).countP _
    rw [List.take_zero]; simp
  · intro j x hj
    exact absurd hj (Nat.not_lt_zero _)
  · intro hlt
    show (if it + 1 < c.noIters then List.replicate (2 ^ c.adaptiveWidth) 0 else s.counters) = _
    rw [if_pos hlt, replicate_eq_tab]
    apply tab_congr
    intro q _
    show 0 = (List.take 0 _).countP _
    simp

theorem bstep_spec {key : T → Nat} {c : Cfg} {lo : Nat} {X : List T} {s : BState} {A B : List T}
    (hI : 1 ≤ c.noIters) (hA : lo + X.length ≤ A.length) (hB : lo + X.length ≤ B.length)
    (h : LInv key c lo X s A B) :
    ∃ s' A' B', bstep key c lo X.length s A B = some (s', A', B') ∧ LInv key c lo X s' A' B' ∧
      A'.length = A.length ∧ B'.length = B.length ∧
      (∀ p, p < lo ∨ lo + X.length ≤ p → A'[p]? = A[p]? ∧ B'[p]? = B[p]?) ∧
      (s.phase ≠ .done → mu c X.length s' < mu c X.length s) ∧ (s.phase = .done → s' = s) := by
  obtain ⟨ph, k, ptr, cs⟩ := s
  have tk : ∀ {Y : List T} {k : Nat} {x : T}, Y[k]? = some x → Y.take (k + 1) = Y.take k ++ [x] := by
    intro Y k x h; rw [List.take_succ, h]; rfl
  have gt : ∀ {Y : List T} {k : Nat}, k < Y.length → ∃ x, Y[k]? = some x := by
    intro Y k h; exact ⟨Y[k], by simp [h]⟩
  cases ph with
  | count =>
    obtain ⟨h1, h2, h3⟩ := h
    simp only at h1 h3
    by_cases hk : k < X.length
    · obtain ⟨x, hx⟩ := gt hk
      have hr : rd B (lo + k) = some x := by rw [rd, h2 k hk, hx]
      refine ⟨{ phase := .count, k := k + 1, pointers := ptr, counters := tab (2 ^ c.adaptiveWidth) (fun q =>
          if q = dg key c 0 x then (X.take k).countP (fun y => dg key c 0 y == dg key c 0 x) + 1
          else (X.take k).countP (fun y => dg key c 0 y == q)) }, A, B, ?_, ?_, rfl, rfl,
        fun p _ => ⟨rfl, rfl⟩, ?_, fun h => absurd h (by simp)⟩
      · unfold bstep
        simp only
        rw [if_pos hk, obind hr, h3]
        exact obind (bump_tab (dg_lt key c 0 x)) _
      · refine ⟨hk, h2, ?_⟩
        apply tab_congr
        intro q _
        show _ = (X.take (k + 1)).countP _
        rw [tk hx, countP_snoc]
      · intro _
        show (c.noIters + 1) * (X.length + 1) - (k + 1) < (c.noIters + 1) * (X.length + 1) - k
        have : X.length + 1 ≤ (c.noIters + 1) * (X.length + 1) := Nat.le_mul_of_pos_left _ (by omega)
        omega
    · have hk' : k = X.length := by omega
      subst hk'
      refine ⟨startMove c 0 { phase := .count, k := X.length, pointers := ptr, counters := cs }, A, B, ?_, ?_, rfl, rfl,
        fun p _ => ⟨rfl, rfl⟩, ?_, fun h => absurd h (by simp)⟩
      · unfold bstep
        simp only
        rw [if_neg hk]
      · refine startMove_inv (it := 0) hI h2 ?_
        rw [h3, List.take_length]
        rfl
      · intro _
        show (c.noIters - 0) * (X.length + 1) - 0 < (c.noIters + 1) * (X.length + 1) - X.length
        rw [Nat.add_mul]
        generalize c.noIters * (X.length + 1) = m
        have : (c.noIters - 0) * (X.length + 1) = c.noIters * (X.length + 1) := by simp
        omega
  | move it =>
    obtain ⟨h1, h2, h3, h4, h5, h6⟩ := h
    simp only at h2 h4 h5 h6
    have hl := Sn_length key c X it
    have hmu : (X.length + 1) ≤ (c.noIters - it) * (X.length + 1) := Nat.le_mul_of_pos_left _ (by omega)
    by_cases hk : k < X.length
    · obtain ⟨x, hx⟩ := gt (show k < (Sn key c X it).length by omega)
      have hr : rd (if it % 2 = 0 then B else A) (lo + k) = some x := by
        have := h3 k (by omega)
        rw [hx] at this
        exact this
      have hpos := pos_lt_length (key := key) (c := c) (it := it) hx
      rw [hl] at hpos
      have hp1 : rd ptr (digit c it (key x)) = some (pos (dg key c it) (Sn key c X it) k x) := by
        rw [h4]; exact rd_tab (dg_lt key c it x)
      let ps' := tab (2 ^ c.adaptiveWidth) (fun q => (Sn key c X it).countP (fun y => decide (dg key c it y < q)) +
        ((Sn key c X it).take (k + 1)).countP (fun y => dg key c it y == q))
      have hp2 : bump ptr (digit c it (key x)) = some ps' := by
        rw [h4]
        refine (bump_tab (dg_lt key c it x)).trans ?_
        congr 1
        apply tab_congr
        intro q _
        rw [tk hx, countP_snoc]
        by_cases e : q = dg key c it x
        · rw [if_pos e, if_pos e, e]; rfl
        · rw [if_neg e, if_neg e]
      let cs' := if it + 1 < c.noIters then tab (2 ^ c.adaptiveWidth) (fun q =>
        ((Sn key c X it).take (k + 1)).countP (fun y => dg key c (it + 1) y == q)) else cs
      have hp3 : (if it + 1 < c.noIters then bump cs (digit c (it + 1) (key x)) else some cs) = some cs' := by
        by_cases hn : it + 1 < c.noIters
        · rw [if_pos hn, h6 hn]
          refine (bump_tab (dg_lt key c (it + 1) x)).trans ?_
          show _ = some (if it + 1 < c.noIters then _ else _)
          rw [if_pos hn]
          congr 1
          apply tab_congr
          intro q _
          rw [tk hx, countP_snoc]
        · rw [if_neg hn]
          show _ = some (if it + 1 < c.noIters then _ else _)
          rw [if_neg hn]
      have wl : ∀ L : List T, lo + X.length ≤ L.length →
          wr L (lo + pos (dg key c it) (Sn key c X it) k x) x = some (L.set (lo + pos (dg key c it) (Sn key c X it) k x) x) := by
        intro L hL
        unfold wr; rw [if_pos (by omega)]
      have off : ∀ (L : List T) p, (p < lo ∨ lo + X.length ≤ p) →
          (L.set (lo + pos (dg key c it) (Sn key c X it) k x) x)[p]? = L[p]? := by
        intro L p hp
        rw [List.getElem?_set_ne (by omega)]
      have newd : ∀ (L : List T), lo + X.length ≤ L.length →
          (∀ j y, j < k → (Sn key c X it)[j]? = some y → L[lo + pos (dg key c it) (Sn key c X it) j y]? = some y) →
          (∀ j y, j < k + 1 → (Sn key c X it)[j]? = some y →
            (L.set (lo + pos (dg key c it) (Sn key c X it) k x) x)[lo + pos (dg key c it) (Sn key c X it) j y]? = some y) := by
        intro L hL h j y hj hy
        by_cases e : j = k
        · subst e
          rw [hx] at hy
          simp only [Option.some.injEq] at hy
          subst hy
          rw [List.getElem?_set_self (by omega)]
        · have : pos (dg key c it) (Sn key c X it) k x ≠ pos (dg key c it) (Sn key c X it) j y :=
            fun h => e (pos_inj hx hy h).symm
          rw [List.getElem?_set_ne (by omega)]
          exact h j y (by omega) hy
      have mulem : mu c X.length { phase := .move it, k := k + 1, pointers := ps', counters := cs' } <
          mu c X.length { phase := .move it, k := k, pointers := ptr, counters := cs } := by
        show (c.noIters - it) * (X.length + 1) - (k + 1) < (c.noIters - it) * (X.length + 1) - k
        omega
      have hcs : it + 1 < c.noIters → cs' = tab (2 ^ c.adaptiveWidth) (fun q =>
          ((Sn key c X it).take (k + 1)).countP (fun y => dg key c (it + 1) y == q)) := by
        intro hn
        show (if it + 1 < c.noIters then _ else _) = _
        rw [if_pos hn]
      by_cases he : it % 2 = 0
      · refine ⟨{ phase := .move it, k := k + 1, pointers := ps', counters := cs' },
          A.set (lo + pos (dg key c it) (Sn key c X it) k x) x, B, ?_, ?_, by simp, rfl,
          fun p hp => ⟨off A p hp, rfl⟩, fun _ => mulem, fun h => absurd h (by simp)⟩
        · unfold bstep
          simp only
          rw [if_pos hk, obind hr, obind hp1, obind hp2, obind hp3, if_pos he, obind (wl A hA)]
        · refine ⟨h1, hk, ?_, rfl, ?_, hcs⟩
          · unfold src at h3 ⊢; rw [if_pos he] at h3 ⊢; exact h3
          · unfold dst at h5 ⊢; rw [if_pos he] at h5 ⊢; exact newd A hA h5
      · refine ⟨{ phase := .move it, k := k + 1, pointers := ps', counters := cs' },
          A, B.set (lo + pos (dg key c it) (Sn key c X it) k x) x, ?_, ?_, rfl, by simp,
          fun p hp => ⟨rfl, off B p hp⟩, fun _ => mulem, fun h => absurd h (by simp)⟩
        · unfold bstep
          simp only
          rw [if_pos hk, obind hr, obind hp1, obind hp2, obind hp3, if_neg he, obind (wl B hB)]
        · refine ⟨h1, hk, ?_, rfl, ?_, hcs⟩
          · unfold src at h3 ⊢; rw [if_neg he] at h3 ⊢; exact h3
          · unfold dst at h5 ⊢; rw [if_neg he] at h5 ⊢; exact newd B hB h5
    · have hk' : k = X.length := by omega
      have hfin : Sl (src (it + 1) A B) lo (Sn key c X (it + 1)) := by
        rw [← dst_eq_src]
        intro i hi
        rw [Sn_length, ← hl] at hi
        obtain ⟨j, x, hx, hp⟩ := pos_surj (d := dg key c it) (Q := 2 ^ c.adaptiveWidth)
          (fun x _ => dg_lt key c it x) hi
        subst hp
        have hj : j < k := by
          by_contra hc
          rw [List.getElem?_eq_none (by omega)] at hx
          simp at hx
        rw [h5 j x hj hx]
        exact (bc_get hx (dg_lt key c it x)).symm
      by_cases hn : it + 1 < c.noIters
      · refine ⟨startMove c (it + 1) { phase := .move it, k := k, pointers := ptr, counters := cs }, A, B, ?_, ?_, rfl, rfl,
          fun p _ => ⟨rfl, rfl⟩, ?_, fun h => absurd h (by simp)⟩
        · unfold bstep
          simp only
          rw [if_neg hk, if_pos hn]
        · refine startMove_inv hn hfin ?_
          simp only
          rw [h6 hn, hk', ← hl, List.take_length]
          apply tab_congr
          intro q _
          exact ((bc_perm (fun x _ => dg_lt key c it x)).countP_eq _).symm
        · intro _
          show (c.noIters - (it + 1)) * (X.length + 1) - 0 < (c.noIters - it) * (X.length + 1) - k
          have : c.noIters - it = (c.noIters - (it + 1)) + 1 := by omega
          rw [this, Nat.add_mul]
          generalize (c.noIters - (it + 1)) * (X.length + 1) = m
          omega
      · have hlast : it + 1 = c.noIters := by omega
        refine ⟨{ phase := .done, k := k, pointers := ptr, counters := cs }, A, B, ?_, ?_, rfl, rfl,
          fun p _ => ⟨rfl, rfl⟩, ?_, fun h => absurd h (by simp)⟩
        · unfold bstep
          simp only
          rw [if_neg hk, if_neg hn]
        · rw [hlast] at hfin
          exact hfin
        · intro _
          show 0 < (c.noIters - it) * (X.length + 1) - k
          omega
  | done =>
    exact ⟨_, A, B, rfl, h, rfl, rfl, fun p _ => ⟨rfl, rfl⟩, fun h => absurd rfl h, fun _ => rfl⟩

/-- invariant of all buckets: bucket `i` has contents `X i` and starts at `L i` -/
structure GInv (key : T → Nat) (c : Cfg) (N : Nat) (L : Nat → Nat) (X : Nat → List T) (n : Nat) (g : Global T) : Prop where
  lenA : g.A.length = n
  lenB : g.B.length = n
  lenP : g.priv.length = N
  inv : ∀ i < N, ∃ s, g.priv[i]? = some s ∧ LInv key c (L i) (X i) s g.A g.B

theorem gstep_spec {key : T → Nat} {c : Cfg} {N : Nat} {L : Nat → Nat} {X : Nat → List T} {n : Nat} {g : Global T}
    {splitter : List Nat} (hI : 1 ≤ c.noIters) (hspl : ∀ i ≤ N, splitter[i]? = some (L i))
    (hL : ∀ i < N, L (i + 1) = L i + (X i).length) (hn : L N ≤ n) (h : GInv key c N L X n g) {i : Nat} (hi : i < N) :
    ∃ g', gstep key c splitter g i = some g' ∧ GInv key c N L X n g' ∧
      (∀ j, j ≠ i → g'.priv[j]? = g.priv[j]?) ∧
      (∀ s, g.priv[i]? = some s → ∃ s', g'.priv[i]? = some s' ∧
        (s.phase ≠ .done → mu c (X i).length s' < mu c (X i).length s) ∧ (s.phase = .done → s' = s)) := by
  have mono : ∀ a b, a ≤ b → b ≤ N → L a ≤ L b := by
    intro a b hab
    induction b, hab using Nat.le_induction with
    | base => intro _; exact le_refl _
    | succ b hab ih =>
      intro hb
      rw [hL b (by omega)]
      have := ih (by omega)
      omega
  obtain ⟨s, hs, hinv⟩ := h.inv i hi
  have hend := mono (i + 1) N (by omega) (le_refl _)
  rw [hL i hi] at hend
  obtain ⟨s', A', B', e, hinv', lA, lB, hoff, hmu, hdone⟩ := bstep_spec hI (by rw [h.lenA]; omega) (by rw [h.lenB]; omega) hinv
  have hpl : i < g.priv.length := by rw [h.lenP]; exact hi
  refine ⟨{ A := A', B := B', priv := g.priv.set i s' }, ?_, ?_, ?_, ?_⟩
  · unfold gstep
    rw [obind (rd_eq hs), obind (rd_eq (hspl i (by omega))), obind (rd_eq (hspl (i + 1) (by omega))), hL i hi,
      Nat.add_sub_cancel_left, obind e]
  · constructor
    · exact lA.trans h.lenA
    · exact lB.trans h.lenB
    · simpa using h.lenP
    · intro j hj
      by_cases e : i = j
      · subst e
        exact ⟨s', List.getElem?_set_self hpl, hinv'⟩
      · obtain ⟨t, ht, hti⟩ := h.inv j hj
        refine ⟨t, by rw [List.getElem?_set_ne e]; exact ht, ?_⟩
        have hd : ∀ p, L j ≤ p → p < L j + (X j).length → p < L i ∨ L i + (X i).length ≤ p := by
          intro p h1 h2
          rcases Nat.lt_or_gt_of_ne e with hlt | hgt
          · have := mono (i + 1) j hlt (by omega)
            rw [hL i hi] at this
            omega
          · have := mono (j + 1) i hgt (by omega)
            rw [hL j hj] at this
            omega
        exact hti.frame (fun p h1 h2 => (hoff p (hd p h1 h2)).1) (fun p h1 h2 => (hoff p (hd p h1 h2)).2)
  · intro j hj
    show (g.priv.set i s')[j]? = _
    rw [List.getElem?_set_ne (fun h => hj h.symm)]
  · intro u hu
    rw [hs] at hu
    simp only [Option.some.injEq] at hu
    subst hu
    exact ⟨s', List.getElem?_set_self hpl, hmu, hdone⟩

/-- every schedule runs, keeps the invariant, and each occurrence of `i` brings bucket `i` closer to its end -/
theorem runSched_spec {key : T → Nat} {c : Cfg} {N : Nat} {L : Nat → Nat} {X : Nat → List T} {n : Nat}
    {splitter : List Nat} (hI : 1 ≤ c.noIters) (hspl : ∀ i ≤ N, splitter[i]? = some (L i))
    (hL : ∀ i < N, L (i + 1) = L i + (X i).length) (hn : L N ≤ n) (sched : List Nat) (hs : ∀ i ∈ sched, i < N)
    (g : Global T) (h : GInv key c N L X n g) :
    ∃ g', runSched key c splitter g sched = some g' ∧ GInv key c N L X n g' ∧
      ∀ i s, g.priv[i]? = some s → ∃ s', g'.priv[i]? = some s' ∧
        (s'.phase = .done ∨ mu c (X i).length s' + sched.count i ≤ mu c (X i).length s) ∧ (s.phase = .done → s' = s) := by
  induction sched generalizing g with
  | nil => exact ⟨g, rfl, h, fun i s hs => ⟨s, hs, Or.inr (by simp), fun _ => rfl⟩⟩
  | cons a sched ih =>
    obtain ⟨g1, e1, h1, hne, heq⟩ := gstep_spec hI hspl hL hn h (hs a (by simp))
    obtain ⟨g2, e2, h2, hprog⟩ := ih (fun i hi => hs i (by simp [hi])) g1 h1
    refine ⟨g2, ?_, h2, ?_⟩
    · unfold runSched
      rw [List.foldlM_cons, obind e1]
      exact e2
    · intro i s hsi
      by_cases e : i = a
      · subst e
        obtain ⟨s1, hs1, hm, hd⟩ := heq s hsi
        obtain ⟨s2, hs2, hm2, hd2⟩ := hprog i s1 hs1
        refine ⟨s2, hs2, ?_, fun h => by
          have := hd h
          subst this
          exact hd2 h⟩
        by_cases hph : s.phase = .done
        · left
          have := hd hph
          subst this
          rw [hd2 hph]; exact hph
        · rcases hm2 with h | h
          · exact Or.inl h
          · right
            have := hm hph
            rw [List.count_cons_self]
            omega
      · obtain ⟨s2, hs2, hm2, hd2⟩ := hprog i s (by rw [hne i e]; exact hsi)
        refine ⟨s2, hs2, ?_, hd2⟩
        rw [List.count_cons_of_ne (fun h => e h.symm)]
        exact hm2

end Girgs.IntSort
