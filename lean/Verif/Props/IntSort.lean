import Verif.Proofs.IntSort
/-
C10, C11: `intsort`.
-/
namespace Girgs.Props
open Girgs.IntSort

theorem threads_ok {T : Type} {A : List T} {omp t : Nat} (ht : t ≤ maxThreads omp A.length)
    (hn : A.length ≤ 17179869184) : (t - 1) * (t - 1) ≤ A.length := by
  unfold maxThreads idivCeil at ht
  have h1 : (t - 1) * 131072 ≤ A.length := by omega
  have h2 : t - 1 ≤ 131072 := by omega
  exact le_trans (Nat.mul_le_mul_left _ h2) h1

/-- C10.  `intsort(v, key, max_key)` on a vector `A` (up to 2^34 elements; `B0` is the buffer), for every team size `t`
OpenMP may give (`1 ≤ t ≤ min(omp_get_max_threads(), ceil(n / 2^17))`), every interleaving of the threads' scatter
writes and every schedule of the bucket sorts: no execution makes an undefined access, some execution runs to its end,
and the result of every execution is `A` sorted stably by key.  Keys must be below `2^ceil(log2 max_key)`. -/
theorem C10_intsort {T : Type} (key : T → Nat) (maxKey omp t : Nat) (A B0 : List T) (hmax : maxKey < 4294967296)
    (ht1 : 1 ≤ t) (ht : t ≤ maxThreads omp A.length ∨ t = 1) (hn : A.length ≤ 17179869184) (hB : B0.length = A.length)
    (hk : ∀ x ∈ A, key x < 2 ^ ilog2 maxKey) :
    Safe key maxKey t A B0 ∧ (∃ out, Run key maxKey t A B0 out) ∧
      ∀ out, Run key maxKey t A B0 out → StablySorted key A out ∧ out.Perm A := by
  have hth : (t - 1) * (t - 1) ≤ A.length := by
    rcases ht with h | h
    · exact threads_ok h hn
    · subst h; exact Nat.zero_le _
  refine ⟨run_safe hmax ht1 hth hB (Or.inl hk), run_exists ht1 hth hB (Or.inl hk), ?_⟩
  intro out h
  have := run_sorted ht1 hth hB (Or.inl hk) h
  exact ⟨this, this.perm⟩

/-- a stably sorted list is determined by the input, so the result of `intsort` does not depend on the thread count or
the schedule -/
theorem stablySorted_unique {T : Type} {key : T → Nat} {X Y Z : List T} (hY : StablySorted key X Y)
    (hZ : StablySorted key X Z) : Y = Z := by
  have gen : ∀ (Y Z : List T), Y.Pairwise (fun a b => key a ≤ key b) → Z.Pairwise (fun a b => key a ≤ key b) →
      (∀ k, Y.filter (fun a => key a == k) = Z.filter (fun a => key a == k)) → Y = Z := by
    intro Y
    induction Y with
    | nil =>
      intro Z _ _ h
      cases Z with
      | nil => rfl
      | cons z Z => have := h (key z); simp at this
    | cons y Y ih =>
      intro Z hY hZ h
      cases Z with
      | nil => have := h (key y); simp at this
      | cons z Z =>
        obtain ⟨hy, hY2⟩ := List.pairwise_cons.1 hY
        obtain ⟨hz, hZ2⟩ := List.pairwise_cons.1 hZ
        have hyz : key y = key z := by
          have m1 : y ∈ z :: Z := by
            have : y ∈ (z :: Z).filter (fun a => key a == key y) := by
              rw [← h (key y)]; simp
            exact (List.mem_filter.1 this).1
          have m2 : z ∈ y :: Y := by
            have : z ∈ (y :: Y).filter (fun a => key a == key z) := by
              rw [h (key z)]; simp
            exact (List.mem_filter.1 this).1
          have a1 : key z ≤ key y := by
            rcases List.mem_cons.1 m1 with rfl | m
            · exact le_refl _
            · exact hz y m
          have a2 : key y ≤ key z := by
            rcases List.mem_cons.1 m2 with rfl | m
            · exact le_refl _
            · exact hy z m
          omega
        have e := h (key y)
        rw [List.filter_cons_of_pos (by simp), List.filter_cons_of_pos (by simp [hyz])] at e
        have e0 : y = z := (List.cons.inj e).1
        subst e0
        congr 1
        apply ih Z hY2 hZ2
        intro k
        have := h k
        by_cases hk : key y = k
        · rw [List.filter_cons_of_pos (by simp [hk]), List.filter_cons_of_pos (by simp [hk])] at this
          exact (List.cons.inj this).2
        · rwa [List.filter_cons_of_neg (by simp [hk]), List.filter_cons_of_neg (by simp [hk])] at this
  exact gen Y Z hY.ordered hZ.ordered (fun k => (hY.stable k).trans (hZ.stable k).symm)

/-- C10, thread independence: two executions with any two team sizes leave the same vector. -/
theorem C10_thread_independent {T : Type} (key : T → Nat) (maxKey omp t omp' t' : Nat) (A B0 B0' out out' : List T)
    (ht1 : 1 ≤ t) (ht : t ≤ maxThreads omp A.length) (ht1' : 1 ≤ t') (ht' : t' ≤ maxThreads omp' A.length)
    (hn : A.length ≤ 17179869184) (hB : B0.length = A.length) (hB' : B0'.length = A.length)
    (hk : ∀ x ∈ A, key x < 2 ^ ilog2 maxKey)
    (h : Run key maxKey t A B0 out) (h' : Run key maxKey t' A B0' out') : out = out' :=
  stablySorted_unique (run_sorted ht1 (threads_ok ht hn) hB (Or.inl hk) h)
    (run_sorted ht1' (threads_ok ht' hn) hB' (Or.inl hk) h')

/-- the precondition of C10 covers every key below `max_key` -/
theorem C10_keys_below_max {T : Type} (key : T → Nat) (maxKey : Nat) (A : List T) (hmax : maxKey < 4294967296)
    (h : ∀ x ∈ A, key x < maxKey) : ∀ x ∈ A, key x < 2 ^ ilog2 maxKey :=
  fun x hx => lt_of_lt_of_le (h x hx) (le_two_pow_ilog2 hmax).1

/-- hypotheses of C10 at work: two elements with equal keys and a smaller one, two digits -/
example : ∃ out, Run (fun p : Nat × Nat => p.1) 1000 1 [(999, 1), (5, 2), (999, 3)] [(0, 0), (0, 0), (0, 0)] out ∧
    out = [(5, 2), (999, 1), (999, 3)] := by
  have hk : ∀ x ∈ [((999 : Nat), (1 : Nat)), (5, 2), (999, 3)], x.1 < 2 ^ ilog2 1000 :=
    C10_keys_below_max (fun p : Nat × Nat => p.1) 1000 _ (by norm_num) (by decide)
  obtain ⟨_, ⟨out, h⟩, hall⟩ := C10_intsort (fun p : Nat × Nat => p.1) 1000 1 1 [(999, 1), (5, 2), (999, 3)]
    [(0, 0), (0, 0), (0, 0)] (by norm_num) (by norm_num) (Or.inr rfl) (by norm_num) rfl hk
  refine ⟨out, h, ?_⟩
  refine stablySorted_unique (hall out h).1 ⟨by decide, ?_⟩
  intro k
  by_cases h1 : k = 5
  · subst h1; rfl
  · by_cases h2 : k = 999
    · subst h2; rfl
    · have a1 : ¬ 5 = k := fun e => h1 e.symm
      have a2 : ¬ 999 = k := fun e => h2 e.symm
      simp [a1, a2]

/-- C11, where the documented contract holds: if `max_key` is not a power of two that is at least 256, then keys up to
and including `max_key` are sorted, without undefined behaviour. -/
theorem C11_contract {T : Type} (key : T → Nat) (maxKey omp t : Nat) (A B0 : List T) (hmax : maxKey < 4294967296)
    (ht1 : 1 ≤ t) (ht : t ≤ maxThreads omp A.length ∨ t = 1) (hn : A.length ≤ 17179869184) (hB : B0.length = A.length)
    (hk : ∀ x ∈ A, key x ≤ maxKey) (hp : ∀ k, 8 ≤ k → maxKey ≠ 2 ^ k) :
    Safe key maxKey t A B0 ∧ (∃ out, Run key maxKey t A B0 out) ∧
      ∀ out, Run key maxKey t A B0 out → StablySorted key A out ∧ out.Perm A := by
  have hth : (t - 1) * (t - 1) ≤ A.length := by
    rcases ht with h | h
    · exact threads_ok h hn
    · subst h; exact Nat.zero_le _
  have ok : KeysOk key maxKey A := by
    by_cases hpow : ∃ k, maxKey = 2 ^ k
    · obtain ⟨k, rfl⟩ := hpow
      have hk8 : k < 8 := by
        by_contra hc
        exact hp k (by omega) rfl
      right
      refine ⟨Nat.two_pow_pos k, ?_, ?_⟩
      · show ilog2 (2 ^ k) - min (ilog2 (2 ^ k)) 8 = 0
        rw [ilog2_pow (by omega)]; omega
      · intro x hx
        have h1 : 2 ^ k ≤ 2 ^ 7 := Nat.pow_le_pow_right (by omega) (by omega)
        have h2 := hk x hx
        norm_num at h1
        omega
    · left
      intro x hx
      exact lt_of_le_of_lt (hk x hx) (lt_two_pow_ilog2 hmax (fun k e => hpow ⟨k, e⟩))
  refine ⟨run_safe hmax ht1 hth hB ok, run_exists ht1 hth hB ok, ?_⟩
  intro out h
  have := run_sorted ht1 hth hB ok h
  exact ⟨this, this.perm⟩

/-- C11 fails for every `max_key = 2^k`, `8 ≤ k ≤ 31`: as soon as one of at least two elements has key `max_key`, every
execution reads and writes outside of `queue_pointer` (undefined behaviour), for every number of threads. -/
theorem C11_contract_violated {T : Type} (key : T → Nat) (k t : Nat) (A B0 : List T) (hk8 : 8 ≤ k) (hk31 : k ≤ 31)
    (ht : 1 ≤ t) (hn : 2 ≤ A.length) (hx : ∃ x ∈ A, key x = 2 ^ k) :
    ¬ Safe key (2 ^ k) t A B0 ∧ ∀ out, ¬ Run key (2 ^ k) t A B0 out := by
  obtain ⟨x, hxA, hx⟩ := hx
  have hpos := Nat.two_pow_pos k
  have hnone : msdPhase key (cfg (2 ^ k)) t A = none := by
    refine msd_none ht hxA ?_
    have hs : (cfg (2 ^ k)).msbShift = k - 8 := by
      show ilog2 (2 ^ k) - min (ilog2 (2 ^ k)) 8 = k - 8
      rw [ilog2_pow hk31]; omega
    rw [hs, hx, Nat.shiftRight_eq_div_pow, Nat.pow_div (by omega) (by omega)]
    have : k - (k - 8) = 8 := by omega
    rw [this]
  constructor
  · rintro (h | h | ⟨_, _, wss, sp, h, _⟩)
    · omega
    · omega
    · rw [hnone] at h; cases h
  · intro out h
    unfold Run at h
    rw [if_neg (by omega)] at h
    obtain ⟨wss, sp, ws, B, h, _⟩ := h
    rw [hnone] at h; cases h

/-- C11, exactly: for a vector of at least two elements with keys up to `max_key`, one of them equal to `max_key`, the call is free of undefined behaviour
if and only if `max_key` is not a power of two from 256 on. -/
theorem C11_exact {T : Type} (key : T → Nat) (maxKey omp t : Nat) (A B0 : List T) (hmax : maxKey < 4294967296)
    (ht1 : 1 ≤ t) (ht : t ≤ maxThreads omp A.length ∨ t = 1) (hn2 : 2 ≤ A.length) (hn : A.length ≤ 17179869184) (hB : B0.length = A.length)
    (hk : ∀ x ∈ A, key x ≤ maxKey) (hx : ∃ x ∈ A, key x = maxKey) :
    Safe key maxKey t A B0 ↔ ∀ k, 8 ≤ k → maxKey ≠ 2 ^ k := by
  constructor
  · rintro hs k hk8 rfl
    have hk31 : k ≤ 31 := by
      by_contra hc
      have : 2 ^ 32 ≤ 2 ^ k := Nat.pow_le_pow_right (by norm_num) (by omega)
      norm_num at this; omega
    exact (C11_contract_violated key k t A B0 hk8 hk31 ht1 hn2 hx).1 hs
  · intro hp
    exact (C11_contract key maxKey omp t A B0 hmax ht1 ht hn hB hk hp).1

/-- the smallest such call: keys 0 and 256 with `max_key = 256` -/
example : ¬ Safe (fun x : Nat => x) 256 1 [0, 256] [0, 0] :=
  (C11_contract_violated (fun x : Nat => x) 8 1 [0, 256] [0, 0] (by norm_num) (by norm_num) (by norm_num) (by norm_num)
    ⟨256, by simp, rfl⟩).1

/-- and an allowed one: key equal to `max_key = 300` -/
example : Safe (fun x : Nat => x) 300 1 [300, 0] [0, 0] :=
  (C11_contract (fun x : Nat => x) 300 1 1 [300, 0] [0, 0] (by norm_num) (by norm_num) (Or.inr rfl)
    (by norm_num) rfl (by simp) (by
      intro k hk e
      rcases Nat.lt_or_ge k 9 with h | h
      · have : k = 8 := by omega
        subst this; norm_num at e
      · have : 2 ^ 9 ≤ 2 ^ k := Nat.pow_le_pow_right (by omega) h
        norm_num at this; omega)).1

end Girgs.Props
