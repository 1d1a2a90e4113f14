import Verif.Proofs.IntSortLSD
/-
`intsort` as a whole.
-/
namespace Girgs.IntSort
variable {T : Type}

theorem shiftCount_spec (fuel x : Nat) (h1 : 1 ≤ x) (h2 : x < 2 ^ (fuel + 1)) :
    2 ^ shiftCount fuel x ≤ x ∧ x < 2 ^ (shiftCount fuel x + 1) := by
  induction fuel generalizing x with
  | zero =>
    rw [shiftCount]
    rw [Nat.zero_add, Nat.pow_one] at h2
    simp
    omega
  | succ fuel ih =>
    rw [shiftCount]
    split
    · simp; omega
    · rename_i h
      obtain ⟨a, b⟩ := ih (x / 2) (by omega) (by rw [Nat.pow_succ] at h2; omega)
      rw [Nat.pow_succ] at b
      rw [Nat.pow_succ, Nat.pow_succ, Nat.pow_succ]
      omega

theorem le_two_pow_ilog2 {x : Nat} (h : x < 4294967296) : x ≤ 2 ^ ilog2 x ∧ ilog2 x ≤ 32 := by
  unfold ilog2
  split
  · rename_i h0; subst h0; exact ⟨Nat.zero_le _, by omega⟩
  · rename_i h0
    obtain ⟨a, b⟩ := shiftCount_spec 64 x (by omega) (lt_of_lt_of_le h (by norm_num))
    have hi : shiftCount 64 x < 32 := by
      by_contra hc
      have : 2 ^ 32 ≤ 2 ^ shiftCount 64 x := Nat.pow_le_pow_right (by omega) (by omega)
      norm_num at this
      omega
    simp only
    split
    · exact ⟨le_of_lt b, by omega⟩
    · exact ⟨by rw [Nat.add_zero]; omega, by omega⟩

theorem cfg_facts (maxKey : Nat) :
    (cfg maxKey).msbShift = (cfg maxKey).lsbWidth ∧ (cfg maxKey).msbWidth ≤ 8 ∧
    (cfg maxKey).maxBits = (cfg maxKey).msbWidth + (cfg maxKey).lsbWidth ∧ 1 ≤ (cfg maxKey).noIters ∧
    (cfg maxKey).lsbWidth ≤ (cfg maxKey).noIters * (cfg maxKey).adaptiveWidth ∧ (cfg maxKey).adaptiveWidth ≤ 8 ∧
    ((cfg maxKey).lsbWidth ≠ 0 → (cfg maxKey).msbWidth = 8) := by
  have hit : 1 ≤ (cfg maxKey).noIters := by
    show 1 ≤ idivCeil (max 1 _) 8
    unfold idivCeil
    omega
  refine ⟨rfl, Nat.min_le_right _ _, ?_, hit, ?_, ?_, ?_⟩
  · show ilog2 maxKey = min (ilog2 maxKey) 8 + (ilog2 maxKey - min (ilog2 maxKey) 8)
    omega
  · rw [Nat.mul_comm]
    exact idivCeil_mul_ge _ hit
  · show idivCeil (cfg maxKey).lsbWidth (cfg maxKey).noIters ≤ 8
    have h8 : (cfg maxKey).lsbWidth ≤ 8 * (cfg maxKey).noIters := by
      show (cfg maxKey).lsbWidth ≤ 8 * idivCeil (max 1 (cfg maxKey).lsbWidth) 8
      unfold idivCeil
      omega
    unfold idivCeil
    rw [← Nat.lt_succ_iff, Nat.div_lt_iff_lt_mul (by omega)]
    omega
  · show ilog2 maxKey - min (ilog2 maxKey) 8 ≠ 0 → min (ilog2 maxKey) 8 = 8
    omega

theorem cfg_shifts {maxKey : Nat} (h : maxKey < 4294967296) :
    (cfg maxKey).msbShift < 32 ∧ ∀ it < (cfg maxKey).noIters, it * (cfg maxKey).adaptiveWidth < 32 := by
  have hb := (le_two_pow_ilog2 h).2
  have hl : (cfg maxKey).lsbWidth ≤ 24 := by
    show ilog2 maxKey - min (ilog2 maxKey) 8 ≤ 24
    omega
  refine ⟨by show (cfg maxKey).lsbWidth < 32; omega, ?_⟩
  intro it hit
  have h3 : (cfg maxKey).noIters ≤ 3 := by
    show idivCeil (max 1 (cfg maxKey).lsbWidth) 8 ≤ 3
    unfold idivCeil
    omega
  have h8 := (cfg_facts maxKey).2.2.2.2.2.1
  have : it * (cfg maxKey).adaptiveWidth ≤ 2 * 8 := Nat.mul_le_mul (by omega) h8
  omega

/-- putting the slices together -/
theorem reassemble {N : Nat} {L : Nat → Nat} {Z : Nat → List T} {out : List T} (h0 : L 0 = 0)
    (hL : ∀ i < N, L (i + 1) = L i + (Z i).length) (hlen : out.length = L N) (hs : ∀ i < N, Sl out (L i) (Z i)) :
    out = (List.range N).flatMap Z := by
  have key : ∀ m, m ≤ N → out.take (L m) = (List.range m).flatMap Z := by
    intro m
    induction m with
    | zero => intro _; simp [h0]
    | succ m ih =>
      intro hm
      rw [List.range_succ, List.flatMap_append, ← ih (by omega), hL m (by omega), List.take_add]
      congr 1
      simp only [List.flatMap_cons, List.flatMap_nil, List.append_nil]
      apply List.ext_getElem?
      intro k
      by_cases hk : k < (Z m).length
      · rw [List.getElem?_take_of_lt hk, List.getElem?_drop]
        exact hs m (by omega) k hk
      · rw [List.getElem?_eq_none (by rw [List.length_take]; omega), List.getElem?_eq_none (by omega)]
  rw [← key N (le_refl _), ← hlen, List.take_length]

theorem key_order {key : T → Nat} {l M : Nat} (hM : l ≤ M) :
    (∀ x y, key x >>> l < key y >>> l ∨ (key x >>> l = key y >>> l ∧ key x % 2 ^ M ≤ key y % 2 ^ M) → key x ≤ key y) := by
  intro x y h
  obtain ⟨r, rfl⟩ : ∃ r, M = l + r := ⟨M - l, by omega⟩
  simp only [Nat.shiftRight_eq_div_pow, Nat.pow_add, Nat.mod_mul] at h
  have e1 := Nat.div_add_mod (key x) (2 ^ l)
  have e2 := Nat.div_add_mod (key y) (2 ^ l)
  have l1 := Nat.mod_lt (key x) (Nat.two_pow_pos l)
  have l2 := Nat.mod_lt (key y) (Nat.two_pow_pos l)
  rcases h with h | ⟨h, h'⟩
  · have := Nat.mul_le_mul_left (2 ^ l) (show key x / 2 ^ l + 1 ≤ key y / 2 ^ l from h)
    rw [Nat.mul_add, Nat.mul_one] at this
    omega
  · rw [h] at h' e1
    omega

/-- the precondition on the keys -/
def KeysOk (key : T → Nat) (maxKey : Nat) (A : List T) : Prop :=
  (∀ x ∈ A, key x < 2 ^ ilog2 maxKey) ∨ (1 ≤ maxKey ∧ (cfg maxKey).lsbWidth = 0 ∧ ∀ x ∈ A, key x < 256)

/-- the state of affairs at the start of the LSD phase -/
theorem lsd_start {key : T → Nat} {maxKey t : Nat} {A : List T} (hk : ∀ x ∈ A, key x < 2 ^ ilog2 maxKey) :
    let c := cfg maxKey
    let d : T → Nat := fun x => key x >>> c.msbShift
    let X : Nat → List T := fun i => A.filter (fun x => d x == i)
    let L : Nat → Nat := fun i => A.countP (fun y => decide (d y < i))
    let sp := tab 256 (fun q => A.countP (fun y => decide (d y < q))) ++ [A.length]
    (∀ x ∈ A, d x < 2 ^ c.msbWidth) ∧ (∀ x ∈ A, d x < 256) ∧ (∀ i ≤ 2 ^ c.msbWidth, sp[i]? = some (L i)) ∧
    (∀ i < 2 ^ c.msbWidth, L (i + 1) = L i + (X i).length) ∧ L (2 ^ c.msbWidth) = A.length ∧
    GInv key c (2 ^ c.msbWidth) L X A.length (lsdInit c sp A (bc d 256 A)) := by
  intro c d X L sp
  obtain ⟨f1, f2, f3, f4, f5, f6, f7⟩ := cfg_facts maxKey
  have hd : ∀ x ∈ A, d x < 2 ^ c.msbWidth := by
    intro x hx
    have h1 := hk x hx
    have h2 : ilog2 maxKey = c.msbWidth + c.lsbWidth := f3
    rw [h2, Nat.pow_add] at h1
    show key x >>> c.lsbWidth < _
    rw [Nat.shiftRight_eq_div_pow]
    exact Nat.div_lt_of_lt_mul (by rw [Nat.mul_comm]; exact h1)
  have hw : 2 ^ c.msbWidth ≤ 256 := by
    have : 2 ^ c.msbWidth ≤ 2 ^ 8 := Nat.pow_le_pow_right (by omega) f2
    exact this
  have hd2 : ∀ x ∈ A, d x < 256 := fun x hx => lt_of_lt_of_le (hd x hx) hw
  have hLlen : ∀ i, L i = (bc d i A).length := fun i => (bc_length_prefix d i A).symm
  have hLs : ∀ i, L (i + 1) = L i + (X i).length := by
    intro i
    rw [hLlen, hLlen, bc, bc, List.range_succ, List.flatMap_append, List.length_append]
    simp [X]
  have hsp : ∀ i ≤ 2 ^ c.msbWidth, sp[i]? = some (L i) := by
    intro i hi
    have hi : i ≤ 256 := le_trans hi hw
    show (tab 256 L ++ [A.length])[i]? = _
    rcases Nat.lt_or_ge i 256 with h | h
    · rw [List.getElem?_append_left (by simp [tab, h])]
      exact rd_tab h
    · have : i = 256 := by omega
      subst this
      rw [List.getElem?_append_right (by simp [tab]), hLlen, bc_length hd2]
      simp [tab]
  have hLN : L (2 ^ c.msbWidth) = A.length := by rw [hLlen, bc_length hd]
  refine ⟨hd, hd2, hsp, fun i _ => hLs i, hLN, ?_⟩
  constructor
  · rfl
  · exact bc_length hd2
  · simp [lsdInit]
  · intro i hi
    refine ⟨binit c (sp.getD (i + 1) 0 - sp.getD i 0), by simp [lsdInit, hi], ?_⟩
    have e : sp.getD (i + 1) 0 - sp.getD i 0 = (X i).length := by
      rw [List.getD_eq_getElem?_getD, List.getD_eq_getElem?_getD, hsp i (by omega), hsp (i + 1) (by omega), hLs]
      simp
    rw [e]
    unfold binit
    by_cases hX : (X i).length = 0
    · rw [if_pos hX]
      show Sl _ _ _
      intro k hk
      rw [Sn_length] at hk
      omega
    · rw [if_neg hX]
      show _ ∧ _ ∧ _
      refine ⟨Nat.zero_le _, ?_, ?_⟩
      · intro k hk
        show (bc d 256 A)[L i + k]? = _
        obtain ⟨post, e⟩ := bc_split d (lt_of_lt_of_le hi hw) A
        rw [e, hLlen, List.getElem?_append_right (by omega), Nat.add_sub_cancel_left, List.getElem?_append_left hk]
      · show List.replicate _ 0 = _
        rw [replicate_eq_tab]
        apply tab_congr
        intro q _
        show 0 = (List.take 0 _).countP _
        simp

theorem KeysOk.d_lt {key : T → Nat} {maxKey : Nat} {A : List T} (h : KeysOk key maxKey A) :
    ∀ x ∈ A, key x >>> (cfg maxKey).msbShift < 256 := by
  rcases h with h | ⟨_, h1, h2⟩
  · exact (lsd_start (t := 0) h).2.1
  · intro x hx
    have hs0 : (cfg maxKey).msbShift = 0 := h1
    rw [hs0]
    exact h2 x hx

theorem KeysOk.lsd {key : T → Nat} {maxKey : Nat} {A : List T} (h : KeysOk key maxKey A)
    (hl : (cfg maxKey).lsbWidth ≠ 0) : ∀ x ∈ A, key x < 2 ^ ilog2 maxKey := by
  rcases h with h | ⟨_, h1, _⟩
  · exact h
  · exact absurd h1 hl

theorem run_sorted {key : T → Nat} {maxKey t : Nat} {A B0 out : List T} (ht : 1 ≤ t)
    (hn : (t - 1) * (t - 1) ≤ A.length) (hB : B0.length = A.length) (hk' : KeysOk key maxKey A)
    (h : Run key maxKey t A B0 out) : StablySorted key A out := by
  unfold Run at h
  by_cases h0 : A.length < 2 ∨ maxKey < 1
  · rw [if_pos h0] at h
    subst h
    refine ⟨?_, fun k => rfl⟩
    rcases h0 with h0 | h0
    · match out, h0 with
      | [], _ => exact List.Pairwise.nil
      | [a], _ => exact List.pairwise_singleton _ _
    · have : maxKey = 0 := by omega
      subst this
      have hz : ∀ x ∈ out, key x = 0 := by
        intro x hx
        have hk : ∀ x ∈ out, key x < 2 ^ ilog2 0 := by
          rcases hk' with h | ⟨h, _⟩
          · exact h
          · omega
        have := hk x hx
        have e : ilog2 0 = 0 := rfl
        rw [e] at this
        omega
      exact List.Pairwise.imp_of_mem (R := fun _ _ => True) (fun {a b} ha hb _ => by rw [hz a ha, hz b hb])
        (List.pairwise_of_forall (fun _ _ => trivial))
  · rw [if_neg h0] at h
    obtain ⟨f1, f2, f3, f4, f5, f6, f7⟩ := cfg_facts maxKey
    have hd2 := hk'.d_lt
    obtain ⟨wss, sp, ws, B, h1, h2, h3, h4⟩ := h
    obtain ⟨wss', e1, e2⟩ := msd_spec (c := cfg maxKey) ht hn hd2
    rw [e1] at h1
    simp only [Option.some.injEq, Prod.mk.injEq] at h1
    obtain ⟨rfl, rfl⟩ := h1
    rw [e2 ws h2 B0 hB] at h3
    simp only [Option.some.injEq] at h3
    subst h3
    by_cases hl : (cfg maxKey).lsbWidth = 0
    · rw [if_pos hl] at h4
      subst h4
      have hs0 : (cfg maxKey).msbShift = 0 := by rw [f1, hl]
      have e : (fun x => key x >>> (cfg maxKey).msbShift) = key := by
        rw [hs0]; rfl
      rw [hs0] at hd2
      rw [e]
      refine stablySorted_concat (f := fun _ => 0) hd2 ?_ ?_ ?_
      · intro x y h; rcases h with h | h <;> omega
      · intro x y h; exact ⟨h, rfl⟩
      · intro q hq
        exact ⟨List.pairwise_of_forall (fun _ _ => le_refl _), fun k => rfl⟩
    · rw [if_neg hl] at h4
      obtain ⟨hd, _, hsp, hLs, hLN, hg⟩ := lsd_start (t := t) (hk'.lsd hl)
      obtain ⟨sched, g, h5, h6, h7⟩ := h4
      -- steps of numbers outside the range are undefined, so the schedule is in range
      have hin : ∀ (sched : List Nat) (g0 g : Global T), g0.priv.length = 2 ^ (cfg maxKey).msbWidth →
          runSched key (cfg maxKey) (tab 256 (fun q => A.countP (fun y => decide (key y >>> (cfg maxKey).msbShift < q))) ++ [A.length]) g0 sched = some g →
          ∀ i ∈ sched, i < 2 ^ (cfg maxKey).msbWidth := by
        intro sched
        induction sched with
        | nil => intro _ _ _ _ i hi; simp at hi
        | cons a sched ih =>
          intro g0 g hg0 h
          unfold runSched at h
          rw [List.foldlM_cons] at h
          cases hst : gstep key (cfg maxKey) (tab 256 (fun q => A.countP (fun y => decide (key y >>> (cfg maxKey).msbShift < q))) ++ [A.length]) g0 a with
          | none => rw [hst] at h; cases h
          | some g1 =>
            rw [obind hst] at h
            have ha : a < 2 ^ (cfg maxKey).msbWidth ∧ g1.priv.length = g0.priv.length := by
              unfold gstep at hst
              cases hp : rd g0.priv a with
              | none => rw [hp] at hst; cases hst
              | some s =>
                rw [obind hp] at hst
                have ha : a < 2 ^ (cfg maxKey).msbWidth := by
                  by_contra hc
                  rw [rd, List.getElem?_eq_none (by omega)] at hp
                  cases hp
                refine ⟨ha, ?_⟩
                rw [obind (rd_eq (hsp a (by omega))), obind (rd_eq (hsp (a + 1) (by omega)))] at hst
                cases hb : bstep key (cfg maxKey) (A.countP (fun y => decide (key y >>> (cfg maxKey).msbShift < a)))
                    (A.countP (fun y => decide (key y >>> (cfg maxKey).msbShift < a + 1)) - A.countP (fun y => decide (key y >>> (cfg maxKey).msbShift < a))) s g0.A g0.B with
                | none => rw [hb] at hst; cases hst
                | some r =>
                  rw [obind hb] at hst
                  simp only [Option.some.injEq] at hst
                  rw [← hst]; simp
            intro i hi
            rcases List.mem_cons.1 hi with rfl | hi
            · exact ha.1
            · exact ih g1 g (ha.2.trans hg0) h i hi
      have hrange := hin sched _ g hg.lenP h5
      obtain ⟨g', e5, hg', _⟩ := runSched_spec f4 hsp hLs (le_of_eq hLN) sched hrange _ hg
      rw [e5] at h5
      simp only [Option.some.injEq] at h5
      subst h5
      have hout : out = (List.range (2 ^ (cfg maxKey).msbWidth)).flatMap (fun i =>
          Sn key (cfg maxKey) (A.filter (fun x => key x >>> (cfg maxKey).msbShift == i)) (cfg maxKey).noIters) := by
        have hsrc : out = src (cfg maxKey).noIters g'.A g'.B := h7
        refine reassemble (L := fun i => A.countP (fun y => decide (key y >>> (cfg maxKey).msbShift < i))) ?_ ?_ ?_ ?_
        · simp
        · intro i hi; rw [Sn_length]; exact hLs i hi
        · refine Eq.trans ?_ hLN.symm
          rw [hsrc]
          unfold src; split
          · exact hg'.lenB
          · exact hg'.lenA
        · intro i hi
          obtain ⟨s, hs, hinv⟩ := hg'.inv i hi
          have hdone := h6 s (List.mem_of_getElem? hs)
          unfold LInv at hinv
          rw [hdone] at hinv
          rw [hsrc]
          exact hinv
      rw [hout]
      refine stablySorted_concat (d := fun x => key x >>> (cfg maxKey).msbShift)
        (f := fun x => key x % 2 ^ ((cfg maxKey).noIters * (cfg maxKey).adaptiveWidth)) hd (key_order f5) ?_ ?_
      · intro x y hxy
        show key x >>> _ = key y >>> _ ∧ key x % _ = key y % _
        rw [hxy]; exact ⟨rfl, rfl⟩
      · intro q _
        exact Sn_sorted key (cfg maxKey) _ _

theorem run_safe {key : T → Nat} {maxKey t : Nat} {A B0 : List T} (hm : maxKey < 4294967296) (ht : 1 ≤ t)
    (hn : (t - 1) * (t - 1) ≤ A.length) (hB : B0.length = A.length) (hk' : KeysOk key maxKey A) :
    Safe key maxKey t A B0 := by
  by_cases h0 : A.length < 2
  · exact Or.inl h0
  by_cases h1 : maxKey < 1
  · exact Or.inr (Or.inl h1)
  right; right
  obtain ⟨f1, f2, f3, f4, f5, f6, f7⟩ := cfg_facts maxKey
  refine ⟨?_, cfg_shifts hm, ?_⟩
  · have : 2 ^ (cfg maxKey).adaptiveWidth ≤ 2 ^ 8 := Nat.pow_le_pow_right (by omega) f6
    exact this
  · have hd2 := hk'.d_lt
    obtain ⟨wss, e1, e2⟩ := msd_spec (c := cfg maxKey) ht hn hd2
    refine ⟨wss, _, e1, ?_⟩
    intro ws hws
    refine ⟨_, e2 ws hws B0 hB, ?_⟩
    intro sched hs
    by_cases hl : (cfg maxKey).lsbWidth = 0
    · exact Or.inl hl
    right
    obtain ⟨hd, _, hsp, hLs, hLN, hg⟩ := lsd_start (t := t) (hk'.lsd hl)
    obtain ⟨g', e5, _, _⟩ := runSched_spec f4 hsp hLs (le_of_eq hLN) sched hs _ hg
    exact ⟨g', e5⟩

theorem run_exists {key : T → Nat} {maxKey t : Nat} {A B0 : List T} (ht : 1 ≤ t)
    (hn : (t - 1) * (t - 1) ≤ A.length) (hB : B0.length = A.length) (hk' : KeysOk key maxKey A) :
    ∃ out, Run key maxKey t A B0 out := by
  unfold Run
  by_cases h0 : A.length < 2 ∨ maxKey < 1
  · simp only [if_pos h0]; exact ⟨A, rfl⟩
  · simp only [if_neg h0]
    obtain ⟨f1, f2, f3, f4, f5, f6, f7⟩ := cfg_facts maxKey
    have hd2 := hk'.d_lt
    obtain ⟨wss, e1, e2⟩ := msd_spec (c := cfg maxKey) ht hn hd2
    by_cases hl : (cfg maxKey).lsbWidth = 0
    · simp only [if_pos hl]
      exact ⟨_, wss, _, _, _, e1, Interleaving.sequential wss, e2 _ (Interleaving.sequential wss) B0 hB, rfl⟩
    · simp only [if_neg hl]
      obtain ⟨hd, _, hsp, hLs, hLN, hg⟩ := lsd_start (t := t) (hk'.lsd hl)
      -- each bucket often enough
      let K := ((cfg maxKey).noIters + 1) * (A.length + 1) + 1
      let sched := (List.range (2 ^ (cfg maxKey).msbWidth)).flatMap (fun i => List.replicate K i)
      have hs : ∀ i ∈ sched, i < 2 ^ (cfg maxKey).msbWidth := by
        intro i hi
        obtain ⟨j, hj, hij⟩ := List.mem_flatMap.1 hi
        rw [(List.mem_replicate.1 hij).2]
        exact List.mem_range.1 hj
      have hc : ∀ i < 2 ^ (cfg maxKey).msbWidth, K ≤ sched.count i := by
        intro i hi
        obtain ⟨l1, l2, e⟩ := List.append_of_mem (List.mem_range.2 hi)
        have e' : sched = l1.flatMap (fun i => List.replicate K i) ++ (List.replicate K i ++ l2.flatMap (fun i => List.replicate K i)) := by
          show (List.range (2 ^ (cfg maxKey).msbWidth)).flatMap _ = _
          rw [e, List.flatMap_append, List.flatMap_cons]
        rw [e', List.count_append, List.count_append, List.count_replicate_self]
        omega
      obtain ⟨g', e5, hg', hprog⟩ := runSched_spec f4 hsp hLs (le_of_eq hLN) sched hs _ hg
      refine ⟨_, wss, _, _, _, e1, Interleaving.sequential wss, e2 _ (Interleaving.sequential wss) B0 hB, sched, g', e5, ?_, rfl⟩
      intro s hs'
      obtain ⟨i, hi⟩ := List.mem_iff_getElem?.1 hs'
      have hiN : i < 2 ^ (cfg maxKey).msbWidth := by
        rw [← hg'.lenP]
        by_contra hc
        rw [List.getElem?_eq_none (by omega)] at hi
        cases hi
      obtain ⟨s0, hs0, _⟩ := hg.inv i hiN
      obtain ⟨s', hs1, hp, _⟩ := hprog i s0 hs0
      rw [hi] at hs1
      simp only [Option.some.injEq] at hs1
      subst hs1
      rcases hp with h | h
      · exact h
      · exfalso
        have h1 := hc i hiN
        have h2 : mu (cfg maxKey) (A.filter (fun x => key x >>> (cfg maxKey).msbShift == i)).length s0 ≤
            ((cfg maxKey).noIters + 1) * (A.length + 1) := by
          have hle : (A.filter (fun x => key x >>> (cfg maxKey).msbShift == i)).length ≤ A.length := List.length_filter_le _ _
          unfold mu
          split
          · exact le_trans (Nat.sub_le _ _) (Nat.mul_le_mul_left _ (by omega))
          · exact le_trans (Nat.sub_le _ _) (Nat.mul_le_mul (by omega) (by omega))
          · exact Nat.zero_le _
        have h3 : K = ((cfg maxKey).noIters + 1) * (A.length + 1) + 1 := rfl
        simp only at h
        omega

end Girgs.IntSort

namespace Girgs.IntSort
variable {T : Type}

/-- a digit beyond the queues is undefined behaviour in the scatter loop -/
theorem scatter_none {key : T → Nat} {c : Cfg} (xs : List T) (ptr : List Nat) (hp : ptr.length ≤ 256) {x : T}
    (hx : x ∈ xs) (hk : 256 ≤ key x >>> c.msbShift) : scatterWrites key c xs ptr = none := by
  induction xs generalizing ptr with
  | nil => simp at hx
  | cons y ys ih =>
    rw [scatterWrites]
    cases h1 : rd ptr (key y >>> c.msbShift) with
    | none => rfl
    | some i =>
      rw [obind rfl]
      cases h2 : bump ptr (key y >>> c.msbShift) with
      | none => rfl
      | some ptr' =>
        rw [obind rfl]
        rcases List.mem_cons.1 hx with rfl | hx
        · rw [rd, List.getElem?_eq_none (by omega)] at h1
          cases h1
        · have hl : ptr'.length = ptr.length := by
            unfold bump at h2
            rw [obind h1] at h2
            unfold wr at h2
            split at h2
            · simp only [Option.some.injEq] at h2
              rw [← h2]; simp
            · cases h2
          rw [ih ptr' (by omega) hx]
          rfl

theorem queuePointers_length {counters : List (List Nat)} {tid : Nat} {p : List Nat}
    (h : queuePointers counters tid = some p) : p.length = 256 := by
  unfold queuePointers at h
  have key : ∀ (l : List Nat) (s0 r : (Nat × Nat) × List Nat), l.foldlM (fun (s : (Nat × Nat) × List Nat) qid => do
    let it ← queueStep counters tid qid s.1.1 s.1.2
    some (it, s.2 ++ [it.2])) s0 = some r → r.2.length = s0.2.length + l.length := by
    intro l
    induction l with
    | nil => intro s0 r h; cases h; rfl
    | cons a l ih =>
      intro s0 r h
      rw [List.foldlM_cons] at h
      cases hq : queueStep counters tid a s0.1.1 s0.1.2 with
      | none => rw [hq] at h; cases h
      | some v =>
        rw [hq, obind rfl, obind rfl] at h
        rw [ih _ r h]; simp; omega
  cases hf : (List.range 256).foldlM (fun (s : (Nat × Nat) × List Nat) qid => do
    let it ← queueStep counters tid qid s.1.1 s.1.2
    some (it, s.2 ++ [it.2])) ((0, 0), []) with
  | none => rw [hf] at h; cases h
  | some r =>
    rw [hf] at h
    have := key _ _ _ hf
    rw [obind rfl] at h
    simp only [Option.some.injEq] at h
    rw [← h, this]; simp

theorem mapM_none {α β : Type} {f : α → Option β} {l : List α} {a : α} (ha : a ∈ l) (h : f a = none) : l.mapM f = none := by
  induction l with
  | nil => simp at ha
  | cons b l ih =>
    rw [List.mapM_cons]
    cases hb : f b with
    | none => rfl
    | some v =>
      rcases List.mem_cons.1 ha with rfl | ha
      · rw [h] at hb; cases hb
      · rw [obind rfl, ih ha]; rfl

theorem msd_none {key : T → Nat} {c : Cfg} {t : Nat} {A : List T} (ht : 1 ≤ t) {x : T} (hx : x ∈ A)
    (hk : 256 ≤ key x >>> c.msbShift) : msdPhase key c t A = none := by
  unfold msdPhase
  cases h1 : (List.range t).mapM (chunk A t) with
  | none => rfl
  | some chunks =>
    rw [obind rfl]
    cases h2 : chunks.mapM (countChunk key c) with
    | none => rfl
    | some counters =>
      rw [obind rfl]
      have hch : chunks = (List.range t).map (chunkL A t) := by
        have : ∀ tid ∈ List.range t, chunk A t tid = some (chunkL A t tid) := by
          intro tid htid
          cases hc : chunk A t tid with
          | none => rw [mapM_none htid hc] at h1; cases h1
          | some v =>
            unfold chunk at hc
            simp only at hc
            split at hc
            · simp only [Option.some.injEq] at hc
              rw [← hc]; rfl
            · cases hc
        rw [mapM_some _ this] at h1
        simp only [Option.some.injEq] at h1
        exact h1.symm
      have hx' := hx
      rw [← chunks_flatten A ht] at hx'
      obtain ⟨l, hl, hxl⟩ := List.mem_flatten.1 hx'
      obtain ⟨tid, htid, rfl⟩ := List.mem_map.1 hl
      rw [mapM_none htid]
      · rfl
      · cases hq : queuePointers counters tid with
        | none => rfl
        | some ptr =>
          rw [obind rfl, hch, obind (rd_map_range (List.mem_range.1 htid))]
          exact scatter_none _ _ (le_of_eq (queuePointers_length hq)) hxl hk

theorem ilog2_pow {k : Nat} (hk : k ≤ 31) : ilog2 (2 ^ k) = k := by
  unfold ilog2
  have hpos := Nat.two_pow_pos k
  have h31 : 2 ^ k ≤ 2 ^ 31 := Nat.pow_le_pow_right (by omega) hk
  rw [if_neg (by omega)]
  obtain ⟨a, b⟩ := shiftCount_spec 64 (2 ^ k) hpos (lt_of_le_of_lt h31 (by norm_num))
  have h1 : shiftCount 64 (2 ^ k) ≤ k := (Nat.pow_le_pow_iff_right (by omega)).1 a
  have h2 : k < shiftCount 64 (2 ^ k) + 1 := (Nat.pow_lt_pow_iff_right (by omega)).1 b
  have h3 : shiftCount 64 (2 ^ k) = k := by omega
  simp only [h3]
  rw [if_neg (by omega)]
  rfl

theorem lt_two_pow_ilog2 {x : Nat} (h : x < 4294967296) (hne : ∀ k, x ≠ 2 ^ k) : x < 2 ^ ilog2 x := by
  have h1 := (le_two_pow_ilog2 h).1
  have := hne (ilog2 x)
  omega

end Girgs.IntSort
