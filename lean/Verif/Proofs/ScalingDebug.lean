import Verif.Proofs.ScalingReturns
/-
Debug builds of the weight scaling: when the assertion of `LazySorter` fails.
-/
namespace Girgs.Scaling
open CFloat
open XR (fin)

section search
variable {S : Type} {fd fr : XR → S → Option (XR × S)} {Inv : S → Prop} {Val : ℝ → ℝ → Prop} {des : ℝ} {Q : ℝ → Prop}

/-- only points with `Q` are evaluated -/
def Below (Q : ℝ → Prop) : Outcome XR S → Prop
  | .running s => ∃ u, s.upper = fin u ∧ Q u
  | _ => True

theorem enterBisect_below {s : Search XR S} {u : ℝ} (h : s.upper = fin u) (hu : Q u) : Below Q (enterBisect fr s) := by
  unfold enterBisect
  split
  · trivial
  · exact ⟨u, h, hu⟩

theorem step_below (hQ : ∀ x u, 0 < x → x ≤ u → Q u → Q x) (hf : Evaluates fr Inv Val) (hgrow : ∀ u v, 0 < u → Val u v → v < des → Q (u * 2)) {s : Search XR S}
    (hs : SInv Inv Val des (.running s)) (hb : Below Q (.running s)) : Below Q (step fr (fin des) accuracy s) := by
  obtain ⟨ph, lo, up, st⟩ := s
  obtain ⟨hi, l, u, ⟨h1, h2, h3, h4⟩, hp⟩ := hs
  obtain ⟨u', h2', hu⟩ := hb
  simp only at h1 h2 h2' hi
  subst h1 h2
  cases h2'
  cases ph with
  | grow =>
    obtain ⟨v, st', e, hi', hv⟩ := hf.eval st hi u (by linarith)
    simp only [step, e]
    by_cases hlt : v < des
    · rw [if_pos (by simpa [XR.lt_fin] using hlt)]
      refine ⟨u * 2, ?_, hgrow u v (by linarith) hv hlt⟩
      show fin u *. fin ((2 : ℚ) : ℝ) = _
      rw [XR.mul_fin]; norm_num
    · rw [if_neg (by simpa [XR.lt_fin] using hlt)]
      exact ⟨u, rfl, hu⟩
  | shrink =>
    obtain ⟨v, st', e, hi', hv⟩ := hf.eval st hi l h3
    simp only [step, e]
    split
    · exact ⟨l, rfl, hQ l u h3 h4.le hu⟩
    · exact enterBisect_below rfl hu
  | bisect mid =>
    have ha0 : At (S := S) ⟨.bisect mid, fin l, fin u, st⟩ l u := ⟨rfl, rfl, h3, h4⟩
    simp only [step, ha0.midpoint]
    split
    · split
      · exact enterBisect_below rfl hu
      · exact enterBisect_below rfl (u := (u + l) / 2) (hQ _ u (by linarith) (by linarith) hu)
    · trivial

theorem enterBisect_agree (hQ : ∀ x u, 0 < x → x ≤ u → Q u → Q x) (hag : ∀ st, Inv st → ∀ x, 0 < x → Q x → fd (fin x) st = fr (fin x) st) {s : Search XR S} {l u : ℝ}
    (hi : Inv s.st) (ha : At s l u) (hu : Q u) : enterBisect fd s = enterBisect fr s := by
  unfold enterBisect
  obtain ⟨_, _, h3, h4⟩ := id ha
  rw [ha.midpoint, hag _ hi _ (by linarith) (hQ _ u (by linarith) (by linarith) hu)]

theorem step_agree (hQ : ∀ x u, 0 < x → x ≤ u → Q u → Q x) (hf : Evaluates fr Inv Val) (hag : ∀ st, Inv st → ∀ x, 0 < x → Q x → fd (fin x) st = fr (fin x) st)
    {s : Search XR S} (hs : SInv Inv Val des (.running s)) (hb : Below Q (.running s)) :
    step fd (fin des) accuracy s = step fr (fin des) accuracy s := by
  obtain ⟨ph, lo, up, st⟩ := s
  obtain ⟨hi, l, u, ⟨h1, h2, h3, h4⟩, hp⟩ := hs
  obtain ⟨u', h2', hu⟩ := hb
  simp only at h1 h2 h2' hi
  subst h1 h2
  cases h2'
  cases ph with
  | grow =>
    simp only [step]
    rw [hag st hi u (by linarith) hu]
  | shrink =>
    simp only [step]
    rw [hag st hi l h3 (hQ l u h3 h4.le hu)]
    obtain ⟨v, st', e, hi', hv⟩ := hf.eval st hi l h3
    rw [e]
    simp only
    split
    · rfl
    · exact enterBisect_agree hQ hag (l := l) (u := u) hi' ⟨rfl, rfl, h3, h4⟩ hu
  | bisect mid =>
    have ha0 : At (S := S) ⟨.bisect mid, fin l, fin u, st⟩ l u := ⟨rfl, rfl, h3, h4⟩
    simp only [step, ha0.midpoint]
    split
    · split
      · exact enterBisect_agree hQ hag (l := (u + l) / 2) (u := u) hi ⟨rfl, rfl, by linarith, by linarith⟩ hu
      · exact enterBisect_agree hQ hag (l := l) (u := (u + l) / 2) hi ⟨rfl, rfl, by linarith, by linarith⟩ (hQ _ u (by linarith) (by linarith) hu)
    · rfl

/-- two functions that agree where `Q` holds are searched alike -/
theorem run_agree (hQ : ∀ x u, 0 < x → x ≤ u → Q u → Q x) (hf : Evaluates fr Inv Val) (hag : ∀ st, Inv st → ∀ x, 0 < x → Q x → fd (fin x) st = fr (fin x) st)
    (hU : Q 2) (hgrow : ∀ u v, 0 < u → Val u v → v < des → Q (u * 2)) {st : S} (hst : Inv st) (k : ℕ) :
    run fd (fin des) accuracy k (start st) = run fr (fin des) accuracy k (start st) := by
  have key : ∀ k (o : Outcome XR S), SInv Inv Val des o → Below Q o →
      run fd (fin des) accuracy k o = run fr (fin des) accuracy k o := by
    intro k
    induction k with
    | zero => intros; rfl
    | succ k ih =>
      intro o hs hb
      cases o with
      | running s =>
        show run fd _ _ k (step fd (fin des) accuracy s) = run fr _ _ k (step fr (fin des) accuracy s)
        rw [step_agree hQ hf hag hs hb]
        exact ih _ (step_sinv hf s hs) (step_below hQ hf hgrow hs hb)
      | returned c st => rfl
      | undefined => rfl
  refine key k _ (start_sinv hst) ⟨2, ?_, hU⟩
  show fin ((2 : ℚ) : ℝ) = _; norm_num

/-- if the values at the powers of two stay below the target until the function fails, the search fails -/
theorem grow_fails {InvS : S → Prop} (hmono : ∀ c s r, fd c s = some r → fr c s = some r) (hf : Evaluates fr Inv Val) {K : ℕ}
    (hfull : ∀ st, Inv st → ∀ v st', fr (fin (2 ^ (K + 1))) st = some (v, st') → InvS st')
    (hfail : ∀ st, Inv st → InvS st → fd (fin (2 ^ (K + 2))) st = none)
    (hlow : ∀ k ≤ K, ∀ v, Val (2 ^ (k + 1)) v → v < des) {st : S} (hst : Inv st) :
    run fd (fin des) accuracy (K + 2) (start st) = .undefined := by
  have hgrowStep : ∀ k ≤ K, ∀ st, Inv st →
      run fd (fin des) accuracy 1 (.running ⟨.grow, fin (2 ^ k), fin (2 ^ (k + 1)), st⟩) = .undefined ∨
      ∃ st', Inv st' ∧ (k = K → InvS st') ∧
        run fd (fin des) accuracy 1 (.running ⟨.grow, fin (2 ^ k), fin (2 ^ (k + 1)), st⟩) =
          .running ⟨.grow, fin (2 ^ (k + 1)), fin (2 ^ (k + 2)), st'⟩ := by
    intro k hk st hi
    simp only [run, step]
    obtain ⟨v, st', e, hi', hv⟩ := hf.eval st hi (2 ^ (k + 1)) (by positivity)
    cases h : fd (fin (2 ^ (k + 1))) st with
    | none => exact Or.inl rfl
    | some r =>
      right
      have := hmono _ _ _ h
      rw [e] at this
      cases this
      refine ⟨st', hi', ?_, ?_⟩
      · rintro rfl
        exact hfull st hi _ _ e
      · simp only
        rw [if_pos (by simpa [XR.lt_fin] using hlow k hk v hv)]
        congr 2
  have hund : ∀ m, run fd (fin des) accuracy m (.undefined : Outcome XR S) = .undefined := by
    intro m; cases m <;> rfl
  have key : ∀ k ≤ K, run fd (fin des) accuracy (k + 1) (start st) = .undefined ∨
      ∃ st', Inv st' ∧ (k = K → InvS st') ∧ run fd (fin des) accuracy (k + 1) (start st) =
        .running ⟨.grow, fin (2 ^ (k + 1)), fin (2 ^ (k + 2)), st'⟩ := by
    intro k
    induction k with
    | zero =>
      intro hk
      have hs : (start st : Outcome XR S) = .running ⟨.grow, fin (2 ^ 0), fin (2 ^ (0 + 1)), st⟩ := by
        show Outcome.running ⟨.grow, fin ((1 : ℚ) : ℝ), fin ((2 : ℚ) : ℝ), st⟩ = _
        norm_num
      rw [hs]
      exact hgrowStep 0 hk st hst
    | succ k ih =>
      intro hk
      rw [run_running_of_succ]
      rcases ih (by omega) with h | ⟨st', hi', -, h⟩
      · rw [h]; exact Or.inl (hund 1)
      · rw [h]
        exact hgrowStep (k + 1) hk st' hi'
  rw [show K + 2 = (K + 1) + 1 by omega, run_running_of_succ]
  rcases key K le_rfl with h | ⟨st', hi', hS, h⟩
  · rw [h]; exact hund 1
  · rw [h]
    simp only [run, step]
    rw [hfail st' hi' (hS rfl)]

end search

/-! ### the lazily sorted weights -/

/-- the bound of a completely sorted vector is the smallest normal number, and it is never smaller -/
structure SorterLow (w : List ℝ) (s : LazySorter XR) : Prop where
  ok : SorterOk w s
  low : ∃ l : ℝ, s.lower = fin l ∧ minR ≤ l
  full : s.sortedEnd = s.vec.length → s.lower = dblMin

theorem minR_le_maxR : minR ≤ maxR := by
  unfold minR maxR
  have h1 : ((1 / ((2 ^ 1022 : Nat) : ℚ) : ℚ)) ≤ 1 := by
    rw [div_le_one (by exact_mod_cast Nat.pow_pos (by norm_num : 0 < 2))]
    exact_mod_cast Nat.one_le_two_pow
  have h2 : (1 : ℚ) ≤ (((2 ^ 53 - 1) * 2 ^ 971 : Nat) : ℚ) := by
    have : 1 ≤ (2 ^ 53 - 1) * 2 ^ 971 := Nat.one_le_iff_ne_zero.2 (Nat.mul_ne_zero (by norm_num) (by positivity))
    exact_mod_cast this
  exact_mod_cast h1.trans h2

theorem SorterLow.new {w : List ℝ} (h : Normal w) (hne : w ≠ []) : SorterLow w (LazySorter.new (w.map fin)) where
  ok := SorterOk.new h
  low := ⟨maxR, dblMax_eq, minR_le_maxR⟩
  full e := by
    have : 0 = (w.map fin).length := e
    rw [List.length_map] at this
    exact absurd (List.length_eq_zero_iff.1 this.symm) hne

theorem SorterLow.query {w : List ℝ} (h : Normal w) {alg : StdAlg XR} {s s' : LazySorter XR} {t : ℝ} {p : Nat}
    (hs : SorterLow w s) (e : s.sortDownto alg true (fin t) = some (s', p)) :
    SorterLow w s' ∧ (t < minR → s'.sortedEnd = s'.vec.length) := by
  obtain ⟨hok, -, -, -, -⟩ := hs.ok.query h e
  obtain ⟨l, hl, hml⟩ := hs.low
  have hmem : ∀ x ∈ s.vec.drop s.sortedEnd, ∃ y, x = fin y ∧ minR ≤ y := by
    intro x hx
    have := hs.ok.perm.mem_iff.1 (List.mem_of_mem_drop hx)
    obtain ⟨y, hy, rfl⟩ := List.mem_map.1 this
    exact ⟨y, rfl, (h y hy).1⟩
  unfold LazySorter.sortDownto at e
  by_cases hlt : t < l
  · rw [if_pos (by rw [hl]; simpa [XR.lt_fin] using hlt), if_neg (by simp)] at e
    simp only at e
    obtain ⟨A, B, hAB⟩ : ∃ A B, alg.partition (fun x => ge x (fin t)) (s.vec.drop s.sortedEnd) = (A, B) := ⟨_, _, rfl⟩
    have hpp := alg.partition_perm (fun x => ge x (fin t)) (s.vec.drop s.sortedEnd)
    have hpr := alg.partition_right (fun x => ge x (fin t)) (s.vec.drop s.sortedEnd)
    rw [hAB] at e hpp hpr
    simp only at e hpp hpr
    have hle := hs.ok.se_le
    have hlen : A.length + B.length = s.vec.length - s.sortedEnd := by
      have := hpp.length_eq
      rw [List.length_append, List.length_drop] at this
      exact this
    have hB : t < minR → B = [] := by
      intro ht
      rw [List.eq_nil_iff_forall_not_mem]
      intro x hx
      obtain ⟨y, rfl, hy⟩ := hmem x (hpp.mem_iff.1 (List.mem_append_right _ hx))
      have h1 := hpr _ hx
      rw [(ge_fin y t).2 (by linarith)] at h1
      cases h1
    split at e
    · rename_i hA
      cases e
      have hlv : (s.vec.take s.sortedEnd ++ (A ++ B)).length = s.vec.length := by
        rw [List.length_append, List.length_append, List.length_take]; omega
      refine ⟨⟨hok, ⟨l, hl, hml⟩, fun e => hs.full ?_⟩, fun ht => ?_⟩
      · simp only at e; rw [hlv] at e; exact e
      · show s.sortedEnd = (s.vec.take s.sortedEnd ++ (A ++ B)).length
        rw [hlv]
        have := hB ht
        rw [this, hA] at hlen
        simp at hlen
        omega
    · rename_i hA
      rw [if_neg (by simp)] at e
      cases e
      have hlv : (s.vec.take s.sortedEnd ++ (alg.sort A ++ B)).length = s.vec.length := by
        rw [List.length_append, List.length_append, List.length_take, (alg.sort_perm A).length_eq]; omega
      refine ⟨⟨hok, ?_, fun e => ?_⟩, fun ht => ?_⟩
      · show ∃ l, (if s.sortedEnd + A.length = (s.vec.take s.sortedEnd ++ (alg.sort A ++ B)).length then (dblMin : XR) else fin t) = fin l ∧ _
        split
        · exact ⟨minR, dblMin_eq, le_rfl⟩
        · rename_i hne
          refine ⟨t, rfl, ?_⟩
          by_contra hc
          have := hB (not_le.1 hc)
          rw [hlv] at hne
          rw [this] at hlen
          simp at hlen
          omega
      · show (if s.sortedEnd + A.length = (s.vec.take s.sortedEnd ++ (alg.sort A ++ B)).length then (dblMin : XR) else fin t) = _
        rw [if_pos e]
      · show s.sortedEnd + A.length = (s.vec.take s.sortedEnd ++ (alg.sort A ++ B)).length
        rw [hlv]
        have := hB ht
        rw [this] at hlen
        simp at hlen
        omega
  · rw [if_neg (by rw [hl]; simpa [XR.lt_fin] using hlt)] at e
    cases e
    refine ⟨hs, fun ht => ?_⟩
    linarith

/-- the assertion holds for thresholds that are not subnormal -/
theorem SorterLow.debug {w : List ℝ} {alg : StdAlg XR} {s : LazySorter XR} {t : ℝ} (hs : SorterLow w s) (ht : minR ≤ t) :
    s.sortDownto alg false (fin t) = s.sortDownto alg true (fin t) := by
  obtain ⟨r, hr⟩ := LInv.debug (alg := alg) (t := fin t) hs.ok (by
    intro e
    rw [hs.full e, dblMin_eq]
    simpa [XR.lt_fin] using ht)
  rw [hr, sortDownto_release hr]

/-- the assertion fails for subnormal thresholds if everything is sorted -/
theorem SorterLow.fails {w : List ℝ} {alg : StdAlg XR} {s : LazySorter XR} {t : ℝ} (hs : SorterLow w s) (ht : t < minR)
    (hfull : s.sortedEnd = s.vec.length) : s.sortDownto alg false (fin t) = none := by
  unfold LazySorter.sortDownto
  rw [if_pos (by rw [hs.full hfull, dblMin_eq]; simpa [XR.lt_fin] using ht), if_pos ⟨rfl, hfull⟩]

/-! ### the two searched functions -/

theorem thresholdFn_query {w : List ℝ} (hw : Normal w) (hne : w ≠ []) {part : List (List Nat)}
    (hp : part.flatten.Perm (List.range w.length)) (alg : StdAlg XR) (ndebug : Bool) (d : ℕ) (s : LazySorter XR) {c : ℝ} (hc : 0 < c) :
    ∃ G : LazySorter XR × ℕ → Option (XR × LazySorter XR), (∀ q r, G q = some r → r.2 = q.1) ∧
      thresholdFn alg ndebug part (w.map fin) d (fin c) s =
        (s.sortDownto alg ndebug (fin (w.sum / (2 * c) ^ (d : ℝ) / bw w 0))).bind G := by
  have hw' := hw.pos
  have hlen : 0 < w.length := List.length_pos_iff.2 hne
  have hb0 : 0 < bw w 0 := (bw_weights hw').pos 0 hlen
  have hp0 : 0 < (2 * c) ^ (d : ℝ) := by positivity
  obtain ⟨r1, r2, r3⟩ := reductions hw' hne hp
  unfold thresholdFn thresholdDegree
  rw [r1, r2, r3, List.length_map]
  simp only
  have e1 : (CFloat.pow (CFloat.ofRat 2 *. fin c) (CFloat.ofNat d) : XR) = fin ((2 * c) ^ (d : ℝ)) := by
    rw [ofRat_two, XR.mul_fin, XR.ofNat_eq, XR.pow_fin _ _ (by positivity)]
  rw [e1, XR.div_fin _ _ hp0.ne', XR.div_fin _ _ hb0.ne']
  refine ⟨_, ?_, rfl⟩
  rintro ⟨so, re⟩ ⟨v, so'⟩ h
  simp only at h
  split at h
  · cases h
  · rw [Option.bind_eq_bind, Option.bind_eq_some_iff] at h
    obtain ⟨_, _, h⟩ := h
    cases h
    rfl

theorem alphaFn_query {w : List ℝ} (hw : Normal w) (hne : w ≠ []) {part : List (List Nat)}
    (hp : part.flatten.Perm (List.range w.length)) (alg : StdAlg XR) (ndebug : Bool) {d : ℕ} (hd : 1 ≤ d) (hd30 : d ≤ 30) {α : ℝ}
    (hα : 0 < α) (hα1 : α ≠ 1) (s : AlphaState XR) {c : ℝ} (hc : 0 < c) :
    ∃ G : LazySorter XR × ℕ → Option (XR × AlphaState XR), (∀ q r, G q = some r → r.2.sorter = q.1) ∧
      alphaFn alg ndebug part (w.map fin) d (fin α) (fin c) s =
        (s.sorter.sortDownto alg ndebug (fin (1 / (alphaX d α w.sum c * bw w 0)))).bind G := by
  have hw' := hw.pos
  have hlen : 0 < w.length := List.length_pos_iff.2 hne
  have hW := sum_pos_of hw' hne
  have hb0 : 0 < bw w 0 := (bw_weights hw').pos 0 hlen
  have q5 := (reductions hw' hne hp).2.2
  have hshl : shl1 d = some (2 ^ d : ℤ) := Coord.shl1_eq hd30
  have hfold := foldl_add_eq w 0
  rw [zero_add, ← ofRat_zero] at hfold
  unfold alphaFn
  rw [if_neg (by
      rintro ⟨-, h⟩
      rw [ofRat_one, XR.eq_fin, decide_eq_true_eq] at h
      exact hα1 h)]
  simp only [hfold, q5]
  unfold alphaDegree
  simp only
  rw [XR.div_fin _ _ hW.ne', richThresh_eq hd hα hW hc hb0]
  refine ⟨_, ?_, (obind hshl _)⟩
  rintro ⟨so, re⟩ ⟨v, so'⟩ h
  simp only at h
  split at h
  · cases h; rfl
  · split at h
    · cases h
    · simp only [Option.bind_eq_bind, Option.bind_eq_some_iff] at h
      obtain ⟨_, _, _, _, h⟩ := h
      cases h
      rfl

/-- the release build evaluates the function everywhere, with the invariant of the debug build -/
theorem threshold_evaluates_low {w : List ℝ} (hw : Normal w) (hne : w ≠ []) {part : List (List Nat)}
    (hp : part.flatten.Perm (List.range w.length)) (alg : StdAlg XR) (d : ℕ) :
    Evaluates (thresholdFn alg true part (w.map fin) d) (SorterLow w)
      (fun c v => EstVal w.length (bw w) probThreshold ((2 * c) ^ (d : ℝ) / w.sum) v) where
  eval s hs c hc := by
    obtain ⟨⟨s', r⟩, e⟩ := LazySorter.release alg s (fin (w.sum / (2 * c) ^ (d : ℝ) / bw w 0))
    obtain ⟨v, h1, h2, h3⟩ := threshold_value hw hne hp hs.ok hc e
    exact ⟨v, s', h1, (hs.query hw e).1, h3⟩

theorem alpha_evaluates_low {w : List ℝ} (hw : Normal w) (hne : w ≠ []) (hn : w.length < 2 ^ 31) {part : List (List Nat)}
    (hp : part.flatten.Perm (List.range w.length)) (alg : StdAlg XR) {d : ℕ} (hd : 1 ≤ d) (hd30 : d ≤ 30)
    {α : ℝ} (hα : 0 < α) (hα1 : α ≠ 1) :
    Evaluates (alphaFn alg true part (w.map fin) d (fin α)) (fun s => AlphaOk w α s ∧ SorterLow w s.sorter)
      (fun c v => EstVal w.length (bw w) (probAlpha α) (alphaX d α w.sum c) v) where
  eval s hs c hc := by
    obtain ⟨⟨s', r⟩, e⟩ := LazySorter.release alg s.sorter (fin (1 / (alphaX d α w.sum c * bw w 0)))
    obtain ⟨v, s'', h1, h2, h3⟩ := alpha_value hw hne hn hp hd hd30 hα hα1 hs.1 hc e
    obtain ⟨G, hG, hq⟩ := alphaFn_query hw hne hp alg true hd hd30 hα hα1 s hc
    rw [e] at hq
    have := hG (s', r) (fin v, s'') (by rw [← h1, hq]; rfl)
    refine ⟨v, s'', h1, ⟨h2, ?_⟩, h3⟩
    simp only at this
    rw [this]
    exact (hs.2.query hw e).1

theorem thresholdFn_agree {w : List ℝ} (hw : Normal w) (hne : w ≠ []) {part : List (List Nat)}
    (hp : part.flatten.Perm (List.range w.length)) (alg : StdAlg XR) (d : ℕ) {s : LazySorter XR} (hs : SorterLow w s) {c : ℝ} (hc : 0 < c)
    (ht : minR ≤ w.sum / (2 * c) ^ (d : ℝ) / bw w 0) :
    thresholdFn alg false part (w.map fin) d (fin c) s = thresholdFn alg true part (w.map fin) d (fin c) s := by
  obtain ⟨⟨s', r⟩, e⟩ := LazySorter.release alg s (fin (w.sum / (2 * c) ^ (d : ℝ) / bw w 0))
  rw [← hs.debug ht] at e
  obtain ⟨v, h1, -, -⟩ := threshold_value hw hne hp hs.ok hc e
  rw [h1, thresholdFn_release h1]

theorem alphaFn_agree {w : List ℝ} (hw : Normal w) (hne : w ≠ []) (hn : w.length < 2 ^ 31) {part : List (List Nat)}
    (hp : part.flatten.Perm (List.range w.length)) (alg : StdAlg XR) {d : ℕ} (hd : 1 ≤ d) (hd30 : d ≤ 30) {α : ℝ}
    (hα : 0 < α) (hα1 : α ≠ 1) {s : AlphaState XR} (hs : AlphaOk w α s ∧ SorterLow w s.sorter) {c : ℝ} (hc : 0 < c)
    (ht : minR ≤ 1 / (alphaX d α w.sum c * bw w 0)) :
    alphaFn alg false part (w.map fin) d (fin α) (fin c) s = alphaFn alg true part (w.map fin) d (fin α) (fin c) s := by
  obtain ⟨⟨s', r⟩, e⟩ := LazySorter.release alg s.sorter (fin (1 / (alphaX d α w.sum c * bw w 0)))
  rw [← hs.2.debug ht] at e
  obtain ⟨v, s'', h1, -, -⟩ := alpha_value hw hne hn hp hd hd30 hα hα1 hs.1 hc e
  rw [h1, alphaFn_release h1]

/-! ### the search in a debug build -/

section est
variable {S : Type} {fd fr : XR → S → Option (XR × S)} {Inv : S → Prop} {n : ℕ} {b : ℕ → ℝ} {P X : ℝ → ℝ} {des : ℝ}

/-- as long as the threshold `1/(X c * b 0)` is a normal number at all points the search can reach, the debug build behaves like the release build -/
theorem est_debug (hb : Weights n b) (hP : ConnFn P) (hn : 2 ≤ n) (hX0 : ∀ c, 0 < c → 0 < X c) (hXm : ∀ c c', 0 < c → c < c' → X c < X c')
    {ρ : ℝ} (hρ : ∀ c, 0 < c → X (c * 2) = ρ * X c)
    (hf : Evaluates fr Inv fun c v => EstVal n b P (X c) v)
    (hag : ∀ st, Inv st → ∀ x, 0 < x → minR ≤ 1 / (X x * b 0) → fd (fin x) st = fr (fin x) st)
    (h2 : minR * (X 2 * b 0) ≤ 1) (hdes : des ≤ n - 1) (hrange : 0 < des → ρ * (minR * b 0) ≤ b (n - 1) * b (n - 1))
    {st : S} (hst : Inv st) (k : ℕ) :
    run fd (fin des) accuracy k (start st) = run fr (fin des) accuracy k (start st) := by
  have hb0 := hb.pos 0 (by omega)
  have hm := hb.pos (n - 1) (by omega)
  refine run_agree (Q := fun x => minR * (X x * b 0) ≤ 1) ?_ hf ?_ h2 ?_ hst k
  · intro x u hx hxu hu
    rcases hxu.lt_or_eq with h | rfl
    · refine le_trans ?_ hu
      have := hXm x u hx h
      have := minR_pos
      gcongr
    · exact hu
  · intro st hi x hx hQ
    refine hag st hi x hx ?_
    have := hX0 x hx
    rwa [le_div_iff₀ (by positivity)]
  · intro u v hu hv hlt
    have hXu := hX0 u hu
    rcases le_or_gt des 0 with h0 | h0
    · have := EstVal.positive hb hP hXu hn hv
      linarith
    have hns : X u * (b (n - 1) * b (n - 1)) < 1 := by
      by_contra hc
      rw [EstVal.saturated hP (by omega) ?_ hv] at hlt
      · linarith
      · intro i hi j hj
        have hbi : b (n - 1) ≤ b i := hb.anti _ _ (by omega) (by omega)
        have hbj : b (n - 1) ≤ b j := hb.anti _ _ (by omega) (by omega)
        have hbi0 := hm.le.trans hbi
        calc (1 : ℝ) ≤ X u * (b (n - 1) * b (n - 1)) := not_lt.1 hc
          _ ≤ X u * (b i * b j) := by gcongr
          _ = X u * b i * b j := by ring
    rw [hρ u hu]
    have := hrange h0
    calc minR * (ρ * X u * b 0) = X u * (ρ * (minR * b 0)) := by ring
      _ ≤ X u * (b (n - 1) * b (n - 1)) := by gcongr
      _ ≤ 1 := hns.le

/-- if the values stay below the target until the threshold is subnormal, the debug build aborts -/
theorem est_aborts {full : S → Prop} (hmono : ∀ c s r, fd c s = some r → fr c s = some r)
    (hf : Evaluates fr Inv fun c v => EstVal n b P (X c) v)
    (hfull : ∀ st, Inv st → ∀ x, 0 < x → 1 / (X x * b 0) < minR → ∀ v st', fr (fin x) st = some (v, st') → full st')
    (hfail : ∀ st, Inv st → full st → ∀ x, 0 < x → 1 / (X x * b 0) < minR → fd (fin x) st = none)
    {K : ℕ} (hK : 1 / (X (2 ^ (K + 1)) * b 0) < minR) (hK' : 1 / (X (2 ^ (K + 2)) * b 0) < minR)
    (hlow : ∀ k ≤ K, ∀ v, EstVal n b P (X (2 ^ (k + 1))) v → v < des) {st : S} (hst : Inv st) :
    run fd (fin des) accuracy (K + 2) (start st) = .undefined :=
  grow_fails hmono hf (fun st hi v st' e => hfull st hi _ (by positivity) hK v st' e)
    (fun st hi hS => hfail st hi hS _ (by positivity) hK') hlow hst

end est

theorem threshold_full {w : List ℝ} (hw : Normal w) (hne : w ≠ []) {part : List (List Nat)}
    (hp : part.flatten.Perm (List.range w.length)) (alg : StdAlg XR) (d : ℕ) {s : LazySorter XR} (hs : SorterLow w s) {c : ℝ} (hc : 0 < c)
    (ht : w.sum / (2 * c) ^ (d : ℝ) / bw w 0 < minR) :
    (∀ v s', thresholdFn alg true part (w.map fin) d (fin c) s = some (v, s') → s'.sortedEnd = s'.vec.length) ∧
    (s.sortedEnd = s.vec.length → thresholdFn alg false part (w.map fin) d (fin c) s = none) := by
  constructor
  · intro v s' h
    obtain ⟨G, hG, hq⟩ := thresholdFn_query hw hne hp alg true d s hc
    rw [hq, Option.bind_eq_some_iff] at h
    obtain ⟨⟨so, r⟩, e, h⟩ := h
    have := hG _ _ h
    simp only at this
    subst this
    exact (hs.query hw e).2 ht
  · intro hfull
    obtain ⟨G, hG, hq⟩ := thresholdFn_query hw hne hp alg false d s hc
    rw [hq, hs.fails ht hfull]
    rfl

theorem alpha_full {w : List ℝ} (hw : Normal w) (hne : w ≠ []) {part : List (List Nat)}
    (hp : part.flatten.Perm (List.range w.length)) (alg : StdAlg XR) {d : ℕ} (hd : 1 ≤ d) (hd30 : d ≤ 30) {α : ℝ}
    (hα : 0 < α) (hα1 : α ≠ 1) {s : AlphaState XR} (hs : SorterLow w s.sorter) {c : ℝ} (hc : 0 < c)
    (ht : 1 / (alphaX d α w.sum c * bw w 0) < minR) :
    (∀ v s', alphaFn alg true part (w.map fin) d (fin α) (fin c) s = some (v, s') → s'.sorter.sortedEnd = s'.sorter.vec.length) ∧
    (s.sorter.sortedEnd = s.sorter.vec.length → alphaFn alg false part (w.map fin) d (fin α) (fin c) s = none) := by
  constructor
  · intro v s' h
    obtain ⟨G, hG, hq⟩ := alphaFn_query hw hne hp alg true hd hd30 hα hα1 s hc
    rw [hq, Option.bind_eq_some_iff] at h
    obtain ⟨⟨so, r⟩, e, h⟩ := h
    have := hG _ _ h
    simp only at this
    rw [this]
    exact (hs.query hw e).2 ht
  · intro hfull
    obtain ⟨G, hG, hq⟩ := alphaFn_query hw hne hp alg false hd hd30 hα hα1 s hc
    rw [hq, hs.fails ht hfull]
    rfl

end Girgs.Scaling
