import Verif.Proofs.BucketSort
import Mathlib.Tactic.Ring
/-
The MSD phase of `intsort`: chunking, counting, prefix sums, scatter.
-/
namespace Girgs.IntSort
variable {T : Type}

theorem mapM_some {α β : Type} {f : α → Option β} {g : α → β} (l : List α) (h : ∀ a ∈ l, f a = some (g a)) :
    l.mapM f = some (l.map g) := by
  induction l with
  | nil => rfl
  | cons a l ih =>
    rw [List.mapM_cons, obind (h a (by simp)), obind (ih (fun b hb => h b (by simp [hb])))]
    rfl

theorem applyWrites_target {tgt : List T} (ws : List (Nat × T)) (B : List T) (len : B.length = tgt.length)
    (h1 : ∀ w ∈ ws, tgt[w.1]? = some w.2) (h2 : ∀ i < tgt.length, (∃ w ∈ ws, w.1 = i) ∨ B[i]? = tgt[i]?) :
    applyWrites B ws = some tgt := by
  induction ws generalizing B with
  | nil =>
    have : B = tgt := by
      apply List.ext_getElem?
      intro i
      by_cases hi : i < tgt.length
      · rcases h2 i hi with ⟨w, hw, _⟩ | h
        · simp at hw
        · exact h
      · rw [List.getElem?_eq_none (by omega), List.getElem?_eq_none (by omega)]
    rw [this]; rfl
  | cons w ws ih =>
    have hw := h1 w (by simp)
    have hlt : w.1 < tgt.length := by
      by_contra h
      rw [List.getElem?_eq_none (by omega)] at hw
      simp at hw
    have e : wr B w.1 w.2 = some (B.set w.1 w.2) := by
      unfold wr; rw [if_pos (by omega)]
    unfold applyWrites
    rw [List.foldlM_cons, obind e]
    apply ih
    · simpa using len
    · intro v hv; exact h1 v (by simp [hv])
    · intro i hi
      by_cases hiw : w.1 = i
      · right
        subst hiw
        rw [List.getElem?_set_self (by omega), hw]
      · rcases h2 i hi with ⟨v, hv, rfl⟩ | h
        · rcases List.mem_cons.1 hv with rfl | hv
          · exact absurd rfl hiw
          · exact Or.inl ⟨v, hv, rfl⟩
        · right
          rw [List.getElem?_set_ne hiw, h]

/-! ### chunks -/

theorem idivCeil_mul_ge (n : Nat) {t : Nat} (ht : 1 ≤ t) : n ≤ idivCeil n t * t := by
  unfold idivCeil
  have h1 := Nat.div_add_mod (n + t - 1) t
  have h2 := Nat.mod_lt (n + t - 1) (show 0 < t by omega)
  have h3 : (n + t - 1) / t * t = t * ((n + t - 1) / t) := Nat.mul_comm _ _
  generalize (n + t - 1) / t * t = a at *
  generalize t * ((n + t - 1) / t) = b at *
  omega

theorem idivCeil_mul_pred {n t : Nat} (ht : 1 ≤ t) (h : (t - 1) * (t - 1) ≤ n) : idivCeil n t * (t - 1) ≤ n := by
  unfold idivCeil
  obtain ⟨s, rfl⟩ : ∃ s, t = s + 1 := ⟨t - 1, by omega⟩
  rw [Nat.add_sub_cancel] at *
  have h1 := Nat.div_mul_le_self (n + (s + 1) - 1) (s + 1)
  have h3 : n + (s + 1) - 1 = n + s := by omega
  rw [h3] at h1 ⊢
  clear h3
  generalize (n + s) / (s + 1) = q at *
  -- q*(s+1) ≤ n+s, s*s ≤ n
  by_contra hc
  push_neg at hc
  have h4 : q * (s + 1) = q * s + q := by ring
  have h5 : q < s := by omega
  have h6 : q * s ≤ s * s := Nat.mul_le_mul_right _ (le_of_lt h5)
  omega

/-- the elements of a chunk -/
def chunkL (A : List T) (t tid : Nat) : List T :=
  (A.drop (idivCeil A.length t * tid)).take (min (idivCeil A.length t * (tid + 1)) A.length - idivCeil A.length t * tid)

theorem chunk_eq {A : List T} {t : Nat} (h : (t - 1) * (t - 1) ≤ A.length) {tid : Nat} (htid : tid < t) :
    chunk A t tid = some (chunkL A t tid) := by
  unfold chunk chunkL
  have h1 := idivCeil_mul_pred (by omega) h
  have h2 : idivCeil A.length t * tid ≤ idivCeil A.length t * (t - 1) := Nat.mul_le_mul_left _ (by omega)
  have h3 : idivCeil A.length t * tid ≤ idivCeil A.length t * (tid + 1) := Nat.mul_le_mul_left _ (by omega)
  rw [if_pos (by rw [le_min_iff]; omega)]

theorem take_append_chunk (A : List T) (t tid : Nat) :
    A.take (idivCeil A.length t * tid) ++ chunkL A t tid = A.take (idivCeil A.length t * (tid + 1)) := by
  unfold chunkL
  rw [Nat.mul_add, Nat.mul_one]
  generalize idivCeil A.length t = s
  generalize s * tid = a
  rw [List.take_add]
  congr 1
  rw [List.take_eq_take_iff, List.length_drop]
  omega

theorem chunks_flatten_take (A : List T) (t m : Nat) :
    ((List.range m).map (chunkL A t)).flatten = A.take (idivCeil A.length t * m) := by
  induction m with
  | zero => simp
  | succ m ih =>
    rw [List.range_succ, List.map_append, List.flatten_append, ih, ← take_append_chunk]
    simp

theorem chunks_flatten (A : List T) {t : Nat} (ht : 1 ≤ t) : ((List.range t).map (chunkL A t)).flatten = A := by
  rw [chunks_flatten_take, List.take_of_length_le (idivCeil_mul_ge _ ht)]

/-- element `k` of chunk `tid` -/
theorem chunk_get {A : List T} {t tid k : Nat} {x : T} (h : (chunkL A t tid)[k]? = some x) :
    A[idivCeil A.length t * tid + k]? = some x ∧
      A.take (idivCeil A.length t * tid + k) = A.take (idivCeil A.length t * tid) ++ (chunkL A t tid).take k := by
  unfold chunkL at h ⊢
  generalize idivCeil A.length t = s at *
  rw [Nat.mul_add, Nat.mul_one] at *
  generalize s * tid = a at *
  have hk : k < min (a + s) A.length - a := by
    by_contra hc
    rw [List.getElem?_eq_none (by rw [List.length_take]; omega)] at h
    simp at h
  rw [List.getElem?_take_of_lt hk, List.getElem?_drop] at h
  refine ⟨h, ?_⟩
  rw [List.take_add, List.take_take]
  congr 2
  omega

theorem chunk_get_of {A : List T} {t K : Nat} {x : T} (h : A[K]? = some x) (ht : 1 ≤ t) :
    ∃ tid < t, ∃ k, (chunkL A t tid)[k]? = some x ∧ K = idivCeil A.length t * tid + k := by
  have hK : K < A.length := by
    by_contra hc
    rw [List.getElem?_eq_none (by omega)] at h
    simp at h
  have hs := idivCeil_mul_ge A.length ht
  have hs0 : 0 < idivCeil A.length t := by
    rcases Nat.eq_zero_or_pos (idivCeil A.length t) with h0 | h0
    · rw [h0, Nat.zero_mul] at hs; omega
    · exact h0
  refine ⟨K / idivCeil A.length t, ?_, K % idivCeil A.length t, ?_, (Nat.div_add_mod _ _).symm⟩
  · rw [Nat.div_lt_iff_lt_mul hs0, Nat.mul_comm]
    exact lt_of_lt_of_le hK hs
  · unfold chunkL
    have e := Nat.div_add_mod K (idivCeil A.length t)
    have l := Nat.mod_lt K hs0
    rw [Nat.mul_add, Nat.mul_one]
    generalize idivCeil A.length t * (K / idivCeil A.length t) = a at *
    generalize K % idivCeil A.length t = b at *
    generalize idivCeil A.length t = s at *
    rw [List.getElem?_take_of_lt (by omega), List.getElem?_drop, e, h]

/-! ### prefix sums -/

/-- finite sums -/
def S (m : Nat) (f : Nat → Nat) : Nat := ((List.range m).map f).sum

theorem S_zero (f : Nat → Nat) : S 0 f = 0 := rfl
theorem S_succ (m : Nat) (f : Nat → Nat) : S (m + 1) f = S m f + f m := by
  simp [S, List.range_succ]

theorem S_congr {m : Nat} {f g : Nat → Nat} (h : ∀ i < m, f i = g i) : S m f = S m g := by
  unfold S
  congr 1
  apply List.map_congr_left
  intro i hi
  exact h i (List.mem_range.1 hi)

theorem rd_map_range {α : Type} {t : Nat} {f : Nat → α} {i : Nat} (h : i < t) :
    rd ((List.range t).map f) i = some (f i) := by
  simp [rd, h]

theorem queueStep_eq {t : Nat} {C : Nat → Nat → Nat} {tid qid index tmp : Nat} (hq : qid < 264) (htid : tid < t) :
    queueStep ((List.range t).map (fun s => tab 264 (C s))) tid qid index tmp =
      some (index + S t (fun s => C s qid), index + S tid (fun s => C s qid)) := by
  unfold queueStep
  rw [List.length_map, List.length_range]
  have key : ∀ m, m ≤ t → (List.range m).foldlM (fun (s : Nat × Nat) ttid => do
      let row ← rd ((List.range t).map (fun s => tab 264 (C s))) ttid
      let x ← rd row qid
      some (s.1 + x, if ttid = tid then s.1 else s.2)) (index, tmp) =
      some (index + S m (fun s => C s qid), if tid < m then index + S tid (fun s => C s qid) else tmp) := by
    intro m
    induction m with
    | zero => intro _; simp [S_zero]
    | succ m ih =>
      intro hm
      rw [List.range_succ, List.foldlM_append, obind (ih (by omega))]
      rw [List.foldlM_cons]
      rw [obind (rd_map_range (show m < t by omega)), obind (rd_tab hq)]
      rw [obind rfl, List.foldlM_nil, S_succ]
      congr 2
      · simp only; omega
      · simp only
        rcases lt_trichotomy m tid with h | h | h
        · rw [if_neg (by omega), if_neg (by omega), if_neg (by omega)]
        · subst h; rw [if_pos rfl, if_pos (by omega)]
        · rw [if_neg (by omega), if_pos (by omega), if_pos (by omega)]
  rw [key t (le_refl _), if_pos htid]

theorem queuePointers_eq {t : Nat} {C : Nat → Nat → Nat} {tid : Nat} (htid : tid < t) :
    queuePointers ((List.range t).map (fun s => tab 264 (C s))) tid =
      some (tab 256 (fun q => S q (fun q' => S t (fun s => C s q')) + S tid (fun s => C s q))) := by
  unfold queuePointers
  have key : ∀ m, m ≤ 256 → ∃ tmp, (List.range m).foldlM (fun (s : (Nat × Nat) × List Nat) qid => do
    let it ← queueStep ((List.range t).map (fun s => tab 264 (C s))) tid qid s.1.1 s.1.2
    some (it, s.2 ++ [it.2])) ((0, 0), []) =
      some ((S m (fun q' => S t (fun s => C s q')), tmp), tab m (fun q => S q (fun q' => S t (fun s => C s q')) + S tid (fun s => C s q))) := by
    intro m
    induction m with
    | zero => intro _; exact ⟨0, rfl⟩
    | succ m ih =>
      intro hm
      obtain ⟨tmp, ih⟩ := ih (by omega)
      refine ⟨S m (fun q' => S t (fun s => C s q')) + S tid (fun s => C s m), ?_⟩
      rw [List.range_succ, List.foldlM_append, obind ih, List.foldlM_cons]
      rw [obind (queueStep_eq (by omega) htid), obind rfl, List.foldlM_nil, S_succ]
      simp only [tab]
      rw [List.range_succ, List.map_append]
      rfl
  obtain ⟨tmp, h⟩ := key 256 (le_refl _)
  rw [obind h]

theorem scatter_eq {key : T → Nat} {c : Cfg} {N : Nat} (xs : List T) (f : Nat → Nat)
    (h : ∀ x ∈ xs, key x >>> c.msbShift < N) :
    ∃ ws, scatterWrites key c xs (tab N f) = some ws ∧ ∀ k, ws[k]? = xs[k]?.map (fun x =>
      (f (key x >>> c.msbShift) + (xs.take k).countP (fun y => key y >>> c.msbShift == key x >>> c.msbShift), x)) := by
  induction xs generalizing f with
  | nil => exact ⟨[], rfl, fun k => rfl⟩
  | cons x xs ih =>
    have hx := h x (by simp)
    obtain ⟨ws, h1, h2⟩ := ih (fun q => if q = key x >>> c.msbShift then f (key x >>> c.msbShift) + 1 else f q)
      (fun y hy => h y (by simp [hy]))
    refine ⟨(f (key x >>> c.msbShift), x) :: ws, ?_, ?_⟩
    · rw [scatterWrites, obind (rd_tab hx), obind (bump_tab hx), obind h1]
    · intro k
      cases k with
      | zero => simp
      | succ k =>
        rw [List.getElem?_cons_succ, List.getElem?_cons_succ, h2]
        cases xs[k]? with
        | none => rfl
        | some y =>
          simp only [Option.map_some, List.take_succ_cons, Option.some.injEq, Prod.mk.injEq, and_true, List.countP_cons]
          by_cases e : key y >>> c.msbShift = key x >>> c.msbShift
          · rw [if_pos e, if_pos (by rw [beq_iff_eq]; exact e.symm), e]; omega
          · rw [if_neg e, if_neg (by rw [beq_iff_eq]; exact fun h => e h.symm)]; omega

/-! ### the whole phase -/

theorem S_chunks (d : T → Nat) (A : List T) (t m q : Nat) :
    S m (fun s => (chunkL A t s).countP (fun y => d y == q)) =
      (A.take (idivCeil A.length t * m)).countP (fun y => d y == q) := by
  rw [← chunks_flatten_take, List.countP_flatten, List.map_map]
  rfl

theorem msd_spec_addr {key : T → Nat} {c : Cfg} {t : Nat} {A : List T} (ht : 1 ≤ t) (hn : (t - 1) * (t - 1) ≤ A.length)
    (hk : ∀ x ∈ A, key x >>> c.msbShift < 256) :
    ∃ wss, msdPhase key c t A = some (wss, tab 256 (fun q => A.countP (fun y => decide (key y >>> c.msbShift < q))) ++ [A.length]) ∧
      (∀ ws, Interleaving wss ws → ∀ B0 : List T, B0.length = A.length →
        applyWrites B0 ws = some (bc (fun x => key x >>> c.msbShift) 256 A)) ∧
      ∀ (tid : Nat) (l : List (Nat × T)), wss[tid]? = some l → ∀ (k : Nat) (w : Nat × T), l[k]? = some w →
        ∃ x, (chunkL A t tid)[k]? = some x ∧ w = (pos (fun x => key x >>> c.msbShift) A (idivCeil A.length t * tid + k) x, x) := by
  set d : T → Nat := fun x => key x >>> c.msbShift with hd
  have hmem : ∀ tid, ∀ x ∈ chunkL A t tid, x ∈ A := by
    intro tid x hx
    unfold chunkL at hx
    exact List.mem_of_mem_drop (List.mem_of_mem_take hx)
  let C : Nat → Nat → Nat := fun s q => (chunkL A t s).countP (fun y => d y == q)
  let P : Nat → Nat → Nat := fun tid q => A.countP (fun y => decide (d y < q)) + (A.take (idivCeil A.length t * tid)).countP (fun y => d y == q)
  have e1 : (List.range t).mapM (chunk A t) = some ((List.range t).map (chunkL A t)) :=
    mapM_some _ (fun tid h => chunk_eq hn (List.mem_range.1 h))
  have e2 : ((List.range t).map (chunkL A t)).mapM (countChunk key c) = some ((List.range t).map (fun s => tab 264 (C s))) := by
    have : ∀ xs ∈ (List.range t).map (chunkL A t), countChunk key c xs =
        some ((fun xs : List T => tab 264 (fun q => xs.countP (fun y => d y == q))) xs) := by
      intro xs hxs
      obtain ⟨tid, _, rfl⟩ := List.mem_map.1 hxs
      unfold countChunk
      rw [replicate_eq_tab]
      have := count_fold d 264 (chunkL A t tid) (fun x hx => lt_trans (hk x (hmem _ x hx)) (by norm_num)) (fun _ => 0)
      simp only [hd, Nat.zero_add] at this
      exact this
    rw [mapM_some _ this, List.map_map]
    rfl
  have e3 : ∀ tid < t, queuePointers ((List.range t).map (fun s => tab 264 (C s))) tid = some (tab 256 (P tid)) := by
    intro tid htid
    rw [queuePointers_eq htid]
    congr 1
    apply tab_congr
    intro q _
    show _ = A.countP (fun y => decide (d y < q)) + _
    rw [← sum_countP d A q, ← S_chunks d A t tid q]
    congr 1
    show S q _ = S q _
    apply S_congr
    intro q' _
    rw [S_chunks d A t t q', List.take_of_length_le (idivCeil_mul_ge _ ht)]
  have e4 : ∀ tid : Nat, ∃ ws, scatterWrites key c (chunkL A t tid) (tab 256 (P tid)) = some ws ∧
      ∀ k, ws[k]? = (chunkL A t tid)[k]?.map (fun x => (P tid (d x) + ((chunkL A t tid).take k).countP (fun y => d y == d x), x)) :=
    fun tid => scatter_eq _ _ (fun x hx => hk x (hmem _ x hx))
  choose W hW1 hW2 using e4
  have hpos : ∀ tid k x, (chunkL A t tid)[k]? = some x →
      (W tid)[k]? = some (pos d A (idivCeil A.length t * tid + k) x, x) := by
    intro tid k x h
    rw [hW2, h, Option.map_some]
    unfold pos
    rw [(chunk_get h).2, List.countP_append, Nat.add_assoc]
  refine ⟨(List.range t).map W, ?_, ?_, ?_⟩
  · unfold msdPhase
    rw [obind e1, obind e2]
    have e5 : (List.range t).mapM (fun tid => do
        let ptr ← queuePointers ((List.range t).map (fun s => tab 264 (C s))) tid
        let xs ← rd ((List.range t).map (chunkL A t)) tid
        scatterWrites key c xs ptr) = some ((List.range t).map W) := by
      apply mapM_some
      intro tid h
      have h := List.mem_range.1 h
      rw [obind (e3 tid h), obind (rd_map_range h)]
      exact hW1 tid
    rw [obind e5, obind (e3 0 (by omega))]
    congr 3
  · intro ws hws B0 hB0
    have hp := hws.perm
    have hlen := bc_length (d := d) (Q := 256) (X := A) hk
    apply applyWrites_target
    · omega
    · intro w hw
      have hw := hp.mem_iff.1 hw
      obtain ⟨l, hl, hwl⟩ := List.mem_flatten.1 hw
      obtain ⟨tid, _, rfl⟩ := List.mem_map.1 hl
      obtain ⟨k, hk'⟩ := List.mem_iff_getElem?.1 hwl
      have := hW2 tid k
      rw [hk'] at this
      cases hx : (chunkL A t tid)[k]? with
      | none => rw [hx] at this; simp at this
      | some x =>
        rw [hpos tid k x hx] at hk'
        simp only [Option.some.injEq] at hk'
        subst hk'
        have hx' := (chunk_get hx).1
        exact bc_get hx' (hk x (mem_of_get hx'))
    · intro i hi
      left
      obtain ⟨K, x, hx, rfl⟩ := pos_surj (d := d) (Q := 256) hk (show i < A.length by omega)
      obtain ⟨tid, htid, k, h1, rfl⟩ := chunk_get_of hx ht
      refine ⟨(pos d A (idivCeil A.length t * tid + k) x, x), ?_, rfl⟩
      rw [hp.mem_iff, List.mem_flatten]
      exact ⟨W tid, List.mem_map.2 ⟨tid, List.mem_range.2 htid, rfl⟩, List.mem_of_getElem? (hpos tid k x h1)⟩
  · intro tid l hl k w hw
    rw [List.getElem?_map, Option.map_eq_some_iff] at hl
    obtain ⟨tid', h1, rfl⟩ := hl
    obtain ⟨h2, rfl⟩ := List.getElem?_eq_some_iff.1 h1
    rw [List.getElem_range] at hw
    have := hW2 tid k
    rw [hw] at this
    cases hx : (chunkL A t tid)[k]? with
    | none => rw [hx] at this; simp at this
    | some x =>
      rw [hpos tid k x hx] at hw
      exact ⟨x, rfl, (Option.some.inj hw).symm⟩

theorem msd_spec {key : T → Nat} {c : Cfg} {t : Nat} {A : List T} (ht : 1 ≤ t) (hn : (t - 1) * (t - 1) ≤ A.length)
    (hk : ∀ x ∈ A, key x >>> c.msbShift < 256) :
    ∃ wss, msdPhase key c t A = some (wss, tab 256 (fun q => A.countP (fun y => decide (key y >>> c.msbShift < q))) ++ [A.length]) ∧
      ∀ ws, Interleaving wss ws → ∀ B0 : List T, B0.length = A.length →
        applyWrites B0 ws = some (bc (fun x => key x >>> c.msbShift) 256 A) := by
  obtain ⟨wss, h1, h2, _⟩ := msd_spec_addr ht hn hk
  exact ⟨wss, h1, h2⟩

end Girgs.IntSort
