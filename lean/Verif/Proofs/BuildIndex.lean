import Verif.Model.BuildPartition
import Verif.Proofs.TreeOK
import Verif.Proofs.IntSortMSD
/-
C12: the index array is the exact prefix sum, for every order of the marking writes and every schedule of the repair.
-/
namespace Girgs.Build
open IntSort (applyWrites applyWrites_target)

/-- the specified entry: the number of nodes with smaller cell id -/
def fin (cells : List Nat) (c : Nat) : Nat := cells.countP (· < c)

/-- standing assumptions about the sorted cell ids -/
structure Cells (M : Nat) (cells : List Nat) : Prop where
  sorted : cells.Pairwise (· ≤ ·)
  lt : ∀ c ∈ cells, c < M
  pos : 1 ≤ cells.length
  small : cells.length < 4294967295
  Msmall : M < 2147483648

section
variable {M : Nat} {cells : List Nat}

theorem Cells.M_pos (h : Cells M cells) : 1 ≤ M := by
  obtain ⟨x, hx⟩ := List.exists_mem_of_length_pos (show 0 < cells.length from h.pos)
  have := h.lt x hx
  omega

theorem fin_mono {c c' : Nat} (h : c ≤ c') : fin cells c ≤ fin cells c' := by
  apply List.countP_mono_left
  intro x _ hx
  simp only [decide_eq_true_eq] at hx ⊢
  omega

theorem Cells.fin_M (h : Cells M cells) : fin cells M = cells.length := by
  rw [fin, List.countP_eq_length]
  simpa using h.lt

theorem Cells.fin_lt_gap (h : Cells M cells) (c : Nat) : fin cells c < gap := by
  have : fin cells c ≤ cells.length := List.countP_le_length
  have := h.small
  unfold gap
  omega

theorem fin_succ_of_not_mem {c : Nat} (h : c ∉ cells) : fin cells c = fin cells (c + 1) := by
  apply List.countP_congr
  intro x hx
  have : x ≠ c := fun e => h (e ▸ hx)
  simp only [decide_eq_true_eq]
  omega

/-- the array after marking -/
def marked (M : Nat) (cells : List Nat) : List Nat :=
  (List.range (M + 1)).map fun c => if c = M ∨ c ∈ cells then fin cells c else gap

theorem marked_get {c : Nat} (h : c ≤ M) :
    (marked M cells)[c]? = some (if c = M ∨ c ∈ cells then fin cells c else gap) := by
  unfold marked
  rw [List.getElem?_map, List.getElem?_range (by omega)]
  rfl

theorem Cells.first_of (h : Cells M cells) {c : Nat} (hc : c ∈ cells) :
    cells[fin cells c]? = some c := by
  obtain ⟨j, hj⟩ := List.mem_iff_getElem?.1 hc
  have h1 : ¬ j < fin cells c := by
    rw [fin, lt_countP_iff h.sorted c j c hj]; omega
  have hjl : j < cells.length := by
    by_contra hh
    rw [List.getElem?_eq_none (by omega)] at hj
    cases hj
  have hil : fin cells c < cells.length := by omega
  have hi : cells[fin cells c]? = some cells[fin cells c] := List.getElem?_eq_getElem hil
  have h2 : ¬ fin cells c < fin cells c := lt_irrefl _
  rw [fin] at h2
  have h3 : ¬ cells[fin cells c] < c := fun hh => h2 ((lt_countP_iff h.sorted c _ _ hi).2 hh)
  have h4 : cells[fin cells c] ≤ c := by
    rcases Nat.lt_or_ge (fin cells c) j with hlt | hge
    · have := List.pairwise_iff_getElem.1 h.sorted (fin cells c) j hil hjl hlt
      rw [List.getElem?_eq_getElem hjl] at hj
      simp only [Option.some.injEq] at hj
      omega
    · have e : fin cells c = j := by omega
      have hj' := hj
      rw [← e, hi] at hj'
      simp only [Option.some.injEq] at hj'
      omega
  rw [hi]
  congr 1
  omega

theorem Cells.mem_marks (h : Cells M cells) {c i : Nat} : (c, i) ∈ marks cells ↔ c ∈ cells ∧ i = fin cells c ∧ 1 ≤ i := by
  unfold marks
  rw [List.mem_filterMap]
  constructor
  · rintro ⟨k, hk, h2⟩
    rw [List.mem_range'] at hk
    obtain ⟨m, hm, rfl⟩ := hk
    rw [show 1 + 1 * m = m + 1 by omega] at h2
    rw [Nat.add_sub_cancel] at h2
    have e1 : cells[m]? = some cells[m] := List.getElem?_eq_getElem (by omega)
    have e2 : cells[m + 1]? = some cells[m + 1] := List.getElem?_eq_getElem (by omega)
    rw [e1, e2] at h2
    simp only at h2
    split at h2
    · rename_i hne
      simp only [Option.some.injEq, Prod.mk.injEq] at h2
      obtain ⟨rfl, rfl⟩ := h2
      refine ⟨List.getElem_mem _, ?_, by omega⟩
      have hle := List.pairwise_iff_getElem.1 h.sorted m (m + 1) (by omega) (by omega) (by omega)
      have a1 : m < fin cells cells[m + 1] := by
        rw [fin, lt_countP_iff h.sorted _ m _ e1]; omega
      have a2 : ¬ m + 1 < fin cells cells[m + 1] := by
        rw [fin, lt_countP_iff h.sorted _ (m + 1) _ e2]; omega
      omega
    · cases h2
  · rintro ⟨hc, rfl, hi⟩
    have hf := h.first_of hc
    have hl : fin cells c < cells.length := by
      by_contra hh
      rw [List.getElem?_eq_none (by omega)] at hf
      cases hf
    refine ⟨fin cells c, ?_, ?_⟩
    · rw [List.mem_range']
      exact ⟨fin cells c - 1, by omega, by omega⟩
    · have e1 : cells[fin cells c - 1]? = some cells[fin cells c - 1] := List.getElem?_eq_getElem (by omega)
      rw [hf, e1]
      simp only
      rw [if_pos]
      have : cells[fin cells c - 1] < c := (lt_countP_iff h.sorted c _ _ e1).1 (by show _ < fin cells c; omega)
      omega

/-- after the initialisation -/
theorem Cells.markInit_eq (h : Cells M cells) :
    ∃ a0, markInit M cells = some a0 ∧ a0.length = M + 1 ∧
      ∀ c ≤ M, a0[c]? = some (if c = M then cells.length else if cells[0]? = some c then 0 else gap) := by
  have hpos : 0 < cells.length := h.pos
  have h0 : cells[0]? = some cells[0] := List.getElem?_eq_getElem h.pos
  have hM : cells[0] < M := h.lt _ (List.getElem_mem _)
  refine ⟨((List.replicate (M + 1) gap).set M cells.length).set cells[0] 0, ?_, by simp, ?_⟩
  · unfold markInit
    have e1 : wr (List.replicate (M + 1) gap) M cells.length = some ((List.replicate (M + 1) gap).set M cells.length) := by
      unfold wr; rw [if_pos (by simp)]
    rw [obind e1, obind (show rd cells 0 = some cells[0] from h0)]
    unfold wr; rw [if_pos (by simp; omega)]
  · intro c hc
    rw [List.getElem?_set, List.getElem?_set]
    simp only [List.length_set, List.length_replicate, h0, Option.some.injEq]
    by_cases e1 : cells[0] = c
    · rw [if_pos e1, if_pos (by omega), if_neg (by omega), if_pos e1]
    · rw [if_neg e1]
      by_cases e2 : M = c
      · rw [if_pos e2, if_pos (by omega), if_pos e2.symm]
      · rw [if_neg e2, if_neg (by omega), if_neg e1, List.getElem?_replicate, if_pos (by omega)]

theorem Cells.marking (h : Cells M cells) {a0 : List Nat} (h0 : markInit M cells = some a0) {ws : List (Nat × Nat)}
    (hw : ws.Perm (marks cells)) : applyWrites a0 ws = some (marked M cells) := by
  obtain ⟨a0', e0, hl, hv⟩ := h.markInit_eq
  rw [h0] at e0
  simp only [Option.some.injEq] at e0
  subst e0
  apply applyWrites_target
  · rw [hl]; simp [marked]
  · rintro ⟨c, i⟩ hci
    have := h.mem_marks.1 (hw.mem_iff.1 hci)
    obtain ⟨h1, h2, h3⟩ := this
    simp only
    rw [marked_get (le_of_lt (h.lt c h1)), if_pos (Or.inr h1), h2]
  · intro c hc
    have hc : c ≤ M := by simp [marked] at hc; omega
    rw [hv c hc, marked_get hc]
    by_cases e : c = M
    · right
      rw [if_pos e, if_pos (Or.inl e), e, h.fin_M]
    · rw [if_neg e]
      by_cases hm : c ∈ cells
      · rw [if_pos (Or.inr hm)]
        by_cases hz : fin cells c = 0
        · right
          have := h.first_of hm
          rw [hz] at this
          rw [if_pos this, hz]
        · left
          exact ⟨(c, fin cells c), hw.mem_iff.2 (h.mem_marks.2 ⟨hm, rfl, by omega⟩), rfl⟩
      · right
        rw [if_neg (show ¬ (c = M ∨ c ∈ cells) from fun hh => hh.elim e hm), if_neg]
        intro hz
        exact hm (List.mem_of_getElem? hz)

/-- entries are final, or gaps in front of an empty cell -/
def Part (M : Nat) (cells a : List Nat) : Prop :=
  a.length = M + 1 ∧ ∀ c ≤ M, a[c]? = some (fin cells c) ∨ (a[c]? = some gap ∧ c < M ∧ fin cells c = fin cells (c + 1))

theorem Cells.part_marked (h : Cells M cells) : Part M cells (marked M cells) := by
  refine ⟨by simp [marked], ?_⟩
  intro c hc
  rw [marked_get hc]
  by_cases e : c = M ∨ c ∈ cells
  · left; rw [if_pos e]
  · right
    rw [if_neg e]
    exact ⟨rfl, by omega, fin_succ_of_not_mem (fun hh => e (Or.inr hh))⟩

theorem Part.set {a : List Nat} (h : Part M cells a) {i : Nat} (hi : i ≤ M) : Part M cells (a.set i (fin cells i)) := by
  refine ⟨by simpa using h.1, ?_⟩
  intro c hc
  by_cases e : i = c
  · subst e
    left
    rw [List.getElem?_set_self (by rw [h.1]; omega)]
  · rw [List.getElem?_set_ne e]
    exact h.2 c hc

theorem Cells.skip (h : Cells M cells) {a : List Nat} (hp : Part M cells a) (fuel f : Nat) (hf : f ≤ M) (hfuel : M - f < fuel) :
    ∃ f', skipGaps a fuel f = some f' ∧ f' ≤ M ∧ a[f']? = some (fin cells f) := by
  induction fuel generalizing f with
  | zero => omega
  | succ fuel ih =>
    rw [skipGaps, if_neg (by have := h.Msmall; omega)]
    rcases hp.2 f hf with e | ⟨e, h1, h2⟩
    · rw [obind (show rd a f = _ from e), if_neg (by have := h.fin_lt_gap f; omega)]
      exact ⟨f, rfl, hf, e⟩
    · rw [obind (show rd a f = _ from e), if_pos rfl]
      obtain ⟨f', g1, g2, g3⟩ := ih (f + 1) (by omega) (by omega)
      exact ⟨f', g1, g2, by rw [h2]; exact g3⟩

/-! ### chunks -/

/-- chunk arithmetic: `c` is the chunk size -/
structure Chunks (M t c : Nat) : Prop where
  size : chunkSize M t = c
  pos : 1 ≤ c
  cover : M ≤ c * t
  en : ∀ r < t, chunkEnd M t r = min M (c * (r + 1))
  be : ∀ r < t, chunkBegin M t r = min M (c * r)
  ini : ∀ r < t, (rinit M t r) = { i := min M (c * (r + 1)), phase := .test }

theorem chunks (hM1 : 1 ≤ M) (hM : M < 2147483648) {t : Nat} (ht : 1 ≤ t) (ht2 : t < 2147483648) :
    ∃ c, Chunks M t c := by
  have e : u32 (M + t - 1) = M + t - 1 := by
    unfold u32; exact Nat.mod_eq_of_lt (by omega)
  have hs : chunkSize M t = (M + t - 1) / t := by rw [chunkSize, e]
  refine ⟨(M + t - 1) / t, ?_⟩
  have h1 : (M + t - 1) / t * t ≤ M + t - 1 := Nat.div_mul_le_self _ _
  have h2 : M ≤ (M + t - 1) / t * t := IntSort.idivCeil_mul_ge M ht
  have h3 : 1 ≤ (M + t - 1) / t := by
    rw [Nat.le_div_iff_mul_le (by omega)]; omega
  generalize (M + t - 1) / t = c at *
  have hr : ∀ r ≤ t, c * r < 4294967296 := by
    intro r hr
    have : c * r ≤ c * t := Nat.mul_le_mul_left _ hr
    omega
  have hu : ∀ r ≤ t, u32 (c * r) = c * r := fun r hr' => Nat.mod_eq_of_lt (hr r hr')
  refine ⟨hs, h3, h2, ?_, ?_, ?_⟩
  · intro r hr; rw [chunkEnd, hs, hu _ (by omega)]
  · intro r hr; rw [chunkBegin, hs, hu _ (by omega)]
  · intro r hr'
    rw [rinit, chunkBegin, hs, hu _ (by omega)]
    congr 1
    have := hr (r + 1) (by omega)
    rw [Nat.mul_add, Nat.mul_one] at this ⊢
    have e : u32 (min M (c * r) + c) = min M (c * r) + c := Nat.mod_eq_of_lt (by omega)
    rw [e]
    omega

theorem Chunks.single {t c : Nat} (hc : Chunks M t c) (h : Cells M cells) {a : List Nat} (hp : Part M cells a) :
    ∃ a', singleBlock M t a = some a' ∧ Part M cells a' ∧
      ∀ r < t, a'[min M (c * (r + 1)) - 1]? = some (fin cells (min M (c * (r + 1)) - 1)) := by
  have hM := h.M_pos
  have key : ∀ m, m ≤ t → ∃ a', (List.range m).foldlM (fun a r => do
      let e := chunkEnd M t r
      if e = 0 then none
      else
        let f ← skipGaps a (a.length + 1) (e - 1)
        let x ← rd a f
        wr a (e - 1) x) a = some a' ∧ Part M cells a' ∧
      ∀ r < m, a'[min M (c * (r + 1)) - 1]? = some (fin cells (min M (c * (r + 1)) - 1)) := by
    intro m
    induction m with
    | zero => intro _; exact ⟨a, rfl, hp, fun r hr => absurd hr (Nat.not_lt_zero _)⟩
    | succ m ih =>
      intro hm
      obtain ⟨a', e1, p1, g1⟩ := ih (by omega)
      have hcm : 1 ≤ c * (m + 1) := Nat.mul_pos hc.pos (by omega)
      have hE : min M (c * (m + 1)) ≠ 0 := by omega
      obtain ⟨f', s1, s2, s3⟩ := h.skip p1 (a'.length + 1) (min M (c * (m + 1)) - 1) (by omega) (by rw [p1.1]; omega)
      refine ⟨a'.set (min M (c * (m + 1)) - 1) (fin cells (min M (c * (m + 1)) - 1)), ?_, p1.set (by omega), ?_⟩
      · rw [List.range_succ, List.foldlM_append, obind e1, List.foldlM_cons]
        simp only
        rw [hc.en m (by omega), if_neg hE, obind s1, obind (show rd a' f' = _ from s3)]
        unfold wr
        rw [if_pos (by rw [p1.1]; omega)]
        rfl
      · intro r hr
        by_cases e : min M (c * (m + 1)) - 1 = min M (c * (r + 1)) - 1
        · rw [← e, List.getElem?_set_self (by rw [p1.1]; omega)]
        · rw [List.getElem?_set_ne e]
          refine g1 r ?_
          by_contra hh
          have : r = m := by omega
          subst this
          exact e rfl
  exact key t (le_refl _)

/-! ### the repair loops -/

/-- the array entry `j` has its final value -/
def Ok (cells a : List Nat) (j : Nat) : Prop := a[j]? = some (fin cells j)

/-- invariant of a thread with chunk `[b, e)` -/
def RInv (cells : List Nat) (b e : Nat) (s : RState) (a : List Nat) : Prop :=
  match s.phase with
  | .test => b ≤ s.i ∧ s.i ≤ e ∧ ∀ j, s.i ≤ j → j < e → Ok cells a j
  | .load1 => b ≤ s.i ∧ s.i < e ∧ ∀ j, s.i < j → j < e → Ok cells a j
  | .load2 x => b ≤ s.i ∧ s.i < e ∧ (∀ j, s.i < j → j < e → Ok cells a j) ∧ a[s.i]? = some x
  | .load3 p => b ≤ s.i ∧ s.i < e ∧ (∀ j, s.i < j → j < e → Ok cells a j) ∧ Ok cells a p ∧ fin cells p = fin cells s.i
  | .store v => b ≤ s.i ∧ s.i < e ∧ (∀ j, s.i < j → j < e → Ok cells a j) ∧ v = fin cells s.i
  | .exit => ∀ j, b ≤ j → j < e → Ok cells a j

/-- steps left -/
def rmu (s : RState) : Nat :=
  match s.phase with
  | .test => 5 * s.i + 1
  | .load1 => 5 * s.i + 5
  | .load2 _ => 5 * s.i + 4
  | .load3 _ => 5 * s.i + 3
  | .store _ => 5 * s.i + 2
  | .exit => 0

theorem Ok.set {a : List Nat} {j i : Nat} (h : Ok cells a j) : Ok cells (a.set i (fin cells i)) j := by
  unfold Ok at *
  rw [List.getElem?_set]
  have hl : j < a.length := by
    by_contra hh
    rw [List.getElem?_eq_none (by omega)] at h
    cases h
  split
  · rename_i e; subst e; rw [if_pos hl]
  · exact h

theorem RInv.frame {b e : Nat} {s : RState} {a : List Nat} (h : RInv cells b e s a) {i : Nat} (hi : i < b ∨ e ≤ i) :
    RInv cells b e s (a.set i (fin cells i)) := by
  unfold RInv at *
  split at h
  · exact ⟨h.1, h.2.1, fun j h1 h2 => (h.2.2 j h1 h2).set⟩
  · exact ⟨h.1, h.2.1, fun j h1 h2 => (h.2.2 j h1 h2).set⟩
  · refine ⟨h.1, h.2.1, fun j h1 h2 => (h.2.2.1 j h1 h2).set, ?_⟩
    rw [List.getElem?_set_ne (by omega)]
    exact h.2.2.2
  · exact ⟨h.1, h.2.1, fun j h1 h2 => (h.2.2.1 j h1 h2).set, h.2.2.2.1.set, h.2.2.2.2⟩
  · exact ⟨h.1, h.2.1, fun j h1 h2 => (h.2.2.1 j h1 h2).set, h.2.2.2⟩
  · exact fun j h1 h2 => (h j h1 h2).set

/-- a step of one thread: defined, keeps the invariant, writes at most one entry of its own chunk and only its final
value -/
theorem Cells.rstep_spec (h : Cells M cells) {b e : Nat} {s : RState} {a : List Nat} (hp : Part M cells a)
    (heM : e ≤ M) (hlast : b < e → Ok cells a (e - 1)) (hI : RInv cells b e s a) :
    ∃ s' a', rstep b s a = some (s', a') ∧ RInv cells b e s' a' ∧
      (a' = a ∨ ∃ i, b ≤ i ∧ i < e ∧ a' = a.set i (fin cells i)) ∧
      (s.phase ≠ .exit → rmu s' < rmu s) ∧ (s.phase = .exit → s' = s) := by
  obtain ⟨i, ph⟩ := s
  cases ph with
  | test =>
    obtain ⟨h1, h2, h3⟩ := hI
    simp only at h1 h2 h3
    by_cases hb : b < i
    · refine ⟨{ i := i - 1, phase := .load1 }, a, ?_, ⟨by simp only; omega, by simp only; omega, ?_⟩, Or.inl rfl, ?_, fun h => by cases h⟩
      · unfold rstep; simp only; rw [if_pos hb]
      · intro j hj1 hj2
        simp only at hj1
        exact h3 j (by omega) hj2
      · intro _; simp only [rmu]; omega
    · refine ⟨{ i := i, phase := .exit }, a, ?_, ?_, Or.inl rfl, ?_, fun h => by cases h⟩
      · unfold rstep; simp only; rw [if_neg hb]
      · intro j hj1 hj2
        exact h3 j (by omega) hj2
      · intro _; simp only [rmu]; omega
  | load1 =>
    obtain ⟨h1, h2, h3⟩ := hI
    simp only at h1 h2 h3
    have hl : i < a.length := by rw [hp.1]; omega
    have hg : a[i]? = some a[i] := List.getElem?_eq_getElem hl
    refine ⟨{ i := i, phase := .load2 a[i] }, a, ?_, ⟨h1, h2, h3, hg⟩, Or.inl rfl, ?_, fun h => by cases h⟩
    · unfold rstep; simp only; rw [obind (show rd a i = _ from hg)]
    · intro _; simp only [rmu]; omega
  | load2 x =>
    obtain ⟨h1, h2, h3, h4⟩ := hI
    simp only at h1 h2 h3 h4
    have hl : i + 1 < a.length := by rw [hp.1]; omega
    have hg : a[i + 1]? = some a[i + 1] := List.getElem?_eq_getElem hl
    refine ⟨{ i := i, phase := .load3 (if a[i + 1] < x then i + 1 else i) }, a, ?_, ⟨h1, h2, h3, ?_⟩, Or.inl rfl, ?_, fun h => by cases h⟩
    · unfold rstep; simp only; rw [obind (show rd a (i + 1) = _ from hg)]
    · simp only
      rcases hp.2 i (by omega) with hf | ⟨hgap, hiM, hfe⟩
      · -- entry already final
        have hx : x = fin cells i := by
          rw [hf] at h4; simp only [Option.some.injEq] at h4; exact h4.symm
        have hy : ¬ a[i + 1] < x := by
          have hm := fin_mono (cells := cells) (show i ≤ i + 1 by omega)
          rcases hp.2 (i + 1) (by omega) with hf' | ⟨hg', _, _⟩
          · rw [hg] at hf'; simp only [Option.some.injEq] at hf'; omega
          · rw [hg] at hg'; simp only [Option.some.injEq] at hg'
            have := h.fin_lt_gap i
            omega
        rw [if_neg hy]
        exact ⟨hf, rfl⟩
      · -- gap: the successor is in the own chunk and final
        have hx : x = gap := by
          rw [hgap] at h4; simp only [Option.some.injEq] at h4; exact h4.symm
        have hie : i + 1 < e := by
          by_contra hh
          have : i = e - 1 := by omega
          have hl' := hlast (by omega)
          unfold Ok at hl'
          rw [← this, hgap] at hl'
          simp only [Option.some.injEq] at hl'
          have := h.fin_lt_gap i
          omega
        have ho := h3 (i + 1) (by omega) hie
        have hy : a[i + 1] < x := by
          unfold Ok at ho
          rw [hg] at ho; simp only [Option.some.injEq] at ho
          have := h.fin_lt_gap (i + 1)
          omega
        rw [if_pos hy]
        exact ⟨ho, hfe.symm⟩
    · intro _; simp only [rmu]; omega
  | load3 p =>
    obtain ⟨h1, h2, h3, h4, h5⟩ := hI
    simp only at h1 h2 h3 h4 h5
    refine ⟨{ i := i, phase := .store (fin cells p) }, a, ?_, ⟨h1, h2, h3, h5⟩, Or.inl rfl, ?_, fun h => by cases h⟩
    · unfold rstep; simp only; rw [obind (show rd a p = _ from h4)]
    · intro _; simp only [rmu]; omega
  | store v =>
    obtain ⟨h1, h2, h3, h4⟩ := hI
    simp only at h1 h2 h3 h4
    subst h4
    have hl : i < a.length := by rw [hp.1]; omega
    refine ⟨{ i := i, phase := .test }, a.set i (fin cells i), ?_, ⟨h1, by simp only; omega, ?_⟩, Or.inr ⟨i, h1, h2, rfl⟩, ?_, fun h => by cases h⟩
    · unfold rstep; simp only; unfold wr; rw [if_pos hl]; rfl
    · intro j hj1 hj2
      simp only at hj1
      by_cases e : i = j
      · subst e; unfold Ok; rw [List.getElem?_set_self hl]
      · exact (h3 j (by omega) hj2).set
    · intro _; simp only [rmu]; omega
  | exit => exact ⟨_, a, rfl, hI, Or.inl rfl, fun h => absurd rfl h, fun _ => rfl⟩

/-- global invariant -/
structure GI (M t c : Nat) (cells : List Nat) (g : List RState × List Nat) : Prop where
  part : Part M cells g.2
  last : ∀ r < t, Ok cells g.2 (min M (c * (r + 1)) - 1)
  len : g.1.length = t
  inv : ∀ r < t, ∃ s, g.1[r]? = some s ∧ RInv cells (min M (c * r)) (min M (c * (r + 1))) s g.2

theorem repairStep_spec {t c : Nat} (hc : Chunks M t c) (h : Cells M cells) {g : List RState × List Nat}
    (hg : GI M t c cells g) {r : Nat} (hr : r < t) :
    ∃ g', repairStep M t g r = some g' ∧ GI M t c cells g' ∧ (∀ q, q ≠ r → g'.1[q]? = g.1[q]?) ∧
      ∀ s, g.1[r]? = some s → ∃ s', g'.1[r]? = some s' ∧ (s.phase ≠ .exit → rmu s' < rmu s) ∧ (s.phase = .exit → s' = s) := by
  obtain ⟨s, hs, hI⟩ := hg.inv r hr
  obtain ⟨s', a', e1, hI', hch, hmu, hex⟩ := h.rstep_spec hg.part (Nat.min_le_left _ _) (fun _ => hg.last r hr) hI
  have hrl : r < g.1.length := by rw [hg.len]; exact hr
  refine ⟨(g.1.set r s', a'), ?_, ?_, ?_, ?_⟩
  · unfold repairStep
    rw [obind (show rd g.1 r = _ from hs), hc.be r hr, obind e1]
  · have other : ∀ q < t, q ≠ r → ∀ u, RInv cells (min M (c * q)) (min M (c * (q + 1))) u g.2 →
        RInv cells (min M (c * q)) (min M (c * (q + 1))) u a' := by
      intro q hq hne u hu
      rcases hch with rfl | ⟨i, hi1, hi2, rfl⟩
      · exact hu
      · apply hu.frame
        rcases Nat.lt_or_gt_of_ne hne with hlt | hgt
        · have : c * (q + 1) ≤ c * r := Nat.mul_le_mul_left _ hlt
          omega
        · have : c * (r + 1) ≤ c * q := Nat.mul_le_mul_left _ hgt
          omega
    constructor
    · rcases hch with rfl | ⟨i, hi1, hi2, rfl⟩
      · exact hg.part
      · exact hg.part.set (by omega)
    · intro q hq
      rcases hch with rfl | ⟨i, hi1, hi2, rfl⟩
      · exact hg.last q hq
      · exact (hg.last q hq).set
    · simpa using hg.len
    · intro q hq
      by_cases e : r = q
      · subst e
        exact ⟨s', List.getElem?_set_self hrl, hI'⟩
      · obtain ⟨u, hu, hui⟩ := hg.inv q hq
        exact ⟨u, by rw [List.getElem?_set_ne e]; exact hu, other q hq (fun h => e h.symm) u hui⟩
  · intro q hq
    show (g.1.set r s')[q]? = _
    rw [List.getElem?_set_ne (fun h => hq h.symm)]
  · intro u hu
    rw [hs] at hu
    simp only [Option.some.injEq] at hu
    subst hu
    exact ⟨s', List.getElem?_set_self hrl, hmu, hex⟩

theorem repairRun_spec {t c : Nat} (hc : Chunks M t c) (h : Cells M cells) (sched : List Nat) (hs : ∀ r ∈ sched, r < t)
    (g : List RState × List Nat) (hg : GI M t c cells g) :
    ∃ g', repairRun M t g sched = some g' ∧ GI M t c cells g' ∧
      ∀ r s, g.1[r]? = some s → ∃ s', g'.1[r]? = some s' ∧
        (s'.phase = .exit ∨ rmu s' + sched.count r ≤ rmu s) ∧ (s.phase = .exit → s' = s) := by
  induction sched generalizing g with
  | nil => exact ⟨g, rfl, hg, fun r s hs => ⟨s, hs, Or.inr (by simp), fun _ => rfl⟩⟩
  | cons a sched ih =>
    obtain ⟨g1, e1, h1, hne, heq⟩ := repairStep_spec hc h hg (hs a (by simp))
    obtain ⟨g2, e2, h2, hprog⟩ := ih (fun i hi => hs i (by simp [hi])) g1 h1
    refine ⟨g2, ?_, h2, ?_⟩
    · unfold repairRun
      rw [List.foldlM_cons, obind e1]
      exact e2
    · intro i s hsi
      by_cases e : i = a
      · subst e
        obtain ⟨s1, hs1, hm, hd⟩ := heq s hsi
        obtain ⟨s2, hs2, hm2, hd2⟩ := hprog i s1 hs1
        refine ⟨s2, hs2, ?_, fun h => by
          have := hd h
          subst this
          exact hd2 h⟩
        by_cases hph : s.phase = .exit
        · left
          have := hd hph
          subst this
          rw [hd2 hph]; exact hph
        · rcases hm2 with h | h
          · exact Or.inl h
          · right
            have := hm hph
            rw [List.count_cons_self]
            omega
      · obtain ⟨s2, hs2, hm2, hd2⟩ := hprog i s (by rw [hne i e]; exact hsi)
        refine ⟨s2, hs2, ?_, hd2⟩
        rw [List.count_cons_of_ne (fun h => e h.symm)]
        exact hm2

/-- steps of threads outside the team are undefined in the model -/
theorem sched_range {t : Nat} (sched : List Nat) (g g' : List RState × List Nat) (hl : g.1.length = t)
    (h : repairRun M t g sched = some g') : ∀ r ∈ sched, r < t := by
  induction sched generalizing g with
  | nil => intro r hr; simp at hr
  | cons a sched ih =>
    unfold repairRun at h
    rw [List.foldlM_cons] at h
    cases hst : repairStep M t g a with
    | none => rw [hst] at h; cases h
    | some g1 =>
      rw [obind hst] at h
      have ha : a < t ∧ g1.1.length = t := by
        unfold repairStep at hst
        cases hp : rd g.1 a with
        | none => rw [hp] at hst; cases hst
        | some s =>
          rw [obind hp] at hst
          have ha : a < t := by
            by_contra hc
            rw [rd, List.getElem?_eq_none (by omega)] at hp
            cases hp
          refine ⟨ha, ?_⟩
          cases hb : rstep (chunkBegin M t a) s g.2 with
          | none => rw [hb] at hst; cases hst
          | some x =>
            rw [obind hb] at hst
            simp only [Option.some.injEq] at hst
            rw [← hst]; simpa using hl
      intro r hr
      rcases List.mem_cons.1 hr with rfl | hr
      · exact ha.1
      · exact ih g1 ha.2 h r hr

theorem Cells.start (h : Cells M cells) {t : Nat} (ht : 1 ≤ t) (ht2 : t < 2147483648) :
    ∃ c, Chunks M t c ∧ ∃ a2, singleBlock M t (marked M cells) = some a2 ∧
      GI M t c cells ((List.range t).map (rinit M t), a2) := by
  obtain ⟨c, hc⟩ := chunks h.M_pos h.Msmall ht ht2
  obtain ⟨a2, e2, p2, g2⟩ := hc.single h h.part_marked
  refine ⟨c, hc, a2, e2, p2, g2, by simp, ?_⟩
  intro r hr
  refine ⟨rinit M t r, by simp [hr], ?_⟩
  rw [hc.ini r hr]
  refine ⟨?_, le_refl _, ?_⟩
  · simp only
    have : c * r ≤ c * (r + 1) := Nat.mul_le_mul_left _ (by omega)
    omega
  · intro j h1 h2
    simp only at h1
    omega

theorem GI.finish {t c : Nat} (hc : Chunks M t c) {g : List RState × List Nat} (hg : GI M t c cells g)
    (hex : ∀ s ∈ g.1, s.phase = .exit) : g.2 = (List.range (M + 1)).map (fin cells) := by
  apply List.ext_getElem?
  intro j
  by_cases hj : j ≤ M
  · rw [List.getElem?_map, List.getElem?_range (by omega), Option.map_some]
    by_cases hjM : j < M
    · have hr : j / c < t := by
        rw [Nat.div_lt_iff_lt_mul (by have := hc.pos; omega), Nat.mul_comm]
        have := hc.cover
        omega
      obtain ⟨s, hs, hI⟩ := hg.inv (j / c) hr
      have he := hex s (List.mem_of_getElem? hs)
      unfold RInv at hI
      rw [he] at hI
      simp only at hI
      have h1 := Nat.div_mul_le_self j c
      have h2 := Nat.lt_div_mul_add (a := j) (b := c) (by have := hc.pos; omega)
      refine hI j ?_ ?_
      · rw [Nat.mul_comm c]; omega
      · rw [Nat.mul_add, Nat.mul_one, Nat.mul_comm c]; omega
    · have : j = M := by omega
      subst this
      rcases hg.part.2 j (le_refl _) with h | ⟨_, h, _⟩
      · exact h
      · omega
  · rw [List.getElem?_eq_none (by rw [hg.part.1]; omega), List.getElem?_eq_none (by simp; omega)]

/-- C12 core -/
theorem Cells.indexRun (h : Cells M cells) {t : Nat} (ht : 1 ≤ t) (ht2 : t < 2147483648) {out : List Nat}
    (hr : IndexRun M t cells out) : out = (List.range (M + 1)).map (fin cells) := by
  obtain ⟨a0, ws, a1, a2, sched, states, e0, hw, e1, e2, e3, hex⟩ := hr
  rw [h.marking e0 hw] at e1
  simp only [Option.some.injEq] at e1
  subst e1
  obtain ⟨c, hc, a2', e2', hgi⟩ := h.start ht ht2
  rw [e2] at e2'
  simp only [Option.some.injEq] at e2'
  subst e2'
  have hrange := sched_range sched _ _ (by simp) e3
  obtain ⟨g', e4, hg', _⟩ := repairRun_spec hc h sched hrange _ hgi
  rw [e3] at e4
  simp only [Option.some.injEq] at e4
  subst e4
  exact hg'.finish hc hex

theorem Cells.indexSafe (h : Cells M cells) {t : Nat} (ht : 1 ≤ t) (ht2 : t < 2147483648) : IndexSafe M t cells := by
  obtain ⟨a0, e0, _, _⟩ := h.markInit_eq
  refine ⟨a0, e0, ?_⟩
  intro ws hw
  obtain ⟨c, hc, a2, e2, hgi⟩ := h.start ht ht2
  refine ⟨_, a2, h.marking e0 hw, e2, ?_⟩
  intro sched hs
  obtain ⟨g', e4, _, _⟩ := repairRun_spec hc h sched hs _ hgi
  exact ⟨g', e4⟩

theorem Cells.indexRun_exists (h : Cells M cells) {t : Nat} (ht : 1 ≤ t) (ht2 : t < 2147483648) :
    ∃ out, IndexRun M t cells out := by
  obtain ⟨a0, e0, _, _⟩ := h.markInit_eq
  obtain ⟨c, hc, a2, e2, hgi⟩ := h.start ht ht2
  let K := 5 * M + 6
  let sched := (List.range t).flatMap (fun i => List.replicate K i)
  have hs : ∀ i ∈ sched, i < t := by
    intro i hi
    obtain ⟨j, hj, hij⟩ := List.mem_flatMap.1 hi
    rw [(List.mem_replicate.1 hij).2]
    exact List.mem_range.1 hj
  have hcnt : ∀ i < t, K ≤ sched.count i := by
    intro i hi
    obtain ⟨l1, l2, e⟩ := List.append_of_mem (List.mem_range.2 hi)
    have e' : sched = l1.flatMap (fun i => List.replicate K i) ++ (List.replicate K i ++ l2.flatMap (fun i => List.replicate K i)) := by
      show (List.range t).flatMap _ = _
      rw [e, List.flatMap_append, List.flatMap_cons]
    rw [e', List.count_append, List.count_append, List.count_replicate_self]
    omega
  obtain ⟨g', e4, hg', hprog⟩ := repairRun_spec hc h sched hs _ hgi
  refine ⟨g'.2, a0, marks cells, _, a2, sched, g'.1, e0, List.Perm.refl _, h.marking e0 (List.Perm.refl _), e2, e4, ?_⟩
  intro s hs'
  obtain ⟨i, hi⟩ := List.mem_iff_getElem?.1 hs'
  have hit : i < t := by
    rw [← hg'.len]
    by_contra hh
    rw [List.getElem?_eq_none (by omega)] at hi
    cases hi
  obtain ⟨s0, hs0, _⟩ := hgi.inv i hit
  obtain ⟨s', hs1, hp, _⟩ := hprog i s0 hs0
  rw [hi] at hs1
  simp only [Option.some.injEq] at hs1
  subst hs1
  rcases hp with hp | hp
  · exact hp
  · exfalso
    have h1 := hcnt i hit
    have h2 : s0 = rinit M t i := by
      have : ((List.range t).map (rinit M t))[i]? = some (rinit M t i) := by simp [hit]
      rw [this] at hs0
      simp only [Option.some.injEq] at hs0
      exact hs0.symm
    have h3 : rmu s0 ≤ 5 * M + 1 := by
      rw [h2, hc.ini i hit]
      simp only [rmu]
      omega
    have h4 : K = 5 * M + 6 := rfl
    omega

end
end Girgs.Build
