import Verif.Proofs.ScalingValue
import Verif.Proofs.LazySorter
/-
The degree estimators in exact arithmetic: common part (sorting, reductions, inner loop).
-/
namespace Girgs.Scaling
open CFloat
open XR (fin)

/-! ### order of the extended reals -/

/-- not NaN -/
def IsNum (a : XR) : Prop := a ≠ .nan

/-- value of a number -/
noncomputable def xkey : XR → EReal
  | .fin x => (x : EReal)
  | .pinf => ⊤
  | .ninf => ⊥
  | .nan => 0

theorem xr_ordered : OrderedBy IsNum xkey := by
  intro a b ha hb
  cases a <;> cases b <;> first | exact absurd rfl ha | exact absurd rfl hb | skip
  all_goals
    constructor
    · first
      | (show decide _ = true ↔ _; rw [decide_eq_true_iff]; exact EReal.coe_lt_coe_iff.symm)
      | (show true = true ↔ _; simp [xkey, EReal.coe_lt_top, EReal.bot_lt_coe])
      | (show false = true ↔ _; simp [xkey])
    · first
      | (show decide _ = true ↔ _; rw [decide_eq_true_iff]; exact EReal.coe_eq_coe_iff.symm)
      | (show true = true ↔ _; simp [xkey])
      | (show false = true ↔ _; simp [xkey])

/-! ### reductions -/

theorem ompSum_eq (part : List (List Nat)) (f : Nat → XR) (h : Nat → ℝ) (hf : ∀ i ∈ part.flatten, f i = fin (h i)) :
    ompSum part f = fin ((part.flatten.map h).sum) := by
  have inner : ∀ (c : List Nat) (a : ℝ), (∀ i ∈ c, f i = fin (h i)) →
      c.foldl (fun a i => a +. f i) (fin a) = fin (a + (c.map h).sum) := by
    intro c
    induction c with
    | nil => intro a _; simp
    | cons i c ih =>
      intro a hc
      rw [List.foldl_cons, hc i (by simp), XR.add_fin, ih _ fun j hj => hc j (by simp [hj])]
      simp [add_assoc]
  have outer : ∀ (p : List (List Nat)) (a : ℝ), (∀ i ∈ p.flatten, f i = fin (h i)) →
      p.foldl (fun acc chunk => acc +. chunk.foldl (fun a i => a +. f i) (CFloat.ofRat 0)) (fin a) =
        fin (a + (p.flatten.map h).sum) := by
    intro p
    induction p with
    | nil => intro a _; simp
    | cons c p ih =>
      intro a hp
      rw [List.foldl_cons]
      have e0 : (CFloat.ofRat 0 : XR) = fin 0 := by show fin ((0 : ℚ) : ℝ) = _; norm_num
      rw [e0, inner c 0 (fun i hi => hp i (by simp [hi])), XR.add_fin, ← e0,
        ih _ (fun i hi => hp i (by rw [List.flatten_cons]; exact List.mem_append_right _ hi))]
      simp [add_assoc]
  have := outer part 0 hf
  unfold ompSum
  have e0 : (CFloat.ofRat 0 : XR) = fin 0 := by show fin ((0 : ℚ) : ℝ) = _; norm_num
  conv => lhs; arg 2; rw [e0]
  rw [this, zero_add]

/-- value of `-std::numeric_limits<double>::max()` -/
noncomputable def lowestR : ℝ := ((-(((2 ^ 53 - 1) * 2 ^ 971 : Nat) : ℚ) : ℚ) : ℝ)

theorem lowestR_neg : lowestR ≤ 0 := by
  unfold lowestR
  have : (-(((2 ^ 53 - 1) * 2 ^ 971 : Nat) : ℚ)) ≤ 0 := neg_nonpos.2 (Nat.cast_nonneg _)
  exact_mod_cast this

theorem foldl_max_eq (l : List ℝ) (a : ℝ) : ∀ m, (∀ y ∈ l, y ≤ m) → a ≤ m → (a = m ∨ m ∈ l) → l.foldl max a = m := by
  induction l generalizing a with
  | nil => intro m _ h1 h2; simpa using h2
  | cons y l ih =>
    intro m h1 h2 h3
    rw [List.foldl_cons]
    refine ih _ m (fun z hz => h1 z (by simp [hz])) (max_le h2 (h1 y (by simp))) ?_
    rcases h3 with h | h
    · left; rw [h]; exact max_eq_left (h1 y (by simp))
    · rcases List.mem_cons.1 h with rfl | h
      · left; exact max_eq_right h2
      · exact Or.inr h

theorem ompMax_eq (part : List (List Nat)) (f : Nat → XR) (h : Nat → ℝ) (hf : ∀ i ∈ part.flatten, f i = fin (h i)) {m : ℝ}
    (hm : ∀ i ∈ part.flatten, h i ≤ m) (hpos : 0 ≤ m) (hex : ∃ i ∈ part.flatten, h i = m) :
    ompMax part f = fin m := by
  have inner : ∀ (c : List Nat) (a : ℝ), (∀ i ∈ c, f i = fin (h i)) →
      c.foldl (fun a i => fmax a (f i)) (fin a) = fin ((c.map h).foldl max a) := by
    intro c
    induction c with
    | nil => intro a _; rfl
    | cons i c ih =>
      intro a hc
      rw [List.foldl_cons, hc i (by simp), XR.fmax_fin, ih _ fun j hj => hc j (by simp [hj])]
      rfl
  have elow : (dblLowest : XR) = fin lowestR := by
    unfold dblLowest lowestR
    generalize (-(((2 ^ 53 - 1) * 2 ^ 971 : Nat) : ℚ)) = q
    rfl
  have e0 : (CFloat.ofRat 0 : XR) = fin 0 := by show fin ((0 : ℚ) : ℝ) = _; norm_num
  have outer : ∀ (p : List (List Nat)) (a : ℝ), (∀ i ∈ p.flatten, f i = fin (h i)) →
      (∀ i ∈ p.flatten, h i ≤ m) → a ≤ m → (a = m ∨ ∃ i ∈ p.flatten, h i = m) →
      p.foldl (fun acc chunk => fmax acc (chunk.foldl (fun a i => fmax a (f i)) dblLowest)) (fin a) = fin m := by
    intro p
    induction p with
    | nil => intro a _ _ _ h; simpa using h
    | cons c p ih =>
      intro a hp hm ha hex
      rw [List.foldl_cons, elow, inner c _ (fun i hi => hp i (by simp [hi])), XR.fmax_fin, ← elow]
      have hle : (c.map h).foldl max lowestR ≤ m := by
        have : ∀ (l : List ℝ) (a : ℝ), a ≤ m → (∀ y ∈ l, y ≤ m) → l.foldl max a ≤ m := by
          intro l
          induction l with
          | nil => intro a ha _; exact ha
          | cons y l ih => intro a ha hl; exact ih _ (max_le ha (hl y (by simp))) fun z hz => hl z (by simp [hz])
        refine this _ _ (lowestR_neg.trans hpos) ?_
        intro y hy
        obtain ⟨i, hi, rfl⟩ := List.mem_map.1 hy
        exact hm i (by simp [hi])
      refine ih _ (fun i hi => hp i (by rw [List.flatten_cons]; exact List.mem_append_right _ hi))
        (fun i hi => hm i (by rw [List.flatten_cons]; exact List.mem_append_right _ hi)) (max_le ha hle) ?_
      rcases hex with h | ⟨i, hi, him⟩
      · left; rw [h]; exact max_eq_left hle
      · rw [List.flatten_cons] at hi
        rcases List.mem_append.1 hi with hi | hi
        · left
          have : (c.map h).foldl max lowestR = m := foldl_max_eq _ _ m (by
            intro y hy
            obtain ⟨j, hj, rfl⟩ := List.mem_map.1 hy
            exact hm j (by simp [hj])) (lowestR_neg.trans hpos) (Or.inr (List.mem_map.2 ⟨i, hi, him⟩))
          rw [this]; exact max_eq_right ha
        · exact Or.inr ⟨i, hi, him⟩
  unfold ompMax
  conv => lhs; arg 2; rw [e0]
  exact outer part 0 hf hm hpos (Or.inr hex)

/-! ### sorted weights -/

/-- the weights in descending order -/
noncomputable def sortDesc (w : List ℝ) : List ℝ := w.mergeSort fun a b => decide (b ≤ a)

theorem sortDesc_perm (w : List ℝ) : (sortDesc w).Perm w := List.mergeSort_perm _ _

theorem sortDesc_sorted (w : List ℝ) : (sortDesc w).Pairwise fun a b => b ≤ a := by
  have := List.pairwise_mergeSort (le := fun a b : ℝ => decide (b ≤ a))
    (fun a b c h1 h2 => by simp only [decide_eq_true_eq] at *; linarith)
    (fun a b => by simp only [Bool.or_eq_true, decide_eq_true_eq]; exact le_total b a) w
  exact this.imp fun h => by simpa using h

/-- the `i`-th largest weight -/
noncomputable def bw (w : List ℝ) (i : ℕ) : ℝ := (sortDesc w).getD i 0

theorem sortDesc_length (w : List ℝ) : (sortDesc w).length = w.length := (sortDesc_perm w).length_eq

theorem bw_eq (w : List ℝ) {i : ℕ} (hi : i < w.length) : bw w i = (sortDesc w)[i]'(by rw [sortDesc_length]; exact hi) := by
  unfold bw; rw [List.getD_eq_getElem?_getD, List.getElem?_eq_getElem]; rfl

theorem bw_mem (w : List ℝ) {i : ℕ} (hi : i < w.length) : bw w i ∈ w := by
  rw [bw_eq w hi]; exact (sortDesc_perm w).mem_iff.1 (List.getElem_mem _)

theorem bw_weights {w : List ℝ} (hw : ∀ y ∈ w, 0 < y) : Weights w.length (bw w) where
  pos i hi := hw _ (bw_mem w hi)
  anti i j hij hj := by
    rcases Nat.lt_or_eq_of_le hij with h | rfl
    · rw [bw_eq w hj, bw_eq w (by omega)]
      exact List.pairwise_iff_getElem.1 (sortDesc_sorted w) i j _ _ h
    · exact le_rfl

theorem bw_zero_max {w : List ℝ} (hw : ∀ y ∈ w, 0 < y) (y : ℝ) (hy : y ∈ w) : y ≤ bw w 0 := by
  obtain ⟨i, hi, rfl⟩ := List.getElem_of_mem ((sortDesc_perm w).mem_iff.2 hy)
  rw [sortDesc_length] at hi
  rw [← bw_eq w hi]
  exact (bw_weights hw).anti 0 i (Nat.zero_le _) hi

theorem sum_bw (w : List ℝ) (h : ℝ → ℝ) : ∑ i ∈ Finset.range w.length, h (bw w i) = (w.map h).sum := by
  rw [← ((sortDesc_perm w).map h).sum_eq, Finset.sum_range, ← Fin.sum_univ_getElem]
  · have e : ((sortDesc w).map h).length = w.length := by rw [List.length_map, sortDesc_length]
    rw [← Fin.sum_congr' _ e]
    refine Finset.sum_congr rfl fun i _ => ?_
    simp only [List.getElem_map]
    rw [bw_eq w (by have := i.2; omega)]
    rfl

/-- the sum over the original weights -/
theorem sum_wAt (w : List ℝ) (h : ℝ → ℝ) {part : List (List Nat)} (hp : part.flatten.Perm (List.range w.length)) :
    (part.flatten.map fun i => h (w.getD i 0)).sum = (w.map h).sum := by
  rw [(hp.map _).sum_eq]
  congr 1
  apply List.ext_getElem
  · simp
  · intro i h1 h2
    simp at h1
    simp [h1]

theorem wAt_eq (w : List ℝ) (i : ℕ) : wAt (w.map fin) i = fin (w.getD i 0) := by
  unfold wAt
  have e0 : (CFloat.ofRat 0 : XR) = fin 0 := by show fin ((0 : ℚ) : ℝ) = _; norm_num
  rw [e0, List.getD_eq_getElem?_getD, List.getD_eq_getElem?_getD, List.getElem?_map]
  cases w[i]? <;> rfl

/-! ### the rich club -/

/-- the vector of the sorter consists of real numbers -/
theorem vec_real {w : List ℝ} {vec : List XR} (h : vec.Perm (w.map fin)) : ∃ r : List ℝ, r.Perm w ∧ vec = r.map fin := by
  have inj : Function.Injective (fin : ℝ → XR) := fun a b h => by cases h; rfl
  have hm : ∀ y ∈ vec, ∃ z, fin z = y := fun y hy => by
    obtain ⟨z, -, hz⟩ := List.mem_map.1 (h.mem_iff.1 hy)
    exact ⟨z, hz⟩
  have : ∃ r : List ℝ, vec = r.map fin := by
    clear h
    induction vec with
    | nil => exact ⟨[], rfl⟩
    | cons a v ih =>
      obtain ⟨r, hr⟩ := ih fun y hy => hm y (by simp [hy])
      obtain ⟨z, hz⟩ := hm a (by simp)
      exact ⟨z :: r, by rw [List.map_cons, hz, hr]⟩
  obtain ⟨r, hr⟩ := this
  refine ⟨r, ?_, hr⟩
  rw [hr] at h
  have h2 := h.map (fun a : XR => match a with | .fin z => z | _ => 0)
  simpa [List.map_map, Function.comp_def] using h2

theorem exists_stop (re : ℕ) (p : ℕ → Prop) (hp : ∀ i j, i ≤ j → j < re → p j → p i) :
    ∃ G ≤ re, ∀ j < re, (j < G ↔ p j) := by
  induction re with
  | zero => exact ⟨0, le_rfl, fun j hj => absurd hj (by omega)⟩
  | succ re ih =>
    by_cases h : p re
    · exact ⟨re + 1, le_rfl, fun j hj => ⟨fun _ => hp j re (by omega) (by omega) h, fun _ => hj⟩⟩
    · obtain ⟨G, h1, h2⟩ := ih fun i j hij hj => hp i j hij (by omega)
      refine ⟨G, by omega, fun j hj => ?_⟩
      rcases Nat.lt_or_eq_of_le (Nat.le_of_lt_succ hj) with h3 | rfl
      · exact h2 j h3
      · exact ⟨fun h4 => by omega, fun h4 => absurd h4 h⟩

theorem ge_fin (a b : ℝ) : ge (fin a) (fin b) = true ↔ b ≤ a := by
  rw [xr_ordered.ge_true (by simp [IsNum]) (by simp [IsNum])]
  exact EReal.coe_le_coe_iff

/-- the first `re` entries are the largest weights, and the loop bounds are well defined -/
theorem club_of_rich {w r : List ℝ} (hw : ∀ y ∈ w, 0 < y) (hr : r.Perm w) {re : ℕ} {thr x : ℝ} (hx : 0 < x)
    (hxt : x * bw w 0 * thr = 1) (h : RichClub (r.map fin) (fin thr) re) :
    (∀ i < re, (r.map fin)[i]? = some (fin (bw w i))) ∧ ∃ g, Club w.length re (bw w) x g := by
  obtain ⟨h1, h2, h3, h4⟩ := h
  rw [List.length_map, hr.length_eq] at h1
  rw [← List.map_take] at h2 h3
  rw [← List.map_drop] at h4
  have hd : (r.take re).Pairwise fun a b => b ≤ a := by
    unfold Desc at h2
    rw [List.pairwise_map] at h2
    exact h2.imp fun {a b} h => by simpa [XR.lt_fin] using h
  have hin : ∀ y ∈ r.take re, thr ≤ y := fun y hy => (ge_fin _ _).1 (h3 _ (List.mem_map_of_mem hy))
  have hout : ∀ y ∈ r.drop re, y ≤ thr := fun y hy => by
    have := h4 _ (List.mem_map_of_mem hy)
    simpa [XR.lt_fin] using this
  -- the sorted vector starts with the club
  have hsort : sortDesc w = r.take re ++ sortDesc (r.drop re) := by
    have hp : (sortDesc w).Perm (r.take re ++ sortDesc (r.drop re)) := by
      refine (sortDesc_perm w).trans (hr.symm.trans ?_)
      conv => lhs; rw [← List.take_append_drop re r]
      exact (sortDesc_perm _).symm.append_left _
    refine List.Perm.eq_of_pairwise (fun a b _ _ h1 h2 => le_antisymm h2 h1) (sortDesc_sorted w) ?_ hp
    rw [List.pairwise_append]
    refine ⟨hd, sortDesc_sorted _, fun a ha b hb => ?_⟩
    exact (hout b ((sortDesc_perm _).mem_iff.1 hb)).trans (hin a ha)
  have hlt : (r.take re).length = re := by rw [List.length_take, hr.length_eq]; omega
  have hget : ∀ i (hi : i < re), ∃ h : i < r.length, bw w i = r[i] := by
    intro i hi
    refine ⟨by rw [hr.length_eq]; omega, ?_⟩
    rw [bw_eq w (by omega)]
    simp only [hsort]
    rw [List.getElem_append_left (by omega), List.getElem_take]
  have hbw := bw_weights hw
  refine ⟨fun i hi => ?_, ?_⟩
  · obtain ⟨hl, he⟩ := hget i hi
    rw [he, List.getElem?_map, List.getElem?_eq_getElem hl]; rfl
  · have hstop : ∀ i, ∃ G, i < re → G ≤ re ∧ ∀ j < re, (j < G ↔ 1 ≤ x * bw w i * bw w j) := by
      intro i
      by_cases hi : i < re
      · obtain ⟨G, hG⟩ := exists_stop re (fun j => 1 ≤ x * bw w i * bw w j) (fun j k hjk hk h => by
          have a1 := hbw.anti j k hjk (by omega)
          have a2 := hbw.pos i (by omega)
          have : x * bw w i * bw w k ≤ x * bw w i * bw w j := by gcongr
          exact h.trans this)
        exact ⟨G, fun _ => hG⟩
      · exact ⟨0, fun h => absurd h hi⟩
    choose g hg using hstop
    refine ⟨g, h1, hx, hbw.pos, hbw.anti, ?_, ?_, fun i hi => (hg i hi).1, fun i hi => (hg i hi).2⟩
    · intro i hi
      obtain ⟨hl, he⟩ := hget i hi
      rw [← hxt]
      have a1 := hbw.pos 0 (by omega)
      have : thr ≤ bw w i := he ▸ hin _ (by
        rw [List.mem_take_iff_getElem]; exact ⟨i, by omega, rfl⟩)
      gcongr
    · intro i hi hin'
      rw [← hxt]
      have a1 := hbw.pos 0 (by omega)
      have : bw w i ≤ thr := by
        rw [bw_eq w hin']
        simp only [hsort]
        rw [List.getElem_append_right (by omega)]
        exact hout _ ((sortDesc_perm _).mem_iff.1 (List.getElem_mem _))
      gcongr

end Girgs.Scaling
