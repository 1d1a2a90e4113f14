import Verif.Model.IntSort
import Verif.Spec.Sorting
import Mathlib.Data.List.Range
import Mathlib.Data.List.Count
import Mathlib.Data.Fintype.EquivFin
import Mathlib.Algebra.BigOperators.Group.List.Basic
import Mathlib.Tactic.Linarith
/-
Counting sort: positions, bucket concatenation, stability.
-/
namespace Girgs.IntSort
variable {T : Type}

/-- the buckets one after the other -/
def bc (d : T → Nat) (Q : Nat) (X : List T) : List T := (List.range Q).flatMap fun q => X.filter (fun x => d x == q)

/-- final position of element `k` -/
def pos (d : T → Nat) (X : List T) (k : Nat) (x : T) : Nat :=
  X.countP (fun y => decide (d y < d x)) + (X.take k).countP (fun y => d y == d x)

theorem _root_.Girgs.StablySorted.perm {key : T → Nat} {X Y : List T} (h : StablySorted key X Y) : Y.Perm X := by
  classical
  rw [List.perm_iff_count]
  intro a
  have e := h.stable (key a)
  have : ∀ L : List T, L.count a = (L.filter (fun b => key b == key a)).count a := by
    intro L
    rw [List.count_filter]; simp
  rw [this Y, this X, e]

theorem bc_length_prefix (d : T → Nat) (q : Nat) (X : List T) :
    (bc d q X).length = X.countP (fun y => decide (d y < q)) := by
  induction q with
  | zero => simp [bc]
  | succ q ih =>
    rw [bc, List.range_succ, List.flatMap_append, List.length_append]
    rw [bc] at ih
    rw [ih]
    simp only [List.flatMap_cons, List.flatMap_nil, List.append_nil]
    rw [← List.countP_eq_length_filter]
    clear ih
    induction X with
    | nil => rfl
    | cons x X ih =>
      rw [List.countP_cons, List.countP_cons, List.countP_cons]
      have : (if decide (d x < q + 1) = true then 1 else 0) = (if decide (d x < q) = true then 1 else 0) + (if (d x == q) = true then 1 else 0) := by
        simp only [decide_eq_true_eq, beq_iff_eq]
        split_ifs <;> omega
      omega

theorem bc_split (d : T → Nat) {q Q : Nat} (h : q < Q) (X : List T) :
    ∃ post, bc d Q X = bc d q X ++ (X.filter (fun x => d x == q) ++ post) := by
  obtain ⟨r, rfl⟩ : ∃ r, Q = q + (1 + r) := ⟨Q - q - 1, by omega⟩
  refine ⟨((List.range r).map (fun x => q + Nat.succ x)).flatMap (fun q => X.filter (fun x => d x == q)), ?_⟩
  rw [bc, List.range_add, List.flatMap_append, ← bc]
  rw [Nat.add_comm 1 r, List.range_succ_eq_map, List.map_cons, List.flatMap_cons, List.map_map]
  rfl

theorem filter_get {p : T → Bool} {X : List T} {k : Nat} {x : T} (hx : X[k]? = some x) (hp : p x = true) :
    (X.filter p)[(X.take k).countP p]? = some x := by
  have hk : k < X.length := by
    by_contra h
    rw [List.getElem?_eq_none (by omega)] at hx
    simp at hx
  have e : X = X.take k ++ x :: X.drop (k + 1) := by
    conv_lhs => rw [← List.take_append_drop k X, List.drop_eq_getElem_cons hk]
    rw [List.getElem?_eq_getElem hk] at hx
    simp only [Option.some.injEq] at hx
    rw [hx]
  have e2 : X.filter p = (X.take k).filter p ++ x :: (X.drop (k+1)).filter p := by
    conv_lhs => rw [e]
    rw [List.filter_append, List.filter_cons_of_pos hp]
  rw [e2, List.countP_eq_length_filter, List.getElem?_append_right (by omega)]
  simp

theorem bc_get {d : T → Nat} {Q : Nat} {X : List T} {k : Nat} {x : T} (hx : X[k]? = some x) (hd : d x < Q) :
    (bc d Q X)[pos d X k x]? = some x := by
  obtain ⟨post, e⟩ := bc_split d hd X
  rw [e, pos, ← bc_length_prefix d (d x) X, List.getElem?_append_right (by omega), Nat.add_sub_cancel_left]
  rw [List.getElem?_append_left]
  · exact filter_get hx (by simp)
  · have := filter_get (p := fun y => d y == d x) hx (by simp)
    by_contra h
    rw [List.getElem?_eq_none (by omega)] at this
    simp at this

theorem bc_length {d : T → Nat} {Q : Nat} {X : List T} (h : ∀ x ∈ X, d x < Q) : (bc d Q X).length = X.length := by
  rw [bc_length_prefix, List.countP_eq_length]
  simpa using h

theorem mem_of_get {X : List T} {k : Nat} {x : T} (hx : X[k]? = some x) : x ∈ X := List.mem_of_getElem? hx

theorem pos_lt {d : T → Nat} {X : List T} {k : Nat} {x : T} (hx : X[k]? = some x) :
    pos d X k x < X.countP (fun y => decide (d y < d x + 1)) := by
  have := bc_get (d := d) (Q := d x + 1) hx (by omega)
  rw [← bc_length_prefix]
  by_contra h
  rw [List.getElem?_eq_none (by omega)] at this
  simp at this

theorem pos_inj {d : T → Nat} {X : List T} {k k' : Nat} {x x' : T} (hx : X[k]? = some x) (hx' : X[k']? = some x')
    (h : pos d X k x = pos d X k' x') : k = k' := by
  have lt_of : ∀ {k k' : Nat} {x x' : T}, X[k]? = some x → X[k']? = some x' → d x < d x' →
      pos d X k x < pos d X k' x' := by
    intro k k' x x' hx hx' hd
    refine lt_of_lt_of_le (pos_lt hx) ?_
    refine le_trans (List.countP_mono_left ?_) (Nat.le_add_right _ _)
    intro y _ hy
    simp only [decide_eq_true_eq] at hy ⊢
    omega
  have strict : ∀ {k k' : Nat} {x x' : T}, X[k]? = some x → X[k']? = some x' → d x = d x' → k < k' →
      pos d X k x < pos d X k' x' := by
    intro k k' x x' hx hx' hd hk
    unfold pos
    rw [← hd]
    have hk2 : k < X.length := by
      by_contra h
      rw [List.getElem?_eq_none (by omega)] at hx
      simp at hx
    have e : X.take (k + 1) = X.take k ++ [x] := by
      rw [List.take_succ, hx]; rfl
    have s : (X.take (k+1)).Sublist (X.take k') := by
      rw [show X.take (k+1) = (X.take k').take (k+1) by rw [List.take_take]; congr 1; omega]
      exact List.take_sublist _ _
    have := s.countP_le (p := fun y => d y == d x)
    rw [e, List.countP_append] at this
    simp only [List.countP_cons, List.countP_nil, beq_self_eq_true, if_true] at this
    omega
  rcases lt_trichotomy (d x) (d x') with hd | hd | hd
  · have := lt_of hx hx' hd; omega
  · rcases lt_trichotomy k k' with hk | hk | hk
    · have := strict hx hx' hd hk; omega
    · exact hk
    · have := strict hx' hx hd.symm hk; omega
  · have := lt_of hx' hx hd; omega

/-- every position is hit -/
theorem pos_surj {d : T → Nat} {Q : Nat} {X : List T} (hd : ∀ x ∈ X, d x < Q) {i : Nat} (hi : i < X.length) :
    ∃ k x, X[k]? = some x ∧ pos d X k x = i := by
  let f : Fin X.length → Fin X.length := fun k =>
    ⟨pos d X k X[k], by
      have := bc_get (d := d) (Q := Q) (X := X) (k := k) (x := X[k]) (by simp) (hd _ (List.getElem_mem _))
      have hl := bc_length hd
      by_contra h
      rw [List.getElem?_eq_none (by omega)] at this
      simp at this⟩
  have hinj : Function.Injective f := by
    intro a b h
    apply Fin.ext
    apply pos_inj (d := d) (X := X) (x := X[a]) (x' := X[b]) (by simp) (by simp)
    exact congrArg Fin.val h
  obtain ⟨k, hk⟩ := (Finite.surjective_of_injective hinj) ⟨i, hi⟩
  exact ⟨k, X[k], by simp, congrArg Fin.val hk⟩

/-- concatenating sorted buckets -/
theorem stablySorted_concat {d f f' : T → Nat} {Q : Nat} {X : List T} {Z : Nat → List T}
    (hd : ∀ x ∈ X, d x < Q)
    (hle : ∀ x y, d x < d y ∨ (d x = d y ∧ f x ≤ f y) → f' x ≤ f' y)
    (heq : ∀ x y, f' x = f' y → d x = d y ∧ f x = f y)
    (hZ : ∀ q < Q, StablySorted f (X.filter (fun x => d x == q)) (Z q)) :
    StablySorted f' X ((List.range Q).flatMap Z) := by
  have hmem : ∀ q < Q, ∀ x ∈ Z q, d x = q := by
    intro q hq x hx
    have := (hZ q hq).perm.mem_iff.1 hx
    simpa using (List.mem_filter.1 this).2
  constructor
  · rw [List.pairwise_flatMap]
    constructor
    · intro q hq
      have hq := List.mem_range.1 hq
      refine List.Pairwise.imp_of_mem ?_ (hZ q hq).ordered
      intro a b ha hb hab
      apply hle
      right
      exact ⟨by rw [hmem q hq a ha, hmem q hq b hb], hab⟩
    · refine List.Pairwise.imp_of_mem ?_ (List.pairwise_lt_range (n := Q))
      intro a b ha hb hab x hx y hy
      apply hle
      left
      rw [hmem a (List.mem_range.1 ha) x hx, hmem b (List.mem_range.1 hb) y hy]
      exact hab
  · intro k
    by_cases hk : ∃ x ∈ X, f' x = k
    · obtain ⟨x0, hx0, rfl⟩ := hk
      have hq := hd x0 hx0
      obtain ⟨r, rfl⟩ : ∃ r, Q = d x0 + (1 + r) := ⟨Q - d x0 - 1, by omega⟩
      rw [List.range_add, Nat.add_comm 1 r, List.range_succ_eq_map, List.map_cons, List.flatMap_append, List.flatMap_cons,
        List.filter_append, List.filter_append]
      have z : ∀ q < d x0 + (1 + r), q ≠ d x0 → (Z q).filter (fun a => f' a == f' x0) = [] := by
        intro q hq hne
        rw [List.filter_eq_nil_iff]
        intro a ha hc
        rw [beq_iff_eq] at hc
        have := (heq _ _ hc).1
        rw [hmem q hq a ha] at this
        exact hne this
      have z1 : ((List.range (d x0)).flatMap Z).filter (fun a => f' a == f' x0) = [] := by
        rw [List.filter_flatMap, List.flatMap_eq_nil_iff]
        intro q hq
        have := List.mem_range.1 hq
        exact z q (by omega) (by omega)
      have z2 : ((List.map (fun x => d x0 + x) (List.map Nat.succ (List.range r))).flatMap Z).filter (fun a => f' a == f' x0) = [] := by
        rw [List.filter_flatMap, List.flatMap_eq_nil_iff]
        intro q hq
        simp only [List.map_map, List.mem_map, List.mem_range, Function.comp_apply] at hq
        obtain ⟨a, ha, rfl⟩ := hq
        exact z _ (by omega) (by omega)
      rw [z1, z2, List.nil_append, List.append_nil]
      have e1 : ∀ L : List T, L.filter (fun a => f' a == f' x0) =
          ((L.filter (fun a => d a == d x0)).filter (fun a => f a == f x0)).filter (fun a => f' a == f' x0) := by
        intro L
        rw [List.filter_filter, List.filter_filter]
        apply List.filter_congr
        intro a _
        by_cases h : f' a = f' x0
        · obtain ⟨h1, h2⟩ := heq _ _ h
          simp [h, h1, h2]
        · have hb : (f' a == f' x0) = false := by simpa using h
          rw [hb, Bool.false_and, Bool.false_and]
      have e2 : (Z (d x0)).filter (fun a => d a == d x0) = Z (d x0) := by
        rw [List.filter_eq_self]
        intro a ha
        exact beq_iff_eq.2 (hmem _ hq a ha)
      rw [Nat.add_zero, e1 (Z (d x0)), e2, (hZ _ hq).stable, e1 X]
    · have h1 : X.filter (fun a => f' a == k) = [] := by
        rw [List.filter_eq_nil_iff]
        intro a ha hc
        exact hk ⟨a, ha, by simpa using hc⟩
      rw [h1, List.filter_flatMap, List.flatMap_eq_nil_iff]
      intro q hq
      have hq := List.mem_range.1 hq
      rw [List.filter_eq_nil_iff]
      intro a ha hc
      have := (hZ q hq).perm.mem_iff.1 ha
      exact hk ⟨a, (List.mem_filter.1 this).1, by simpa using hc⟩

theorem bc_perm {d : T → Nat} {Q : Nat} {X : List T} (hd : ∀ x ∈ X, d x < Q) : (bc d Q X).Perm X := by
  have : StablySorted d X (bc d Q X) := by
    refine stablySorted_concat (f := fun _ => 0) hd ?_ ?_ ?_
    · intro x y h; rcases h with h | h <;> omega
    · intro x y h; exact ⟨h, rfl⟩
    · intro q hq
      exact ⟨List.pairwise_of_forall (fun _ _ => le_refl _), fun k => rfl⟩
  exact this.perm

/-- one more digit of an LSD radix sort -/
theorem stablySorted_bc {d f f' : T → Nat} {Q : Nat} {X Y : List T}
    (hd : ∀ x ∈ X, d x < Q)
    (hle : ∀ x y, d x < d y ∨ (d x = d y ∧ f x ≤ f y) → f' x ≤ f' y)
    (heq : ∀ x y, f' x = f' y → d x = d y ∧ f x = f y)
    (h : StablySorted f X Y) : StablySorted f' X (bc d Q Y) := by
  refine stablySorted_concat hd hle heq ?_
  intro q hq
  constructor
  · exact h.ordered.filter _
  · intro k
    rw [List.filter_comm, h.stable, List.filter_comm]

/-! ### tables -/

/-- an array given by a function -/
def tab (N : Nat) (f : Nat → Nat) : List Nat := (List.range N).map f

theorem rd_tab {N : Nat} {f : Nat → Nat} {i : Nat} (h : i < N) : rd (tab N f) i = some (f i) := by
  simp [rd, tab, h]

theorem wr_tab {N : Nat} {f : Nat → Nat} {i x : Nat} (h : i < N) :
    wr (tab N f) i x = some (tab N (fun q => if q = i then x else f q)) := by
  unfold wr
  rw [if_pos (by simp [tab, h])]
  congr 1
  apply List.ext_getElem?
  intro j
  rw [List.getElem?_set]
  simp only [tab, List.length_map, List.length_range, List.getElem?_map]
  by_cases hj : j < N
  · rw [List.getElem?_range hj]
    by_cases e : i = j
    · subst e; simp [h]
    · rw [if_neg e]; have e2 : ¬ j = i := fun h => e h.symm
      simp [e2]
  · rw [List.getElem?_eq_none (by simpa using hj)]
    rw [if_neg (by omega)]; rfl

theorem bump_tab {N : Nat} {f : Nat → Nat} {i : Nat} (h : i < N) :
    bump (tab N f) i = some (tab N (fun q => if q = i then f i + 1 else f q)) := by
  unfold bump
  rw [obind (rd_tab h), wr_tab h]

theorem tab_congr {N : Nat} {f g : Nat → Nat} (h : ∀ q < N, f q = g q) : tab N f = tab N g := by
  apply List.map_congr_left
  intro q hq
  exact h q (List.mem_range.1 hq)

theorem replicate_eq_tab (N : Nat) : List.replicate N 0 = tab N (fun _ => 0) := by
  simp [tab]

theorem countP_snoc (d : T → Nat) (X : List T) (x : T) (q : Nat) :
    (X ++ [x]).countP (fun y => d y == q) = if q = d x then X.countP (fun y => d y == d x) + 1 else X.countP (fun y => d y == q) := by
  rw [List.countP_append]
  by_cases h : q = d x
  · subst h; simp
  · rw [if_neg h]
    have : ¬ d x = q := fun e => h e.symm
    simp [this]

/-- counting a list -/
theorem count_fold (d : T → Nat) (N : Nat) (xs : List T) (h : ∀ x ∈ xs, d x < N) (f : Nat → Nat) :
    xs.foldlM (fun cs x => bump cs (d x)) (tab N f) =
      some (tab N (fun q => f q + xs.countP (fun y => d y == q))) := by
  induction xs generalizing f with
  | nil => simp
  | cons x xs ih =>
    rw [List.foldlM_cons, obind (bump_tab (h x (by simp))), ih (fun y hy => h y (by simp [hy]))]
    congr 1
    apply tab_congr
    intro q _
    rw [List.countP_cons]
    by_cases e : q = d x
    · subst e; simp; omega
    · have : ¬ d x = q := fun h => e h.symm
      simp [e, this]

theorem prefixSums_tab (N : Nat) (f : Nat → Nat) (s : Nat) :
    prefixSums s (tab N f) = tab N (fun q => s + ((List.range q).map f).sum) := by
  induction N generalizing f s with
  | zero => rfl
  | succ N ih =>
    have e : ∀ g : Nat → Nat, tab (N + 1) g = g 0 :: tab N (fun q => g (q + 1)) := by
      intro g
      simp [tab, List.range_succ_eq_map]
    rw [e f, prefixSums, ih, e]
    congr 1
    apply tab_congr
    intro q _
    rw [List.range_succ_eq_map, List.map_cons, List.sum_cons, List.map_map]
    rw [← Nat.add_assoc]
    rfl

theorem sum_countP (d : T → Nat) (X : List T) (q : Nat) :
    ((List.range q).map (fun q' => X.countP (fun y => d y == q'))).sum = X.countP (fun y => decide (d y < q)) := by
  rw [← bc_length_prefix, bc, List.length_flatMap]
  congr 1
  apply List.map_congr_left
  intro q _
  exact List.countP_eq_length_filter

end Girgs.IntSort
