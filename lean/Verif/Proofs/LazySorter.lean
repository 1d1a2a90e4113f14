import Verif.Model.WeightScaling
import Mathlib.Data.EReal.Basic
import Mathlib.Data.List.Sort
/-
Proofs about `LazySorter`.
-/
namespace Girgs.Scaling
open CFloat
variable {F : Type} [CFloat F]

/-- On the values satisfying `Num` (the `double`s other than NaN) `<` and `==` are the comparisons of the extended real
numbers `key`. -/
def OrderedBy (Num : F → Prop) (key : F → EReal) : Prop :=
  ∀ a b, Num a → Num b → ((a <. b) = true ↔ key a < key b) ∧ (CFloat.eq a b = true ↔ key a = key b)

variable {Num : F → Prop} {key : F → EReal}

theorem OrderedBy.lt_true (h : OrderedBy Num key) {a b : F} (ha : Num a) (hb : Num b) : (a <. b) = true ↔ key a < key b :=
  (h a b ha hb).1
theorem OrderedBy.lt_false (h : OrderedBy Num key) {a b : F} (ha : Num a) (hb : Num b) : (a <. b) = false ↔ key b ≤ key a := by
  rw [← not_lt, ← h.lt_true ha hb, Bool.not_eq_true]
theorem OrderedBy.ge_true (h : OrderedBy Num key) {a b : F} (ha : Num a) (hb : Num b) : ge a b = true ↔ key b ≤ key a := by
  unfold ge
  rw [Bool.or_eq_true, h.lt_true hb ha, (h a b ha hb).2, le_iff_lt_or_eq]
  exact or_congr Iff.rfl eq_comm
theorem OrderedBy.ge_false (h : OrderedBy Num key) {a b : F} (ha : Num a) (hb : Num b) : ge a b = false ↔ key a < key b := by
  rw [← not_le, ← h.ge_true ha hb, Bool.not_eq_true]

theorem OrderedBy.strictWeak (h : OrderedBy Num key) {l : List F} (hl : ∀ a ∈ l, Num a) : StrictWeakOn l where
  irrefl a ha := (h.lt_false (hl a ha) (hl a ha)).2 le_rfl
  trans a ha b hb c hc h1 h2 := by
    rw [h.lt_true (hl _ ha) (hl _ hb)] at h1
    rw [h.lt_true (hl _ hb) (hl _ hc)] at h2
    rw [h.lt_true (hl _ ha) (hl _ hc)]
    exact h1.trans h2
  incomp a ha b hb c hc h1 h2 := by
    rw [h.lt_false (hl _ ha) (hl _ hb)] at h1
    rw [h.lt_false (hl _ hb) (hl _ hc)] at h2
    rw [h.lt_false (hl _ ha) (hl _ hc)]
    exact h2.trans h1

/-- `a` is at least `b`, i.e. not smaller -/
def Desc (l : List F) : Prop := l.Pairwise fun a b => (a <. b) = false

/-- What a query answers: the elements before `pos` are in descending order and none is below `thresh`, and no element
from `pos` on is above `thresh`. -/
def RichClub (vec : List F) (thresh : F) (pos : Nat) : Prop :=
  pos ≤ vec.length ∧ Desc (vec.take pos) ∧ (∀ x ∈ vec.take pos, ge x thresh = true) ∧
    ∀ x ∈ vec.drop pos, (thresh <. x) = false

theorem isSortedDesc_of {l : List F} (h : Desc l) : isSortedDesc l = true := by
  induction l with
  | nil => rfl
  | cons a l ih =>
    cases l with
    | nil => rfl
    | cons b l =>
      unfold Desc at h
      rw [List.pairwise_cons] at h
      unfold isSortedDesc
      rw [ih h.2, h.1 b (by simp)]; rfl

/-- invariant -/
structure LInv (Num : F → Prop) (key : F → EReal) (weights : List F) (s : LazySorter F) : Prop where
  perm : s.vec.Perm weights
  se_le : s.sortedEnd ≤ s.vec.length
  num : Num s.lower
  desc : Desc (s.vec.take s.sortedEnd)
  above : ∀ x ∈ s.vec.take s.sortedEnd, key s.lower ≤ key x
  below : ∀ x ∈ s.vec.drop s.sortedEnd, key x ≤ key s.lower

theorem LInv.new {weights : List F} (hmax : Num (dblMax : F)) (h : ∀ x ∈ weights, key x ≤ key dblMax) :
    LInv Num key weights (LazySorter.new weights) where
  perm := List.Perm.refl _
  se_le := Nat.zero_le _
  num := hmax
  desc := by simp [LazySorter.new, Desc]
  above := by simp [LazySorter.new]
  below := by simpa [LazySorter.new] using h

theorem LInv.mem {weights : List F} {s : LazySorter F} (h : LInv Num key weights s) (hw : ∀ x ∈ weights, Num x) :
    ∀ x ∈ s.vec, Num x := fun x hx => hw x (h.perm.mem_iff.1 hx)

set_option maxHeartbeats 1000000 in
theorem LInv.query {alg : StdAlg F} {ndebug : Bool} {weights : List F} {s s' : LazySorter F} {t : F} {p : Nat}
    (ho : OrderedBy Num key) (hmin : Num (dblMin : F)) (hw : ∀ x ∈ weights, Num x) (hlow : ∀ x ∈ weights, key dblMin ≤ key x)
    (h : LInv Num key weights s) (ht : Num t) (e : s.sortDownto alg ndebug t = some (s', p)) :
    LInv Num key weights s' ∧ RichClub s'.vec t p ∧ p ≤ s'.sortedEnd ∧ s.sortedEnd ≤ s'.sortedEnd ∧
      s'.vec.take s.sortedEnd = s.vec.take s.sortedEnd := by
  have hnum := h.mem hw
  unfold LazySorter.sortDownto at e
  by_cases hlt : (t <. s.lower) = true
  · rw [if_pos hlt] at e
    rw [ho.lt_true ht h.num] at hlt
    split at e
    · cases e
    rename_i hnd
    obtain ⟨A, B, hAB⟩ : ∃ A B, alg.partition (fun x => ge x t) (s.vec.drop s.sortedEnd) = (A, B) := ⟨_, _, rfl⟩
    have hpp := alg.partition_perm (fun x => ge x t) (s.vec.drop s.sortedEnd)
    have hpl := alg.partition_left (fun x => ge x t) (s.vec.drop s.sortedEnd)
    have hpr := alg.partition_right (fun x => ge x t) (s.vec.drop s.sortedEnd)
    rw [hAB] at e hpp hpl hpr
    simp only at e hpp hpl hpr
    have htl : (s.vec.take s.sortedEnd).length = s.sortedEnd := by rw [List.length_take]; have := h.se_le; omega
    have hdrop : ∀ x ∈ A ++ B, x ∈ s.vec.drop s.sortedEnd := fun x hx => hpp.mem_iff.1 hx
    have hBn : ∀ x ∈ B, key x < key t := fun x hx => by
      have hx' := hnum x (List.mem_of_mem_drop (hdrop x (List.mem_append_right _ hx)))
      exact (ho.ge_false hx' ht).1 (hpr x hx)
    have htk : ∀ x ∈ s.vec.take s.sortedEnd, key t ≤ key x := fun x hx => hlt.le.trans (h.above x hx)
    split at e
    · rename_i hA
      have hA : A = [] := List.length_eq_zero_iff.1 hA
      subst hA
      simp only [List.nil_append, Option.some.injEq, Prod.mk.injEq] at e hpp hdrop
      obtain ⟨rfl, rfl⟩ := e
      have t1 : (s.vec.take s.sortedEnd ++ B).take s.sortedEnd = s.vec.take s.sortedEnd := by
        rw [List.take_append_of_le_length (by omega), List.take_of_length_le (by omega)]
      have t2 : (s.vec.take s.sortedEnd ++ B).drop s.sortedEnd = B := by
        rw [List.drop_append_of_le_length (by omega), List.drop_of_length_le (by omega), List.nil_append]
      have hperm : (s.vec.take s.sortedEnd ++ B).Perm s.vec := by
        conv => rhs; rw [← List.take_append_drop s.sortedEnd s.vec]
        exact hpp.append_left _
      refine ⟨⟨hperm.trans h.perm, ?_, h.num, ?_, ?_, ?_⟩, ⟨?_, ?_, ?_, ?_⟩, le_rfl, le_rfl, t1⟩
      · simp only [List.length_append]; omega
      · simp only [t1]; exact h.desc
      · simp only [t1]; exact h.above
      · simp only [t2]; exact fun x hx => h.below x (hdrop x hx)
      · simp only [List.length_append]; omega
      · simp only [t1]; exact h.desc
      · simp only [t1]; exact fun x hx => (ho.ge_true (hnum x (List.mem_of_mem_take hx)) ht).2 (htk x hx)
      · simp only [t2]
        exact fun x hx => (ho.lt_false ht (hnum x (List.mem_of_mem_drop (hdrop x hx)))).2 (hBn x hx).le
    · rename_i hA
      split at e
      · cases e
      simp only [Option.some.injEq, Prod.mk.injEq] at e
      obtain ⟨rfl, rfl⟩ := e
      have hsp := alg.sort_perm A
      have hAn : ∀ x ∈ A, Num x := fun x hx =>
        hnum x (List.mem_of_mem_drop (hdrop x (List.mem_append_left _ hx)))
      have hAt : ∀ x ∈ A, key t ≤ key x := fun x hx => (ho.ge_true (hAn x hx) ht).1 (hpl x hx)
      have hss := alg.sort_sorted A (ho.strictWeak hAn)
      have hlen : (alg.sort A).length = A.length := hsp.length_eq
      have t0 : (s.vec.take s.sortedEnd ++ (alg.sort A ++ B)).take s.sortedEnd = s.vec.take s.sortedEnd := by
        rw [List.take_append_of_le_length (by omega), List.take_of_length_le (by omega)]
      have t1 : (s.vec.take s.sortedEnd ++ (alg.sort A ++ B)).take (s.sortedEnd + A.length) =
          s.vec.take s.sortedEnd ++ alg.sort A := by
        rw [← List.append_assoc, List.take_append_of_le_length (by rw [List.length_append]; omega),
          List.take_of_length_le (by rw [List.length_append]; omega)]
      have t2 : (s.vec.take s.sortedEnd ++ (alg.sort A ++ B)).drop (s.sortedEnd + A.length) = B := by
        rw [← List.append_assoc, List.drop_append_of_le_length (by rw [List.length_append]; omega),
          List.drop_of_length_le (by rw [List.length_append]; omega), List.nil_append]
      have hperm : (s.vec.take s.sortedEnd ++ (alg.sort A ++ B)).Perm s.vec := by
        conv => rhs; rw [← List.take_append_drop s.sortedEnd s.vec]
        exact ((hsp.append_right B).trans hpp).append_left _
      have hall : ∀ x ∈ s.vec.take s.sortedEnd ++ alg.sort A, key t ≤ key x := by
        intro x hx
        rcases List.mem_append.1 hx with hx | hx
        · exact htk x hx
        · exact hAt x (hsp.mem_iff.1 hx)
      have halln : ∀ x ∈ s.vec.take s.sortedEnd ++ alg.sort A, Num x := by
        intro x hx
        rcases List.mem_append.1 hx with hx | hx
        · exact hnum x (List.mem_of_mem_take hx)
        · exact hAn x (hsp.mem_iff.1 hx)
      have hdesc : Desc (s.vec.take s.sortedEnd ++ alg.sort A) := by
        unfold Desc
        rw [List.pairwise_append]
        refine ⟨h.desc, hss, ?_⟩
        intro a ha b hb
        have hb' := hsp.mem_iff.1 hb
        refine (ho.lt_false (hnum a (List.mem_of_mem_take ha)) (hAn b hb')).2 ?_
        exact (h.below b (hdrop b (List.mem_append_left _ hb'))).trans (h.above a ha)
      have hl2 : (s.vec.take s.sortedEnd ++ (alg.sort A ++ B)).length = s.sortedEnd + A.length + B.length := by
        simp only [List.length_append, htl, hlen]; omega
      refine ⟨⟨hperm.trans h.perm, ?_, ?_, ?_, ?_, ?_⟩, ⟨?_, ?_, ?_, ?_⟩, le_rfl, Nat.le_add_right _ _, t0⟩
      · simp only [hl2]; omega
      · simp only; split
        · exact hmin
        · exact ht
      · simp only [t1]; exact hdesc
      · simp only [t1]
        split
        · exact fun x hx => hlow x (h.perm.mem_iff.1 (hperm.mem_iff.1 (List.mem_of_mem_take (t1 ▸ hx))))
        · exact hall
      · simp only [t2]
        split
        · rename_i hz
          rw [hl2] at hz
          have : B = [] := List.length_eq_zero_iff.1 (by omega)
          rw [this]; simp
        · exact fun x hx => (hBn x hx).le
      · simp only [hl2]; omega
      · simp only [t1]; exact hdesc
      · simp only [t1]; exact fun x hx => (ho.ge_true (halln x hx) ht).2 (hall x hx)
      · simp only [t2]
        exact fun x hx => (ho.lt_false ht (hnum x (List.mem_of_mem_drop (hdrop x (List.mem_append_right _ hx))))).2 (hBn x hx).le
  · rw [if_neg hlt] at e
    simp only [Option.some.injEq, Prod.mk.injEq] at e
    obtain ⟨rfl, rfl⟩ := e
    rw [Bool.not_eq_true, ho.lt_false ht h.num] at hlt
    have hpl : ((s.vec.take s.sortedEnd).takeWhile fun x => t <. x).length ≤ s.sortedEnd := by
      refine (List.takeWhile_prefix _).length_le.trans ?_
      rw [List.length_take]; omega
    have hse := h.se_le
    have e1 : s.vec.take ((s.vec.take s.sortedEnd).takeWhile fun x => t <. x).length =
        (s.vec.take s.sortedEnd).takeWhile fun x => t <. x := by
      have hpre : ((s.vec.take s.sortedEnd).takeWhile fun x => t <. x) <+: s.vec :=
        (List.takeWhile_prefix _).trans (List.take_prefix _ _)
      exact (List.prefix_iff_eq_take.1 hpre).symm
    refine ⟨h, ⟨hpl.trans hse, ?_, ?_, ?_⟩, hpl, le_rfl, rfl⟩
    · rw [e1]
      exact h.desc.sublist (List.takeWhile_sublist _)
    · rw [e1]
      intro x hx
      have := List.all_eq_true.1 (List.all_takeWhile (p := fun x => t <. x)) x hx
      have hxv : x ∈ s.vec := List.mem_of_mem_take ((List.takeWhile_sublist _).subset hx)
      rw [ho.ge_true (hnum x hxv) ht]
      exact ((ho.lt_true ht (hnum x hxv)).1 this).le
    · intro x hx
      have hxv : x ∈ s.vec := List.mem_of_mem_drop hx
      rw [ho.lt_false ht (hnum x hxv)]
      have hsplit : s.vec.drop ((s.vec.take s.sortedEnd).takeWhile fun x => t <. x).length =
          ((s.vec.take s.sortedEnd).dropWhile fun x => t <. x) ++ s.vec.drop s.sortedEnd := by
        have h1 : s.vec = ((s.vec.take s.sortedEnd).takeWhile fun x => t <. x) ++
            (((s.vec.take s.sortedEnd).dropWhile fun x => t <. x) ++ s.vec.drop s.sortedEnd) := by
          rw [← List.append_assoc, List.takeWhile_append_dropWhile, List.take_append_drop]
        have h2 := congrArg (List.drop ((s.vec.take s.sortedEnd).takeWhile fun x => t <. x).length) h1
        rwa [List.drop_append_of_le_length le_rfl, List.drop_length, List.nil_append] at h2
      rw [hsplit] at hx
      rcases List.mem_append.1 hx with hx | hx
      · -- behind the first element that is not above t
        have hd : Desc ((s.vec.take s.sortedEnd).dropWhile fun x => t <. x) :=
          h.desc.sublist (List.dropWhile_sublist _)
        cases hdw : (s.vec.take s.sortedEnd).dropWhile fun x => t <. x with
        | nil => rw [hdw] at hx; cases hx
        | cons a l =>
          have ha : (t <. a) = false := by
            have := List.head_dropWhile_not (fun x => t <. x) (l := s.vec.take s.sortedEnd) (by rw [hdw]; simp)
            simpa [hdw] using this
          have hav : Num a := hnum a (List.mem_of_mem_take ((List.dropWhile_sublist _).subset (by rw [hdw]; simp)))
          rw [ho.lt_false ht hav] at ha
          rw [hdw] at hx hd
          rcases List.mem_cons.1 hx with rfl | hx
          · exact ha
          · have := (List.pairwise_cons.1 hd).1 x hx
            exact ((ho.lt_false hav (hnum x hxv)).1 this).trans ha
      · exact (h.below x hx).trans hlt

/-- in a release build every query is answered -/
theorem LazySorter.release (alg : StdAlg F) (s : LazySorter F) (t : F) : ∃ r, s.sortDownto alg true t = some r := by
  unfold LazySorter.sortDownto
  split
  · rw [if_neg (by simp)]
    simp only
    split
    · exact ⟨_, rfl⟩
    · rw [if_neg (by simp)]; exact ⟨_, rfl⟩
  · exact ⟨_, rfl⟩

/-- in a debug build a query is answered unless it asks below the bound of a completely sorted vector -/
theorem LInv.debug {alg : StdAlg F} {weights : List F} {s : LazySorter F} {t : F} (h : LInv Num key weights s)
    (ht : s.sortedEnd = s.vec.length → (t <. s.lower) = false) : ∃ r, s.sortDownto alg false t = some r := by
  unfold LazySorter.sortDownto
  split
  · rename_i hlt
    rw [if_neg]
    · simp only
      split
      · exact ⟨_, rfl⟩
      · rw [if_neg]
        · exact ⟨_, rfl⟩
        · rintro ⟨-, h2⟩
          rw [List.take_append_of_le_length (by rw [List.length_take]; have := h.se_le; omega), List.take_take, min_self,
            isSortedDesc_of h.desc] at h2
          cases h2
    · rintro ⟨-, h2⟩
      rw [ht h2] at hlt; cases hlt
  · exact ⟨_, rfl⟩

/-! ### an implementation of the standard algorithms -/

/-- stable partition and merge sort -/
noncomputable def mergeAlg (F : Type) [CFloat F] : StdAlg F := by
  classical
  exact
  { partition := fun p l => (l.filter p, l.filter fun x => !p x)
    partition_perm := fun p l => List.filter_append_perm p l
    partition_left := fun p l x hx => (List.mem_filter.1 hx).2
    partition_right := fun p l x hx => by simpa using (List.mem_filter.1 hx).2
    sort := fun l => if h : ∃ l' : List F, l'.Perm l ∧ l'.Pairwise fun a b => (a <. b) = false then h.choose else l
    sort_perm := fun l => by
      split
      · rename_i h; exact h.choose_spec.1
      · exact List.Perm.refl _
    sort_sorted := fun l hl => by
      have hex : ∃ l' : List F, l'.Perm l ∧ l'.Pairwise fun a b => (a <. b) = false := by
        refine ⟨(l.attach.mergeSort fun a b => !(a.1 <. b.1)).map (·.1), ?_, ?_⟩
        · have := (List.mergeSort_perm l.attach fun a b => !(a.1 <. b.1)).map (·.1)
          rwa [List.attach_map_subtype_val] at this
        · rw [List.pairwise_map]
          have := List.pairwise_mergeSort (le := fun a b : {x // x ∈ l} => !(a.1 <. b.1))
            (fun a b c h1 h2 => by
              simp only [Bool.not_eq_true'] at h1 h2 ⊢
              exact hl.incomp _ a.2 _ b.2 _ c.2 h1 h2)
            (fun a b => by
              by_cases h : (a.1 <. b.1) = true
              · by_cases h' : (b.1 <. a.1) = true
                · have := hl.trans _ a.2 _ b.2 _ a.2 h h'
                  rw [hl.irrefl _ a.2] at this; cases this
                · simp [h']
              · simp [h]) l.attach
          exact this.imp fun h => by simpa using h
      rw [dif_pos hex]
      exact hex.choose_spec.2 }

end Girgs.Scaling
