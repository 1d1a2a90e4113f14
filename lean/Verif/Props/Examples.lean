import Verif.Model.Examples
import Mathlib.Data.Multiset.AddSub
import Mathlib.Data.Prod.Lex
import Mathlib.Data.List.Sort
/-
C56: comparing graphs in the example programs.
-/
namespace Girgs.Props
open Examples

/-- lexicographic order of edges -/
def EdgeLe (a b : Edge) : Prop := a.1 < b.1 ∨ (a.1 = b.1 ∧ a.2 ≤ b.2)

theorem edgeLt_iff {a b : Edge} : edgeLt a b = true ↔ EdgeLe a b ∧ a ≠ b := by
  obtain ⟨a1, a2⟩ := a
  obtain ⟨b1, b2⟩ := b
  unfold edgeLt EdgeLe
  simp
  omega

theorem edgeLe_total {a b : Edge} (h : ¬ EdgeLe a b) : EdgeLe b a := by
  unfold EdgeLe at *; omega

theorem edgeLe_trans {a b c : Edge} (h : EdgeLe a b) (h' : EdgeLe b c) : EdgeLe a c := by
  unfold EdgeLe at *; omega

theorem edgeLe_antisymm {a b : Edge} (h : EdgeLe a b) (h' : EdgeLe b a) : a = b := by
  obtain ⟨a1, a2⟩ := a
  obtain ⟨b1, b2⟩ := b
  unfold EdgeLe at *
  simp at *
  omega

/-- strictly smaller than everything in a sorted list means not in it -/
theorem not_mem_of_lt {a b : Edge} {l : List Edge} (hab : edgeLt a b = true) (hs : (b :: l).Pairwise EdgeLe) : a ∉ b :: l := by
  obtain ⟨h1, h2⟩ := edgeLt_iff.1 hab
  intro h
  rcases List.mem_cons.1 h with h | h
  · exact h2 h
  · exact h2 (edgeLe_antisymm h1 ((List.pairwise_cons.1 hs).1 a h))

theorem lt_of_not_lt {a b : Edge} (hne : a ≠ b) (h : ¬ edgeLt a b = true) : edgeLt b a = true := by
  rw [edgeLt_iff] at *
  refine ⟨edgeLe_total fun h' => h ⟨h', hne⟩, Ne.symm hne⟩

/-- the loop finishes the merge -/
theorem diffLoop_spec (fuel : ℕ) : ∀ s : DiffState, s.rest1.length + s.rest2.length ≤ fuel → s.rest1.Pairwise EdgeLe → s.rest2.Pairwise EdgeLe →
    ∃ o1 o2, (diffLoop fuel s).only1 ++ (diffLoop fuel s).rest1 = s.only1 ++ o1 ∧ (diffLoop fuel s).only2 ++ (diffLoop fuel s).rest2 = s.only2 ++ o2 ∧
      (o1 : Multiset Edge) = (s.rest1 : Multiset Edge) - s.rest2 ∧ (o2 : Multiset Edge) = (s.rest2 : Multiset Edge) - s.rest1 ∧
      o1.Sublist s.rest1 ∧ o2.Sublist s.rest2 := by
  induction fuel with
  | zero =>
    intro s h _ _
    have h1 : s.rest1 = [] := List.length_eq_zero_iff.1 (by omega)
    have h2 : s.rest2 = [] := List.length_eq_zero_iff.1 (by omega)
    refine ⟨[], [], ?_, ?_, ?_, ?_, ?_, ?_⟩ <;> simp [diffLoop, h1, h2]
  | succ fuel ih =>
    intro s h hs1 hs2
    obtain ⟨r1, r2, p1, p2⟩ := s
    simp only at h hs1 hs2
    unfold diffLoop
    cases r1 with
    | nil => exact ⟨[], r2, by simp [diffStep], by simp [diffStep], by ext; simp [Multiset.count_sub], by simp, by simp, by simp⟩
    | cons a r1 =>
      cases r2 with
      | nil => exact ⟨a :: r1, [], by simp [diffStep], by simp [diffStep], by simp, by ext; simp [Multiset.count_sub], by simp, by simp⟩
      | cons b r2 =>
        by_cases hab : a = b
        · subst hab
          have hstep : diffStep ⟨a :: r1, a :: r2, p1, p2⟩ = some ⟨r1, r2, p1, p2⟩ := by simp [diffStep]
          rw [hstep]
          obtain ⟨o1, o2, h1, h2, h3, h4, h5, h6⟩ := ih ⟨r1, r2, p1, p2⟩ (by simp at h ⊢; omega) (List.pairwise_cons.1 hs1).2 (List.pairwise_cons.1 hs2).2
          refine ⟨o1, o2, h1, h2, ?_, ?_, h5.trans (List.sublist_cons_self _ _), h6.trans (List.sublist_cons_self _ _)⟩
          · rw [h3]
            show (r1 : Multiset Edge) - r2 = (a ::ₘ (r1 : Multiset Edge)) - (a ::ₘ (r2 : Multiset Edge))
            rw [Multiset.sub_cons, Multiset.erase_cons_head]
          · rw [h4]
            show (r2 : Multiset Edge) - r1 = (a ::ₘ (r2 : Multiset Edge)) - (a ::ₘ (r1 : Multiset Edge))
            rw [Multiset.sub_cons, Multiset.erase_cons_head]
        · by_cases hlt : edgeLt a b = true
          · have hstep : diffStep ⟨a :: r1, b :: r2, p1, p2⟩ = some ⟨r1, b :: r2, p1 ++ [a], p2⟩ := by simp [diffStep, hab, hlt]
            rw [hstep]
            obtain ⟨o1, o2, h1, h2, h3, h4, h5, h6⟩ := ih ⟨r1, b :: r2, p1 ++ [a], p2⟩ (by simp at h ⊢; omega) (List.pairwise_cons.1 hs1).2 hs2
            have hnot := not_mem_of_lt hlt hs2
            refine ⟨a :: o1, o2, by simpa using h1, h2, ?_, ?_, h5.cons_cons a, h6⟩
            · rw [← Multiset.cons_coe, h3]
              show a ::ₘ ((r1 : Multiset Edge) - ((b :: r2 : List Edge) : Multiset Edge)) = (a ::ₘ (r1 : Multiset Edge)) - ((b :: r2 : List Edge) : Multiset Edge)
              ext x
              rw [Multiset.count_sub, Multiset.count_cons, Multiset.count_cons, Multiset.count_sub]
              by_cases hx : x = a
              · subst hx
                rw [Multiset.count_eq_zero_of_notMem (s := ((b :: r2 : List Edge) : Multiset Edge)) (by simpa using hnot)]
                simp
              · simp [hx]
            · rw [h4]
              show ((b :: r2 : List Edge) : Multiset Edge) - r1 = ((b :: r2 : List Edge) : Multiset Edge) - (a ::ₘ (r1 : Multiset Edge))
              rw [Multiset.sub_cons, Multiset.erase_of_notMem (by simpa using hnot)]
          · have hba := lt_of_not_lt hab hlt
            have hstep : diffStep ⟨a :: r1, b :: r2, p1, p2⟩ = some ⟨a :: r1, r2, p1, p2 ++ [b]⟩ := by simp [diffStep, hab, hlt]
            rw [hstep]
            obtain ⟨o1, o2, h1, h2, h3, h4, h5, h6⟩ := ih ⟨a :: r1, r2, p1, p2 ++ [b]⟩ (by simp at h ⊢; omega) hs1 (List.pairwise_cons.1 hs2).2
            have hnot := not_mem_of_lt hba hs1
            refine ⟨o1, b :: o2, h1, by simpa using h2, ?_, ?_, h5, h6.cons_cons b⟩
            · rw [h3]
              show ((a :: r1 : List Edge) : Multiset Edge) - r2 = ((a :: r1 : List Edge) : Multiset Edge) - (b ::ₘ (r2 : Multiset Edge))
              rw [Multiset.sub_cons, Multiset.erase_of_notMem (by simpa using hnot)]
            · rw [← Multiset.cons_coe, h4]
              show b ::ₘ ((r2 : Multiset Edge) - ((a :: r1 : List Edge) : Multiset Edge)) = (b ::ₘ (r2 : Multiset Edge)) - ((a :: r1 : List Edge) : Multiset Edge)
              ext x
              rw [Multiset.count_sub, Multiset.count_cons, Multiset.count_cons, Multiset.count_sub]
              by_cases hx : x = b
              · subst hx
                rw [Multiset.count_eq_zero_of_notMem (s := ((a :: r1 : List Edge) : Multiset Edge)) (by simpa using hnot)]
                simp
              · simp [hx]

/-- C56.  For sorted edge lists (duplicates allowed) the first result of `edge_diff` is, as a multiset, `g1` minus `g2`, the second `g2` minus `g1`; both
are sublists of the inputs, hence sorted. -/
theorem C56_multisets {g1 g2 : List Edge} (h1 : g1.Pairwise EdgeLe) (h2 : g2.Pairwise EdgeLe) :
    ((edgeDiff g1 g2).1 : Multiset Edge) = (g1 : Multiset Edge) - g2 ∧ ((edgeDiff g1 g2).2 : Multiset Edge) = (g2 : Multiset Edge) - g1 ∧
    (edgeDiff g1 g2).1.Sublist g1 ∧ (edgeDiff g1 g2).2.Sublist g2 := by
  obtain ⟨o1, o2, e1, e2, h3, h4, h5, h6⟩ := diffLoop_spec (g1.length + g2.length) ⟨g1, g2, [], []⟩ le_rfl h1 h2
  unfold edgeDiff
  simp only [List.nil_append] at e1 e2 ⊢
  rw [e1, e2]
  exact ⟨h3, h4, h5, h6⟩

/-- C56.  For sorted lists without duplicates: an edge is in the first result iff it is in `g1` and not in `g2`, and vice versa. -/
theorem C56_edges {g1 g2 : List Edge} (h1 : g1.Pairwise EdgeLe) (h2 : g2.Pairwise EdgeLe) (n1 : g1.Nodup) (n2 : g2.Nodup) (e : Edge) :
    (e ∈ (edgeDiff g1 g2).1 ↔ e ∈ g1 ∧ e ∉ g2) ∧ (e ∈ (edgeDiff g1 g2).2 ↔ e ∈ g2 ∧ e ∉ g1) := by
  obtain ⟨a1, a2, _, _⟩ := C56_multisets h1 h2
  have key : ∀ {a b : List Edge}, a.Nodup → b.Nodup → (e ∈ ((a : Multiset Edge) - b) ↔ e ∈ a ∧ e ∉ b) := by
    intro a b ha hb
    rw [Multiset.mem_sub_of_nodup (Multiset.coe_nodup.2 ha)]
    simp
  constructor
  · rw [← Multiset.mem_coe, a1]
    exact key n1 n2
  · rw [← Multiset.mem_coe, a2]
    exact key n2 n1

/-- the counting version counts what the other one lists -/
theorem C56_counts (g1 g2 : List Edge) : edgeDiffCount g1 g2 = ((edgeDiff g1 g2).1.length, (edgeDiff g1 g2).2.length) := by
  have key : ∀ fuel (s : DiffState) (c : CountState), c.rest1 = s.rest1 → c.rest2 = s.rest2 → c.only1 = s.only1.length → c.only2 = s.only2.length →
      (countLoop fuel c).rest1 = (diffLoop fuel s).rest1 ∧ (countLoop fuel c).rest2 = (diffLoop fuel s).rest2 ∧
      (countLoop fuel c).only1 = (diffLoop fuel s).only1.length ∧ (countLoop fuel c).only2 = (diffLoop fuel s).only2.length := by
    intro fuel
    induction fuel with
    | zero => intro s c h1 h2 h3 h4; exact ⟨h1, h2, h3, h4⟩
    | succ fuel ih =>
      rintro ⟨r1, r2, p1, p2⟩ ⟨c1, c2, q1, q2⟩ h1 h2 h3 h4
      simp only at h1 h2 h3 h4
      subst h1 h2 h3 h4
      unfold countLoop diffLoop
      cases c1 with
      | nil => simp [countStep, diffStep]
      | cons a c1 =>
        cases c2 with
        | nil => simp [countStep, diffStep]
        | cons b c2 =>
          by_cases hab : a = b
          · simp only [countStep, diffStep, hab, if_true]
            exact ih _ _ rfl rfl rfl rfl
          · by_cases hlt : edgeLt a b = true
            · simp only [countStep, diffStep, hab, if_false, hlt, if_true]
              exact ih _ _ rfl rfl (by simp) rfl
            · simp only [countStep, diffStep, hab, if_false, hlt]
              exact ih _ _ rfl rfl rfl (by simp)
  obtain ⟨h1, h2, h3, h4⟩ := key (g1.length + g2.length) ⟨g1, g2, [], []⟩ ⟨g1, g2, 0, 0⟩ rfl rfl rfl rfl
  unfold edgeDiffCount edgeDiff
  simp only
  rw [h1, h2, h3, h4, List.length_append, List.length_append]

/-- C56: with `2^31` or more edges `createReverseEdges` is undefined: its loop variable is an `int`. -/
theorem C56_reverse_large {g : List Edge} (h : 2 ^ 31 ≤ g.length) : createReverseEdges g = none := by
  unfold createReverseEdges
  rw [if_neg (by omega)]

/-- C56.  `createReverseEdges` appends the reverse of every edge, in order. -/
theorem C56_reverse {g : List Edge} (h : g.length < 2 ^ 31) : createReverseEdges g = some (g ++ g.map fun e => (e.2, e.1)) := by
  unfold createReverseEdges
  rw [if_pos (by omega)]
  have key : ∀ (done rest : List Edge), g = done ++ rest →
      reverseLoop (g ++ done.map fun e => (e.2, e.1)) ((List.range rest.length).map (done.length + ·)) = some (g ++ g.map fun e => (e.2, e.1)) := by
    intro done rest
    induction rest generalizing done with
    | nil => intro hg; simp [reverseLoop, hg]
    | cons e rest ih =>
      intro hg
      rw [List.length_cons, List.range_succ_eq_map, List.map_cons, Nat.add_zero, reverseLoop]
      have he : rd (g ++ done.map fun e => (e.2, e.1)) done.length = some e := by
        unfold rd
        rw [List.getElem?_append_left (by rw [hg]; simp), hg]
        simp
      refine (obind he _).trans ?_
      have := ih (done ++ [e]) (by simpa using hg)
      rw [List.map_append, ← List.append_assoc] at this
      rw [List.map_map]
      have hm : (List.range rest.length).map ((done ++ [e]).length + ·) = (List.range rest.length).map ((done.length + ·) ∘ Nat.succ) := by
        apply List.map_congr_left
        intro i _
        simp
        omega
      rw [← hm]
      exact this
  have := key [] g rfl
  simpa using this

/-- C56.  `unifyEdges` orders the end points of every edge and changes nothing else. -/
theorem C56_unify (g : List Edge) : (unifyEdges g).length = g.length ∧
    ∀ (i : ℕ) (u v : ℤ), g[i]? = some (u, v) → (unifyEdges g)[i]? = some (min u v, max u v) := by
  refine ⟨by simp [unifyEdges], fun i u v h => ?_⟩
  unfold unifyEdges
  rw [List.getElem?_map, h, Option.map_some]
  congr 1
  by_cases hlt : v < u
  · simp [hlt, min_eq_right hlt.le, max_eq_left hlt.le]
  · simp [hlt, min_eq_left (not_lt.1 hlt), max_eq_right (not_lt.1 hlt)]

/-- a concrete pair of graphs -/
example : edgeDiff [(0, 1), (0, 2), (1, 3)] [(0, 2), (1, 2), (1, 3)] = ([(0, 1)], [(1, 2)]) := by decide

end Girgs.Props
