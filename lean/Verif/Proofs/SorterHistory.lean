import Verif.Proofs.LazySorter
/-
Histories of queries to the lazy sorter, and histories of evaluations of the searched functions.
-/
namespace Girgs.Scaling
open CFloat
variable {F : Type} [CFloat F] {Num : F → Prop} {key : F → EReal}

theorem LInv.queries {alg : StdAlg F} {ndebug : Bool} {weights : List F} (ho : OrderedBy Num key) (hmin : Num (dblMin : F))
    (hw : ∀ x ∈ weights, Num x) (hlow : ∀ x ∈ weights, key dblMin ≤ key x) :
    ∀ (ts : List F) (s : LazySorter F) (r : LazySorter F × List Nat), LInv Num key weights s → (∀ t ∈ ts, Num t) →
      s.queries alg ndebug ts = some r →
      LInv Num key weights r.1 ∧ r.2.length = ts.length ∧ s.sortedEnd ≤ r.1.sortedEnd ∧
      r.1.vec.take s.sortedEnd = s.vec.take s.sortedEnd ∧
      (∀ p ∈ r.2, p ≤ r.1.sortedEnd) ∧ ∀ q ∈ ts.zip r.2, RichClub r.1.vec q.1 q.2
  | [], s, r, h, _, e => by
    obtain rfl : (s, []) = r := Option.some.inj e
    exact ⟨h, rfl, le_rfl, rfl, by simp, by simp⟩
  | t :: ts, s, r, h, hts, e => by
    rw [LazySorter.queries] at e
    obtain ⟨⟨s₁, p⟩, e1, e⟩ := Option.bind_eq_some_iff.1 e
    obtain ⟨⟨s₂, ps⟩, e2, e⟩ := Option.bind_eq_some_iff.1 e
    obtain rfl : (s₂, p :: ps) = r := Option.some.inj e
    obtain ⟨h1, hr, hp, hse, hpre⟩ := h.query ho hmin hw hlow (hts t (by simp)) e1
    obtain ⟨h2, hlen, hse2, hpre2, hps, hclub⟩ := LInv.queries ho hmin hw hlow ts s₁ (s₂, ps) h1 (fun t ht => hts t (by simp [ht])) e2
    have htake : s₂.vec.take p = s₁.vec.take p := by
      have := congrArg (List.take p) hpre2
      rwa [List.take_take, List.take_take, min_eq_left hp] at this
    have hlen12 : s₂.vec.length = s₁.vec.length := (h2.perm.trans h1.perm.symm).length_eq
    refine ⟨h2, by simp [hlen], hse.trans hse2, ?_, ?_, ?_⟩
    · have := congrArg (List.take s.sortedEnd) hpre2
      rw [List.take_take, List.take_take, min_eq_left hse] at this
      exact this.trans hpre
    · intro q hq
      rcases List.mem_cons.1 hq with rfl | hq
      · exact hp.trans hse2
      · exact hps q hq
    · intro q hq
      rw [List.zip_cons_cons] at hq
      rcases List.mem_cons.1 hq with rfl | hq
      · obtain ⟨a, b, c, d⟩ := hr
        refine ⟨by rw [hlen12]; exact a, by rw [htake]; exact b, by rw [htake]; exact c, ?_⟩
        intro x hx
        have hperm : (s₂.vec.drop p).Perm (s₁.vec.drop p) := by
          have h3 := h2.perm.trans h1.perm.symm
          rw [← List.take_append_drop p s₂.vec, ← List.take_append_drop p s₁.vec, htake] at h3
          exact (List.perm_append_left_iff _).1 h3
        exact d x (hperm.mem_iff.1 hx)
      · exact hclub q hq

theorem LazySorter.queries_release (alg : StdAlg F) : ∀ (ts : List F) (s : LazySorter F), ∃ r, s.queries alg true ts = some r
  | [], s => ⟨_, rfl⟩
  | t :: ts, s => by
    obtain ⟨⟨s₁, p⟩, e1⟩ := LazySorter.release alg s t
    obtain ⟨⟨s₂, ps⟩, e2⟩ := LazySorter.queries_release alg ts s₁
    exact ⟨(s₂, p :: ps), by rw [LazySorter.queries, e1]; show (s₁.queries alg true ts).bind _ = _; rw [e2]; rfl⟩

end Girgs.Scaling
