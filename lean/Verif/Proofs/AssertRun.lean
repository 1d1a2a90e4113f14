import Verif.Proofs.AssertTasks
import Verif.Proofs.Callbacks
import Verif.Proofs.Wrapper
import Mathlib.Data.Finset.Prod
import Mathlib.Data.List.Count
/-
The final assertion about the pair counters, and the assertions of a complete call of `generateEdges` on a constructed
tree.
-/
namespace Girgs
open CFloat Tree Spec

/-- a list with every unordered pair exactly once has `n(n-1)/2` entries -/
theorem eachPairOnce_length {n : Nat} {es : List (Nat × Nat)} (h : EachPairOnce n es) : 2 * es.length = n * (n - 1) := by
  have hcount : ∀ u v, (es ++ es.map Prod.swap).count (u, v) = occurrences es u v := by
    intro u v
    rw [List.count_append]
    unfold occurrences
    congr 1
    have := List.count_map_of_injective es Prod.swap Prod.swap_injective (v, u)
    simpa using this
  have hnd : (es ++ es.map Prod.swap).Nodup := by
    rw [List.nodup_iff_count_le_one]
    rintro ⟨u, v⟩
    by_cases hm : (u, v) ∈ es ++ es.map Prod.swap
    · have hr : u < n ∧ v < n ∧ u ≠ v := by
        rcases List.mem_append.1 hm with h1 | h1
        · exact h.1 _ h1
        · obtain ⟨⟨a, b⟩, h2, h3⟩ := List.mem_map.1 h1
          simp only [Prod.swap_prod_mk, Prod.mk.injEq] at h3
          obtain ⟨rfl, rfl⟩ := h3
          have := h.1 _ h2
          exact ⟨this.2.1, this.1, fun e => this.2.2 e.symm⟩
      rw [hcount, h.2 u v hr.1 hr.2.1 hr.2.2]
    · rw [List.count_eq_zero.2 hm]; omega
  have hset : (es ++ es.map Prod.swap).toFinset = (Finset.range n).offDiag := by
    ext ⟨u, v⟩
    rw [List.mem_toFinset, Finset.mem_offDiag, Finset.mem_range, Finset.mem_range]
    constructor
    · intro hm
      rcases List.mem_append.1 hm with h1 | h1
      · exact h.1 _ h1
      · obtain ⟨⟨a, b⟩, h2, h3⟩ := List.mem_map.1 h1
        simp only [Prod.swap_prod_mk, Prod.mk.injEq] at h3
        obtain ⟨rfl, rfl⟩ := h3
        have := h.1 _ h2
        exact ⟨this.2.1, this.1, fun e => this.2.2 e.symm⟩
    · rintro ⟨hu, hv, huv⟩
      have := h.2 u v hu hv huv
      rw [← hcount] at this
      exact List.count_pos_iff.1 (by omega)
  have hcard := List.toFinset_card_of_nodup hnd
  rw [hset, Finset.offDiag_card, Finset.card_range, List.length_append, List.length_map] at hcard
  rw [Nat.mul_sub, Nat.mul_one]
  omega

section final
variable {F : Type} [CFloat F] {D : Nat} {T : Tree F D}

/-- the final assertion holds -/
theorem TreeOK.final_check (ok : TreeOK T) (hd : T.ndebug = false) (line : Nat) {ts : List Task}
    (hts : ts.Perm (visitP T T.levels 0 0 0)) : T.finalCheck line ts = some (Asserts.tree line true) := by
  have hon : OnLevel D 0 0 := ⟨by simp [levelStart], by simp [levelStart]⟩
  obtain ⟨a, b, cs, h1, h2, h3⟩ := ok.totals_spec ts (fun t ht => visitP_ok _ _ _ _ hon hon t (hts.mem_iff.1 ht))
  obtain ⟨cs', h4, h5⟩ := ok.eachPairOnce (by simp [hd]) hts
  rw [h2, Option.some.injEq] at h4
  subst h4
  have h6 := eachPairOnce_length h5
  rw [List.length_map] at h6
  have h7 : a + b = (T.n : Int) * ((T.n : Int) - 1) := by
    rw [h3]
    cases hn : T.n with
    | zero => rw [hn] at h6; simp at h6 ⊢; omega
    | succ k =>
      rw [hn] at h6
      simp only [Nat.add_sub_cancel] at h6
      have : (2 * cs.length : Int) = ((k + 1 : Nat) : Int) * (k : Int) := by exact_mod_cast h6
      rw [this]; push_cast; ring
  unfold Tree.finalCheck
  rw [obind h1, h7]
  simp

end final

section exact
variable {D : Nat} {w : List ℝ} {x : List (Fin D → ℝ)} {alpha : XR} {T : Tree XR D} {m : ℝ}

theorem mostly_true {Z : Prop} (line : Nat) : Mostly Z [Asserts.tree line true] := by
  intro c hc hf
  simp only [List.mem_cons, List.not_mem_nil, or_false] at hc
  subst hc; cases hf

/-- every assertion `generateEdges` evaluates on the constructed tree holds, except possibly line 245 -/
theorem BuiltX.tree_checks (b : BuiltX D false w x alpha T m) (s : SupportedInput D w x) (env : Env) (rng : Tree.Rng XR)
    (hgeo : GeoBounded rng) (gens : Nat → rng.G) :
    ∃ L, treeChecks env T rng gens = some L ∧ Mostly (Aborts T) L ∧ (Aborts T → Asserts.tree 245 false ∈ L) ∧
      ∃ line, Asserts.tree line true ∈ L ∧ line = if env.threads = 1 then 61 else 82 := by
  have ok := b.ok
  have hon : OnLevel D 0 0 := ⟨by simp [levelStart], by simp [levelStart]⟩
  unfold treeChecks
  by_cases h1 : env.threads = 1
  · rw [if_pos h1]
    have hlev : 0 + (T.levels - 1 + 1) = T.levels := by have := ok.levels_eq; omega
    have hv := ok.visit_eq (T.levels - 1) T.levels 0 0 0 (by omega) hlev hon hon
    rw [show T.levels - 1 + 1 = T.levels by omega] at hv
    obtain ⟨L, h2, h3, h3'⟩ := b.tasks_checks s rng hgeo _ (fun t ht => ht) (gens 0)
    refine ⟨L ++ [Asserts.tree 61 true], ?_, h3.append (mostly_true 61), ?_, 61, by simp, by simp [h1]⟩
    · unfold Tree.sequentialChecks
      rw [obind hv, obind h2, obind (ok.final_check b.ndebug_eq 61 (List.Perm.refl _))]
    · rintro ⟨t, ht, h4, h5⟩
      exact List.mem_append_left _ (h3' t ht h4 h5)
  · rw [if_neg h1]
    obtain ⟨fpl, h2, h3⟩ := startOK_XR s.D1 s.D5 env h1
    have hcells : Coord.numCellsInLevel D fpl = some (2 ^ (D * fpl)) := Coord.numCellsInLevel_eq (by omega)
    obtain ⟨ev, hplan, hperm⟩ := ok.plan_eq h3 (chunks := env.chunks (2 ^ (D * fpl))) (by rw [env.chunks_flatten])
    have hin : ∀ t ∈ eventTasks ev ++ ((env.chunks (2 ^ (D * fpl))).map (shareP T fpl ev)).flatten,
        t ∈ visitP T T.levels 0 0 0 := fun t ht => hperm.mem_iff.1 ht
    obtain ⟨L, h4, h5, h5'⟩ := b.tasks_checks s rng hgeo (eventTasks ev) (fun t ht => hin t (by simp [ht])) (gens 0)
    obtain ⟨cs0, e0, g0, _, h6, _⟩ := runTasks_spec rng hgeo ok (eventTasks ev)
      (fun t ht => visitP_ok _ _ _ _ hon hon t (hin t (by simp [ht]))) (gens 0)
    set shares := (env.chunks (2 ^ (D * fpl))).map (shareP T fpl ev) with hshares
    obtain ⟨M, h7, h8, h8'⟩ := Mostly.concatM' (Z := Aborts T) (c := Asserts.tree 245 false) (L := List.range shares.length)
      (Q := fun k => ∃ ts, shares[k]? = some ts ∧ ∃ t ∈ ts, t.two = true ∧ T.assertBound t = some false)
      (f := fun k => (do
        let ts ← rd shares k
        T.tasksChecks rng ts (if k = 0 then g0 else gens k))) (by
        intro k hk
        rw [List.mem_range] at hk
        obtain ⟨l, h9, h10, h11⟩ := b.tasks_checks s rng hgeo shares[k]
          (fun t ht => hin t (List.mem_append_right _ (List.mem_flatten.2 ⟨_, List.getElem_mem hk, ht⟩)))
          (if k = 0 then g0 else gens k)
        refine ⟨l, (obind (List.getElem?_eq_getElem hk) _).trans h9, h10, ?_⟩
        rintro ⟨ts, h12, t, ht, h13, h14⟩
        rw [List.getElem?_eq_getElem hk, Option.some.injEq] at h12
        subst h12
        exact h11 t ht h13 h14)
    refine ⟨L ++ M ++ [Asserts.tree 82 true], ?_, (h5.append h8).append (mostly_true 82), ?_, 82, by simp, by simp [h1]⟩
    · rw [obind h2, obind hcells]
      unfold Tree.parallelChecks
      rw [obind hplan, obind h4, obind h6]
      refine (obind h7 _).trans ?_
      rw [obind (ok.final_check b.ndebug_eq 82 hperm)]
    · rintro ⟨t, ht, h9, h10⟩
      refine List.mem_append_left _ ?_
      rcases List.mem_append.1 (hperm.mem_iff.2 ht) with h | h
      · exact List.mem_append_left _ (h5' t h h9 h10)
      · refine List.mem_append_right _ ?_
        obtain ⟨ts, hts, h⟩ := List.mem_flatten.1 h
        obtain ⟨k, hk, rfl⟩ := List.getElem_of_mem hts
        exact h8' k (List.mem_range.2 hk) ⟨_, List.getElem?_eq_getElem hk, t, h, h9, h10⟩

end exact
end Girgs
