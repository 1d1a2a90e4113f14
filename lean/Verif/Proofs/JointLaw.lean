import Verif.Proofs.Chernoff
/-
The joint law of any edges and non-edges.
-/
namespace Girgs
open MeasureTheory Spec
open scoped ENNReal

open Classical in
/-- the probability that given entries are kept and given other entries are dropped -/
theorem flips_joint {E : Type} (S B : E → Prop) (hSB : ∀ e, S e → ¬ B e) : ∀ (L : List (E × ℝ)), (L.map Prod.fst).Nodup →
    ∑' es, flips L es * (if ∀ c ∈ L.map Prod.fst, (S c → c ∈ es) ∧ (B c → c ∉ es) then 1 else 0) =
      (L.map fun c => if S c.1 then ENNReal.ofReal (unit c.2) else if B c.1 then ENNReal.ofReal (1 - unit c.2) else 1).prod := by
  intro L
  induction L with
  | nil => intro _; simp
  | cons a L ih =>
    obtain ⟨e, p⟩ := a
    intro hn
    rw [List.map_cons, List.nodup_cons] at hn
    have ih := ih hn.2
    set M := L.map Prod.fst with hM
    rw [tsum_flips_cons, List.map_cons, List.map_cons, List.prod_cons, ← ih]
    simp only [← hM]
    have h1 : ∀ es, (if ∀ c ∈ e :: M, (S c → c ∈ e :: es) ∧ (B c → c ∉ e :: es) then (1 : ℝ≥0∞) else 0) =
        if B e then 0 else if ∀ c ∈ M, (S c → c ∈ es) ∧ (B c → c ∉ es) then 1 else 0 := by
      intro es
      have hM' : (∀ c ∈ M, (S c → c ∈ e :: es) ∧ (B c → c ∉ e :: es)) ↔ ∀ c ∈ M, (S c → c ∈ es) ∧ (B c → c ∉ es) := by
        refine forall₂_congr fun c hc => ?_
        have : c ≠ e := by rintro rfl; exact hn.1 hc
        simp [this]
      simp only [List.forall_mem_cons, hM']
      by_cases hB : B e <;> simp [hB]
    have h2 : ∀ es, flips L es * (if ∀ c ∈ e :: M, (S c → c ∈ es) ∧ (B c → c ∉ es) then (1 : ℝ≥0∞) else 0) =
        if S e then 0 else flips L es * if ∀ c ∈ M, (S c → c ∈ es) ∧ (B c → c ∉ es) then 1 else 0 := by
      intro es
      by_cases h : flips L es = 0
      · simp [h]
      · have he : e ∉ es := fun h2 => hn.1 ((flips_sublist L _ h).subset h2)
        simp only [List.forall_mem_cons]
        by_cases hS : S e <;> simp [hS, he]
    simp only [h1, h2]
    by_cases hS : S e
    · simp [hS, hSB e hS]
    · by_cases hB : B e
      · simp [hS, hB]
      · simp only [hS, hB, if_false, one_mul]
        rw [← add_mul, ← ENNReal.ofReal_add (unit_nonneg _) (by have := unit_le_one p; linarith)]
        simp

open Classical in
/-- the same for the edges of a graph -/
theorem coins_joint {n : ℕ} {L : List ((ℕ × ℕ) × ℝ)} (honce : EachPairOnce n (L.map Prod.fst)) {p : ℕ → ℕ → ℝ}
    (hp : ∀ a b, p a b = p b a) (hL : ∀ c ∈ L, unit c.2 = p c.1.1 c.1.2) {A B : ℕ → ℕ → Prop} (hA : ∀ u v, A u v → A v u) (hB : ∀ u v, B u v → B v u)
    (hAB : ∀ u v, A u v → ¬ B u v) :
    ∑' es, flips L es * Set.indicator {es | ∀ u v, u < n → v < n → u ≠ v → (A u v → (u, v) ∈ es ∨ (v, u) ∈ es) ∧ (B u v → ¬ ((u, v) ∈ es ∨ (v, u) ∈ es))} 1 es =
      ∏ e ∈ upairs n, if A e.1 e.2 then ENNReal.ofReal (p e.1 e.2) else if B e.1 e.2 then ENNReal.ofReal (1 - p e.1 e.2) else 1 := by
  have hsim := EachPairOnce.simple honce (List.Subperm.refl _)
  have hnd : (L.map Prod.fst).Nodup := hsim.2.imp fun h => h.1
  have h1 := flips_joint (fun e : ℕ × ℕ => A e.1 e.2) (fun e => B e.1 e.2) (fun e => hAB e.1 e.2) L hnd
  refine Eq.trans (tsum_congr fun es => ?_) (h1.trans ?_)
  · by_cases h : flips L es = 0
    · simp [h]
    congr 1
    have hsub := (flips_sublist L _ h).subset
    have hone : ∀ a b, (a, b) ∈ L.map Prod.fst → (b, a) ∉ L.map Prod.fst := by
      intro a b h1 h2
      have hab := honce.1 _ h1
      have := honce.2 a b hab.1 hab.2.1 hab.2.2
      unfold occurrences at this
      have c1 := List.count_pos_iff.2 h1
      have c2 := List.count_pos_iff.2 h2
      omega
    have hiff : (∀ u v, u < n → v < n → u ≠ v → (A u v → (u, v) ∈ es ∨ (v, u) ∈ es) ∧ (B u v → ¬ ((u, v) ∈ es ∨ (v, u) ∈ es))) ↔
        ∀ c ∈ L.map Prod.fst, (A c.1 c.2 → c ∈ es) ∧ (B c.1 c.2 → c ∉ es) := by
      constructor
      · rintro h ⟨a, b⟩ hc
        have hab := honce.1 _ hc
        have h3 := h a b hab.1 hab.2.1 hab.2.2
        exact ⟨fun h4 => (h3.1 h4).resolve_right fun h5 => hone _ _ hc (hsub h5), fun h4 h5 => h3.2 h4 (Or.inl h5)⟩
      · intro h u v hu hv huv
        have h3 := honce.2 u v hu hv huv
        refine ⟨fun h4 => ?_, fun h4 h5 => ?_⟩
        · unfold occurrences at h3
          rcases Nat.eq_zero_or_pos ((L.map Prod.fst).count (u, v)) with h5 | h5
          · exact Or.inr ((h (v, u) (List.count_pos_iff.1 (by omega))).1 (hA _ _ h4))
          · exact Or.inl ((h (u, v) (List.count_pos_iff.1 h5)).1 h4)
        · rcases h5 with h5 | h5
          · exact (h (u, v) (hsub h5)).2 h4 h5
          · exact (h (v, u) (hsub h5)).2 (hB _ _ h4) h5
    simp only [Set.indicator_apply, Set.mem_setOf_eq, hiff, Pi.one_apply]
    congr
  · rw [upairs, ← prod_eachPair honce hsim (fun a b => if A a b then ENNReal.ofReal (p a b) else if B a b then ENNReal.ofReal (1 - p a b) else 1)
      (fun a b => by rw [hp a b]; simp only [show A a b ↔ A b a from ⟨hA _ _, hA _ _⟩, show B a b ↔ B b a from ⟨hB _ _, hB _ _⟩]), List.map_map]
    congr 1
    apply List.map_congr_left
    intro c hc
    simp only [Function.comp, hL c hc]

end Girgs
