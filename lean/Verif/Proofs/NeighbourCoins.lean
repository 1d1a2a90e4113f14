import Verif.Proofs.NeighbourLaw
/-
The neighbours and the degree of a node if every pair of nodes is connected by an independent coin.
-/
namespace Girgs.Props
open CFloat Spec MeasureTheory ProbabilityTheory Tree
open XR (fin)
open scoped ENNReal

theorem adjacent_comm {es : List (ℕ × ℕ)} {u v : ℕ} : adjacent es u v ↔ adjacent es v u := or_comm

section
variable {n : ℕ} {u : Fin n} {S B : Finset (Fin n)} {L : List ((ℕ × ℕ) × ℝ)} {p : ℕ → ℕ → ℝ}

theorem coins_neighbours (honce : EachPairOnce n (L.map Prod.fst)) (hp : ∀ a b, p a b = p b a) (hL : ∀ c ∈ L, unit c.2 = p c.1.1 c.1.2)
    (hS : u ∉ S) (hB : u ∉ B) (hd : Disjoint S B) :
    ∑' es, flips L es * Set.indicator {es | (∀ v ∈ S, adjacent es u v) ∧ ∀ v ∈ B, ¬ adjacent es u v} 1 es =
      (∏ v ∈ S, ENNReal.ofReal (p u v)) * ∏ v ∈ B, ENNReal.ofReal (1 - p u v) := by
  classical
  obtain ⟨inS, hinS⟩ : ∃ inS : ℕ → Prop, inS = fun x => ∃ v ∈ S, v.1 = x := ⟨_, rfl⟩
  obtain ⟨inB, hinB⟩ : ∃ inB : ℕ → Prop, inB = fun x => ∃ v ∈ B, v.1 = x := ⟨_, rfl⟩
  have sS : ∀ v : Fin n, inS v ↔ v ∈ S := fun v => by
    rw [hinS]; exact ⟨fun ⟨a, h1, h2⟩ => Fin.ext h2 ▸ h1, fun h => ⟨v, h, rfl⟩⟩
  have sB : ∀ v : Fin n, inB v ↔ v ∈ B := fun v => by
    rw [hinB]; exact ⟨fun ⟨a, h1, h2⟩ => Fin.ext h2 ▸ h1, fun h => ⟨v, h, rfl⟩⟩
  have nS : ¬ inS u := fun h => hS ((sS u).1 h)
  have nB : ¬ inB u := fun h => hB ((sB u).1 h)
  have nSB : ∀ x, inS x → ¬ inB x := by
    rw [hinS, hinB]
    rintro x ⟨v, h1, rfl⟩ ⟨v', h2, h3⟩
    obtain rfl := Fin.ext h3
    exact Finset.disjoint_left.1 hd h1 h2
  have hA : ∀ a b : ℕ, ((a = u.1 ∧ inS b) ∨ (b = u.1 ∧ inS a)) → ((b = u.1 ∧ inS a) ∨ (a = u.1 ∧ inS b)) := fun a b h => h.symm
  have hB' : ∀ a b : ℕ, ((a = u.1 ∧ inB b) ∨ (b = u.1 ∧ inB a)) → ((b = u.1 ∧ inB a) ∨ (a = u.1 ∧ inB b)) := fun a b h => h.symm
  have h := coins_joint honce hp hL (A := fun a b => (a = u.1 ∧ inS b) ∨ (b = u.1 ∧ inS a)) (B := fun a b => (a = u.1 ∧ inB b) ∨ (b = u.1 ∧ inB a)) hA hB' (by
    rintro a b (⟨h1, h2⟩ | ⟨h1, h2⟩) (⟨h3, h4⟩ | ⟨h3, h4⟩)
    · exact nSB _ h2 h4
    · subst h3; exact nS h2
    · subst h3; exact nS h2
    · exact nSB _ h2 h4)
  have hset : {es : List (ℕ × ℕ) | (∀ v ∈ S, adjacent es u v) ∧ ∀ v ∈ B, ¬ adjacent es u v} =
      {es | ∀ a b, a < n → b < n → a ≠ b → (((a = u.1 ∧ inS b) ∨ (b = u.1 ∧ inS a)) → (a, b) ∈ es ∨ (b, a) ∈ es) ∧
        (((a = u.1 ∧ inB b) ∨ (b = u.1 ∧ inB a)) → ¬ ((a, b) ∈ es ∨ (b, a) ∈ es))} := by
    ext es
    simp only [Set.mem_setOf_eq]
    constructor
    · rintro ⟨h1, h2⟩ a b ha hb hab
      refine ⟨?_, ?_⟩
      · rintro (⟨rfl, h3⟩ | ⟨rfl, h3⟩)
        · exact h1 ⟨b, hb⟩ ((sS ⟨b, hb⟩).1 h3)
        · exact (h1 ⟨a, ha⟩ ((sS ⟨a, ha⟩).1 h3)).symm
      · rintro (⟨rfl, h3⟩ | ⟨rfl, h3⟩)
        · exact h2 ⟨b, hb⟩ ((sB ⟨b, hb⟩).1 h3)
        · exact fun h4 => h2 ⟨a, ha⟩ ((sB ⟨a, ha⟩).1 h3) h4.symm
    · intro h1
      refine ⟨fun v hv => ?_, fun v hv => ?_⟩
      · exact (h1 u v u.2 v.2 fun h => hS (Fin.ext h ▸ hv)).1 (Or.inl ⟨rfl, (sS v).2 hv⟩)
      · exact (h1 u v u.2 v.2 fun h => hB (Fin.ext h ▸ hv)).2 (Or.inl ⟨rfl, (sB v).2 hv⟩)
  rw [hset, h]
  have h2 := prod_upairs_node u.2 (f := fun a b => if (a = u.1 ∧ inS b) ∨ (b = u.1 ∧ inS a) then ENNReal.ofReal (p a b) else
    if (a = u.1 ∧ inB b) ∨ (b = u.1 ∧ inB a) then ENNReal.ofReal (1 - p a b) else 1) (fun a b => by
      rw [hp a b]
      simp only [or_comm])
  refine Eq.trans (Finset.prod_congr rfl fun e _ => ?_) (h2.trans ?_)
  · by_cases h3 : e.1 = u.1 ∨ e.2 = u.1
    · rw [if_pos h3]
      congr
    · rw [if_neg h3, if_neg fun h4 => h3 (h4.imp And.left And.left), if_neg fun h4 => h3 (h4.imp And.left And.left)]
  · rw [prod_row hS hB]
    refine Finset.prod_congr rfl fun v _ => ?_
    simp only [Fin.ext_iff]
    by_cases h3 : u.1 = v.1
    · rw [if_pos h3, if_pos h3]
    · rw [if_neg h3, if_neg h3]
      have k1 : ((True ∧ inS v.1) ∨ (v.1 = u.1 ∧ inS u.1)) ↔ v ∈ S := by rw [← sS v]; exact ⟨fun h => h.elim And.right fun h => absurd h.1.symm h3, fun h => Or.inl ⟨trivial, h⟩⟩
      have k2 : ((True ∧ inB v.1) ∨ (v.1 = u.1 ∧ inB u.1)) ↔ v ∈ B := by rw [← sB v]; exact ⟨fun h => h.elim And.right fun h => absurd h.1.symm h3, fun h => Or.inl ⟨trivial, h⟩⟩
      simp only [k1, k2]
      by_cases h4 : v ∈ S
      · have h5 : v ∉ B := Finset.disjoint_left.1 hd h4
        simp [h4, h5]
      · by_cases h5 : v ∈ B <;> simp [h4, h5]

/-- the degree as the sum over the possible neighbourhoods -/
theorem coins_degree (honce : EachPairOnce n (L.map Prod.fst)) (d : ℕ) :
    ∑' es, flips L es * Set.indicator {es | degreeOf u es = d} 1 es = ∑ S ∈ (Finset.univ.erase u).powersetCard d,
      ∑' es, flips L es * Set.indicator {es | (∀ v ∈ S, adjacent es u v) ∧ ∀ v ∈ (Finset.univ.erase u) \ S, ¬ adjacent es u v} 1 es := by
  classical
  rw [← Summable.tsum_finsetSum fun S _ => ENNReal.summable]
  refine tsum_congr fun es => ?_
  by_cases h : flips L es = 0
  · simp [h]
  rw [← Finset.mul_sum]
  congr 1
  have hsim := EachPairOnce.simple honce (flips_sublist L _ h).subperm
  have hg : IsGraphOf n (adjacent es) es := ⟨hsim.1, hsim.2, fun _ _ _ _ _ => Iff.rfl⟩
  by_cases hdeg : degreeOf u es = d
  · obtain ⟨S, hS, h1⟩ := (degree_iff hg u d).1 hdeg
    rw [Set.indicator_of_mem (by exact hdeg), Finset.sum_eq_single_of_mem S hS, Set.indicator_of_mem (by exact h1)]
    intro S' hS' hne
    refine Set.indicator_of_notMem ?_ _
    rintro ⟨h3, h4⟩
    have hs := (Finset.mem_powersetCard.1 hS).1
    have hs' := (Finset.mem_powersetCard.1 hS').1
    refine hne (Finset.Subset.antisymm (fun v hv => ?_) fun v hv => ?_)
    · by_contra hc
      exact h1.2 v (Finset.mem_sdiff.2 ⟨hs' hv, hc⟩) (h3 v hv)
    · by_contra hc
      exact h4 v (Finset.mem_sdiff.2 ⟨hs hv, hc⟩) (h1.1 v hv)
  · rw [Set.indicator_of_notMem (by exact hdeg)]
    refine (Finset.sum_eq_zero fun S hS => Set.indicator_of_notMem ?_ _).symm
    exact fun h1 => hdeg ((degree_iff hg u d).2 ⟨S, hS, h1⟩)

end

open Classical in
/-- the law of the neighbourhood and of the degree of a node, for fixed positions -/
theorem girg_node_law {D : ℕ} {w : List ℝ} {x : List (Fin D → ℝ)} (s : SupportedInput D w x) {a : ℝ} (ha : 0 < a) :
    ∃ pr : ℕ → ℕ → ℝ,
      (∀ u v, u < w.length → v < w.length → u ≠ v → pr u v = girgProb w x a u v ∨ (pr u v = 0 ∧ girgProb w x a u v < 1 / 1000000)) ∧
      ∀ (env : Env) (rng : Rng XR) [MeasurableSpace rng.G] (μ : Measure rng.G), IdealRng rng μ → ∀ u : Fin w.length,
        (∀ S B : Finset (Fin w.length), u ∉ S → u ∉ B → Disjoint S B →
          graphProb env rng μ (xw w) (xl x) (fin a) (fun es => (∀ v ∈ S, adjacent es u v) ∧ ∀ v ∈ B, ¬ adjacent es u v) =
            (∏ v ∈ S, ENNReal.ofReal (pr u v)) * ∏ v ∈ B, ENNReal.ofReal (1 - pr u v)) ∧
        ∀ d : ℕ, graphProb env rng μ (xw w) (xl x) (fin a) (fun es => degreeOf u es = d) =
          ∑ S ∈ (Finset.univ.erase u).powersetCard d, (∏ v ∈ S, ENNReal.ofReal (pr u v)) * ∏ v ∈ (Finset.univ.erase u) \ S, ENNReal.ofReal (1 - pr u v) := by
  obtain ⟨T, hT⟩ := constructedX_exists true (fin a) s 1 le_rfl (by norm_num)
  obtain ⟨m, b⟩ := hT.builtX s
  refine ⟨edgePr T, fun u v hu hv huv => b.edgePr_spec s ha hu hv huv, ?_⟩
  intro env rng _ μ hid u
  have hT' := hT.setDebug env.ndebug
  obtain ⟨m', b'⟩ := hT'.builtX s
  have hth : T.isThreshold = false := by unfold Tree.isThreshold; rw [b.alpha_eq]; rfl
  obtain ⟨L, h1, h2⟩ := result_event hid b' hT' s ha
  have hfst : (L.map Prod.fst).Perm ((allCoins _).map Prod.fst) := h1.map _
  have honce : EachPairOnce w.length (L.map Prod.fst) := eachPairOnce_perm hfst (b'.allCoins_once (List.Perm.refl _))
  have hL : ∀ c ∈ L, unit c.2 = edgePr T c.1.1 c.1.2 := by
    rintro ⟨⟨c, d⟩, q⟩ hm
    have hin := honce.1 _ (List.mem_map.2 ⟨_, hm, rfl⟩)
    simp only at hin
    have e1 := b'.edgePr_eq (h1.mem_iff.1 hm)
    have hb := edgePr_unit b' s ha hin.1 hin.2.1 hin.2.2
    rw [e1] at hb
    rw [unit_eq hb.1 hb.2, ← e1]
    exact edgePr_ndebug hth _ _ _
  have hadj : ∀ {es fs : List (ℕ × ℕ)}, es.Perm fs → ∀ v : Fin w.length, adjacent es u v ↔ adjacent fs u v := fun h v => by
    unfold adjacent; simp only [h.mem_iff]
  have hN : ∀ S B : Finset (Fin w.length), u ∉ S → u ∉ B → Disjoint S B →
      ∑' es, flips L es * Set.indicator {es | (∀ v ∈ S, adjacent es u v) ∧ ∀ v ∈ B, ¬ adjacent es u v} 1 es =
        (∏ v ∈ S, ENNReal.ofReal (edgePr T u v)) * ∏ v ∈ B, ENNReal.ofReal (1 - edgePr T u v) := fun S B hS hB hd =>
    coins_neighbours honce (fun u v => edgePr_comm u v) hL hS hB hd
  constructor
  · intro S B hS hB hd
    unfold graphProb
    rw [h2 (fun es => (∀ v ∈ S, adjacent es u v) ∧ ∀ v ∈ B, ¬ adjacent es u v) (fun es fs h => by simp only [hadj h])]
    exact hN S B hS hB hd
  · intro d
    unfold graphProb
    rw [h2 (fun es => degreeOf u es = d) (fun es fs h => by rw [degreeOf_perm h]), coins_degree honce d]
    refine Finset.sum_congr rfl fun S hS => ?_
    have hS' := (Finset.mem_powersetCard.1 hS).1
    exact hN S _ (fun h => Finset.notMem_erase u _ (hS' h)) (fun h => Finset.notMem_erase u _ (Finset.mem_sdiff.1 h).1) Finset.disjoint_sdiff

end Girgs.Props
