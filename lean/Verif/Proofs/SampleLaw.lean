import Verif.Proofs.Coins
import Verif.Proofs.Callbacks
/-
The distribution of what the sampling calls emit, with ideal random numbers.
-/
namespace Girgs
open MeasureTheory Spec CFloat Tree
open scoped ENNReal

/-- lists of edges carry the discrete sigma algebra -/
instance : MeasurableSpace (List (Nat × Nat)) := ⊤
instance : DiscreteMeasurableSpace (List (Nat × Nat)) := ⟨fun _ => trivial⟩

/-- the probability that a uniform number of `[0,1)` is below `x` -/
noncomputable def xunit : XR → ℝ
  | .fin x => unit x
  | .pinf => 1
  | .ninf => 0
  | .nan => 0

variable {D : Nat} {T : Tree XR D}

/-- the probability computed for the nodes at two positions -/
noncomputable def pairProb (T : Tree XR D) (c : Nat × Nat) : ℝ :=
  match T.nodes[c.1]?, T.nodes[c.2]? with
  | some u, some v => xunit (T.edgeProb u v)
  | _, _ => 0

theorem pairProb_eq {c : Nat × Nat} {u v : Node XR D} (h1 : T.nodes[c.1]? = some u) (h2 : T.nodes[c.2]? = some v) :
    pairProb T c = xunit (T.edgeProb u v) := by
  unfold pairProb; rw [h1, h2]

theorem coin_unit (p : ℝ) : coin (unit p) = coin p := by
  ext c
  cases c
  · rw [coin_false, coin_false, unit_eq (unit_nonneg p) (unit_le_one p)]
  · rw [coin_true, coin_true, unit_eq (unit_nonneg p) (unit_le_one p)]

/-- entries with their success probabilities -/
noncomputable def coins (T : Tree XR D) (L : List (Nat × Nat)) : List ((Nat × Nat) × ℝ) := L.map fun c => (T.idxPair c, pairProb T c)

section
variable {rng : Rng XR} [MeasurableSpace rng.G] {μ : Measure rng.G}

theorem Law.discard {G : Type} [MeasurableSpace G] {μ : Measure G} [SFinite μ] {β : Type} [MeasurableSpace β] [DiscreteMeasurableSpace β] [Countable β]
    {u : G → ℝ × G} {ν : Measure ℝ} [IsProbabilityMeasure ν] (hu : Measurable u) (hmap : μ.map u = ν.prod μ) (c : β) :
    Law μ (fun g => (c, (u g).2)) (PMF.pure c) := by
  refine ⟨measurable_const.prodMk (measurable_snd.comp hu), ?_⟩
  intro f hf
  have hF : Measurable fun x : ℝ × G => f c x.2 := (hf c).comp measurable_snd
  have : ∫⁻ g, f c (u g).2 ∂μ = ∫⁻ x, f c x.2 ∂(μ.map u) := (lintegral_map hF hu).symm
  rw [this, hmap, lintegral_prod _ hF.aemeasurable]
  simp only [lintegral_const, measure_univ, mul_one]
  rw [tsum_eq_single c]
  · simp
  · intro b' hb'; simp [PMF.pure_apply, hb']

instance : IsProbabilityMeasure (volume.restrict (Set.Ico (0 : ℝ) 1)) := ⟨by simp⟩

theorem Law.decideI (id : IdealRng rng μ) (hth : T.isThreshold = false) (x y : Node XR D) :
    Law μ (decideI T rng x y) (coin (xunit (T.edgeProb x y))) := by
  have := id.prob
  obtain ⟨u, hu, he, hmap⟩ := id.uniform
  have e1 : ∀ g, Tree.decideI T rng x y g = (XR.fin (u g).1 <. T.edgeProb x y, (u g).2) := by
    intro g
    unfold Tree.decideI
    simp [hth, he]
  cases h : T.edgeProb x y with
  | fin e =>
    rw [xunit, coin_unit]
    refine (Law.uniform01 hu hmap e).congr (fun g => ?_) rfl
    rw [e1, h]; rfl
  | pinf =>
    rw [xunit, coin_eq_pure (b := true) (by rw [unit_eq] <;> norm_num)]
    refine (Law.discard hu hmap true).congr (fun g => ?_) rfl
    rw [e1, h]; rfl
  | ninf =>
    rw [xunit, coin_eq_pure (b := false) (by rw [unit_eq] <;> norm_num)]
    refine (Law.discard hu hmap false).congr (fun g => ?_) rfl
    rw [e1, h]; rfl
  | nan =>
    rw [xunit, coin_eq_pure (b := false) (by rw [unit_eq] <;> norm_num)]
    refine (Law.discard hu hmap false).congr (fun g => ?_) rfl
    rw [e1, h]; rfl

theorem runPairsI_law (id : IdealRng rng μ) (hth : T.isThreshold = false) : ∀ (L : List (Nat × Nat)),
    (∀ c ∈ L, c.1 < T.nodes.length ∧ c.2 < T.nodes.length) → LawO μ (runPairsI T rng L) (flips (coins T L)) := by
  intro L
  induction L with
  | nil => intro _; exact ⟨fun g => ([], g), fun g => rfl, Law.pure _⟩
  | cons c L ih =>
    intro hL
    obtain ⟨a, b⟩ := c
    obtain ⟨ha, hb⟩ := hL (a, b) (by simp)
    obtain ⟨r, hr, hlaw⟩ := ih (fun c hc => hL c (by simp [hc]))
    have ea : T.nodes[a]? = some T.nodes[a] := List.getElem?_eq_getElem ha
    have eb : T.nodes[b]? = some T.nodes[b] := List.getElem?_eq_getElem hb
    have e : T.idxPair (a, b) = (T.nodes[a].index, T.nodes[b].index) := by
      unfold Tree.idxPair; rw [Tree.idx_eq ea, Tree.idx_eq eb]
    have hp : pairProb T (a, b) = xunit (T.edgeProb T.nodes[a] T.nodes[b]) := pairProb_eq ea eb
    have h1 := (Law.decideI id hth T.nodes[a] T.nodes[b]).bind
      (run2 := fun d g => (if d then (T.nodes[a].index, T.nodes[b].index) :: (r g).1 else (r g).1, (r g).2))
      (Q := fun d => (flips (coins T L)).map fun es => if d then (T.nodes[a].index, T.nodes[b].index) :: es else es)
      (fun d => hlaw.map fun es => if d then (T.nodes[a].index, T.nodes[b].index) :: es else es)
    refine ⟨_, ?_, h1.congr (fun _ => rfl) ?_⟩
    · intro g
      unfold runPairsI
      refine (obind ea _).trans ?_
      refine (obind eb _).trans ?_
      refine (obind (hr _) _).trans ?_
      rfl
    · rw [coins, List.map_cons, flips, e, hp]
      rfl

theorem sampleTypeI_law (id : IdealRng rng μ) (hth : T.isThreshold = false) (ok : TreeOK T) {t : Task} {ra rb : Nat × Nat}
    (hr : RangesOK T t ra rb) : LawO μ (sampleTypeI T rng t) (flips (coins T (pairListI t ra rb))) := by
  by_cases hc : ra.1 = ra.2 ∨ rb.1 = rb.2
  · have : pairListI t ra rb = [] := by
      rw [List.eq_nil_iff_forall_not_mem]
      rintro ⟨p, q⟩ hm
      have := hr.mem_pairListI.1 hm
      omega
    rw [this]
    refine ⟨fun g => ([], g), fun g => ?_, Law.pure _⟩
    unfold sampleTypeI
    refine (obind hr.eq _).trans ?_
    simp [hc]
  · obtain ⟨r, h1, h2⟩ := runPairsI_law id hth (pairListI t ra rb) (by
      rintro ⟨p, q⟩ hm
      rw [hr.mem_pairListI] at hm
      have := hr.nA; have := hr.nB
      rw [ok.length_nodes]; exact ⟨by omega, by omega⟩)
    refine ⟨r, fun g => ?_, h2⟩
    unfold sampleTypeI
    refine (obind hr.eq _).trans ?_
    simp only [hc, if_false]
    rw [hr.pairsI_eq]
    exact h1 g

theorem skipFrom_drop {E : Type} {b : ℝ} (h0 : 0 < b) (h1 : b ≤ 1) : ∀ (k : Nat) (L : List (E × ℝ)),
    skipFrom b h0 h1 k L = skipFrom b h0 h1 0 (L.drop k) := by
  intro k
  induction k with
  | zero => intro L; simp
  | succ k ih =>
    intro L
    cases L with
    | nil => simp [skipFrom]
    | cons a L => rw [skipFrom, ih, List.drop_succ_cons]

theorem loopII_law (id : IdealRng rng μ) {ra rb : Nat × Nat} (hA : ra.2 ≤ T.nodes.length) (hB : rb.2 ≤ T.nodes.length)
    (hn : T.nodes.length < 2147483648) {b : ℝ} (h0 : 0 < b) (h1 : b ≤ 1)
    (hprob : ∀ c ∈ pairListII ra rb, ∀ u v, T.nodes[c.1]? = some u → T.nodes[c.2]? = some v →
      T.edgeProb u v = XR.fin (pairProb T c)) :
    ∀ (fuel r : Nat), (ra.2 - ra.1) * (rb.2 - rb.1) + 1 ≤ fuel + r → 1 ≤ fuel →
    LawO μ (loopII T rng ra rb (XR.fin b) fuel r) (skipFrom b h0 h1 0 ((coins T (pairListII ra rb)).drop r)) := by
  have hprobm := id.prob
  set N := (ra.2 - ra.1) * (rb.2 - rb.1) with hN
  have hlen : (coins T (pairListII ra rb)).length = N := by simp [coins, pairListII, hN]
  have hNlt : N < 4611686018427387904 := by
    have h1 : ra.2 - ra.1 ≤ 2147483647 := by omega
    have h2 : rb.2 - rb.1 ≤ 2147483647 := by omega
    have := Nat.mul_le_mul h1 h2
    omega
  intro fuel
  induction fuel with
  | zero => intro r _ h; omega
  | succ fuel ih =>
    intro r hf _
    by_cases hr : r < N
    · set c := decodeII ra rb r with hc
      have hcm : c ∈ pairListII ra rb := List.mem_map.2 ⟨r, List.mem_range.2 hr, rfl⟩
      obtain ⟨m1, m2⟩ := mem_pairListII.1 (show (c.1, c.2) ∈ pairListII ra rb from hcm)
      have hc1 : c.1 < T.nodes.length := by omega
      have hc2 : c.2 < T.nodes.length := by omega
      have ea : T.nodes[c.1]? = some T.nodes[c.1] := List.getElem?_eq_getElem hc1
      have eb : T.nodes[c.2]? = some T.nodes[c.2] := List.getElem?_eq_getElem hc2
      have hp := hprob c hcm _ _ ea eb
      have e : T.idxPair c = (T.nodes[c.1].index, T.nodes[c.2].index) := by
        unfold Tree.idxPair; rw [Tree.idx_eq ea, Tree.idx_eq eb]
      obtain ⟨u, hu, hue, humap⟩ := id.uniformTo b h0
      obtain ⟨k, hk, hke, hkmap⟩ := id.geo b h0 h1
      have lawU := Law.uniform0b h0 hu humap (pairProb T c)
      have lawK := Law.ofDiscrete hk hkmap
      have hrest : ∀ j : Nat, LawO μ (loopII T rng ra rb (XR.fin b) fuel ((r + 1 + min j 9223372036854775807) % 18446744073709551616))
          (skipFrom b h0 h1 j ((coins T (pairListII ra rb)).drop (r + 1))) := by
        intro j
        have hmod : (r + 1 + min j 9223372036854775807) % 18446744073709551616 = r + 1 + min j 9223372036854775807 :=
          Nat.mod_eq_of_lt (by have := Nat.min_le_right j 9223372036854775807; omega)
        rw [hmod, skipFrom_drop, List.drop_drop]
        have hd : (coins T (pairListII ra rb)).drop (r + 1 + j) = (coins T (pairListII ra rb)).drop (r + 1 + min j 9223372036854775807) := by
          rcases le_total j 9223372036854775807 with h | h
          · rw [min_eq_left h]
          · rw [min_eq_right h, List.drop_eq_nil_of_le (by omega), List.drop_eq_nil_of_le (by omega)]
        rw [hd]
        exact ih _ (by omega) (by omega)
      choose rest hrest1 hrest2 using hrest
      have lawTail : ∀ d : Bool, Law μ (fun g => (if d then T.idxPair c :: (rest (k g).1 (k g).2).1 else (rest (k g).1 (k g).2).1, (rest (k g).1 (k g).2).2))
          (((geoPMF b h0 h1).bind fun j => skipFrom b h0 h1 j ((coins T (pairListII ra rb)).drop (r + 1))).map
            fun es => if d then T.idxPair c :: es else es) :=
        fun d => (lawK.bind (run2 := rest) hrest2).map fun es => if d then T.idxPair c :: es else es
      refine ⟨_, ?_, (lawU.bind lawTail).congr (fun _ => rfl) ?_⟩
      · intro g
        unfold loopII
        simp only [← hN, hr, if_true]
        refine (obind (show rd T.nodes (ra.1 + r % (ra.2 - ra.1)) = _ from ea) _).trans ?_
        refine (obind (show rd T.nodes (rb.1 + r / (ra.2 - ra.1)) = _ from eb) _).trans ?_
        simp only [hue, hke]
        refine (obind (hrest1 _ _) _).trans ?_
        rw [hp, e, XR.lt_fin]
      · have hdrop : (coins T (pairListII ra rb)).drop r = (T.idxPair c, pairProb T c) :: (coins T (pairListII ra rb)).drop (r + 1) := by
          rw [List.drop_eq_getElem_cons (by omega)]
          congr 1
          simp [coins, pairListII, hc]
        rw [hdrop, skipFrom]
    · rw [List.drop_eq_nil_of_le (by omega), skipFrom]
      refine ⟨fun g => ([], g), fun g => ?_, Law.pure _⟩
      unfold loopII
      simp [← hN, hr]

end
end Girgs
