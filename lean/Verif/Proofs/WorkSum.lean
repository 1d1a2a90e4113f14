import Verif.Proofs.WorkExpected
/-
The expected number of pairs looked at, over the random numbers and the positions.
-/
namespace Girgs
open Spec CFloat MeasureTheory Tree
open scoped ENNReal

/-! ### sums over the edges of a simple graph -/

theorem sum_simple_le {n : Nat} {es : List (Nat × Nat)} (hs : IsSimpleGraph n es) (h : Nat → Nat → ℝ≥0∞) (hsymm : ∀ u v, h u v = h v u) :
    (es.map fun e => h e.1 e.2).sum ≤ ∑ v ∈ Finset.range n, ∑ u ∈ Finset.range v, h u v := by
  set f : Nat × Nat → Nat × Nat := fun e => (max e.1 e.2, min e.1 e.2) with hf
  have e1 : (es.map fun e => h e.1 e.2) = (es.map f).map fun e => h e.2 e.1 := by
    rw [List.map_map]
    refine List.map_congr_left fun e _ => ?_
    simp only [Function.comp_apply, hf]
    rcases le_total e.1 e.2 with h1 | h1
    · rw [min_eq_left h1, max_eq_right h1]
    · rw [min_eq_right h1, max_eq_left h1, hsymm]
  have hnd : (es.map f).Nodup := by
    rw [List.Nodup, List.pairwise_map]
    refine hs.2.imp ?_
    rintro ⟨a, b⟩ ⟨c, d⟩ ⟨h1, h2⟩ h3
    simp only [hf, Prod.mk.injEq, Prod.swap_prod_mk, ne_eq] at h1 h2 h3
    omega
  rw [e1, ← List.sum_toFinset _ hnd, Finset.sum_sigma']
  have hsub : ∀ e ∈ (es.map f).toFinset, (⟨e.1, e.2⟩ : Σ _ : Nat, Nat) ∈ (Finset.range n).sigma fun v => Finset.range v := by
    intro e he
    rw [List.mem_toFinset, List.mem_map] at he
    obtain ⟨⟨a, b⟩, hab, rfl⟩ := he
    have := hs.1 _ hab
    simp only [Finset.mem_sigma, Finset.mem_range, hf]
    simp only at this
    omega
  calc ∑ e ∈ (es.map f).toFinset, h e.2 e.1
      = ∑ z ∈ (es.map f).toFinset.image (fun e => (⟨e.1, e.2⟩ : Σ _ : Nat, Nat)), h z.2 z.1 := by
        rw [Finset.sum_image]
        rintro ⟨a, b⟩ _ ⟨c, d⟩ _ h
        simp only [Sigma.mk.injEq, heq_eq_eq] at h
        rw [h.1, h.2]
    _ ≤ ∑ z ∈ (Finset.range n).sigma fun v => Finset.range v, h z.2 z.1 := by
        refine Finset.sum_le_sum_of_subset ?_
        intro z hz
        rw [Finset.mem_image] at hz
        obtain ⟨e, he, rfl⟩ := hz
        exact hsub e he

/-! ### the pairs of a call -/

section
variable {D : Nat} {ndebug : Bool} {w : List ℝ} {x : List (Fin D → ℝ)} {alpha : XR} {T : Tree XR D} {m a : ℝ}

theorem TreeOK.lookCoins_fst (ok : TreeOK T) {t : Task} (ht : TaskOK T t) (hmp : t.two = true → ∃ bd, T.maxProb t = some (XR.fin bd))
    {cs : List (Nat × Nat)} (hcs : T.candidates t = some cs) : ((lookCoins T t).map Prod.fst).Perm (cs.map T.idxPair) := by
  obtain ⟨ra, rb, hr⟩ := ok.ranges_ok ht
  obtain ⟨mp, hmp'⟩ := ok.maxProb_some ht
  rw [hr.candidates_eq, Option.some.injEq] at hcs
  subst hcs
  have hc : ∀ (q : ℝ) (L : List (Nat × Nat)), (constCoins T q L).map Prod.fst = L.map T.idxPair := by
    intro q L; unfold constCoins; rw [List.map_map]; rfl
  unfold lookCoins candList
  by_cases h2 : t.two = true
  · obtain ⟨bd, hbd⟩ := hmp h2
    rw [hr.eq, hbd]
    simp only [h2, if_true]
    split
    · rw [hc]; exact (hr.pairLists_perm (ht.two h2).1).map _
    · split
      · rw [hc]
      · rw [hc]
  · rw [hr.eq, hmp']
    simp only [h2, Bool.false_eq_true, if_false]
    rw [hc]

theorem TreeOK.lookCoins_all (ok : TreeOK T) : ∀ (ts : List Task), (∀ t ∈ ts, TaskOK T t) →
    (∀ t ∈ ts, t.two = true → ∃ bd, T.maxProb t = some (XR.fin bd)) → ∀ cs, T.allCandidates ts = some cs →
    ((ts.flatMap (lookCoins T)).map Prod.fst).Perm (cs.map T.idxPair) := by
  intro ts
  induction ts with
  | nil =>
    intro _ _ cs h
    simp only [Tree.allCandidates, Tree.concatM, Option.some.injEq] at h
    subst h; simp
  | cons t ts ih =>
    intro hok hmp cs h
    have ht := hok t (by simp)
    obtain ⟨ra, rb, hr⟩ := ok.ranges_ok ht
    obtain ⟨cs', h1, _⟩ := ok.allCandidates_count ts (fun t ht => hok t (by simp [ht]))
    have h2 := ih (fun t ht => hok t (by simp [ht])) (fun t ht => hmp t (by simp [ht])) cs' h1
    have h3 := ok.lookCoins_fst ht (hmp t (by simp)) hr.candidates_eq
    unfold Tree.allCandidates Tree.concatM at h
    rw [obind hr.candidates_eq] at h
    rw [obind (show Tree.concatM ts T.candidates = some cs' from h1)] at h
    simp only [Option.some.injEq] at h
    subst h
    rw [List.flatMap_cons, List.map_append, List.map_append]
    exact h3.append h2

/-- the pairs that the recursion may look at: no pair twice -/
theorem TreeOK.look_simple (ok : TreeOK T) {ts : List Task} (hts : ts.Perm (visitP T T.levels 0 0 0))
    (hmp : ∀ t ∈ ts, t.two = true → ∃ bd, T.maxProb t = some (XR.fin bd)) : IsSimpleGraph T.n ((ts.flatMap (lookCoins T)).map Prod.fst) := by
  have hon : OnLevel D 0 0 := ⟨by simp [levelStart], by simp [levelStart]⟩
  have hok : ∀ t ∈ ts, TaskOK T t := fun t ht => visitP_ok _ _ _ _ hon hon t (hts.mem_iff.1 ht)
  obtain ⟨cs, h1, _⟩ := ok.allCandidates_count ts hok
  exact ok.simple hts.subperm h1 (ok.lookCoins_all ts hok hmp cs h1).subperm

/-- a pair of a call -/
theorem TreeOK.mem_lookCoins (ok : TreeOK T) {t : Task} (ht : TaskOK T t) {c : (Nat × Nat) × ℝ} (hc : c ∈ lookCoins T t) :
    (∃ p q y z, T.nodes[p]? = some y ∧ T.nodes[q]? = some z ∧ Hit T t p q ∧ c.1 = (y.index, z.index)) ∧
    (t.two = true → ∃ bd, T.maxProb t = some (XR.fin bd) ∧ (c.2 = 1 ∧ 1 / 5 < bd ∨ c.2 = 0 ∨ c.2 = bd)) := by
  obtain ⟨ra, rb, hr⟩ := ok.ranges_ok ht
  obtain ⟨mp, hmp⟩ := ok.maxProb_some ht
  have key : ∀ (q : ℝ) (L : List (Nat × Nat)), (∀ p ∈ L, p ∈ pairListI t ra rb) → c ∈ constCoins T q L →
      (∃ p q y z, T.nodes[p]? = some y ∧ T.nodes[q]? = some z ∧ Hit T t p q ∧ c.1 = (y.index, z.index)) ∧ c.2 = q := by
    intro q L hL hc
    unfold constCoins at hc
    rw [List.mem_map] at hc
    obtain ⟨⟨i, j⟩, hij, rfl⟩ := hc
    have hit := mem_pair_hit ok hr (hL _ hij)
    obtain ⟨y, z, hy, hz, _⟩ := id hit
    refine ⟨⟨i, j, y, z, hy, hz, hit, ?_⟩, rfl⟩
    unfold Tree.idxPair
    rw [Tree.idx_eq hy, Tree.idx_eq hz]
  unfold lookCoins at hc
  rw [hr.eq, hmp] at hc
  simp only at hc
  by_cases h2 : t.two = true
  · simp only [h2, if_true] at hc
    have hII : ∀ p ∈ pairListII ra rb, p ∈ pairListI t ra rb := fun p hp => (hr.pairLists_perm (ht.two h2).1).mem_iff.2 hp
    cases mp with
    | fin bd =>
      simp only at hc
      split at hc
      · rename_i h5
        obtain ⟨h3, h4⟩ := key _ _ (fun _ h => h) hc
        exact ⟨h3, fun _ => ⟨bd, hmp, Or.inl ⟨h4, h5⟩⟩⟩
      · split at hc
        · obtain ⟨h3, h4⟩ := key _ _ hII hc
          exact ⟨h3, fun _ => ⟨bd, hmp, Or.inr (Or.inl h4)⟩⟩
        · obtain ⟨h3, h4⟩ := key _ _ hII hc
          exact ⟨h3, fun _ => ⟨bd, hmp, Or.inr (Or.inr h4)⟩⟩
    | _ => simp at hc
  · simp only [h2, Bool.false_eq_true, if_false] at hc
    exact ⟨(key _ _ (fun _ h => h) hc).1, fun h => absurd h h2⟩

end

/-! ### bounds that do not depend on the tree -/

/-- a function of the weights and positions of two nodes -/
noncomputable def pairFn {D n : Nat} (w : List ℝ) (X : Fin n → Fin D → ℝ) (f : ℝ → ℝ → ℝ) (u v : Nat) : ℝ≥0∞ :=
  if h : u < n ∧ v < n then ENNReal.ofReal (f (4 * 4 ^ D * (w.getD u 0 * w.getD v 0 / w.sum)) (torusDist (X ⟨u, h.1⟩) (X ⟨v, h.2⟩))) else 0

theorem pairFn_symm {D n : Nat} (w : List ℝ) (X : Fin n → Fin D → ℝ) (f : ℝ → ℝ → ℝ) (u v : Nat) : pairFn w X f u v = pairFn w X f v u := by
  unfold pairFn
  by_cases h : u < n ∧ v < n
  · rw [dif_pos h, dif_pos ⟨h.2, h.1⟩, torusDist_comm, mul_comm (w.getD u 0)]
  · rw [dif_neg h, dif_neg (fun h' => h ⟨h'.2, h'.1⟩)]

section
variable {D n : Nat} {ndebug : Bool} {w : List ℝ} {X : Fin n → Fin D → ℝ} {alpha : XR} {T : Tree XR D} {m a : ℝ}

theorem pairFn_eq (f : ℝ → ℝ → ℝ) {i j : Nat} {u v : ℝ} {p q : Fin D → ℝ} (hu : w[i]? = some u) (hv : w[j]? = some v)
    (hp : (List.ofFn X)[i]? = some p) (hq : (List.ofFn X)[j]? = some q) :
    pairFn w X f i j = ENNReal.ofReal (f (4 * 4 ^ D * (u * v / w.sum)) (torusDist p q)) := by
  rw [List.getElem?_eq_some_iff] at hp hq
  obtain ⟨hi, hp⟩ := hp
  obtain ⟨hj, hq⟩ := hq
  rw [List.length_ofFn] at hi hj
  rw [List.getElem_ofFn] at hp hq
  unfold pairFn
  rw [dif_pos ⟨hi, hj⟩, List.getD_eq_getElem?_getD, List.getD_eq_getElem?_getD, hu, hv, hp, hq]
  rfl

/-- probability of a look, finite alpha -/
theorem BuiltX.look_prob (b : BuiltX D ndebug w (List.ofFn X) (XR.fin a) T m) (s : SupportedInput D w (List.ofFn X)) (ha : 0 < a) {t : Task}
    (ht : t ∈ visitP T T.levels 0 0 0) {c : (Nat × Nat) × ℝ} (hc : c ∈ lookCoins T t) :
    ENNReal.ofReal (unit c.2) ≤ 5 * pairFn w X (Scaling.connProb D a) c.1.1 c.1.2 := by
  have hon : OnLevel D 0 0 := ⟨by simp [levelStart], by simp [levelStart]⟩
  have htok := visitP_ok _ _ _ _ hon hon t ht
  have hW := b.W_pos s
  obtain ⟨⟨p, q, y, z, hy, hz, hit, e⟩, h2⟩ := b.ok.mem_lookCoins htok hc
  obtain ⟨u, xu, hu, hxu, _, _⟩ := b.lookup hy
  obtain ⟨v, xv, hv, hxv, _, _⟩ := b.lookup hz
  have hu0 := s.wpos u (List.mem_of_getElem? hu)
  have hv0 := s.wpos v (List.mem_of_getElem? hv)
  rw [e]
  simp only
  rw [pairFn_eq _ hu hv hxu hxv]
  have ht0 : 0 < 4 * 4 ^ D * (u * v / w.sum) := by positivity
  have hmem := Scaling.connProb_mem (D := D) a _ (torusDist xu xv) ht0 (Scaling.torusDist_nonneg _ _)
  rw [show (5 : ℝ≥0∞) = ENNReal.ofReal 5 by simp, ← ENNReal.ofReal_mul (by norm_num)]
  refine ENNReal.ofReal_le_ofReal ?_
  cases htwo : t.two
  · have h3 := b.close_I s ht htwo hy hz hit hu hv hxu hxv
    have h4 : Scaling.connProb D a (4 * 4 ^ D * (u * v / w.sum)) (torusDist xu xv) = 1 := by
      unfold Scaling.connProb
      split
      · rfl
      · rename_i hne
        have hpos : 0 < torusDist xu xv ^ D := pow_pos (lt_of_le_of_ne (Scaling.torusDist_nonneg _ _) (Ne.symm hne)) D
        refine min_eq_left (Real.one_le_rpow ?_ ha.le)
        rw [le_div_iff₀ hpos, one_mul]; exact h3.le
    rw [h4]
    have := unit_le_one c.2
    linarith
  · obtain ⟨bd, hbd, h5⟩ := h2 htwo
    have h3 := b.close_II s ha ht htwo hy hz hit hu hv hxu hxv hbd
    rcases h5 with ⟨h5, h6⟩ | h5 | h5
    · have := unit_le_one c.2; linarith
    · rw [h5, unit_eq le_rfl (by norm_num)]; linarith [hmem.1]
    · have h0 : 0 ≤ unit c.2 := unit_nonneg _
      have : unit c.2 ≤ max 0 bd := by rw [h5]; exact max_le_max_left 0 (min_le_left _ _)
      rcases le_total 0 bd with h6 | h6
      · rw [max_eq_right h6] at this; linarith
      · rw [max_eq_left h6] at this; linarith [hmem.1]

/-- probability of a look in a release build with infinite alpha -/
theorem BuiltX.look_threshold (b : BuiltX D ndebug w (List.ofFn X) alpha T m) (s : SupportedInput D w (List.ofFn X)) {t : Task}
    (ht : t ∈ visitP T T.levels 0 0 0) (h1 : t.two = false) {c : (Nat × Nat) × ℝ} (hc : c ∈ lookCoins T t) :
    ENNReal.ofReal (unit c.2) ≤ pairFn w X (fun t r => if r ^ D < t then 1 else 0) c.1.1 c.1.2 := by
  have hon : OnLevel D 0 0 := ⟨by simp [levelStart], by simp [levelStart]⟩
  have htok := visitP_ok _ _ _ _ hon hon t ht
  obtain ⟨⟨p, q, y, z, hy, hz, hit, e⟩, _⟩ := b.ok.mem_lookCoins htok hc
  obtain ⟨u, xu, hu, hxu, _, _⟩ := b.lookup hy
  obtain ⟨v, xv, hv, hxv, _, _⟩ := b.lookup hz
  rw [e]
  simp only
  rw [pairFn_eq _ hu hv hxu hxv, if_pos (b.close_I s ht h1 hy hz hit hu hv hxu hxv)]
  exact ENNReal.ofReal_le_ofReal (unit_le_one _)

theorem BuiltX.look_sum (b : BuiltX D ndebug w (List.ofFn X) alpha T m) (s : SupportedInput D w (List.ofFn X)) {ts : List Task}
    (hts : ts.Perm (visitP T T.levels 0 0 0)) (hmp : ∀ t ∈ ts, t.two = true → ∃ bd, T.maxProb t = some (XR.fin bd)) {K : ℝ≥0∞} {f : ℝ → ℝ → ℝ}
    (hf : ∀ t ∈ ts, ∀ c ∈ lookCoins T t, ENNReal.ofReal (unit c.2) ≤ K * pairFn w X f c.1.1 c.1.2) :
    ((ts.flatMap (lookCoins T)).map fun c => ENNReal.ofReal (unit c.2)).sum ≤
      K * ∑ v ∈ Finset.range n, ∑ u ∈ Finset.range v, pairFn w X f u v := by
  have hn : T.n = n := by rw [b.n_eq, ← s.len, List.length_ofFn]
  have h1 := sum_simple_le (b.ok.look_simple hts hmp) (fun u v => K * pairFn w X f u v) (fun u v => by simp only [pairFn_symm])
  rw [hn] at h1
  simp_rw [Finset.mul_sum]
  refine le_trans ?_ h1
  rw [List.map_map]
  refine List.sum_le_sum ?_
  intro c hc
  rw [List.mem_flatMap] at hc
  obtain ⟨t, ht, hc⟩ := hc
  exact hf t ht c hc

end
end Girgs
