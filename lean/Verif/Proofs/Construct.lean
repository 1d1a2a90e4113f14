import Verif.Proofs.BuildIndex
import Verif.Props.IntSort
/-
The constructor of `SpatialTree` establishes `TreeOK`.
-/
namespace Girgs.Build
open Girgs.Spec CFloat

variable {F : Type} [CFloat F] {D : Nat}

/-- What construction needs from its input and from floating point arithmetic.  For exact arithmetic this is derived
from the input alone (`Verif/Proofs/ConstructXR.lean`). -/
structure InputOK (D : Nat) (weights : List F) (positions : List (Fin D → F)) (h : Header F) : Prop where
  D1 : 1 ≤ D
  D5 : D ≤ 5
  len : positions.length = weights.length
  pos : 1 ≤ weights.length
  small : weights.length < 2147483648
  depth : D * h.levels ≤ 31
  layers_le : h.layers ≤ 30
  total : layerOff D h.blc h.layers < 2147483648
  /-- the layer of every weight is one of the layers -/
  layer : ∀ w ∈ weights, ∃ k : Nat, toI32 (CFloat.log2 (w /. h.w0)) = some (k : Int) ∧
    toSize (CFloat.log2 (w /. h.w0)) = some k ∧ k < h.layers
  /-- scaling a coordinate by `2^l` and truncating gives a grid coordinate -/
  grid : ∀ p ∈ positions, ∀ d, ∀ l, l ≤ 30 → ∃ k, toU32 (p d *. ofInt ((2 : Int) ^ l)) = some k ∧ k < 2 ^ l

theorem header_facts {weights : List F} {h : Header F} (e : header D weights = some h) :
    h.levels = partitioningBaseLevel D h.blc 0 0 + 1 ∧ h.W = sumElems weights ∧
      minElem weights = some h.w0 ∧ maxElem weights = some h.wn ∧ toI32 (CFloat.log2 (h.W /. h.w0 /. h.w0)) = some h.blc ∧
      ∃ l, toU32 (CFloat.floor (CFloat.log2 (h.wn /. h.w0))) = some l ∧ h.layers = u32 (l + 1) := by
  unfold header at e
  cases e1 : minElem weights with
  | none => simp [e1] at e
  | some w0 =>
    cases e2 : maxElem weights with
    | none => simp [e1, e2] at e
    | some wn =>
      cases e3 : toI32 (CFloat.log2 (sumElems weights /. w0 /. w0)) with
      | none => simp [e1, e2, e3] at e
      | some blc =>
        cases e4 : toU32 (CFloat.floor (CFloat.log2 (wn /. w0))) with
        | none => simp [e1, e2, e3, e4] at e
        | some l =>
          simp only [e1, e2, e3, e4, Option.bind_eq_bind, Option.bind_some, Option.some.injEq] at e
          subst e
          refine ⟨?_, rfl, rfl, rfl, e3, l, e4, rfl⟩
          have hb : blc < 2147483648 := by
            unfold toI32 at e3
            split at e3
            · split at e3
              · simp only [Option.some.injEq] at e3; omega
              · cases e3
            · cases e3
          apply u32_eq
          have : partitioningBaseLevel D blc 0 0 < 2147483648 := by
            unfold partitioningBaseLevel imax cdiv
            have hd : (blc - ((0 : Nat) : Int) - ((0 : Nat) : Int) - 2).tdiv (D : Int) < 2147483648 := by
              have hz2 : blc - ((0 : Nat) : Int) - ((0 : Nat) : Int) - 2 < 2147483648 := by omega
              generalize blc - ((0 : Nat) : Int) - ((0 : Nat) : Int) - 2 = z at hz2 ⊢
              rcases le_or_gt z 0 with hz | hz
              · have : z.tdiv (D : Int) ≤ 0 := by
                  have h0 := Int.tdiv_nonneg (a := -z) (b := (D : Int)) (by omega) (Int.natCast_nonneg D)
                  rw [Int.neg_tdiv] at h0; omega
                omega
              · have := Int.tdiv_le_self (a := z) (D : Int) (by omega)
                omega
            split <;> omega
          show partitioningBaseLevel D blc 0 0 + 1 < 2 ^ 32
          omega

theorem layerPairTable_fold {levels : Nat} {g : Nat × Nat → Nat} (L : List (Nat × Nat)) (hL : ∀ p ∈ L, g p < levels)
    (f : Nat → List (Nat × Nat)) :
    L.foldlM (fun lp p => do
      let row ← rd lp (g p)
      wr lp (g p) (row ++ [p])) ((List.range levels).map f) =
    some ((List.range levels).map fun l => f l ++ L.filter fun p => g p = l) := by
  induction L generalizing f with
  | nil => simp
  | cons p L ih =>
    rw [List.foldlM_cons]
    have hp := hL p (by simp)
    have e1 : rd ((List.range levels).map f) (g p) = some (f (g p)) := by simp [rd, hp]
    have e2 : wr ((List.range levels).map f) (g p) (f (g p) ++ [p]) =
        some ((List.range levels).map fun l => f l ++ if g p = l then [p] else []) := by
      unfold wr
      rw [if_pos (by simpa using hp)]
      congr 1
      apply List.ext_getElem?
      intro i
      rw [List.getElem?_set]
      by_cases hi : i < levels
      · by_cases hg : g p = i
        · subst hg; simp [hp]
        · simp [hg, hi]
      · by_cases hg : g p = i
        · omega
        · simp [hg, hi]
    rw [obind e1, obind e2]
    rw [ih (fun q hq => hL q (by simp [hq]))]
    congr 1
    apply List.map_congr_left
    intro l _
    rw [List.filter_cons, List.append_assoc]
    by_cases h : g p = l <;> simp [h]

theorem layerPairTable_eq {blc : Int} {layers levels : Nat} (hl : levels = partitioningBaseLevel D blc 0 0 + 1) :
    layerPairTable D blc layers levels = some ((List.range levels).map fun l =>
      (allLayerPairs layers).filter fun p => partitioningBaseLevel D blc p.1 p.2 = l) := by
  have h := layerPairTable_fold (levels := levels) (g := fun p => partitioningBaseLevel D blc p.1 p.2)
    (allLayerPairs layers) (fun p _ => by have := pbl_le_zero (D := D) (blc := blc) p.1 p.2; omega) (fun _ => [])
  have e : List.replicate levels ([] : List (Nat × Nat)) = (List.range levels).map fun _ => [] := by
    rw [List.map_const', List.length_range]
  unfold layerPairTable
  rw [e]
  exact h.trans (by simp)

theorem firstCells_eq {blc : Int} {layers : Nat} (ht : layerOff D blc layers < 2147483648) :
    firstCells D blc layers = some ((List.range layers).map (layerOff D blc) ++ [layerOff D blc layers]) := by
  have key : ∀ k, k ≤ layers → (List.range k).foldlM (fun (s : List Nat × Nat) (l : Nat) => do
      let c ← Coord.numCellsInLevel D (weightLayerTargetLevel D blc l)
      some (s.1 ++ [s.2], u32 (s.2 + c))) ([], 0) = some ((List.range k).map (layerOff D blc), layerOff D blc k) := by
    intro k
    induction k with
    | zero => intro _; simp [layerOff]
    | succ k ih =>
      intro hk
      have h1 : layerOff D blc k + 2 ^ (D * weightLayerTargetLevel D blc k) ≤ layerOff D blc layers := by
        rw [← layerOff_succ]; exact layerOff_mono hk
      have h2 : D * weightLayerTargetLevel D blc k ≤ 31 := by
        by_contra hne
        have : 2 ^ 32 ≤ 2 ^ (D * weightLayerTargetLevel D blc k) := two_pow_le (by omega)
        omega
      rw [List.range_succ, List.foldlM_append, obind (ih (by omega)), List.foldlM_cons]
      simp only [obind (Coord.numCellsInLevel_eq h2), List.foldlM_nil]
      rw [u32_eq (by omega), ← layerOff_succ, List.map_append]
      rfl
  unfold firstCells
  rw [key layers le_rfl]
  rfl

theorem rd_firstCells {blc : Int} {layers l : Nat} (h : l < layers) :
    rd ((List.range layers).map (layerOff D blc) ++ [layerOff D blc layers]) l = some (layerOff D blc l) := by
  unfold rd
  rw [List.getElem?_append_left (by simpa using h)]
  simp [h]

theorem weightLayers_eq' {blc : Int} {layers : Nat} :
    weightLayers D blc ((List.range layers).map (layerOff D blc) ++ [layerOff D blc layers]) layers =
      some ((List.range layers).map fun (i : Nat) => ⟨weightLayerTargetLevel D blc i, layerOff D blc i⟩) := by
  unfold weightLayers
  apply IntSort.mapM_some
  intro l hl
  rw [rd_firstCells (List.mem_range.1 hl)]
  rfl

/-- what the constructor stores for a node -/
structure NodeOK (D : Nat) (w0 : F) (blc : Int) (layers : Nat) (weights : List F) (positions : List (Fin D → F))
    (x : Node F D) : Prop where
  weight : weights[x.index]? = some x.weight
  coord : positions[x.index]? = some x.coord
  cell : ∃ k c, k < layers ∧ toSize (CFloat.log2 (x.weight /. w0)) = some k ∧
    Coord.cellForPoint D x.coord (weightLayerTargetLevel D blc k) = some c ∧
    c < 2 ^ (D * weightLayerTargetLevel D blc k) ∧ x.cellId = layerOff D blc k + c

theorem classifyOne_eq {weights : List F} {positions : List (Fin D → F)} {h : Header F} (ok : InputOK D weights positions h)
    {i : Nat} {p : Fin D → F} {w : F} (hp : positions[i]? = some p) (hw : weights[i]? = some w) :
    ∃ x, classifyOne D h.w0 h.blc ((List.range h.layers).map (layerOff D h.blc) ++ [layerOff D h.blc h.layers]) i p w = some x ∧
      x.index = i ∧ NodeOK D h.w0 h.blc h.layers weights positions x := by
  obtain ⟨k, e1, e2, hk⟩ := ok.layer w (List.mem_of_getElem? hw)
  have hsum := layerOff_mono (D := D) (blc := h.blc) (show k + 1 ≤ h.layers by omega)
  rw [layerOff_succ] at hsum
  have htot := ok.total
  have hD : D * weightLayerTargetLevel D h.blc k ≤ 30 := by
    by_contra hne
    have : 2 ^ 31 ≤ 2 ^ (D * weightLayerTargetLevel D h.blc k) := two_pow_le (by omega)
    omega
  have hl : weightLayerTargetLevel D h.blc k ≤ 30 := le_trans (Nat.le_mul_of_pos_left _ ok.D1) hD
  choose g hg using fun d => ok.grid p (List.mem_of_getElem? hp) d (weightLayerTargetLevel D h.blc k) hl
  have e3 : Coord.cellForPoint D p (weightLayerTargetLevel D h.blc k) =
      some (Bits.deposit D (fun d => BitVec.ofNat 32 (g d))).toNat := by
    unfold Coord.cellForPoint
    refine (obind (Coord.shl1_eq hl) _).trans ?_
    refine (obind (tupleM_some (g := g) (fun d => (hg d).1)) _).trans ?_
    rfl
  have e4 := deposit_lt ok.D1 ok.D5 (show D * weightLayerTargetLevel D h.blc k ≤ 32 by omega) (fun d => (hg d).2)
  refine ⟨{ coord := p, weight := w, index := i, cellId := u32 (layerOff D h.blc k + (Bits.deposit D (fun d => BitVec.ofNat 32 (g d))).toNat) }, ?_, rfl, hw, hp, ?_⟩
  · unfold classifyOne
    refine (obind e1 _).trans ?_
    refine (obind e2 _).trans ?_
    refine (obind (rd_firstCells hk) _).trans ?_
    refine (obind e3 _).trans ?_
    rfl
  · refine ⟨k, _, hk, e2, e3, e4, u32_eq ?_⟩
    omega

theorem classify_eq {weights : List F} {positions : List (Fin D → F)} {h : Header F} (ok : InputOK D weights positions h) :
    ∃ nodes, classify D h.w0 h.blc ((List.range h.layers).map (layerOff D h.blc) ++ [layerOff D h.blc h.layers]) weights positions = some nodes ∧
      nodes.map Node.index = List.range weights.length ∧
      ∀ x ∈ nodes, NodeOK D h.w0 h.blc h.layers weights positions x := by
  have key : ∀ i, i < weights.length → ∃ x, (do
      let p ← rd positions i
      let w ← rd weights i
      classifyOne D h.w0 h.blc ((List.range h.layers).map (layerOff D h.blc) ++ [layerOff D h.blc h.layers]) i p w) = some x ∧
      x.index = i ∧ NodeOK D h.w0 h.blc h.layers weights positions x := by
    intro i hi
    have hp : positions[i]? = some (positions[i]'(by rw [ok.len]; exact hi)) := List.getElem?_eq_getElem _
    have hw : weights[i]? = some weights[i] := List.getElem?_eq_getElem _
    obtain ⟨x, hx, h2⟩ := classifyOne_eq ok hp hw
    refine ⟨x, ?_, h2⟩
    unfold rd
    rw [hp, hw]
    exact hx
  choose f hf using key
  let g : Nat → Node F D := fun i => if h : i < weights.length then f i h else f 0 ok.pos
  refine ⟨(List.range weights.length).map g, ?_, ?_, ?_⟩
  · unfold classify
    apply IntSort.mapM_some
    intro i hi
    have hi' := List.mem_range.1 hi
    have : g i = f i hi' := dif_pos hi'
    rw [this]; exact (hf i hi').1
  · rw [List.map_map]
    conv_rhs => rw [← List.map_id (List.range weights.length)]
    apply List.map_congr_left
    intro i hi
    have hi' := List.mem_range.1 hi
    have : g i = f i hi' := dif_pos hi'
    rw [Function.comp_apply, this]; exact (hf i hi').2.1
  · intro x hx
    obtain ⟨i, hi, rfl⟩ := List.mem_map.1 hx
    have hi' := List.mem_range.1 hi
    have : g i = f i hi' := dif_pos hi'
    rw [this]; exact (hf i hi').2.2

theorem NodeOK.cell_lt {w0 : F} {blc : Int} {layers : Nat} {weights : List F} {positions : List (Fin D → F)}
    {x : Node F D} (h : NodeOK D w0 blc layers weights positions x) : x.cellId < layerOff D blc layers := by
  obtain ⟨k, c, hk, _, _, hc, e⟩ := h.cell
  have := layerOff_mono (D := D) (blc := blc) (show k + 1 ≤ layers by omega)
  rw [layerOff_succ] at this
  omega

end Girgs.Build

namespace Girgs
open Build CFloat
variable {F : Type} [CFloat F] {D : Nat}

/-- The tree and its relation to the input. -/
structure BuiltFrom (ndebug : Bool) (weights : List F) (positions : List (Fin D → F)) (alpha : F) (h : Header F)
    (T : Tree F D) : Prop where
  ok : TreeOK T
  ndebug_eq : T.ndebug = ndebug
  alpha_eq : T.alpha = alpha
  n_eq : T.n = weights.length
  w0_eq : T.w0 = h.w0
  W_eq : T.W = h.W
  blc_eq : T.blc = h.blc
  layers_eq : T.layers = h.layers
  levels_eq : T.levels = h.levels
  node : ∀ x ∈ T.nodes, NodeOK D h.w0 h.blc h.layers weights positions x

theorem cells_of_sorted {M : Nat} {nodes0 nodes : List (Node F D)} (hs : StablySorted Node.cellId nodes0 nodes)
    (hlt : ∀ x ∈ nodes0, x.cellId < M) (hpos : 1 ≤ nodes0.length) (hsm : nodes0.length < 2147483648) (hM : M < 2147483648) :
    Cells M (nodes.map Node.cellId) := by
  have hp := hs.perm
  refine ⟨?_, ?_, ?_, ?_, hM⟩
  · rw [List.pairwise_map]; exact hs.ordered
  · intro c hc
    obtain ⟨x, hx, rfl⟩ := List.mem_map.1 hc
    exact hlt x (hp.mem_iff.1 hx)
  · rw [List.length_map, hp.length_eq]; exact hpos
  · rw [List.length_map, hp.length_eq]; omega

/-- every execution of the constructor establishes the invariant -/
theorem Constructed.builtFrom {ndebug : Bool} {weights : List F} {positions : List (Fin D → F)} {alpha : F} {T : Tree F D}
    (hc : Constructed ndebug weights positions alpha T) {h : Header F} (eh : header D weights = some h)
    (ok : InputOK D weights positions h) : BuiltFrom ndebug weights positions alpha h T := by
  obtain ⟨h', lp, fc, nodes0, wl, e1, e2, e3, e4, e5, maxCell, e6, omp, t, B0, nodes, threads, first, ht1, ht, hB, hrun,
    hth1, hth2, hidx, rfl⟩ := hc
  obtain rfl : h = h' := by rw [eh] at e1; exact Option.some.inj e1
  obtain ⟨hlev, _, _, _, _, _⟩ := header_facts eh
  rw [layerPairTable_eq hlev] at e2
  rw [firstCells_eq ok.total] at e3
  simp only [Option.some.injEq] at e2 e3
  subst e2 e3
  rw [weightLayers_eq'] at e5
  simp only [Option.some.injEq] at e5
  subst e5
  rw [List.getLast?_append] at e6
  simp only [List.getLast?_singleton, Option.some_or, Option.some.injEq] at e6
  subst e6
  obtain ⟨nodes0', e7, e8, e9⟩ := classify_eq ok
  obtain rfl : nodes0' = nodes0 := by rw [e7] at e4; exact Option.some.inj e4
  have hlen : nodes0'.length = weights.length := by
    have := congrArg List.length e8
    simpa using this
  have htot := ok.total
  have hsm := ok.small
  have hlt : ∀ x ∈ nodes0', x.cellId < layerOff D h.blc h.layers := fun x hx => (e9 x hx).cell_lt
  have hs : StablySorted Node.cellId nodes0' nodes := by
    refine IntSort.run_sorted ht1 (Props.threads_ok (by rw [hlen]; exact ht) (by rw [hlen]; omega)) (by rw [hlen]; exact hB) (Or.inl ?_) hrun
    exact Props.C10_keys_below_max _ _ _ (by omega) hlt
  have hcells := cells_of_sorted hs hlt (by rw [hlen]; exact ok.pos) (by rw [hlen]; exact hsm) htot
  have hfirst := hcells.indexRun hth1 hth2 hidx
  have hp := hs.perm
  refine ⟨⟨ok.D1, ok.D5, hlev, ok.depth, rfl, rfl, htot, hsm, ok.layers_le, ?_, hcells.sorted, ?_, hfirst⟩, rfl, rfl, rfl, rfl, rfl, rfl, rfl, rfl, ?_⟩
  · have := hp.map Node.index
    rw [e8] at this; exact this
  · exact fun x hx => hlt x (hp.mem_iff.1 hx)
  · exact fun x hx => e9 x (hp.mem_iff.1 hx)

/-- some execution of the constructor ends (the single threaded one, for instance) -/
theorem constructed_exists (ndebug : Bool) {weights : List F} {positions : List (Fin D → F)} (alpha : F) {h : Header F}
    (eh : header D weights = some h) (ok : InputOK D weights positions h) (threads : Nat) (h1 : 1 ≤ threads) (h2 : threads < 2147483648) :
    ∃ T, Constructed ndebug weights positions alpha T := by
  obtain ⟨hlev, _, _, _, _, _⟩ := header_facts eh
  obtain ⟨nodes0, e7, e8, e9⟩ := classify_eq ok
  have hlen : nodes0.length = weights.length := by
    have := congrArg List.length e8
    simpa using this
  have htot := ok.total
  have hsm := ok.small
  have hlt : ∀ x ∈ nodes0, x.cellId < layerOff D h.blc h.layers := fun x hx => (e9 x hx).cell_lt
  have hkeys := Props.C10_keys_below_max Node.cellId _ nodes0 (by omega) hlt
  have hmt : 1 ≤ IntSort.maxThreads 1 weights.length := by
    have := ok.pos
    unfold IntSort.maxThreads IntSort.idivCeil
    omega
  obtain ⟨nodes, hrun⟩ := IntSort.run_exists (t := 1) (B0 := nodes0) (le_refl 1) (Nat.zero_le _) rfl (Or.inl hkeys)
  have hs := IntSort.run_sorted (t := 1) (le_refl 1) (Nat.zero_le _) rfl (Or.inl hkeys) hrun
  have hcells := cells_of_sorted hs hlt (by rw [hlen]; exact ok.pos) (by rw [hlen]; exact hsm) htot
  obtain ⟨first, hidx⟩ := hcells.indexRun_exists h1 h2
  exact ⟨_, h, _, _, nodes0, _, eh, layerPairTable_eq hlev, firstCells_eq ok.total, e7, weightLayers_eq', _, by
    rw [List.getLast?_append]; rfl, 1, 1, nodes0, nodes, threads, first, le_refl 1, hmt, hlen, hrun, h1, h2, hidx, rfl⟩

end Girgs
