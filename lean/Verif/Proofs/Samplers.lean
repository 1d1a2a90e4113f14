import Verif.Model.Samplers
import Mathlib.Data.List.Nodup
import Mathlib.Data.List.Flatten
/-
The samplers of node data: every entry of the result is written exactly once.
-/
namespace Girgs
open CFloat
variable {F : Type} [CFloat F]

theorem runWrites_eq {α : Type} : ∀ (m : List (Nat × α)) (v : List α), (m.map (·.1)).Nodup → (∀ k ∈ m.map (·.1), k < v.length) →
    ∃ out, runWrites v m = some out ∧ out.length = v.length ∧ (∀ i x, (i, x) ∈ m → out[i]? = some x) ∧
      ∀ i, i ∉ m.map (·.1) → out[i]? = v[i]?
  | [], v, _, _ => ⟨v, rfl, rfl, by simp, by simp⟩
  | (k, y) :: m, v, hn, hk => by
    rw [List.map_cons, List.nodup_cons] at hn
    have hk0 : k < v.length := hk k (by simp)
    obtain ⟨out, h1, h2, h3, h4⟩ := runWrites_eq m (v.set k y) hn.2 (fun j hj => by
      rw [List.length_set]; exact hk j (by simp only [List.map_cons, List.mem_cons]; exact Or.inr hj))
    refine ⟨out, ?_, by rw [h2, List.length_set], ?_, ?_⟩
    · rw [runWrites, wr, if_pos hk0]
      exact h1
    · intro i x hx
      rcases List.mem_cons.1 hx with h | h
      · cases h
        rw [h4 k hn.1, List.getElem?_set_self hk0]
      · exact h3 i x h
    · intro i hi
      simp only [List.map_cons, List.mem_cons, not_or] at hi
      rw [h4 i hi.2, List.getElem?_set_ne (Ne.symm hi.1)]

theorem runWrites_keys {α : Type} {m : List (Nat × α)} {v : List α} {n : Nat} (hm : (m.map (·.1)).Perm (List.range n)) (hv : v.length = n) :
    ∃ out, runWrites v m = some out ∧ out.length = n ∧ ∀ i x, (i, x) ∈ m → out[i]? = some x := by
  obtain ⟨out, h1, h2, h3, _⟩ := runWrites_eq m v (hm.nodup_iff.2 List.nodup_range)
    (fun k hk => by rw [hv]; exact List.mem_range.1 (hm.mem_iff.1 hk))
  exact ⟨out, h1, by rw [h2, hv], h3⟩

/-- the state of the engine after `k` draws from the interval -/
def drawState (eng : Engine F) (a b : F) (g : eng.G) : Nat → eng.G
  | 0 => g
  | k + 1 => drawState eng a b (eng.uniform a b g).2 k

/-- the `k`-th draw -/
def drawAt (eng : Engine F) (a b : F) (g : eng.G) (k : Nat) : F := (eng.uniform a b (drawState eng a b g k)).1

theorem weightWrites_keys (eng : Engine F) (n : Nat) (ple : F) : ∀ (is : List Nat) (g : eng.G), (weightWrites eng n ple g is).map (·.1) = is
  | [], _ => rfl
  | i :: is, g => by simp [weightWrites, weightWrites_keys eng n ple is]

theorem weightWrites_mem (eng : Engine F) (n : Nat) (ple : F) : ∀ (is : List Nat) (g : eng.G) (k i : Nat), is[k]? = some i →
    (i, weightOf n ple (drawAt eng (CFloat.ofRat 0) (CFloat.ofRat 1) g k)) ∈ weightWrites eng n ple g is
  | [], _, k, i, h => by simp at h
  | j :: is, g, 0, i, h => by
    simp only [List.getElem?_cons_zero, Option.some.injEq] at h
    subst h
    simp [weightWrites, drawAt, drawState]
  | j :: is, g, k + 1, i, h => by
    rw [List.getElem?_cons_succ] at h
    rw [weightWrites]
    exact List.mem_cons_of_mem _ (weightWrites_mem eng n ple is _ k i h)

theorem nodeThreads_pos (omp : Omp) (n : Nat) (parallel : Bool) : 1 ≤ nodeThreads omp n parallel := by
  unfold nodeThreads
  split <;> omega

theorem zipIdx_flatten_keys {α β : Type} (f : List Nat × Nat → List (α × β)) (key : α × β → Nat) (cs : List (List Nat))
    (h : ∀ c k, (f (c, k)).map key = c) : ∀ k, (((cs.zipIdx k).map f).flatten).map key = cs.flatten := by
  induction cs with
  | nil => intro k; rfl
  | cons c cs ih =>
    intro k
    rw [List.zipIdx_cons, List.map_cons, List.flatten_cons, List.map_append, h, ih, List.flatten_cons]

/-- the executions of `generateWeights` -/
theorem generateWeights_iff (omp : Omp) (eng : Engine F) (device : Nat → eng.G) (n : Nat) (ple : F) (seed : Int) (parallel : Bool) {gens : Nat → eng.G}
    (hs : seedGens (nodeThreads omp n parallel) eng.seed device seed = some gens) :
    ∃ out, (∀ o, GenerateWeights omp eng device n ple seed parallel o ↔ o = out) ∧ out.length = n ∧
      ∀ (t : Nat) (chunk : List Nat) (k i : Nat), (omp.chunks (nodeThreads omp n parallel) n)[t]? = some chunk → chunk[k]? = some i →
        out[i]? = some (weightOf n ple (drawAt eng (CFloat.ofRat 0) (CFloat.ofRat 1) (gens t) k)) := by
  set th := nodeThreads omp n parallel with hth
  set W := (omp.chunks th n).zipIdx.map fun c => weightWrites eng n ple (gens c.2) c.1 with hW
  have hkeys : (W.flatten.map (·.1)) = List.range n := by
    rw [hW, zipIdx_flatten_keys _ _ _ (fun c k => weightWrites_keys eng n ple c _), omp.chunks_flatten _ _ (nodeThreads_pos ..)]
  have hrun : ∀ m, Interleaving W m → ∃ out, runWrites (List.replicate n (CFloat.ofRat 0)) m = some out ∧ out.length = n ∧
      ∀ i x, (i, x) ∈ W.flatten → out[i]? = some x := by
    intro m hm
    have hp := hm.perm
    obtain ⟨out, h1, h2, h3⟩ := runWrites_keys (m := m) (v := List.replicate n (CFloat.ofRat 0 : F)) (n := n)
      (by rw [← hkeys]; exact hp.map _) (List.length_replicate ..)
    exact ⟨out, h1, h2, fun i x hx => h3 i x (hp.mem_iff.2 hx)⟩
  obtain ⟨out, h1, h2, h3⟩ := hrun _ (Interleaving.sequential W)
  refine ⟨out, ?_, h2, ?_⟩
  · intro o
    constructor
    · rintro ⟨gens', hs', m, hm, ho⟩
      rw [← hth, hs] at hs'
      cases hs'
      rw [← hth, ← hW] at hm
      obtain ⟨o', e1, e2, e3⟩ := hrun m hm
      rw [ho] at e1
      cases e1
      apply List.ext_getElem?
      intro i
      rcases Nat.lt_or_ge i n with hi | hi
      · have : i ∈ W.flatten.map (·.1) := by rw [hkeys]; exact List.mem_range.2 hi
        obtain ⟨⟨j, x⟩, hx, rfl⟩ := List.mem_map.1 this
        rw [e3 _ _ hx, h3 _ _ hx]
      · rw [List.getElem?_eq_none (by omega), List.getElem?_eq_none (by omega)]
    · rintro rfl
      exact ⟨gens, hs, _, Interleaving.sequential _, h1⟩
  · intro t chunk k i ht hk
    refine h3 i _ ?_
    rw [List.mem_flatten]
    refine ⟨weightWrites eng n ple (gens t) chunk, ?_, weightWrites_mem eng n ple chunk (gens t) k i hk⟩
    rw [hW, List.mem_map]
    refine ⟨(chunk, t), ?_, rfl⟩
    rw [List.mem_zipIdx_iff_getElem?]
    exact ht

/-! ### generatePositions -/

theorem runWrites2_eq : ∀ (m : List (Nat × Nat × F)) (v : List (List F)), (m.map fun q => (q.1, q.2.1)).Nodup →
    (∀ q ∈ m, ∃ row, v[q.1]? = some row ∧ q.2.1 < row.length) →
    ∃ out, runWrites2 v m = some out ∧ out.length = v.length ∧ (∀ i : ℕ, (out[i]?).map List.length = (v[i]?).map List.length) ∧
      (∀ i d x, (i, d, x) ∈ m → ∃ row, out[i]? = some row ∧ row[d]? = some x) ∧
      ∀ (i d : ℕ), (i, d) ∉ (m.map fun q => (q.1, q.2.1)) → (out[i]?).bind (fun row => row[d]?) = (v[i]?).bind (fun row => row[d]?)
  | [], v, _, _ => ⟨v, rfl, rfl, fun _ => rfl, by simp, by simp⟩
  | (k, e, y) :: m, v, hn, hk => by
    rw [List.map_cons, List.nodup_cons] at hn
    obtain ⟨row, hrow, he⟩ := hk (k, e, y) (by simp)
    simp only at hrow he
    have hkl : k < v.length := (List.getElem?_eq_some_iff.1 hrow).1
    have hset : (v.set k (row.set e y))[k]? = some (row.set e y) := List.getElem?_set_self hkl
    have hlen : ∀ i : ℕ, ((v.set k (row.set e y))[i]?).map List.length = (v[i]?).map List.length := by
      intro i
      rcases eq_or_ne k i with rfl | hi
      · rw [hset, hrow]; simp
      · rw [List.getElem?_set_ne hi]
    obtain ⟨out, h1, h2, h3, h4, h5⟩ := runWrites2_eq m (v.set k (row.set e y)) hn.2 (fun q hq => by
      obtain ⟨r, hr, hd⟩ := hk q (List.mem_cons_of_mem _ hq)
      have := hlen q.1
      rw [hr] at this
      obtain ⟨r', hr', hl⟩ := Option.map_eq_some_iff.1 this
      exact ⟨r', hr', by omega⟩)
    refine ⟨out, ?_, by rw [h2, List.length_set], fun i => (h3 i).trans (hlen i), ?_, ?_⟩
    · rw [runWrites2]
      refine (obind hrow _).trans ?_
      refine (obind (a := row.set e y) (by rw [wr, if_pos he]) _).trans ?_
      refine (obind (a := v.set k (row.set e y)) (by rw [wr, if_pos hkl]) _).trans h1
    · intro i d x hx
      rcases List.mem_cons.1 hx with h | h
      · cases h
        have h6 := h5 k e hn.1
        rw [hset, Option.bind_some, List.getElem?_set_self he] at h6
        obtain ⟨r, hr, hd⟩ := Option.bind_eq_some_iff.1 h6
        exact ⟨r, hr, hd⟩
      · exact h4 i d x h
    · intro i d hid
      simp only [List.map_cons, List.mem_cons, not_or] at hid
      rw [h5 i d hid.2]
      rcases eq_or_ne k i with rfl | hi
      · rw [hset, hrow, Option.bind_some, Option.bind_some]
        exact List.getElem?_set_ne (fun h => hid.1 (by rw [h]))
      · rw [List.getElem?_set_ne hi]

theorem rowWrites_spec (eng : Engine F) (i : Nat) : ∀ (ds : List Nat) (g : eng.G),
    (rowWrites eng i g ds).1.map (fun q => (q.1, q.2.1)) = ds.map (fun d => (i, d)) ∧
    (rowWrites eng i g ds).2 = drawState eng (CFloat.ofRat 0) (CFloat.ofRat 1) g ds.length ∧
    ∀ k d, ds[k]? = some d → (i, d, drawAt eng (CFloat.ofRat 0) (CFloat.ofRat 1) g k) ∈ (rowWrites eng i g ds).1
  | [], g => ⟨rfl, rfl, by simp⟩
  | e :: ds, g => by
    obtain ⟨h1, h2, h3⟩ := rowWrites_spec eng i ds (eng.uniform (CFloat.ofRat 0) (CFloat.ofRat 1) g).2
    refine ⟨by simp [rowWrites, h1], by simp [rowWrites, h2, drawState], ?_⟩
    intro k d hk
    rw [rowWrites]
    cases k with
    | zero =>
      simp only [List.getElem?_cons_zero, Option.some.injEq] at hk
      subst hk
      exact List.mem_cons_self
    | succ k =>
      rw [List.getElem?_cons_succ] at hk
      exact List.mem_cons_of_mem _ (h3 k d hk)

theorem drawState_add (eng : Engine F) (a b : F) : ∀ (j k : Nat) (g : eng.G), drawState eng a b (drawState eng a b g j) k = drawState eng a b g (j + k)
  | 0, k, g => by rw [Nat.zero_add]; rfl
  | j + 1, k, g => by
    rw [show j + 1 + k = (j + k) + 1 by omega]
    exact drawState_add eng a b j k _

theorem drawAt_add (eng : Engine F) (a b : F) (j k : Nat) (g : eng.G) : drawAt eng a b (drawState eng a b g j) k = drawAt eng a b g (j + k) := by
  unfold drawAt; rw [drawState_add]

theorem positionWrites_keys (eng : Engine F) (dim : Nat) : ∀ (is : List Nat) (g : eng.G),
    (positionWrites eng dim g is).map (fun q => (q.1, q.2.1)) = is.flatMap fun i => (List.range dim).map fun d => (i, d)
  | [], _ => rfl
  | i :: is, g => by
    rw [positionWrites, List.map_append, (rowWrites_spec eng i (List.range dim) g).1, positionWrites_keys eng dim is]
    rfl

theorem positionWrites_mem (eng : Engine F) (dim : Nat) : ∀ (is : List Nat) (g : eng.G) (k i d : Nat), is[k]? = some i → d < dim →
    (i, d, drawAt eng (CFloat.ofRat 0) (CFloat.ofRat 1) g (k * dim + d)) ∈ positionWrites eng dim g is
  | [], _, k, i, d, h, _ => by simp at h
  | j :: is, g, 0, i, d, h, hd => by
    simp only [List.getElem?_cons_zero, Option.some.injEq] at h
    subst h
    rw [positionWrites]
    refine List.mem_append_left _ ?_
    rw [Nat.zero_mul, Nat.zero_add]
    exact (rowWrites_spec eng j (List.range dim) g).2.2 d d (by simp [hd])
  | j :: is, g, k + 1, i, d, h, hd => by
    rw [List.getElem?_cons_succ] at h
    rw [positionWrites]
    refine List.mem_append_right _ ?_
    have := positionWrites_mem eng dim is (drawState eng (CFloat.ofRat 0) (CFloat.ofRat 1) g dim) k i d h hd
    rw [(rowWrites_spec eng j (List.range dim) g).2.1, List.length_range]
    rw [drawAt_add] at this
    rwa [show (k + 1) * dim + d = dim + (k * dim + d) by rw [Nat.succ_mul]; omega]

theorem nodup_grid {is : List Nat} (h : is.Nodup) (dim : Nat) : (is.flatMap fun i => (List.range dim).map fun d => (i, d)).Nodup := by
  rw [List.nodup_flatMap]
  refine ⟨fun i _ => List.nodup_range.map fun a b h => (Prod.mk.inj h).2, ?_⟩
  refine List.Pairwise.imp ?_ h
  intro a b hab
  simp only [Function.onFun, List.disjoint_left, List.mem_map]
  rintro q ⟨d, _, rfl⟩ ⟨e, _, he⟩
  exact hab (Prod.mk.inj he).1.symm

/-- the executions of `generatePositions` -/
theorem generatePositions_iff (omp : Omp) (eng : Engine F) (device : Nat → eng.G) (n dim : Nat) (seed : Int) (parallel : Bool) {gens : Nat → eng.G}
    (hs : seedGens (nodeThreads omp n parallel) eng.seed device seed = some gens) :
    ∃ out, (∀ o, GeneratePositions omp eng device n dim seed parallel o ↔ o = out) ∧ out.length = n ∧ (∀ row ∈ out, row.length = dim) ∧
      ∀ (t : Nat) (chunk : List Nat) (k i d : Nat), (omp.chunks (nodeThreads omp n parallel) n)[t]? = some chunk → chunk[k]? = some i → d < dim →
        ∃ row, out[i]? = some row ∧ row[d]? = some (drawAt eng (CFloat.ofRat 0) (CFloat.ofRat 1) (gens t) (k * dim + d)) := by
  set th := nodeThreads omp n parallel with hth
  set W := (omp.chunks th n).zipIdx.map fun c => positionWrites eng dim (gens c.2) c.1 with hW
  have hkeys : (W.flatten.map fun q => (q.1, q.2.1)) = (List.range n).flatMap fun i => (List.range dim).map fun d => (i, d) := by
    rw [hW, ← omp.chunks_flatten th n (nodeThreads_pos ..)]
    generalize omp.chunks th n = cs
    suffices ∀ j, (((cs.zipIdx j).map fun c => positionWrites eng dim (gens c.2) c.1).flatten.map fun q => (q.1, q.2.1)) =
        cs.flatten.flatMap fun i => (List.range dim).map fun d => (i, d) from this 0
    induction cs with
    | nil => intro j; rfl
    | cons c cs ih =>
      intro j
      rw [List.zipIdx_cons, List.map_cons, List.flatten_cons, List.map_append, positionWrites_keys, ih, List.flatten_cons, List.flatMap_append]
  set v0 := List.replicate n (List.replicate dim (CFloat.ofRat 0 : F)) with hv0
  have hrun : ∀ m, Interleaving W m → ∃ out, runWrites2 v0 m = some out ∧ out.length = n ∧ (∀ row ∈ out, row.length = dim) ∧
      ∀ i d x, (i, d, x) ∈ W.flatten → ∃ row, out[i]? = some row ∧ row[d]? = some x := by
    intro m hm
    have hp := hm.perm
    have hpk := hp.map fun q => (q.1, q.2.1)
    rw [hkeys] at hpk
    obtain ⟨out, h1, h2, h3, h4, _⟩ := runWrites2_eq m v0 (hpk.nodup_iff.2 (nodup_grid List.nodup_range dim)) (fun q hq => by
      have : (q.1, q.2.1) ∈ (List.range n).flatMap fun i => (List.range dim).map fun d => (i, d) :=
        hpk.mem_iff.1 (List.mem_map.2 ⟨q, hq, rfl⟩)
      obtain ⟨i, hi, hd⟩ := List.mem_flatMap.1 this
      obtain ⟨d, hd, e⟩ := List.mem_map.1 hd
      cases e
      refine ⟨List.replicate dim (CFloat.ofRat 0), ?_, ?_⟩
      · rw [hv0, List.getElem?_replicate, if_pos (List.mem_range.1 hi)]
      · rw [List.length_replicate]; exact List.mem_range.1 hd)
    refine ⟨out, h1, by rw [h2, hv0, List.length_replicate], ?_, fun i d x hx => h4 i d x (hp.mem_iff.2 hx)⟩
    intro row hrow
    obtain ⟨i, hi⟩ := List.mem_iff_getElem?.1 hrow
    have := h3 i
    rw [hi, hv0, List.getElem?_replicate] at this
    split at this
    · simpa using this
    · simp at this
  obtain ⟨out, h1, h2, h2', h3⟩ := hrun _ (Interleaving.sequential W)
  refine ⟨out, ?_, h2, h2', ?_⟩
  · intro o
    constructor
    · rintro ⟨gens', hs', m, hm, ho⟩
      rw [← hth, hs] at hs'
      cases hs'
      rw [← hth, ← hW] at hm
      obtain ⟨o', e1, e2, e2', e3⟩ := hrun m hm
      rw [ho] at e1
      cases e1
      apply List.ext_getElem?
      intro i
      rcases Nat.lt_or_ge i n with hi | hi
      · rw [List.getElem?_eq_getElem (by omega), List.getElem?_eq_getElem (by omega)]
        congr 1
        apply List.ext_getElem?
        intro d
        rcases Nat.lt_or_ge d dim with hd | hd
        · have : (i, d) ∈ W.flatten.map fun q => (q.1, q.2.1) := by
            rw [hkeys]
            exact List.mem_flatMap.2 ⟨i, List.mem_range.2 hi, List.mem_map.2 ⟨d, List.mem_range.2 hd, rfl⟩⟩
          obtain ⟨⟨i', d', x⟩, hx, e⟩ := List.mem_map.1 this
          cases e
          obtain ⟨r1, q1, q2⟩ := e3 _ _ _ hx
          obtain ⟨r2, q3, q4⟩ := h3 _ _ _ hx
          rw [List.getElem?_eq_getElem (by omega)] at q1 q3
          cases q1; cases q3
          rw [q2, q4]
        · rw [List.getElem?_eq_none (by rw [e2' _ (List.getElem_mem _)]; exact hd),
            List.getElem?_eq_none (by rw [h2' _ (List.getElem_mem _)]; exact hd)]
      · rw [List.getElem?_eq_none (by omega), List.getElem?_eq_none (by omega)]
    · rintro rfl
      exact ⟨gens, hs, _, Interleaving.sequential _, h1⟩
  · intro t chunk k i d ht hk hd
    refine h3 i d _ ?_
    rw [List.mem_flatten]
    refine ⟨positionWrites eng dim (gens t) chunk, ?_, positionWrites_mem eng dim chunk (gens t) k i d hk hd⟩
    rw [hW, List.mem_map]
    refine ⟨(chunk, t), ?_, rfl⟩
    rw [List.mem_zipIdx_iff_getElem?]
    exact ht

end Girgs
