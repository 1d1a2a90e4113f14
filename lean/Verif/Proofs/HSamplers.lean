import Verif.Proofs.Samplers
/-
`sampleRadiiAndAnglesHelper`: every entry of the results is written exactly once.
-/
namespace Girgs
open CFloat
variable {F : Type} [CFloat F]

/-- the writes to the radii -/
def radW (m : List (HWrite F)) : List (Nat × F) := m.filterMap fun | .radius i x => some (i, x) | .angle _ _ => none
/-- the writes to the angles -/
def angW (m : List (HWrite F)) : List (Nat × F) := m.filterMap fun | .angle i x => some (i, x) | .radius _ _ => none

theorem runHWrites_split : ∀ (m : List (HWrite F)) (r a r' a' : List F), runWrites r (radW m) = some r' → runWrites a (angW m) = some a' →
    runHWrites (r, a) m = some (r', a')
  | [], r, a, r', a', h1, h2 => by
    cases h1; cases h2; rfl
  | .angle i x :: m, r, a, r', a', h1, h2 => by
    have e1 : radW (.angle i x :: m) = radW m := rfl
    have e2 : angW (.angle i x :: m) = (i, x) :: angW m := rfl
    rw [e1] at h1
    rw [e2, runWrites] at h2
    obtain ⟨a1, q1, q2⟩ := Option.bind_eq_some_iff.1 h2
    rw [runHWrites]
    exact (obind q1 _).trans (runHWrites_split m r a1 r' a' h1 q2)
  | .radius i x :: m, r, a, r', a', h1, h2 => by
    have e1 : radW (.radius i x :: m) = (i, x) :: radW m := rfl
    have e2 : angW (.radius i x :: m) = angW m := rfl
    rw [e2] at h2
    rw [e1, runWrites] at h1
    obtain ⟨a1, q1, q2⟩ := Option.bind_eq_some_iff.1 h1
    rw [runHWrites]
    exact (obind q1 _).trans (runHWrites_split m a1 a r' a' q2 h2)

/-- state after the angle draw of an iteration -/
def afterAngle (eng : Engine F) (Angles : Bool) (g : eng.G) : eng.G :=
  if Angles then (eng.uniform (CFloat.ofRat 0) (CFloat.ofRat 2 *. CFloat.pi) g).2 else g

/-- state after an iteration -/
def afterIter (eng : Engine F) (Radii Angles : Bool) (alpha R : F) (g : eng.G) : eng.G :=
  if Radii then (eng.uniform oneUp (CFloat.cosh (alpha *. R)) (afterAngle eng Angles g)).2 else afterAngle eng Angles g

/-- the angle of the `k`-th iteration of a thread -/
def angleAt (eng : Engine F) (Radii Angles : Bool) (alpha R : F) (g : eng.G) (k : Nat) : F :=
  (eng.uniform (CFloat.ofRat 0) (CFloat.ofRat 2 *. CFloat.pi) ((afterIter eng Radii Angles alpha R)^[k] g)).1

/-- the radius of the `k`-th iteration of a thread -/
def radiusAt (eng : Engine F) (Radii Angles : Bool) (alpha R : F) (g : eng.G) (k : Nat) : F :=
  CFloat.acosh (eng.uniform oneUp (CFloat.cosh (alpha *. R)) (afterAngle eng Angles ((afterIter eng Radii Angles alpha R)^[k] g))).1 *.
    (CFloat.ofRat 1 /. alpha)

variable (eng : Engine F) (Radii Angles : Bool) (alpha R : F)

theorem hyperWrites_rad : ∀ (is : List Nat) (g : eng.G), (radW (hyperWrites eng Radii Angles alpha R g is)).map (·.1) = if Radii then is else []
  | [], g => by simp [hyperWrites, radW]
  | i :: is, g => by
    have ih := hyperWrites_rad is (afterIter eng Radii Angles alpha R g)
    cases Radii <;> cases Angles <;> simpa [hyperWrites, radW, afterIter, afterAngle] using ih

theorem hyperWrites_ang : ∀ (is : List Nat) (g : eng.G), (angW (hyperWrites eng Radii Angles alpha R g is)).map (·.1) = if Angles then is else []
  | [], g => by simp [hyperWrites, angW]
  | i :: is, g => by
    have ih := hyperWrites_ang is (afterIter eng Radii Angles alpha R g)
    cases Radii <;> cases Angles <;> simpa [hyperWrites, angW, afterIter, afterAngle] using ih

theorem hyperWrites_radMem (hR : Radii = true) : ∀ (is : List Nat) (g : eng.G) (k i : Nat), is[k]? = some i →
    HWrite.radius i (radiusAt eng Radii Angles alpha R g k) ∈ hyperWrites eng Radii Angles alpha R g is
  | [], _, _, _, h => by simp at h
  | j :: is, g, 0, i, h => by
    simp only [List.getElem?_cons_zero, Option.some.injEq] at h
    subst h hR
    rw [hyperWrites]
    refine List.mem_append_left _ (List.mem_append_right _ ?_)
    rw [if_pos rfl, List.mem_singleton]
    rfl
  | j :: is, g, k + 1, i, h => by
    rw [List.getElem?_cons_succ] at h
    rw [hyperWrites]
    refine List.mem_append_right _ ?_
    exact hyperWrites_radMem hR is (afterIter eng Radii Angles alpha R g) k i h

theorem hyperWrites_angMem (hA : Angles = true) : ∀ (is : List Nat) (g : eng.G) (k i : Nat), is[k]? = some i →
    HWrite.angle i (angleAt eng Radii Angles alpha R g k) ∈ hyperWrites eng Radii Angles alpha R g is
  | [], _, _, _, h => by simp at h
  | j :: is, g, 0, i, h => by
    simp only [List.getElem?_cons_zero, Option.some.injEq] at h
    subst h hA
    rw [hyperWrites]
    refine List.mem_append_left _ (List.mem_append_left _ ?_)
    rw [if_pos rfl, List.mem_singleton]
    rfl
  | j :: is, g, k + 1, i, h => by
    rw [List.getElem?_cons_succ] at h
    rw [hyperWrites]
    refine List.mem_append_right _ ?_
    exact hyperWrites_angMem hA is (afterIter eng Radii Angles alpha R g) k i h

theorem flatten_writes (sel : List (HWrite F) → List (Nat × F)) (hnil : sel [] = []) (happ : ∀ a b, sel (a ++ b) = sel a ++ sel b)
    (f : List Nat × Nat → List (HWrite F)) (b : Bool) (h : ∀ c k, (sel (f (c, k))).map (·.1) = if b then c else []) (cs : List (List Nat)) :
    ∀ j, (sel (((cs.zipIdx j).map f).flatten)).map (·.1) = if b then cs.flatten else [] := by
  induction cs with
  | nil => intro j; simp [hnil]
  | cons c cs ih =>
    intro j
    rw [List.zipIdx_cons, List.map_cons, List.flatten_cons, happ, List.map_append, h, ih, List.flatten_cons]
    cases b <;> simp

theorem select_unique {out out' : List F} {n : Nat} {w : List (Nat × F)} (hk : w.map (·.1) = List.range n) (h1 : out.length = n) (h2 : out'.length = n)
    (h3 : ∀ i x, (i, x) ∈ w → out[i]? = some x) (h4 : ∀ i x, (i, x) ∈ w → out'[i]? = some x) : out = out' := by
  apply List.ext_getElem?
  intro i
  rcases Nat.lt_or_ge i n with hi | hi
  · have : i ∈ w.map (·.1) := by rw [hk]; exact List.mem_range.2 hi
    obtain ⟨⟨j, x⟩, hx, rfl⟩ := List.mem_map.1 this
    rw [h3 _ _ hx, h4 _ _ hx]
  · rw [List.getElem?_eq_none (by omega), List.getElem?_eq_none (by omega)]

/-- the executions of `sampleRadiiAndAnglesHelper` -/
theorem sampleHelper_iff (omp : Omp) (device : Nat → eng.G) (n : Nat) (seed : Int) (parallel : Bool) {gens : Nat → eng.G} {threads : Nat}
    (ht : hyperThreads omp n parallel = some threads) (ht0 : threads ≠ 0) (hI : ge (CFloat.cosh (alpha *. R)) (oneUp : F) = true)
    (hs : seedGens threads eng.seed device seed = some gens) :
    ∃ radii angles, (∀ o, SampleHelper omp eng device Radii Angles n alpha R seed parallel o ↔ o = (radii, angles)) ∧
      radii.length = (if Radii then n else 0) ∧ angles.length = (if Angles then n else 0) ∧
      (∀ (t : Nat) (chunk : List Nat) (k i : Nat), (omp.chunks threads n)[t]? = some chunk → chunk[k]? = some i →
        (Radii = true → radii[i]? = some (radiusAt eng Radii Angles alpha R (warmUp eng n threads (gens t)) k)) ∧
        (Angles = true → angles[i]? = some (angleAt eng Radii Angles alpha R (warmUp eng n threads (gens t)) k))) := by
  set W := (omp.chunks threads n).zipIdx.map fun c => hyperWrites eng Radii Angles alpha R (warmUp eng n threads (gens c.2)) c.1 with hW
  have hfl := omp.chunks_flatten threads n (by omega)
  have hkR : (radW W.flatten).map (·.1) = List.range (if Radii then n else 0) := by
    rw [hW, flatten_writes radW rfl (fun a b => List.filterMap_append ..) _ Radii
      (fun c k => hyperWrites_rad eng Radii Angles alpha R c _), hfl]
    split <;> rfl
  have hkA : (angW W.flatten).map (·.1) = List.range (if Angles then n else 0) := by
    rw [hW, flatten_writes angW rfl (fun a b => List.filterMap_append ..) _ Angles
      (fun c k => hyperWrites_ang eng Radii Angles alpha R c _), hfl]
    split <;> rfl
  have hrun : ∀ m, Interleaving W m → ∃ r a, runHWrites (List.replicate (if Radii then n else 0) (CFloat.ofRat 0 : F),
        List.replicate (if Angles then n else 0) (CFloat.ofRat 0 : F)) m = some (r, a) ∧
      r.length = (if Radii then n else 0) ∧ a.length = (if Angles then n else 0) ∧
      (∀ i x, (i, x) ∈ radW W.flatten → r[i]? = some x) ∧ (∀ i x, (i, x) ∈ angW W.flatten → a[i]? = some x) := by
    intro m hm
    have hp := hm.perm
    have hpR : (radW m).Perm (radW W.flatten) := hp.filterMap _
    have hpA : (angW m).Perm (angW W.flatten) := hp.filterMap _
    obtain ⟨r, r1, r2, r3⟩ := runWrites_keys (m := radW m) (v := List.replicate (if Radii then n else 0) (CFloat.ofRat 0 : F))
      (by rw [← hkR]; exact hpR.map _) (List.length_replicate ..)
    obtain ⟨a, a1, a2, a3⟩ := runWrites_keys (m := angW m) (v := List.replicate (if Angles then n else 0) (CFloat.ofRat 0 : F))
      (by rw [← hkA]; exact hpA.map _) (List.length_replicate ..)
    exact ⟨r, a, runHWrites_split m _ _ _ _ r1 a1, r2, a2, fun i x hx => r3 i x (hpR.mem_iff.2 hx), fun i x hx => a3 i x (hpA.mem_iff.2 hx)⟩
  obtain ⟨r, a, h1, h2, h3, h4, h5⟩ := hrun _ (Interleaving.sequential W)
  refine ⟨r, a, ?_, h2, h3, ?_⟩
  · intro o
    constructor
    · rintro ⟨threads', ht', _, _, gens', hs', m, hm, ho⟩
      rw [ht] at ht'
      cases ht'
      rw [hs] at hs'
      cases hs'
      obtain ⟨r', a', e1, e2, e3, e4, e5⟩ := hrun m hm
      rw [ho] at e1
      cases e1
      rw [select_unique hkR e2 h2 e4 h4, select_unique hkA e3 h3 e5 h5]
    · rintro rfl
      exact ⟨threads, ht, ht0, hI, gens, hs, _, Interleaving.sequential _, h1⟩
  · intro t chunk k i hc hk
    have hmem : hyperWrites eng Radii Angles alpha R (warmUp eng n threads (gens t)) chunk ∈ W := by
      rw [hW, List.mem_map]
      refine ⟨(chunk, t), ?_, rfl⟩
      rw [List.mem_zipIdx_iff_getElem?]
      exact hc
    constructor
    · intro hR
      refine h4 i _ ?_
      unfold radW
      rw [List.mem_filterMap]
      exact ⟨_, List.mem_flatten.2 ⟨_, hmem, hyperWrites_radMem eng Radii Angles alpha R hR chunk _ k i hk⟩, rfl⟩
    · intro hA
      refine h5 i _ ?_
      unfold angW
      rw [List.mem_filterMap]
      exact ⟨_, List.mem_flatten.2 ⟨_, hmem, hyperWrites_angMem eng Radii Angles alpha R hA chunk _ k i hk⟩, rfl⟩

end Girgs
