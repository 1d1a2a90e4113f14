import Verif.Proofs.Callbacks
import Verif.Proofs.EdgeBuffer
import Verif.Proofs.BuiltX
/-
`girgs::generateEdges` around the sampler.
-/
namespace Girgs
open CFloat Tree Spec

/-- a list of real points as the argument `positions` -/
noncomputable def xl {D : Nat} (x : List (Fin D → ℝ)) : List (List XR) := x.map fun p => List.ofFn fun d => XR.fin (p d)

theorem asPoints_xl {D : Nat} (x : List (Fin D → ℝ)) : asPoints D (xl x) = some (xp x) := by
  unfold asPoints xl xp
  induction x with
  | nil => rfl
  | cons p x ih =>
    rw [List.map_cons, List.mapM_cons, ih, List.map_cons]
    simp

theorem asPoints_ofFn {F : Type} [CFloat F] {D : Nat} (x : List (Fin D → F)) : asPoints D (x.map List.ofFn) = some x := by
  unfold asPoints
  induction x with
  | nil => rfl
  | cons p x ih =>
    rw [List.map_cons, List.mapM_cons, ih]
    simp

theorem startOK_XR {D : Nat} (h1 : 1 ≤ D) (h5 : D ≤ 5) (env : Env) : StartOK XR D env := by
  intro _
  have ht1 : (1 : ℝ) ≤ env.threads := by exact_mod_cast env.threads_pos
  have ht2 : (env.threads : ℝ) ≤ 8388608 := by exact_mod_cast env.threads_le
  have hD : (0 : ℝ) < D := by exact_mod_cast h1
  set x := Real.logb 2 (4 * env.threads) with hx
  have hx0 : 0 ≤ x := Real.logb_nonneg (by norm_num) (by linarith)
  have hx25 : x ≤ 25 := by
    rw [hx, Real.logb_le_iff_le_rpow (by norm_num) (by linarith)]
    have : (2 : ℝ) ^ (25 : ℝ) = 33554432 := by
      rw [show (25 : ℝ) = ((25 : ℕ) : ℝ) by norm_num, Real.rpow_natCast]; norm_num
    rw [this]; linarith
  have hc0 : 0 ≤ ⌈x / D⌉ := Int.ceil_nonneg (by positivity)
  have hclt := Int.ceil_lt_add_one (x / D)
  have hmul : (⌈x / D⌉ : ℝ) * D < x + D := by
    have := mul_lt_mul_of_pos_right hclt hD
    rw [add_mul, one_mul, div_mul_cancel₀ _ hD.ne'] at this
    exact this
  have hDle : (D : ℝ) ≤ 5 := by exact_mod_cast h5
  obtain ⟨k, hk⟩ : ∃ k : Nat, ⌈x / D⌉ = k := ⟨⌈x / D⌉.toNat, by omega⟩
  have hk2 : k * D < 30 + 1 := by
    rw [hk] at hmul
    have : ((k * D : Nat) : ℝ) < ((30 + 1 : Nat) : ℝ) := by push_cast at hmul ⊢; linarith
    exact_mod_cast this
  refine ⟨k, ?_, by rw [Nat.mul_comm]; omega⟩
  unfold firstParallelLevel
  simp only [XR.ofRat_eq, XR.ofNat_eq, XR.mul_fin]
  rw [XR.log2_fin _ (by push_cast; linarith), XR.div_fin _ _ hD.ne', XR.ceil_fin]
  have e : ⌈Real.logb 2 (((4 : ℚ) : ℝ) * (env.threads : ℝ)) / (D : ℝ)⌉ = k := by
    rw [← hk, hx]; norm_num
  rw [e]
  have hkle : k ≤ k * D := Nat.le_mul_of_pos_right k h1
  rw [XR.toU32_fin]
  · simp
  · simp
  · have : ((k : Nat) : ℝ) ≤ (30 : Nat) := by exact_mod_cast (by omega : k ≤ 30)
    push_cast at this ⊢
    linarith

variable {F : Type} [CFloat F]

/-- in dimension 1 to 5 the wrapper runs the sampler of that dimension -/
theorem generateEdges_dispatch {D : Nat} (h1 : 1 ≤ D) (h5 : D ≤ 5) (env : Env) (rng : Tree.Rng F) (gens : Nat → rng.G) (weights : List F)
    {p : List F} {ps : List (List F)} (hp : p.length = D) (alpha : F) (out : List (Nat × Nat)) (notice : Notice) :
    GenerateEdges env rng gens weights (p :: ps) alpha out notice ↔
      (∃ x : List (Fin D → F), asPoints D (p :: ps) = some x ∧ TreeRun env rng gens weights x alpha out) ∧ notice = .none := by
  unfold GenerateEdges
  simp only [List.head?_cons, hp]
  rcases (by omega : D = 1 ∨ D = 2 ∨ D = 3 ∨ D = 4 ∨ D = 5) with rfl | rfl | rfl | rfl | rfl <;> exact Iff.rfl

theorem generateEdges_xl {D : Nat} {w : List ℝ} {x : List (Fin D → ℝ)} (s : SupportedInput D w x) (env : Env) (rng : Tree.Rng XR)
    (gens : Nat → rng.G) (alpha : XR) (out : List (Nat × Nat)) (notice : Notice) :
    GenerateEdges env rng gens (xw w) (xl x) alpha out notice ↔ TreeRun env rng gens (xw w) (xp x) alpha out ∧ notice = .none := by
  have hx := asPoints_xl x
  cases x with
  | nil => have := s.len; have := s.pos; simp at *; omega
  | cons p ps =>
    unfold xl at hx ⊢
    rw [List.map_cons] at hx ⊢
    rw [generateEdges_dispatch s.D1 s.D5 env rng gens (xw w) (by simp) alpha out notice]
    constructor
    · rintro ⟨⟨y, h1, h2⟩, h3⟩
      rw [hx, Option.some.injEq] at h1
      subst h1
      exact ⟨h2, h3⟩
    · rintro ⟨h1, h2⟩
      exact ⟨⟨_, hx, h1⟩, h2⟩

theorem flatten_replicate_nil {α : Type} (k : Nat) : (List.replicate k ([] : List α)).flatten = [] := by
  induction k with
  | zero => rfl
  | succ k ih => rw [List.replicate_succ, List.flatten_cons, ih]; rfl

/-- any number of threads whose executions are a finite list of calls can finish -/
theorem EdgeBuffer.run_exists {E : Type} {block : Nat} (hb : 1 ≤ block) (calls : List (List E)) : ∃ out, EdgeBuffer.Run block calls out := by
  obtain ⟨sched, s, h1, h2⟩ := EdgeBuffer.finish_exists hb _ _ (EdgeBuffer.init_inv block hb calls) le_rfl
  exact ⟨_, sched, s, h1, h2, rfl⟩

theorem perm_simple {n : Nat} {es fs : List (Nat × Nat)} (h : es.Perm fs) (hs : IsSimpleGraph n fs) : IsSimpleGraph n es := by
  refine ⟨fun e he => hs.1 e (h.mem_iff.1 he), ?_⟩
  refine (h.pairwise_iff ?_).2 hs.2
  rintro e f ⟨h1, h2⟩
  refine ⟨Ne.symm h1, ?_⟩
  rintro rfl
  exact h2 (by simp)

end Girgs
namespace Girgs
open Build CFloat
variable {F : Type} [CFloat F] {D : Nat}

/-- all executions of the constructor, with any numbers of threads, build the same data structure -/
theorem Constructed.unique {ndebug : Bool} {weights : List F} {positions : List (Fin D → F)} {alpha : F} {T T' : Tree F D}
    (hc : Constructed ndebug weights positions alpha T) (hc' : Constructed ndebug weights positions alpha T')
    {h : Header F} (eh : header D weights = some h) (ok : InputOK D weights positions h) : T = T' := by
  have hb := (hc.builtFrom eh ok).ok.first_eq
  have hb' := (hc'.builtFrom eh ok).ok.first_eq
  obtain ⟨h1, lp, fc, nodes0, wl, e1, e2, e3, e4, e5, maxCell, e6, omp, t, B0, nodes, threads, first, ht1, ht, hB, hrun,
    hth1, hth2, hidx, rfl⟩ := hc
  obtain ⟨h1', lp', fc', nodes0', wl', e1', e2', e3', e4', e5', maxCell', e6', omp', t', B0', nodes', threads', first', ht1', ht', hB', hrun',
    hth1', hth2', hidx', rfl⟩ := hc'
  obtain rfl : h = h1 := by rw [eh] at e1; exact Option.some.inj e1
  obtain rfl : h = h1' := by rw [eh] at e1'; exact Option.some.inj e1'
  obtain rfl : lp = lp' := by rw [e2] at e2'; exact Option.some.inj e2'
  obtain rfl : fc = fc' := by rw [e3] at e3'; exact Option.some.inj e3'
  obtain rfl : nodes0 = nodes0' := by rw [e4] at e4'; exact Option.some.inj e4'
  obtain rfl : wl = wl' := by rw [e5] at e5'; exact Option.some.inj e5'
  obtain rfl : maxCell = maxCell' := by rw [e6] at e6'; exact Option.some.inj e6'
  rw [firstCells_eq ok.total] at e3
  simp only [Option.some.injEq] at e3
  subst e3
  rw [List.getLast?_append] at e6
  simp only [List.getLast?_singleton, Option.some_or, Option.some.injEq] at e6
  subst e6
  obtain ⟨nodes0', e7, e8, e9⟩ := classify_eq ok
  obtain rfl : nodes0' = nodes0 := by rw [e7] at e4; exact Option.some.inj e4
  have hlen : nodes0'.length = weights.length := by
    have := congrArg List.length e8
    simpa using this
  have htot := ok.total
  have hsm := ok.small
  have hlt : ∀ x ∈ nodes0', x.cellId < layerOff D h.blc h.layers := fun x hx => (e9 x hx).cell_lt
  have hkeys := Props.C10_keys_below_max Node.cellId _ nodes0' (by omega) hlt
  obtain rfl : nodes = nodes' := Props.C10_thread_independent Node.cellId _ omp t omp' t' nodes0' B0 B0' nodes nodes' ht1
    (by rw [hlen]; exact ht) ht1' (by rw [hlen]; exact ht') (by rw [hlen]; omega) (by rw [hlen]; exact hB) (by rw [hlen]; exact hB') hkeys hrun hrun'
  simp only at hb hb'
  rw [hb, hb']

end Girgs
