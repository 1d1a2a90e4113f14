import Verif.Proofs.HThreshold
/-!
All executions of the constructor of the hyperbolic tree build the same data structure.
-/
namespace Girgs
open HBuild Spec
variable {F : Type} [CFloat F] {R : F} {radii angles : List F} {nl : Nat} {tgt : Nat → Nat} {pbl : Nat → Nat → Nat}

/-- all executions of the constructor, with any numbers of threads, build the same data structure -/
theorem HConstructed.unique {ndebug : Bool} {T : F} {H H' : HTree F} (hc : HConstructed ndebug radii angles T R H)
    (hc' : HConstructed ndebug radii angles T R H') (ok : HInputOK R radii angles nl tgt pbl) : H = H' := by
  have hb := (hc.built ok).ok.first_eq
  have hb' := (hc'.built ok).ok.first_eq
  obtain ⟨points, first, rls, r0, lp, fil, hpart, hr0, hlp, hfil, rfl⟩ := hc
  obtain ⟨nl', lol, fc, M, points0, e1, e2, e3, _, e4, omp, t, B0, threads, ht1, ht, hB, hrun, hth1, hth2, hidx, c0, layers, hc0, hpr, hrl⟩ := hpart
  obtain ⟨points', first', rls', r0', lp', fil', hpart', hr0', hlp', hfil', rfl⟩ := hc'
  obtain ⟨nl'', lol', fc', M', points0', e1', e2', e3', _, e4', omp', t', B0', threads', ht1', ht', hB', hrun', hth1', hth2', hidx', c0', layers', hc0', hpr', hrl'⟩ := hpart'
  obtain rfl : nl' = nl'' := by rw [e1] at e1'; exact Option.some.inj e1'
  obtain rfl : lol = lol' := by rw [e2] at e2'; exact Option.some.inj e2'
  obtain ⟨rfl, rfl⟩ : fc = fc' ∧ M = M' := by rw [e3] at e3'; simpa using e3'
  obtain rfl : points0 = points0' := by rw [e4] at e4'; exact Option.some.inj e4'
  obtain rfl : nl = nl' := by have := ok.layers; rw [e1] at this; exact (Option.some.inj this).symm
  rw [ok.levels_eq, Option.some.injEq] at e2
  subst e2
  rw [ok.firstCells_eq, Option.some.injEq, Prod.mk.injEq] at e3
  obtain ⟨rfl, rfl⟩ := e3
  obtain ⟨points1, e5, e6, e7⟩ := ok.classify_eq
  obtain rfl : points1 = points0 := by rw [e5] at e4; exact Option.some.inj e4
  have hlen : points1.length = radii.length := by
    have := congrArg List.length e6
    simpa using this
  have htot := ok.total
  have hsm := ok.small
  have hlt : ∀ x ∈ points1, x.cellId < hTotal tgt nl := fun x hx => (e7 x hx).cell_lt
  have hu1 : u32 (hTotal tgt nl + 1) = hTotal tgt nl + 1 := u32_eq (by omega)
  rw [hu1] at hrun hrun'
  obtain rfl : points = points' := Props.C10_thread_independent HPoint.cellId _ omp t omp' t' points1 B0 B0' points points' ht1
    (by rw [hlen]; exact ht) ht1' (by rw [hlen]; exact ht') (by rw [hlen]; omega) (by rw [hlen]; exact hB) (by rw [hlen]; exact hB')
    (Props.C10_keys_below_max _ _ _ (by omega) (fun x hx => by have := hlt x hx; omega)) hrun hrun'
  obtain rfl : c0 = c0' := by rw [hc0] at hc0'; exact Option.some.inj hc0'
  obtain rfl : layers = layers' := by rw [hpr] at hpr'; exact Option.some.inj hpr'
  obtain rfl : rls = rls' := by rw [hrl] at hrl'; exact Option.some.inj hrl'
  obtain rfl : r0 = r0' := by rw [hr0] at hr0'; exact Option.some.inj hr0'
  obtain rfl : lp = lp' := by rw [hlp] at hlp'; exact Option.some.inj hlp'
  obtain rfl : fil = fil' := by rw [hfil] at hfil'; exact Option.some.inj hfil'
  simp only at hb hb'
  rw [hb, hb']

end Girgs
