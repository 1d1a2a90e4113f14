import Verif.Proofs.HBigDisk
import Verif.Props.BenchHyper
/-
C83: disks of radius 41.34 and more.  These theorems describe a defect of the code; they show why the theorems about the hyperbolic sampler assume a smaller radius.
-/
namespace Girgs
namespace Props
open Spec Tools Bench Cli
open XR (fin)

/-- C83.  In a disk of radius at least 124/3 = 41.33.. no execution of `hypergirgs::generateEdges` is defined, whatever the points, thread count, build and random
numbers, if the temperature is not 0, or the radius is at most 42.6 or at least 44.2: the first level of the outermost layer is at least 30, so there are more than
`2^31` cells, which the sampler numbers with an `int`, or it is at least 31, and `1 << level` overflows in the table of the distances of cells, or in the number of
cells. -/
theorem C83_undefined {R : ℝ} (hR : 124 / 3 ≤ R) {T : XR} (hT : T ≠ fin 0 ∨ R ≤ 42.6 ∨ 44.2 ≤ R) (env : HEnv) (rng : Tree.Rng XR) (gens : ℕ → rng.G)
    (radii angles : List XR) (out : List (ℕ × ℕ)) : ¬ HGenerateEdges env rng gens radii angles T (fin R) out := by
  rintro ⟨H, hH, _⟩
  refine big_undefined hR ?_ _ _ hH
  rcases hT with h | h | h
  · left
    rcases T with x | _ | _ | _
    · have hx : x ≠ 0 := fun h0 => h (by rw [h0])
      rw [XR.ofRat_eq]
      simpa [CFloat.eq, XR.eq] using hx
    all_goals rw [XR.ofRat_eq]; rfl
  · right; left; norm_num at h ⊢; linarith
  · right; right; norm_num at h ⊢; linarith

/-- C83 for genhrg: if the parameters are accepted, and the temperature is positive and the expected degree at radius
124/3 is not less than the requested degree (so the radius would have to be at least 124/3), then no run of genhrg ends: its behaviour is undefined. -/
theorem C83_genhrg (m : Machine XR) {argv : List String} {c : HrgConfig XR} (h1 : wantsHelp argv = false) (h2 : wantsVersion argv = false)
    (hc : readHrg m (parseArgs argv) = some c) (h3 : checkHrg m c = none) {α T deg : ℝ} (hα : c.alpha = fin α) (hT : c.T = fin T) (hdeg : c.deg = fin deg)
    (hα2 : 1 / 2 < α) (hn : c.n < 2 ^ 30) (hT0 : 0 < T) (hlarge : deg ≤ hrgDegree c.n α T (124 / 3)) (exit : Exit) (files : List File) :
    ¬ HrgMain m argv exit files := by
  intro h
  rw [hrg_main h1 h2 hc h3] at h
  obtain ⟨R, radii, angles, edges, ⟨_, hrad, _, _, _, _, _, gens, _, hE⟩, _⟩ := h
  obtain ⟨r, hr, hd, hr0, _⟩ := C63_radius m hα hT hdeg h3 hα2 hn (Or.inr hT0)
  obtain rfl := (hr R).1 hrad
  rw [hT] at hE
  refine C83_undefined ?_ (Or.inl ?_) _ _ _ _ _ _ hE
  · by_contra hlt
    push Not at hlt
    obtain ⟨_, kt, kd, _, _⟩ := hrg_checked h3
    rw [hT] at kt; rw [hdeg] at kd
    have kt := accepted_fin kt
    have kd := accepted_fin kd
    have hn0 : (0 : ℝ) < c.n := by linarith [kd.1, kd.2]
    have hpi := Real.pi_pos
    have hs : 0 < Real.sin (Real.pi * T) := Real.sin_pos_of_pos_of_lt_pi (by positivity) (by nlinarith [kt.2])
    have hxi : 0 < xi α := by unfold xi; exact div_pos (by linarith) (by linarith)
    rw [← hd] at hlarge
    unfold hrgDegree at hlarge
    rw [if_neg hT0.ne'] at hlarge
    have hexp : Real.exp (-(124 / 3) / 2) < Real.exp (-r / 2) := Real.exp_lt_exp.2 (by linarith)
    have hK : 0 < 2 / Real.pi * xi α ^ 2 * (c.n : ℝ) := by positivity
    have hF : 0 < Real.pi * T / Real.sin (Real.pi * T) := by positivity
    exact absurd hlarge (not_le.2 (mul_lt_mul_of_pos_right (mul_lt_mul_of_pos_left hexp hK) hF))
  · intro e; cases e; exact lt_irrefl _ hT0

/-- C83: the radius for exponent 2.2, temperature 0.9, degree at most 10 and at least 46415888 nodes. -/
theorem C83_radius {n : ℕ} {deg : ℝ} (hd : 0 < deg) (hdeg : deg ≤ 10) (hn : 46415888 ≤ n) (hn' : n < 2 ^ 30) {ndebug : Bool} {R : XR}
    (h : Radius.LikeNetworKit ndebug n (fin (3 / 5)) (fin (9 / 10)) (fin deg) R) : ∃ r : ℝ, R = fin r ∧ 124 / 3 ≤ r := by
  rw [C52_cold (by omega) (by exact_mod_cast hn') (by norm_num) (by norm_num) (by norm_num) hd] at h
  rw [Radius.calculateRadius_eq (by omega) (by omega) (by norm_num) (by norm_num) (by norm_num) hd] at h
  cases h
  refine ⟨_, rfl, ?_⟩
  have hpi := Real.pi_pos
  have hpi' := Real.pi_lt_d6
  have hsin : Real.sin (Real.pi * (9 / 10)) ≤ Real.pi / 10 := by
    rw [show Real.pi * (9 / 10) = Real.pi - Real.pi / 10 by ring, Real.sin_pi_sub]
    exact Real.sin_le (by positivity)
  have hsin0 : 0 < Real.sin (Real.pi * (9 / 10)) := Real.sin_pos_of_pos_of_lt_pi (by positivity) (by linarith)
  have hf : 2.8647 ≤ (9 / 10 : ℝ) / Real.sin (Real.pi * (9 / 10)) := by
    rw [le_div_iff₀ hsin0]
    nlinarith
  have hn0 : (46415888 : ℝ) ≤ n := by exact_mod_cast hn
  have hratio : 957000000 ≤ Radius.ratio ((n : ℤ) : ℝ) (3 / 5) (9 / 10) deg := by
    unfold Radius.ratio
    rw [if_neg (by norm_num)]
    set f := (9 / 10 : ℝ) / Real.sin (Real.pi * (9 / 10)) with hfd
    rw [le_div_iff₀ (by norm_num; linarith)]
    push_cast
    have h1 : 46415888 * 2.8647 ≤ (n : ℝ) * f := mul_le_mul hn0 hf (by norm_num) (by linarith)
    nlinarith
  have hexp : Real.exp (62 / 3) ≤ 957000000 := exp_le_of_pow (p := 62) (q := 3) (by norm_num) (by norm_num) (by norm_num) (by norm_num)
  have := (Real.le_log_iff_exp_le (by linarith)).2 (hexp.trans hratio)
  linarith

/-- a machine that reads the numbers of `bigArgs` -/
noncomputable def bigMachine : Machine XR :=
  { exampleMachine with
    stoi := fun s => if s = "50000000" then some 50000000 else none
    stoi_int := by
      intro s x h
      split_ifs at h
      cases h; norm_num
    stod := fun s => if s = "0.6" then some (fin (3 / 5)) else if s = "0.9" then some (fin (9 / 10)) else none }

def bigArgs : List String := ["genhrg", "-n", "50000000", "-alpha", "0.6", "-t", "0.9", "-edge", "1"]

noncomputable def bigConfig : HrgConfig XR := ⟨50000000, fin (3 / 5), fin (9 / 10), fin 10, 12, 130, 1400, 1, false, "graph", true, false⟩

/-- the hypotheses of `C83_genhrg` are met: `genhrg -n 50000000 -alpha 0.6 -t 0.9 -edge 1` -/
theorem bigExample (exit : Exit) (files : List File) : ¬ HrgMain bigMachine bigArgs exit files := by
  have e0 : (CFloat.ofRat 10 : XR) = fin 10 := by rw [XR.ofRat_eq]; norm_num
  have e1 : (CFloat.ofRat (1 / 2) : XR) = fin (1 / 2) := by rw [XR.ofRat_eq]; norm_num
  have hread : readHrg bigMachine (parseArgs bigArgs) = some bigConfig := by
    unfold bigConfig
    rw [← e0]
    simp [readHrg, getOr, flag, parseArgs, parseFrom, assign, optionName, bigMachine, bigArgs]
  have hcheck : checkHrg bigMachine bigConfig = none := by
    unfold checkHrg bigConfig
    simp only [ofInt_sub_one]
    rw [e1, ofRat_one', ofRat_zero', (C55_real (3 / 5) (1 / 2) 1 false false).2 (by norm_num), (C55_real (9 / 10) 0 1 false true).2 (by norm_num),
      (C55_real 10 1 _ false false).2 (by norm_num), (C55_int 1 1 _ false false).2 (by simp [bigMachine, exampleMachine])]
    rfl
  refine C83_genhrg bigMachine rfl rfl hread hcheck rfl rfl rfl (by norm_num) (by norm_num [bigConfig]) (by norm_num) ?_ exit files
  have hn : (1 : ℤ) ≤ bigConfig.n := by norm_num [bigConfig]
  have hn' : bigConfig.n < 2 ^ 30 := by norm_num [bigConfig]
  obtain ⟨R, hR, hd⟩ := C51_inverts (n := bigConfig.n) (α := 3 / 5) (T := 9 / 10) (deg := 10) hn hn' (by norm_num) (by norm_num) (by norm_num) (by norm_num)
  have hl := (C52_cold (ndebug := true) hn hn' (by norm_num : (1 / 2 : ℝ) < 3 / 5) (by norm_num : (0 : ℝ) < 9 / 10) (by norm_num) (by norm_num : (0 : ℝ) < 10) _).2 hR
  obtain ⟨r, hr, h124⟩ := C83_radius (n := 50000000) (deg := 10) (by norm_num) le_rfl (by norm_num) (by norm_num) hl
  cases hr
  refine ((hd R).2 rfl).ge.trans ?_
  have hsin0 : 0 < Real.sin (Real.pi * (9 / 10)) := Real.sin_pos_of_pos_of_lt_pi (by have := Real.pi_pos; positivity) (by linarith [Real.pi_pos])
  have hpi := Real.pi_pos
  have hexp : Real.exp (-R / 2) ≤ Real.exp (-(124 / 3) / 2) := Real.exp_le_exp.2 (by linarith)
  unfold hrgDegree
  rw [if_neg (by norm_num)]
  have hn0 : (0 : ℝ) ≤ bigConfig.n := by exact_mod_cast (by omega : 0 ≤ bigConfig.n)
  exact mul_le_mul_of_nonneg_right (mul_le_mul_of_nonneg_left hexp (by positivity)) (by positivity)

/-- C83 for bench_hyper: in every execution that ends normally (exact arithmetic, any machine and thread count), in the groups with temperature 0.9 and exponent 2.2 the
runs with degree 10 and the two largest sizes were skipped. -/
theorem C83_bench {m : Machine XR} {threads : ℕ} {groups : List (HGroup XR × List (HEntry XR))} (h : HyperMain m threads groups) {k : ℕ} {g : HGroup XR}
    {es : List (HEntry XR)} (hg : groups[k]? = some (g, es)) (hT : g.T = fin (9 / 10)) (hp : g.ple = fin (11 / 5)) {e : HEntry XR} (he : e ∈ es) (hd : e.avgDeg = 10)
    (hn : 46415888 ≤ e.n) : e.outcome = none := by
  obtain ⟨h1, h2⟩ := (C82_main C82_sizes groups).1 h
  have hrun := h2 k g es hg
  have hmem : g ∈ benchGroups XR := by
    rw [← h1]; exact List.mem_map.2 ⟨_, List.mem_of_getElem? hg, rfl⟩
  have hα : g.alpha = fin (3 / 5) := by
    unfold benchGroups at hmem
    simp only [List.mem_flatMap, List.mem_map] at hmem
    obtain ⟨_, _, _, _, ple, _, rfl⟩ := hmem
    simp only at hp ⊢
    rw [hp, XR.ofRat_eq, XR.ofRat_eq, XR.sub_fin, XR.div_fin _ _ (by norm_num)]
    norm_num
  obtain ⟨i, hi⟩ := List.getElem?_of_mem he
  have hsize : e.n ≤ nMax := benchConfigs_le (e.avgDeg, e.n) (by rw [← hrun.configs]; exact List.mem_map.2 ⟨e, he, rfl⟩)
  rcases ho : e.outcome with _ | ⟨row, time⟩
  · rfl
  · exfalso
    obtain ⟨_, _, R, hR, radii, angles, _, _, _, _, _, _, H, hH, _⟩ := hrun.runs i e row time hi ho
    rw [hα, hT, hd, XR.ofNat_eq] at hR
    obtain ⟨r, rfl, hr⟩ := C83_radius (n := e.n) (deg := ((10 : ℕ) : ℝ)) (by norm_num) (by norm_num) hn (by unfold nMax at hsize; omega) hR
    refine big_undefined hr (Or.inl ?_) _ _ hH
    rw [hT, XR.ofRat_eq]
    simp [CFloat.eq, XR.eq]

/-- C83: no execution of bench_hyper ends normally unless some run takes longer than the limit of 100 seconds: if all runs are fast, the behaviour of the program is
undefined. -/
theorem C83_needs_timeout {m : Machine XR} {threads : ℕ} {groups : List (HGroup XR × List (HEntry XR))} (h : HyperMain m threads groups) :
    ∃ g es, (g, es) ∈ groups ∧ ∃ e ∈ es, ∃ row time, e.outcome = some (row, time) ∧ (timeout XR <. time) = true := by
  obtain ⟨h1, h2⟩ := (C82_main C82_sizes groups).1 h
  have hlen : groups.length = 30 := by
    have := congrArg List.length h1
    rw [List.length_map] at this
    exact this
  obtain ⟨⟨g, es⟩, hg⟩ : ∃ p, groups[4]? = some p := ⟨groups[4], List.getElem?_eq_getElem (by omega)⟩
  have hgk : (benchGroups XR)[4]? = some g := by rw [← h1, List.getElem?_map, hg]; rfl
  have hgT : g.T = fin (9 / 10) ∧ g.ple = fin (11 / 5) := by
    have e : (benchGroups XR)[4]? = some ⟨0, CFloat.ofRat (9 / 10), CFloat.ofRat (11 / 5), (CFloat.ofRat (11 / 5) -. CFloat.ofRat 1) /. CFloat.ofRat 2⟩ := rfl
    rw [e] at hgk
    cases hgk
    constructor
    · show CFloat.ofRat (9 / 10) = _; rw [XR.ofRat_eq]; norm_num
    · show CFloat.ofRat (11 / 5) = _; rw [XR.ofRat_eq]; norm_num
  have hrun := h2 4 g es hg
  have hl : es.length = 38 := by
    have := congrArg List.length hrun.configs
    rw [List.length_map] at this
    exact this.trans (by decide)
  have he : es[12]? = some es[12] := List.getElem?_eq_getElem (by omega)
  have hc : (es[12].avgDeg, es[12].n) = (10, 100000000) := by
    have e1 : benchConfigs[12]? = some (10, 100000000) := by decide
    rw [← hrun.configs, List.getElem?_map, he] at e1
    exact Option.some.inj e1
  rw [Prod.mk.injEq] at hc
  have hnone := C83_bench h hg hgT.1 hgT.2 (List.mem_of_getElem? he) hc.1 (by rw [hc.2]; norm_num)
  obtain ⟨j, e', row, time, _, hj, ho, ht, _⟩ := (hrun.skips 12 _ he).1 hnone
  exact ⟨g, es, List.mem_of_getElem? hg, e', List.mem_of_getElem? hj, row, time, ho, ht⟩

/-- non-vacuity: `benchMainExample` is such an execution -/
example : ∃ groups, HyperMain exampleMachine 1 groups ∧ ∃ g es, (g, es) ∈ groups ∧ ∃ e ∈ es, ∃ row time, e.outcome = some (row, time) ∧ (timeout XR <. time) = true := by
  obtain ⟨groups, h, _⟩ := benchMainExample
  exact ⟨groups, h, C83_needs_timeout h⟩

end Props
end Girgs
