import Verif.Props.Cli
import Verif.Props.Samplers
import Verif.Props.Output
import Verif.Props.HyperEdges
import Verif.Proofs.LazySorter
import Verif.Model.Tools
/-
C62: the parameters of the command line tools and how the tools end.
-/
namespace Girgs.Props
open Cli Spec Tools Output
open XR (fin)

variable {F : Type} [CFloat F]

theorem given_iff {argv : List String} {k v : String} : parseArgs argv k = some v ↔ Given argv k v := C54_value argv k v

theorem getOr_iff {α : Type} {argv : List String} {k : String} {convert : String → Option α} {d x : α} :
    getOr convert (parseArgs argv) k d = some x ↔ Setting argv k convert d x := by
  unfold getOr Setting
  cases h : parseArgs argv k with
  | none =>
    have hno : ∀ v, ¬ Given argv k v := fun v hv => by rw [← given_iff, h] at hv; cases hv
    simp only [Option.some.injEq]
    constructor
    · rintro rfl; exact Or.inr ⟨rfl, fun v hv => absurd hv (hno v)⟩
    · rintro (⟨v, _, hv, _⟩ | ⟨h1, _⟩)
      · exact absurd hv (hno v)
      · exact h1.symm
  | some v =>
    have hv := given_iff.1 h
    have huniq : ∀ v', Given argv k v' → v' = v := fun v' hv' => by rw [← given_iff, h] at hv'; exact (Option.some.inj hv').symm
    simp only
    by_cases he : v = ""
    · rw [if_pos he]
      simp only [Option.some.injEq]
      constructor
      · rintro rfl; exact Or.inr ⟨rfl, fun v' hv' => (huniq v' hv').trans he⟩
      · rintro (⟨v', h1, h2, _⟩ | ⟨h1, _⟩)
        · exact absurd ((huniq v' h2).trans he) h1
        · exact h1.symm
    · rw [if_neg he]
      constructor
      · intro hx; exact Or.inl ⟨v, he, hv, hx⟩
      · rintro (⟨v', _, h2, h3⟩ | ⟨_, h2⟩)
        · rw [← huniq v' h2]; exact h3
        · exact absurd (h2 v hv) he

theorem flag_iff {argv : List String} {k : String} : flag (parseArgs argv) k = true ↔ Given argv k "1" := by
  unfold flag
  rw [decide_eq_true_eq, given_iff]

/-- C62.  The parameters `genhrg` works with are the values given on the command line, or the defaults of the help text. -/
theorem C62_hrg_settings (m : Machine F) (argv : List String) (c : HrgConfig F) :
    readHrg m (parseArgs argv) = some c ↔
      Setting argv "n" m.stoi 10000 c.n ∧ Setting argv "alpha" m.stod (CFloat.ofRat (3 / 4)) c.alpha ∧ Setting argv "t" m.stod (CFloat.ofRat 0) c.T ∧
      Setting argv "deg" m.stod (CFloat.ofRat 10) c.deg ∧ Setting argv "rseed" m.stoi 12 c.rseed ∧ Setting argv "aseed" m.stoi 130 c.aseed ∧
      Setting argv "sseed" m.stoi 1400 c.sseed ∧ Setting argv "threads" m.stoi 1 c.threads ∧ Setting argv "file" some "graph" c.file ∧
      (c.nkr = true ↔ Given argv "nkr" "1") ∧ (c.edge = true ↔ Given argv "edge" "1") ∧ (c.coord = true ↔ Given argv "coord" "1") := by
  simp only [← getOr_iff, ← flag_iff]
  unfold readHrg
  simp only [Option.bind_eq_bind, Option.bind_eq_some_iff, Option.some.injEq]
  constructor
  · rintro ⟨n, h1, a, h2, t, h3, d, h4, r, h5, q, h6, s, h7, th, h8, f, h9, rfl⟩
    exact ⟨h1, h2, h3, h4, h5, h6, h7, h8, h9, Iff.rfl, Iff.rfl, Iff.rfl⟩
  · rintro ⟨h1, h2, h3, h4, h5, h6, h7, h8, h9, h10, h11, h12⟩
    refine ⟨_, h1, _, h2, _, h3, _, h4, _, h5, _, h6, _, h7, _, h8, _, h9, ?_⟩
    rw [← Bool.eq_iff_iff.2 h10, ← Bool.eq_iff_iff.2 h11, ← Bool.eq_iff_iff.2 h12]

/-- C62.  The parameters `gengirg` works with are the values given on the command line, or the defaults of the help text. -/
theorem C62_girg_settings (m : Machine F) (argv : List String) (c : GirgConfig F) :
    readGirg m (parseArgs argv) = some c ↔
      Setting argv "n" m.stoi 10000 c.n ∧ Setting argv "d" m.stoi 1 c.d ∧ Setting argv "ple" m.stod (CFloat.ofRat (5 / 2)) c.ple ∧
      Setting argv "alpha" m.stod CFloat.inf c.alpha ∧ Setting argv "deg" m.stod (CFloat.ofRat 10) c.deg ∧
      Setting argv "wseed" m.stoi 12 c.wseed ∧ Setting argv "pseed" m.stoi 130 c.pseed ∧ Setting argv "sseed" m.stoi 1400 c.sseed ∧
      Setting argv "threads" m.stoi 1 c.threads ∧ Setting argv "file" some "graph" c.file ∧
      (c.dot = true ↔ Given argv "dot" "1") ∧ (c.edge = true ↔ Given argv "edge" "1") := by
  simp only [← getOr_iff, ← flag_iff]
  unfold readGirg
  simp only [Option.bind_eq_bind, Option.bind_eq_some_iff, Option.some.injEq]
  constructor
  · rintro ⟨n, h1, a, h2, t, h3, d, h4, r, h5, q, h6, s, h7, th, h8, u, h9, f, h10, rfl⟩
    exact ⟨h1, h2, h3, h4, h5, h6, h7, h8, h9, h10, Iff.rfl, Iff.rfl⟩
  · rintro ⟨h1, h2, h3, h4, h5, h6, h7, h8, h9, h10, h11, h12⟩
    refine ⟨_, h1, _, h2, _, h3, _, h4, _, h5, _, h6, _, h7, _, h8, _, h9, _, h10, ?_⟩
    rw [← Bool.eq_iff_iff.2 h11, ← Bool.eq_iff_iff.2 h12]

/-- a floating point parameter is accepted for the range `S`: it is a number of `S`, or NaN -/
def Accepted (v : XR) (S : Set ℝ) : Prop := v = .nan ∨ ∃ x ∈ S, v = fin x

theorem rangeFails_accepted {v : XR} {a b : ℝ} {lex hex : Bool} {S : Set ℝ} (hS : ∀ x, rangeFails (fin x) (fin a) (fin b) lex hex = false ↔ x ∈ S) :
    rangeFails v (fin a) (fin b) lex hex = false ↔ Accepted v S := by
  obtain ⟨h1, h2, h3⟩ := C55_special a b lex hex
  unfold Accepted
  cases v with
  | nan => simp [h3]
  | pinf => simp [h1]
  | ninf => simp [h2]
  | fin x => rw [hS]; simp

theorem ofInt_sub_one (n : ℤ) : ((CFloat.ofInt n : XR) -. CFloat.ofRat 1) = fin ((n : ℝ) - 1) := by
  rw [XR.ofInt_eq, XR.ofRat_eq, XR.sub_fin]; norm_num

theorem ofRat_zero' : (CFloat.ofRat 0 : XR) = fin 0 := by rw [XR.ofRat_eq]; norm_num
theorem ofRat_one' : (CFloat.ofRat 1 : XR) = fin 1 := by rw [XR.ofRat_eq]; norm_num

/-- C62.  When `genhrg` reads its parameters successfully, it ends with a range error exactly if some parameter is outside its range (`alpha` in
`[1/2,1]`, `t` in `[0,1)`, `deg` in `[1,n-1]`, `threads` in `[1, omp_get_max_threads()]`; NaN counts as inside), reports a parameter that is outside,
and has written nothing. -/
theorem C62_hrg_ranges (m : Machine XR) {argv : List String} {c : HrgConfig XR} (h1 : wantsHelp argv = false) (h2 : wantsVersion argv = false)
    (hc : readHrg m (parseArgs argv) = some c) {exit : Exit} {files : List File} (h : HrgMain m argv exit files) :
    ((∃ name, exit = .outOfRange name) ↔
      ¬ (Accepted c.alpha (Set.Icc (1 / 2) 1) ∧ Accepted c.T (Set.Ico 0 1) ∧ Accepted c.deg (Set.Icc 1 (c.n - 1)) ∧ 1 ≤ c.threads ∧ c.threads ≤ m.maxThreads)) ∧
    ∀ name, exit = .outOfRange name → files = [] ∧
      ((name = "alpha" ∧ ¬ Accepted c.alpha (Set.Icc (1 / 2) 1)) ∨ (name = "t" ∧ ¬ Accepted c.T (Set.Ico 0 1)) ∨
        (name = "deg" ∧ ¬ Accepted c.deg (Set.Icc 1 (c.n - 1))) ∨ (name = "threads" ∧ ¬ (1 ≤ c.threads ∧ c.threads ≤ m.maxThreads))) := by
  have ha : rangeFails c.alpha (CFloat.ofRat (1 / 2)) (CFloat.ofRat 1) false false = false ↔ Accepted c.alpha (Set.Icc (1 / 2) 1) := by
    rw [ofRat_one', show (CFloat.ofRat (1 / 2) : XR) = fin (1 / 2) by rw [XR.ofRat_eq]; norm_num]
    exact rangeFails_accepted fun x => C55_real x _ _ _ _
  have ht : rangeFails c.T (CFloat.ofRat 0) (CFloat.ofRat 1) false true = false ↔ Accepted c.T (Set.Ico 0 1) := by
    rw [ofRat_one', ofRat_zero']
    exact rangeFails_accepted fun x => C55_real x _ _ _ _
  have hd : rangeFails c.deg (CFloat.ofRat 1) (CFloat.ofInt c.n -. CFloat.ofRat 1) false false = false ↔ Accepted c.deg (Set.Icc 1 (c.n - 1)) := by
    rw [ofInt_sub_one, ofRat_one']
    exact rangeFails_accepted fun x => C55_real x _ _ _ _
  have hth : rangeFailsInt c.threads 1 m.maxThreads false false = false ↔ 1 ≤ c.threads ∧ c.threads ≤ m.maxThreads := by
    rw [C55_int]; simp
  rw [← ha, ← ht, ← hd, ← hth]
  unfold HrgMain at h
  rw [h1, h2, hc] at h
  simp only [Bool.false_eq_true, if_false] at h
  unfold checkHrg at h
  have hnr : ∀ name, HrgRun m c exit files → exit ≠ .outOfRange name := by
    rintro name ⟨_, _, _, _, _, fs, _, he⟩ rfl
    have : ∀ fs : List (String × Output.FileResult), (emit fs).1 ≠ .outOfRange name := by
      intro fs
      induction fs with
      | nil => simp [emit]
      | cons f fs ih => rcases f with ⟨n, t | _⟩ <;> simp [emit, ih]
    exact this fs (by rw [← he])
  clear ha ht hd hth
  generalize rangeFails c.alpha (CFloat.ofRat (1 / 2)) (CFloat.ofRat 1) false false = b1 at *
  generalize rangeFails c.T (CFloat.ofRat 0) (CFloat.ofRat 1) false true = b2 at *
  generalize rangeFails c.deg (CFloat.ofRat 1) (CFloat.ofInt c.n -. CFloat.ofRat 1) false false = b3 at *
  generalize rangeFailsInt c.threads 1 m.maxThreads false false = b4 at *
  by_cases q1 : b1 = true
  · rw [if_pos q1] at h
    obtain ⟨rfl, rfl⟩ := h
    simp [q1]
  rw [if_neg q1] at h
  by_cases q2 : b2 = true
  · rw [if_pos q2] at h
    obtain ⟨rfl, rfl⟩ := h
    simp [q2]
  rw [if_neg q2] at h
  by_cases q3 : b3 = true
  · rw [if_pos q3] at h
    obtain ⟨rfl, rfl⟩ := h
    simp [q3]
  rw [if_neg q3] at h
  by_cases q4 : b4 = true
  · rw [if_pos q4] at h
    obtain ⟨rfl, rfl⟩ := h
    simp [q4]
  rw [if_neg q4] at h
  simp only [Bool.not_eq_true] at q1 q2 q3 q4
  refine ⟨?_, fun name hn => absurd hn (hnr name h)⟩
  rw [q1, q2, q3, q4]
  simp only [not_true_eq_false, and_self, iff_false, not_exists]
  exact fun name => hnr name h

/-- C62.  The same for `gengirg` (`d` in `[1,5]`, `ple` in `(2,3]`, `alpha` above 1 or infinite, `deg` in `[1,n-1]`, `threads` in
`[1, omp_get_max_threads()]`). -/
theorem C62_girg_ranges (m : Machine XR) {argv : List String} {c : GirgConfig XR} (h1 : wantsHelp argv = false) (h2 : wantsVersion argv = false)
    (hc : readGirg m (parseArgs argv) = some c) {exit : Exit} {files : List File} (h : GirgMain m argv exit files) :
    ((∃ name, exit = .outOfRange name) ↔
      ¬ ((1 ≤ c.d ∧ c.d ≤ 5) ∧ Accepted c.ple (Set.Ioc 2 3) ∧ (c.alpha = .pinf ∨ Accepted c.alpha (Set.Ioi 1)) ∧
        Accepted c.deg (Set.Icc 1 (c.n - 1)) ∧ 1 ≤ c.threads ∧ c.threads ≤ m.maxThreads)) ∧
    ∀ name, exit = .outOfRange name → files = [] ∧
      ((name = "d" ∧ ¬ (1 ≤ c.d ∧ c.d ≤ 5)) ∨ (name = "ple" ∧ ¬ Accepted c.ple (Set.Ioc 2 3)) ∨
        (name = "alpha" ∧ ¬ (c.alpha = .pinf ∨ Accepted c.alpha (Set.Ioi 1))) ∨
        (name = "deg" ∧ ¬ Accepted c.deg (Set.Icc 1 (c.n - 1))) ∨ (name = "threads" ∧ ¬ (1 ≤ c.threads ∧ c.threads ≤ m.maxThreads))) := by
  have hdim : rangeFailsInt c.d 1 5 false false = false ↔ 1 ≤ c.d ∧ c.d ≤ 5 := by rw [C55_int]; simp
  have hp : rangeFails c.ple (CFloat.ofRat 2) (CFloat.ofRat 3) true false = false ↔ Accepted c.ple (Set.Ioc 2 3) := by
    rw [show (CFloat.ofRat 2 : XR) = fin 2 by rw [XR.ofRat_eq]; norm_num, show (CFloat.ofRat 3 : XR) = fin 3 by rw [XR.ofRat_eq]; norm_num]
    exact rangeFails_accepted fun x => C55_real x _ _ _ _
  have ha : rangeFails c.alpha (CFloat.ofRat 1) CFloat.inf true false = false ↔ (c.alpha = .pinf ∨ Accepted c.alpha (Set.Ioi 1)) := by
    rw [ofRat_one', show (CFloat.inf : XR) = .pinf from rfl, C55_alpha]
    unfold Accepted
    constructor
    · rintro (h | h | ⟨x, h, h'⟩)
      · exact Or.inr (Or.inl h)
      · exact Or.inl h
      · exact Or.inr (Or.inr ⟨x, h', h⟩)
    · rintro (h | h | ⟨x, h, h'⟩)
      · exact Or.inr (Or.inl h)
      · exact Or.inl h
      · exact Or.inr (Or.inr ⟨x, h', h⟩)
  have hd : rangeFails c.deg (CFloat.ofRat 1) (CFloat.ofInt c.n -. CFloat.ofRat 1) false false = false ↔ Accepted c.deg (Set.Icc 1 (c.n - 1)) := by
    rw [ofInt_sub_one, ofRat_one']
    exact rangeFails_accepted fun x => C55_real x _ _ _ _
  have hth : rangeFailsInt c.threads 1 m.maxThreads false false = false ↔ 1 ≤ c.threads ∧ c.threads ≤ m.maxThreads := by
    rw [C55_int]; simp
  rw [← ha, ← hp, ← hd, ← hth, ← hdim]
  unfold GirgMain at h
  rw [h1, h2, hc] at h
  simp only [Bool.false_eq_true, if_false] at h
  unfold checkGirg at h
  have hnr : ∀ name, GirgRun m c exit files → exit ≠ .outOfRange name := by
    rintro name ⟨_, _, _, ⟨_, _, rfl, _⟩ | ⟨_, _, _, _, _, fs, _, he⟩⟩ hx
    · cases hx
    subst hx
    have : ∀ fs : List (String × Output.FileResult), (emit fs).1 ≠ .outOfRange name := by
      intro fs
      induction fs with
      | nil => simp [emit]
      | cons f fs ih => rcases f with ⟨n, t | _⟩ <;> simp [emit, ih]
    exact this fs (by rw [← he])
  clear ha hp hd hth hdim
  generalize rangeFailsInt c.d 1 5 false false = b0 at *
  generalize rangeFails c.ple (CFloat.ofRat 2) (CFloat.ofRat 3) true false = b1 at *
  generalize rangeFails c.alpha (CFloat.ofRat 1) CFloat.inf true false = b2 at *
  generalize rangeFails c.deg (CFloat.ofRat 1) (CFloat.ofInt c.n -. CFloat.ofRat 1) false false = b3 at *
  generalize rangeFailsInt c.threads 1 m.maxThreads false false = b4 at *
  by_cases q0 : b0 = true
  · rw [if_pos q0] at h
    obtain ⟨rfl, rfl⟩ := h
    simp [q0]
  rw [if_neg q0] at h
  by_cases q1 : b1 = true
  · rw [if_pos q1] at h
    obtain ⟨rfl, rfl⟩ := h
    simp [q1]
  rw [if_neg q1] at h
  by_cases q2 : b2 = true
  · rw [if_pos q2] at h
    obtain ⟨rfl, rfl⟩ := h
    simp [q2]
  rw [if_neg q2] at h
  by_cases q3 : b3 = true
  · rw [if_pos q3] at h
    obtain ⟨rfl, rfl⟩ := h
    simp [q3]
  rw [if_neg q3] at h
  by_cases q4 : b4 = true
  · rw [if_pos q4] at h
    obtain ⟨rfl, rfl⟩ := h
    simp [q4]
  rw [if_neg q4] at h
  simp only [Bool.not_eq_true] at q0 q1 q2 q3 q4
  refine ⟨?_, fun name hn => absurd hn (hnr name h)⟩
  rw [q0, q1, q2, q3, q4]
  simp only [not_true_eq_false, and_self, iff_false, not_exists]
  exact fun name => hnr name h

/-- how the writing of files can end -/
theorem emit_exit (fs : List (String × Output.FileResult)) : (emit fs).1 = .done ∨ ∃ name, (emit fs).1 = .openFailed name := by
  induction fs with
  | nil => exact Or.inl rfl
  | cons f fs ih =>
    rcases f with ⟨n, t | _⟩
    · exact ih
    · exact Or.inr ⟨n, rfl⟩

/-- C62.  `genhrg` prints its help exactly if there is no argument or the first one is `--help` or `-help`, and its version exactly if the first one is
`--version`; otherwise it fails with an uncaught exception of `std::stoi` or `std::stod` exactly if some value cannot be converted.  Files are written
only by runs that end normally or with a file that cannot be opened. -/
theorem C62_hrg_exits (m : Machine F) {argv : List String} {exit : Exit} {files : List File} (h : HrgMain m argv exit files) :
    (exit = .help ↔ argv.length < 2 ∨ argv[1]? = some "--help" ∨ argv[1]? = some "-help") ∧
    (exit = .version ↔ argv[1]? = some "--version") ∧
    (exit = .badNumber ↔ 2 ≤ argv.length ∧ argv[1]? ≠ some "--help" ∧ argv[1]? ≠ some "-help" ∧ argv[1]? ≠ some "--version" ∧
      ∀ c, readHrg m (parseArgs argv) ≠ some c) ∧
    (files ≠ [] → exit = .done ∨ ∃ name, exit = .openFailed name) := by
  have hv2 : argv[1]? = some "--version" → 2 ≤ argv.length := fun h => (List.getElem?_eq_some_iff.1 h).1
  unfold HrgMain at h
  by_cases h1 : wantsHelp argv = true
  · rw [if_pos h1] at h
    obtain ⟨rfl, rfl⟩ := h
    simp only [wantsHelp, Bool.or_eq_true, decide_eq_true_eq, or_assoc] at h1
    refine ⟨⟨fun _ => h1, fun _ => rfl⟩, ?_, ?_, by simp⟩
    · simp only [reduceCtorEq, false_iff]
      intro h2
      rw [h2] at h1
      have := hv2 h2
      rcases h1 with h1 | h1 | h1
      · omega
      · simp at h1
      · simp at h1
    · simp only [reduceCtorEq, false_iff]
      rintro ⟨q1, q2, q3, _⟩
      rcases h1 with h1 | h1 | h1
      · omega
      · exact q2 h1
      · exact q3 h1
  rw [if_neg h1] at h
  have h1' : ¬ (argv.length < 2 ∨ argv[1]? = some "--help" ∨ argv[1]? = some "-help") := by
    simpa only [wantsHelp, Bool.or_eq_true, decide_eq_true_eq, or_assoc] using h1
  by_cases h2 : wantsVersion argv = true
  · rw [if_pos h2] at h
    obtain ⟨rfl, rfl⟩ := h
    simp only [wantsVersion, decide_eq_true_eq] at h2
    exact ⟨by simp only [reduceCtorEq, false_iff]; exact h1', by simp [h2], by simp [h2], by simp⟩
  rw [if_neg h2] at h
  have h2' : ¬ argv[1]? = some "--version" := by simpa only [wantsVersion, decide_eq_true_eq] using h2
  push Not at h1'
  have hrun : ∀ c, HrgRun m c exit files → exit = .done ∨ ∃ name, exit = .openFailed name := by
    rintro c ⟨_, _, _, _, _, fs, _, he⟩
    have := emit_exit fs
    rwa [← he] at this
  cases hr : readHrg m (parseArgs argv) with
  | none =>
    rw [hr] at h
    obtain ⟨rfl, rfl⟩ := h
    refine ⟨by simp only [reduceCtorEq, false_iff]; push Not; exact h1', by simp [h2'], ?_, by simp⟩
    simp [h1', h2']
  | some c =>
    rw [hr] at h
    simp only at h
    cases hch : checkHrg m c with
    | some name =>
      rw [hch] at h
      obtain ⟨rfl, rfl⟩ := h
      exact ⟨by simp only [reduceCtorEq, false_iff]; push Not; exact h1', by simp [h2'], by simp, by simp⟩
    | none =>
      rw [hch] at h
      rcases hrun c h with rfl | ⟨name, rfl⟩
      · exact ⟨by simp only [reduceCtorEq, false_iff]; push Not; exact h1', by simp [h2'], by simp, by simp⟩
      · exact ⟨by simp only [reduceCtorEq, false_iff]; push Not; exact h1', by simp [h2'], by simp, by simp⟩

/-- C62.  The same for `gengirg`. -/
theorem C62_girg_exits (m : Machine F) {argv : List String} {exit : Exit} {files : List File} (h : GirgMain m argv exit files) :
    (exit = .help ↔ argv.length < 2 ∨ argv[1]? = some "--help" ∨ argv[1]? = some "-help") ∧
    (exit = .version ↔ argv[1]? = some "--version") ∧
    (exit = .badNumber ↔ 2 ≤ argv.length ∧ argv[1]? ≠ some "--help" ∧ argv[1]? ≠ some "-help" ∧ argv[1]? ≠ some "--version" ∧
      ∀ c, readGirg m (parseArgs argv) ≠ some c) ∧
    (files ≠ [] → exit = .done ∨ ∃ name, exit = .openFailed name) := by
  have hv2 : argv[1]? = some "--version" → 2 ≤ argv.length := fun h => (List.getElem?_eq_some_iff.1 h).1
  unfold GirgMain at h
  by_cases h1 : wantsHelp argv = true
  · rw [if_pos h1] at h
    obtain ⟨rfl, rfl⟩ := h
    simp only [wantsHelp, Bool.or_eq_true, decide_eq_true_eq, or_assoc] at h1
    refine ⟨⟨fun _ => h1, fun _ => rfl⟩, ?_, ?_, by simp⟩
    · simp only [reduceCtorEq, false_iff]
      intro h2
      rw [h2] at h1
      have := hv2 h2
      rcases h1 with h1 | h1 | h1
      · omega
      · simp at h1
      · simp at h1
    · simp only [reduceCtorEq, false_iff]
      rintro ⟨q1, q2, q3, _⟩
      rcases h1 with h1 | h1 | h1
      · omega
      · exact q2 h1
      · exact q3 h1
  rw [if_neg h1] at h
  have h1' : ¬ (argv.length < 2 ∨ argv[1]? = some "--help" ∨ argv[1]? = some "-help") := by
    simpa only [wantsHelp, Bool.or_eq_true, decide_eq_true_eq, or_assoc] using h1
  by_cases h2 : wantsVersion argv = true
  · rw [if_pos h2] at h
    obtain ⟨rfl, rfl⟩ := h
    simp only [wantsVersion, decide_eq_true_eq] at h2
    exact ⟨by simp only [reduceCtorEq, false_iff]; exact h1', by simp [h2], by simp [h2], by simp⟩
  rw [if_neg h2] at h
  have h2' : ¬ argv[1]? = some "--version" := by simpa only [wantsVersion, decide_eq_true_eq] using h2
  push Not at h1'
  cases hr : readGirg m (parseArgs argv) with
  | none =>
    rw [hr] at h
    obtain ⟨rfl, rfl⟩ := h
    refine ⟨by simp only [reduceCtorEq, false_iff]; push Not; exact h1', by simp [h2'], ?_, by simp⟩
    simp [h1', h2']
  | some c =>
    rw [hr] at h
    simp only at h
    cases hch : checkGirg m c with
    | some name =>
      rw [hch] at h
      obtain ⟨rfl, rfl⟩ := h
      exact ⟨by simp only [reduceCtorEq, false_iff]; push Not; exact h1', by simp [h2'], by simp, by simp⟩
    | none =>
      rw [hch] at h
      obtain ⟨_, _, _, ⟨_, _, rfl, rfl⟩ | ⟨_, _, _, _, _, fs, _, he⟩⟩ := h
      · exact ⟨by simp only [reduceCtorEq, false_iff]; push Not; exact h1', by simp [h2'], by simp, by simp⟩
      have := emit_exit fs
      rw [← he] at this
      rcases this with h | ⟨name, h⟩ <;> simp only at h <;> subst h
      · exact ⟨by simp only [reduceCtorEq, false_iff]; push Not; exact h1', by simp [h2'], by simp, by simp⟩
      · exact ⟨by simp only [reduceCtorEq, false_iff]; push Not; exact h1', by simp [h2'], by simp, by simp⟩

/-- A machine: generators that return middles of intervals, correctly rounded printing, all files can be opened; the conversions know a few numbers. -/
noncomputable def exampleMachine : Machine XR where
  ndebug := true
  maxThreads := 4
  max_pos := by norm_num
  max_le := by norm_num
  chunks := exampleOmp.chunks
  chunks_length := exampleOmp.chunks_length
  chunks_flatten := exampleOmp.chunks_flatten
  partition := (exampleHEnv true 1 (by norm_num) (by norm_num)).partition
  partition_perm := (exampleHEnv true 1 (by norm_num) (by norm_num)).partition_perm
  partition_front := (exampleHEnv true 1 (by norm_num) (by norm_num)).partition_front
  eng := exampleEngine
  rng := exampleRng
  edgeSeed := fun _ => ()
  hyperEngine := ⟨fun _ => (), fun _ => (0, ()), fun _ => (), 1⟩
  alg := Scaling.mergeAlg XR
  printer := exactPrinter
  canOpen := fun _ => true
  stoi := fun s => if s = "100" then some 100 else if s = "7" then some 7 else none
  stoi_int := by
    intro s x h
    split_ifs at h <;> simp only [Option.some.injEq] at h <;> omega
  stod := fun s => if s = "3" then some (fin 3) else if s = "0.5" then some (fin (1 / 2)) else none

/-- the parameters of a concrete command line -/
example : readHrg exampleMachine (parseArgs ["genhrg", "-n", "100", "-deg", "3", "-rseed", "7", "-edge", "1", "-file", "x"]) =
    some ⟨100, CFloat.ofRat (3 / 4), CFloat.ofRat 0, fin 3, 7, 130, 1400, 1, false, "x", true, false⟩ := by
  simp [readHrg, getOr, flag, parseArgs, parseFrom, assign, optionName, exampleMachine]

/-- a number that cannot be converted -/
example : HrgMain exampleMachine ["genhrg", "-n", "many"] .badNumber [] := by
  simp [HrgMain, wantsHelp, wantsVersion, readHrg, getOr, parseArgs, parseFrom, assign, optionName, exampleMachine]

/-- parameters out of range -/
example : HrgMain exampleMachine ["genhrg", "-n", "100", "-alpha", "3"] (.outOfRange "alpha") [] ∧
    GirgMain exampleMachine ["gengirg", "-n", "100", "-d", "7"] (.outOfRange "d") [] := by
  constructor
  · have h : (1 : ℝ) < 3 := by norm_num
    simp [HrgMain, wantsHelp, wantsVersion, readHrg, getOr, parseArgs, parseFrom, assign, optionName, exampleMachine, checkHrg, rangeFails, ofRat_one',
      CFloat.lt, XR.lt, h]
  · simp [GirgMain, wantsHelp, wantsVersion, readGirg, getOr, parseArgs, parseFrom, assign, optionName, exampleMachine, checkGirg, rangeFailsInt]

end Girgs.Props
