import Verif.Proofs.Text
import Verif.Base.XR
import Mathlib.Algebra.Order.Round
/-
C34, C35, C60: the files written can be read back.
-/
namespace Girgs.Props
open Output Spec
open XR (fin)

/-! ### C34 -/

/-- C34.  Reading back the edge list file gives the number of nodes and the edges in their order.  If the file cannot be opened, an exception is
thrown. -/
theorem C34_round_trip (n : ℤ) (edges : List (ℤ × ℤ)) :
    (∃ t, writeEdgeList true n edges = .written t ∧ readEdgeList t = some (n, edges)) ∧ writeEdgeList false n edges = .openFailed :=
  ⟨⟨_, rfl, readEdgeList_text n edges⟩, rfl⟩

/-- C34.  Different graphs give different files. -/
theorem C34_injective {n n' : ℤ} {es es' : List (ℤ × ℤ)} {b b' : Bool} {t : Text} (h : writeEdgeList b n es = .written t)
    (h' : writeEdgeList b' n' es' = .written t) : n = n' ∧ es = es' := by
  have key : ∀ {b : Bool} {n : ℤ} {es : List (ℤ × ℤ)}, writeEdgeList b n es = .written t → readEdgeList t = some (n, es) := by
    intro b n es h
    cases b with
    | false => cases h
    | true =>
      have : edgeListText n es = t := by unfold writeEdgeList at h; rw [if_pos rfl] at h; exact FileResult.written.inj h
      rw [← this]; exact readEdgeList_text n es
  have h1 := (key h).symm.trans (key h')
  cases h1
  exact ⟨rfl, rfl⟩

/-- C34.  The layout: the first line has the two numbers, the second is empty, then line `i` is the `i`-th edge; every line ends with a newline. -/
theorem C34_layout (n : ℤ) (edges : List (ℤ × ℤ)) :
    ∃ t, writeEdgeList true n edges = .written t ∧
      linesOf t = (showInt n ++ ' ' :: showNat edges.length) :: [] :: (edges.map (fun e => showInt e.1 ++ ' ' :: showInt e.2) ++ [[]]) := by
  refine ⟨_, rfl, ?_⟩
  have h1 : ∀ x, '\n' ∉ showInt x := fun x => showInt_not_mem (by decide) (by decide)
  have h2 : '\n' ∉ showNat edges.length := by rw [showNat_eq_showInt]; exact h1 _
  unfold edgeListText
  have e0 : showInt n ++ [' '] ++ showNat edges.length ++ ['\n', '\n'] ++ edges.flatMap edgeLine =
      (showInt n ++ ' ' :: showNat edges.length) ++ '\n' :: ([] ++ '\n' :: (edges.flatMap (fun e => (showInt e.1 ++ ' ' :: showInt e.2) ++ ['\n']) ++ [])) := by
    have : edgeLine = fun e => (showInt e.1 ++ ' ' :: showInt e.2) ++ ['\n'] := by funext e; unfold edgeLine; simp
    rw [this]
    simp
  rw [e0, linesOf_cons (by simp [h1, h2]), linesOf_cons (by simp), linesOf_flatMap _ (fun e => by simp [h1])]
  rfl

/-- a small graph -/
example : writeEdgeList true 3 [(0, 1), (2, 1)] = .written "3 2\n\n0 1\n2 1\n".toList := by decide

/-! ### C35 -/

variable {F : Type} [CFloat F]

/-- C35, for every floating point type and every formatting of numbers.  Reading back the file written by `saveDot` gives one node per weight, in order,
with its index, its weight printed with 2 digits and its coordinates printed with 6 digits, and the edges in their order. -/
theorem C35_round_trip (pr : Printer F) (weights : List F) (positions : List (List F)) (graph : List (ℤ × ℤ))
    (h : weights.length = positions.length) (hsz : weights.length < 2 ^ 31) :
    ∃ t, saveDot pr true weights positions graph = some (.written t) ∧
      ∃ nodes, readDot t = some ⟨nodes, graph⟩ ∧ nodes.length = weights.length ∧
        ∀ (i : ℕ) (w : F) (x : List F), weights[i]? = some w → positions[i]? = some x → nodes[i]? = some ((i : ℤ), pr.fixed 2 w, x.map (pr.fixed 6)) := by
  obtain ⟨t, h1, h2⟩ := readDot_saveDot pr weights positions graph h.le (by omega)
  refine ⟨t, h1, _, h2, by simp, fun i w x hw hx => ?_⟩
  have hi : i < weights.length := (List.getElem?_eq_some_iff.1 hw).1
  rw [List.getElem?_map, List.getElem?_range hi, Option.map_some, List.getD_eq_getElem?_getD, List.getD_eq_getElem?_getD, hw, hx]
  rfl

/-- C35.  If the file cannot be opened `saveDot` throws; if there are fewer positions than weights it reads out of bounds. -/
theorem C35_errors (pr : Printer F) (weights : List F) (positions : List (List F)) (graph : List (ℤ × ℤ)) :
    saveDot pr false weights positions graph = some .openFailed ∧
    (positions.length < weights.length → saveDot pr true weights positions graph = none) := by
  refine ⟨rfl, fun h => ?_⟩
  unfold saveDot
  rw [if_pos rfl]
  split
  · rw [dotNodes_short pr weights positions _ (List.mem_range.2 h) le_rfl]
    rfl
  · rfl

/-- the standard library prints `p` digits of a finite number correctly rounded (half a unit in the last place) -/
def PrintsRounded (pr : Printer XR) : Prop :=
  ∀ (p : ℕ) (v : ℝ), 0 < p → ∃ q, readDecimal (pr.fixed p (fin v)) = some q ∧ |q - v| ≤ 1 / 2 / 10 ^ p

/-- C35, accuracy.  The number in the label of node `i` is within 0.005 of its weight, the numbers in `pos` within 0.0000005 of its coordinates. -/
theorem C35_accuracy {pr : Printer XR} (hpr : PrintsRounded pr) {weights : List ℝ} {positions : List (List ℝ)} (graph : List (ℤ × ℤ))
    (h : weights.length = positions.length) (hsz : weights.length < 2 ^ 31) :
    ∃ t, saveDot pr true (weights.map fin) (positions.map fun x => x.map fin) graph = some (.written t) ∧
      ∃ nodes, readDot t = some ⟨nodes, graph⟩ ∧ nodes.length = weights.length ∧
        ∀ (i : ℕ) (w : ℝ) (x : List ℝ), weights[i]? = some w → positions[i]? = some x →
          ∃ label coords, nodes[i]? = some ((i : ℤ), label, coords) ∧ coords.length = x.length ∧
            (∃ q, readDecimal label = some q ∧ |q - w| ≤ 0.005) ∧
            ∀ (d : ℕ) (y : ℝ), x[d]? = some y → ∃ c q, coords[d]? = some c ∧ readDecimal c = some q ∧ |q - y| ≤ 0.0000005 := by
  obtain ⟨t, h1, nodes, h2, h3, h4⟩ := C35_round_trip pr (weights.map fin) (positions.map fun x => x.map fin) graph (by simpa using h) (by simpa using hsz)
  refine ⟨t, h1, nodes, h2, by simpa using h3, fun i w x hw hx => ?_⟩
  have h5 := h4 i (fin w) (x.map fin) (by rw [List.getElem?_map, hw]; rfl) (by rw [List.getElem?_map, hx]; rfl)
  refine ⟨_, _, h5, by simp, ?_, fun d y hy => ?_⟩
  · obtain ⟨q, e, hq⟩ := hpr 2 w (by norm_num)
    exact ⟨q, e, hq.trans (by norm_num)⟩
  · obtain ⟨q, e, hq⟩ := hpr 6 y (by norm_num)
    exact ⟨_, q, by rw [List.getElem?_map, List.getElem?_map, hy]; rfl, e, hq.trans (by norm_num)⟩

/-! ### C60 -/

/-- C60.  Reading back the coordinate file of `genhrg` gives one pair per node, in order, with the radius and the angle within `5e-18`. -/
theorem C60_round_trip {pr : Printer XR} (hpr : PrintsRounded pr) {radii angles : List ℝ} (h : angles.length = radii.length) :
    ∃ t, writeCoords pr true radii.length (radii.map fin) (angles.map fin) = some (.written t) ∧
      ∃ coords, readCoords t = some coords ∧ coords.length = radii.length ∧
        ∀ (i : ℕ) (r a : ℝ), radii[i]? = some r → angles[i]? = some a →
          ∃ q s, coords[i]? = some (q, s) ∧ |q - r| ≤ 0.000000000000000005 ∧ |s - a| ≤ 0.000000000000000005 := by
  classical
  choose! rdv hrd hab using fun (v : ℝ) => hpr 17 v (by norm_num)
  have e1 := coordLines_eq pr (radii.map fin) (angles.map fin) (List.range radii.length) (fun i hi => by simpa using hi) (fun i hi => by simpa [h] using hi)
  refine ⟨_, by unfold writeCoords; rw [if_pos rfl, e1, Option.map_some], ?_⟩
  have e2 : (List.range radii.length).flatMap (fun i => coordLine pr ((radii.map fin).getD i (CFloat.ofRat 0)) ((angles.map fin).getD i (CFloat.ofRat 0))) =
      (List.range radii.length).flatMap (fun i => coordStmt pr ((radii.map fin).getD i (CFloat.ofRat 0)) ((angles.map fin).getD i (CFloat.ofRat 0)) ++ ['\n'])
        ++ [] := by
    rw [List.append_nil]
    congr 1
    funext i
    exact coordLine_eq _ _ _
  rw [e2]
  have e3 := linesOf_flatMap (fun i => coordStmt pr ((radii.map fin).getD i (CFloat.ofRat 0)) ((angles.map fin).getD i (CFloat.ofRat 0)))
    (fun i => coordStmt_lines _ _ _) (List.range radii.length) []
  have e4 : linesOf [] = [[]] := rfl
  refine ⟨(List.range radii.length).map fun i => (rdv (radii.getD i 0), rdv (angles.getD i 0)), ?_, by simp, fun i r a hr ha => ?_⟩
  · unfold readCoords
    rw [e3, e4]
    simp only [List.getLast?_append, List.getLast?_singleton, Option.some_or, List.dropLast_concat]
    rw [if_pos trivial]
    refine mapM_map _ _ _ _ fun i hi => ?_
    have hi := List.mem_range.1 hi
    have hr : (radii.map fin).getD i (CFloat.ofRat 0) = fin (radii.getD i 0) := by
      rw [List.getD_eq_getElem?_getD, List.getD_eq_getElem?_getD, List.getElem?_map, List.getElem?_eq_getElem hi]; rfl
    have ha : (angles.map fin).getD i (CFloat.ofRat 0) = fin (angles.getD i 0) := by
      rw [List.getD_eq_getElem?_getD, List.getD_eq_getElem?_getD, List.getElem?_map, List.getElem?_eq_getElem (by omega)]; rfl
    rw [hr, ha, words_coordStmt]
    simp only [List.mapM_cons, hrd, List.mapM_nil]
    rfl
  · have hi : i < radii.length := (List.getElem?_eq_some_iff.1 hr).1
    refine ⟨_, _, by rw [List.getElem?_map, List.getElem?_range hi, Option.map_some], ?_, ?_⟩
    · rw [List.getD_eq_getElem?_getD, hr]; exact (hab r).trans (by norm_num)
    · rw [List.getD_eq_getElem?_getD, ha]; exact (hab a).trans (by norm_num)

/-! ### a formatting that meets the assumption -/

/-- digits with leading zeros -/
def padded (p y : ℕ) : Text := List.replicate (p - (showNat y).length) '0' ++ showNat y

/-- decimal text of `z / 10^p` -/
def decimalText (neg : Bool) (p z : ℕ) : Text :=
  (if neg then ['-'] else []) ++ (showNat (z / 10 ^ p) ++ '.' :: padded p (z % 10 ^ p))

open Classical in
/-- rounding to the nearest multiple of `10^-p` -/
noncomputable def exactPrinter : Printer XR where
  fixed p x := match x with
    | .fin v => decimalText (decide (v < 0)) p (round (|v| * 10 ^ p)).toNat
    | .pinf => "inf".toList
    | .ninf => "-inf".toList
    | .nan => "nan".toList
  nonempty p x := by
    cases x with
    | fin v => simp [decimalText]
    | pinf => simp
    | ninf => simp
    | nan => simp
  clean p x c hc := by
    cases x with
    | fin v =>
      simp only [decimalText, padded, List.mem_append, List.mem_cons] at hc
      rcases hc with hc | hc | hc | hc | hc
      · split at hc
        · simp at hc; exact Or.inr (Or.inr (Or.inl hc))
        · simp at hc
      · exact Or.inl (showNat_digit c hc)
      · exact Or.inr (Or.inr (Or.inr hc))
      · left; rw [List.eq_of_mem_replicate hc]; decide
      · exact Or.inl (showNat_digit c hc)
    | pinf => exact (show ∀ c ∈ "inf".toList, c.isDigit = true ∨ c.isAlpha = true ∨ c = '-' ∨ c = '.' by decide) c hc
    | ninf => exact (show ∀ c ∈ "-inf".toList, c.isDigit = true ∨ c.isAlpha = true ∨ c = '-' ∨ c = '.' by decide) c hc
    | nan => exact (show ∀ c ∈ "nan".toList, c.isDigit = true ∨ c.isAlpha = true ∨ c = '-' ∨ c = '.' by decide) c hc

theorem padded_length {p y : ℕ} (hp : 0 < p) (hy : y < 10 ^ p) : (padded p y).length = p := by
  have : (showNat y).length ≤ p := (Nat.length_toDigits_le_iff (by norm_num) hp).2 hy
  unfold padded
  rw [List.length_append, List.length_replicate]
  omega

theorem readNat_padded (p y : ℕ) : readNat (padded p y) = some y := by
  unfold readNat
  rw [if_pos]
  · unfold padded
    rw [Nat.ofDigitChars_append, Nat.ofDigitChars_replicate_zero]
    rw [Nat.mul_zero]
    exact congrArg some (by unfold showNat; exact Nat.ofDigitChars_ten_toDigits)
  · refine ⟨by unfold padded; simp [showNat_ne_nil], ?_⟩
    rw [List.all_eq_true]
    intro c hc
    unfold padded at hc
    rcases List.mem_append.1 hc with h | h
    · rw [List.eq_of_mem_replicate h]; decide
    · exact showNat_digit c h

theorem readDecimal_text (neg : Bool) {p : ℕ} (hp : 0 < p) (z : ℕ) :
    readDecimal (decimalText neg p z) = some ((if neg then -1 else 1) * ((z : ℝ) / 10 ^ p)) := by
  have h10 : 0 < 10 ^ p := by positivity
  have hy := Nat.mod_lt z h10
  have hdot : '.' ∉ showNat (z / 10 ^ p) := by rw [showNat_eq_showInt]; exact showInt_not_mem (by decide) (by decide)
  have hval : ((z / 10 ^ p : ℕ) : ℝ) + ((z % 10 ^ p : ℕ) : ℝ) / 10 ^ p = (z : ℝ) / 10 ^ p := by
    have h := Nat.div_add_mod z (10 ^ p)
    have h' : ((10 : ℝ) ^ p) * ((z / 10 ^ p : ℕ) : ℝ) + ((z % 10 ^ p : ℕ) : ℝ) = z := by exact_mod_cast h
    field_simp
    linarith
  have body : ∀ s : Bool, (match readNat (showNat (z / 10 ^ p)), readNat (('.' :: padded p (z % 10 ^ p)).drop 1) with
      | some x, some y => some ((if s then (-1 : ℝ) else 1) * ((x : ℝ) + y / 10 ^ (('.' :: padded p (z % 10 ^ p)).drop 1).length))
      | _, _ => none) = some ((if s then -1 else 1) * ((z : ℝ) / 10 ^ p)) := by
    intro s
    have e : ('.' :: padded p (z % 10 ^ p)).drop 1 = padded p (z % 10 ^ p) := rfl
    rw [e, readNat_showNat, readNat_padded, padded_length hp hy]
    simp only
    rw [hval]
  have hup := upto_eq (t := padded p (z % 10 ^ p)) hdot
  have hs : sign (decimalText neg p z) = (neg, showNat (z / 10 ^ p) ++ '.' :: padded p (z % 10 ^ p)) := by
    unfold decimalText
    cases neg with
    | true => rfl
    | false =>
      cases hc : showNat (z / 10 ^ p) with
      | nil => exact absurd hc (showNat_ne_nil _)
      | cons c t =>
        have hcd := not_dash_of_digit (showNat_digit c (by rw [hc]; exact List.mem_cons_self))
        unfold sign
        split
        · rename_i heq
          simp at heq
          exact absurd heq.1 hcd
        · rfl
  unfold readDecimal
  simp only [hs, hup]
  exact body neg

/-- the assumption `PrintsRounded` can be met -/
theorem exactPrinter_rounded : PrintsRounded exactPrinter := by
  intro p v hp
  refine ⟨_, readDecimal_text _ hp _, ?_⟩
  have h10 : (0 : ℝ) < 10 ^ p := by positivity
  have hr := abs_sub_round (|v| * 10 ^ p)
  have h0 : 0 ≤ round (|v| * 10 ^ p) := by
    rw [round_eq]
    exact Int.floor_nonneg.2 (by positivity)
  have hz : (((round (|v| * 10 ^ p)).toNat : ℕ) : ℝ) = (round (|v| * 10 ^ p) : ℝ) := by
    have : ((round (|v| * 10 ^ p)).toNat : ℤ) = round (|v| * 10 ^ p) := Int.toNat_of_nonneg h0
    exact_mod_cast this
  rw [hz]
  have key : abs ((round (|v| * 10 ^ p) : ℝ) / 10 ^ p - abs v) ≤ 1 / 2 / 10 ^ p := by
    have e : (round (|v| * 10 ^ p) : ℝ) / 10 ^ p - |v| = -((|v| * 10 ^ p - round (|v| * 10 ^ p)) / 10 ^ p) := by field_simp; ring
    rw [e, abs_neg, abs_div, abs_of_pos h10]
    exact div_le_div_of_nonneg_right hr h10.le
  by_cases hv : v < 0
  · simp only [hv, decide_true, if_true]
    rw [abs_of_neg hv] at key ⊢
    rw [← abs_neg]
    refine le_trans (le_of_eq ?_) key
    congr 1
    ring
  · simp only [hv, decide_false, Bool.false_eq_true, if_false]
    rw [abs_of_nonneg (not_lt.1 hv)] at key ⊢
    rw [one_mul]
    exact key

end Girgs.Props
