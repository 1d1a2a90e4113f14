import Verif.Model.Cli
import Verif.Spec.Cli
import Verif.Base.XR
/-
C54, C55: command line parsing and range checks.
-/
namespace Girgs.Props
open Cli Spec
open XR (fin)

/-! ### C54 -/

theorem dash_append (k : String) : ("-" ++ k).toList = '-' :: k.toList := by
  rw [String.toList_append]; rfl

theorem optionName_some {a key : String} : optionName a = some key ↔ a = "-" ++ key := by
  unfold optionName
  split
  · rename_i k hk
    rw [Option.some.injEq]
    constructor
    · rintro rfl
      apply String.toList_inj.1
      rw [hk, dash_append, String.toList_ofList]
    · rintro rfl
      rw [dash_append] at hk
      rw [← (List.cons.inj hk).2, String.ofList_toList]
  · rename_i hno
    constructor
    · intro h; cases h
    · rintro rfl
      exact absurd (dash_append key) (hno _)

theorem optionName_none {a : String} : optionName a = none ↔ ¬ IsOption a := by
  constructor
  · rintro h ⟨k, hk⟩
    rw [optionName_some.2 hk] at h
    cases h
  · intro h
    cases ho : optionName a with
    | none => rfl
    | some key => exact absurd ⟨key, optionName_some.1 ho⟩ h

theorem optionPos_ge {argv : List String} {s i : ℕ} (h : OptionPos argv s i) : s ≤ i := by
  induction h with
  | first => exact le_rfl
  | skip _ _ _ ih => omega
  | value _ _ _ ih => omega

theorem optionPos_skip {argv : List String} {s : ℕ} {a : String} (ha : argv[s]? = some a) (hn : ¬ IsOption a) {i : ℕ} :
    OptionPos argv s i ↔ i = s ∨ OptionPos argv (s + 1) i := by
  constructor
  · intro h
    induction h with
    | first => exact Or.inl rfl
    | skip h1 h2 h3 ih =>
      rcases ih with rfl | ih
      · exact Or.inr .first
      · exact Or.inr (.skip ih h2 h3)
    | value h1 h2 h3 ih =>
      rcases ih with rfl | ih
      · rw [ha] at h2; cases h2; exact absurd h3 hn
      · exact Or.inr (.value ih h2 h3)
  · rintro (rfl | h)
    · exact .first
    · induction h with
      | first => exact .skip .first ha hn
      | skip h1 h2 h3 ih => exact .skip ih h2 h3
      | value h1 h2 h3 ih => exact .value ih h2 h3

theorem optionPos_value {argv : List String} {s : ℕ} {a : String} (ha : argv[s]? = some a) (hn : IsOption a) {i : ℕ} :
    OptionPos argv s i ↔ i = s ∨ OptionPos argv (s + 2) i := by
  constructor
  · intro h
    induction h with
    | first => exact Or.inl rfl
    | skip h1 h2 h3 ih =>
      rcases ih with rfl | ih
      · rw [ha] at h2; cases h2; exact absurd hn h3
      · exact Or.inr (.skip ih h2 h3)
    | value h1 h2 h3 ih =>
      rcases ih with rfl | ih
      · exact Or.inr .first
      · exact Or.inr (.value ih h2 h3)
  · rintro (rfl | h)
    · exact .first
    · induction h with
      | first => exact .value .first ha hn
      | skip h1 h2 h3 ih => exact .skip ih h2 h3
      | value h1 h2 h3 ih => exact .value ih h2 h3

/-- the last occurrence decides -/
def Last (argv : List String) (s : ℕ) (k v : String) : Prop :=
  ∃ i, OptionPos argv s i ∧ argv[i]? = some ("-" ++ k) ∧ (∀ j, i < j → ¬ (OptionPos argv s j ∧ argv[j]? = some ("-" ++ k))) ∧ v = (argv[i + 1]?).getD ""

theorem parseFrom_spec (argv : List String) (k : String) : ∀ (s : ℕ) (m : Params) (v : String),
    parseFrom argv s m k = some v ↔ Last argv s k v ∨ ((∀ i, ¬ (OptionPos argv s i ∧ argv[i]? = some ("-" ++ k))) ∧ m k = some v) := by
  intro s
  induction hd : argv.length - s using Nat.strong_induction_on generalizing s with
  | _ d ih =>
    intro m v
    rw [parseFrom]
    split
    · rename_i hs
      have ha : argv[s]? = some argv[s] := List.getElem?_eq_getElem hs
      cases hkey : optionName argv[s] with
      | some key =>
        simp only
        have hopt : IsOption argv[s] := ⟨key, optionName_some.1 hkey⟩
        have hname : ∀ k' : String, argv[s]? = some ("-" ++ k') ↔ k' = key := by
          intro k'
          rw [ha, Option.some.injEq, ← optionName_some, hkey, Option.some.injEq, eq_comm]
        -- the rest of the command line
        have rest : ∀ (val : String), val = (argv[s + 1]?).getD "" →
            ((Last argv (s + 2) k v ∨ ((∀ i, ¬ (OptionPos argv (s + 2) i ∧ argv[i]? = some ("-" ++ k))) ∧ assign m key val k = some v)) ↔
              (Last argv s k v ∨ ((∀ i, ¬ (OptionPos argv s i ∧ argv[i]? = some ("-" ++ k))) ∧ m k = some v))) := by
          intro val hval
          have hpos : ∀ i, OptionPos argv s i ↔ i = s ∨ OptionPos argv (s + 2) i := fun i => optionPos_value ha hopt
          constructor
          · rintro (⟨i, h1, h2, h3, h4⟩ | ⟨h1, h2⟩)
            · refine Or.inl ⟨i, (hpos i).2 (Or.inr h1), h2, fun j hj hh => ?_, h4⟩
              rcases (hpos j).1 hh.1 with rfl | h
              · have := optionPos_ge h1; omega
              · exact h3 j hj ⟨h, hh.2⟩
            · unfold assign at h2
              split at h2
              · rename_i hk
                cases h2
                refine Or.inl ⟨s, .first, (hname k).2 hk, fun j hj hh => ?_, hval⟩
                rcases (hpos j).1 hh.1 with rfl | h
                · omega
                · exact h1 j ⟨h, hh.2⟩
              · rename_i hk
                refine Or.inr ⟨fun i hh => ?_, h2⟩
                rcases (hpos i).1 hh.1 with rfl | h
                · exact hk ((hname k).1 hh.2)
                · exact h1 i ⟨h, hh.2⟩
          · rintro (⟨i, h1, h2, h3, h4⟩ | ⟨h1, h2⟩)
            · rcases (hpos i).1 h1 with rfl | h
              · refine Or.inr ⟨fun j hh => h3 j ?_ ⟨(hpos j).2 (Or.inr hh.1), hh.2⟩, ?_⟩
                · have := optionPos_ge hh.1; omega
                · unfold assign
                  rw [if_pos ((hname k).1 h2), hval, h4]
              · exact Or.inl ⟨i, h, h2, fun j hj hh => h3 j hj ⟨(hpos j).2 (Or.inr hh.1), hh.2⟩, h4⟩
            · refine Or.inr ⟨fun i hh => h1 i ⟨(hpos i).2 (Or.inr hh.1), hh.2⟩, ?_⟩
              unfold assign
              rw [if_neg, h2]
              intro hk
              exact h1 s ⟨.first, (hname k).2 hk⟩
        split
        · rename_i hs2
          rw [ih _ (by omega) (s + 2) rfl]
          exact rest _ (by rw [List.getD_eq_getElem?_getD])
        · rename_i hs2
          rw [ih _ (by omega) (s + 1) rfl]
          rw [← rest "" (by rw [List.getElem?_eq_none (by omega)]; rfl)]
          -- nothing follows the last argument
          have hnone : ∀ t, s + 1 ≤ t → ∀ i, ¬ (OptionPos argv t i ∧ argv[i]? = some ("-" ++ k)) := by
            intro t ht i hh
            have := optionPos_ge hh.1
            rw [List.getElem?_eq_none (by omega)] at hh
            cases hh.2
          constructor
          · rintro (⟨i, h1, h2, _⟩ | ⟨_, h⟩)
            · exact absurd ⟨h1, h2⟩ (hnone _ le_rfl i)
            · exact Or.inr ⟨hnone _ (by omega), h⟩
          · rintro (⟨i, h1, h2, _⟩ | ⟨_, h⟩)
            · exact absurd ⟨h1, h2⟩ (hnone _ (by omega) i)
            · exact Or.inr ⟨hnone _ le_rfl, h⟩
      | none =>
        simp only
        have hopt : ¬ IsOption argv[s] := optionName_none.1 hkey
        rw [ih _ (by omega) (s + 1) rfl]
        have hpos : ∀ i, OptionPos argv s i ↔ i = s ∨ OptionPos argv (s + 1) i := fun i => optionPos_skip ha hopt
        have hs' : argv[s]? ≠ some ("-" ++ k) := fun h => by
          rw [ha] at h
          exact hopt ⟨k, Option.some.inj h⟩
        have hiff : ∀ i, (OptionPos argv s i ∧ argv[i]? = some ("-" ++ k)) ↔ (OptionPos argv (s + 1) i ∧ argv[i]? = some ("-" ++ k)) := by
          intro i
          constructor
          · rintro ⟨h1, h2⟩
            rcases (hpos i).1 h1 with rfl | h
            · exact absurd h2 hs'
            · exact ⟨h, h2⟩
          · rintro ⟨h1, h2⟩; exact ⟨(hpos i).2 (Or.inr h1), h2⟩
        constructor
        · rintro (⟨i, h1, h2, h3, h4⟩ | ⟨h1, h2⟩)
          · have := (hiff i).2 ⟨h1, h2⟩
            exact Or.inl ⟨i, this.1, this.2, fun j hj hh => h3 j hj ((hiff j).1 hh), h4⟩
          · exact Or.inr ⟨fun i hh => h1 i ((hiff i).1 hh), h2⟩
        · rintro (⟨i, h1, h2, h3, h4⟩ | ⟨h1, h2⟩)
          · have := (hiff i).1 ⟨h1, h2⟩
            exact Or.inl ⟨i, this.1, this.2, fun j hj hh => h3 j hj ((hiff j).2 hh), h4⟩
          · exact Or.inr ⟨fun i hh => h1 i ((hiff i).2 hh), h2⟩
    · rename_i hs
      have hnone : ∀ i, ¬ (OptionPos argv s i ∧ argv[i]? = some ("-" ++ k)) := by
        intro i hh
        have := optionPos_ge hh.1
        rw [List.getElem?_eq_none (by omega)] at hh
        cases hh.2
      constructor
      · intro h; exact Or.inr ⟨hnone, h⟩
      · rintro (⟨i, h1, h2, _⟩ | ⟨_, h⟩)
        · exact absurd ⟨h1, h2⟩ (hnone i)
        · exact h

/-- C54.  Option `k` gets the argument after its last occurrence at an option position, or the empty string if that is the last argument. -/
theorem C54_value (argv : List String) (k v : String) :
    parseArgs argv k = some v ↔ ∃ i, OptionAt argv k i ∧ (∀ j, i < j → ¬ OptionAt argv k j) ∧ v = (argv[i + 1]?).getD "" := by
  unfold parseArgs
  rw [parseFrom_spec]
  constructor
  · rintro (⟨i, h1, h2, h3, h4⟩ | ⟨_, h⟩)
    · exact ⟨i, ⟨h1, h2⟩, h3, h4⟩
    · cases h
  · rintro ⟨i, ⟨h1, h2⟩, h3, h4⟩
    exact Or.inl ⟨i, h1, h2, h3, h4⟩

/-- C54.  Options that do not occur have no value. -/
theorem C54_absent (argv : List String) (k : String) : parseArgs argv k = none ↔ ∀ i, ¬ OptionAt argv k i := by
  constructor
  · intro h i hi
    -- there is a last occurrence
    have hfin : ∃ i, OptionAt argv k i ∧ ∀ j, i < j → ¬ OptionAt argv k j := by
      have hb : ∀ j, OptionAt argv k j → j < argv.length := fun j hj => (List.getElem?_eq_some_iff.1 hj.2).1
      classical
      let P := fun d => OptionAt argv k (argv.length - d)
      have hex : ∃ d, P d := ⟨argv.length - i, by show OptionAt argv k _; rw [Nat.sub_sub_self (hb i hi).le]; exact hi⟩
      refine ⟨argv.length - Nat.find hex, Nat.find_spec hex, fun j hj hj' => ?_⟩
      have hjl := hb j hj'
      have := Nat.find_min' hex (m := argv.length - j) (by show OptionAt argv k _; rw [Nat.sub_sub_self hjl.le]; exact hj')
      have h0 : Nat.find hex ≤ argv.length := by
        refine (Nat.find_min' hex (m := argv.length - i) ?_).trans (Nat.sub_le _ _)
        show OptionAt argv k _; rw [Nat.sub_sub_self (hb i hi).le]; exact hi
      omega
    obtain ⟨j, h1, h2⟩ := hfin
    have := (C54_value argv k _).2 ⟨j, h1, h2, rfl⟩
    rw [h] at this
    cases this
  · intro h
    cases hp : parseArgs argv k with
    | none => rfl
    | some v =>
      obtain ⟨i, hi, _⟩ := (C54_value argv k v).1 hp
      exact absurd hi (h i)

/-- a command line with a negative value, a repeated option, a stray argument and a trailing option -/
example : parseArgs ["gengirg", "-wseed", "-5", "stray", "-n", "10", "-n", "20", "-edge"] "wseed" = some "-5" ∧
    parseArgs ["gengirg", "-wseed", "-5", "stray", "-n", "10", "-n", "20", "-edge"] "n" = some "20" ∧
    parseArgs ["gengirg", "-wseed", "-5", "stray", "-n", "10", "-n", "20", "-edge"] "edge" = some "" ∧
    parseArgs ["gengirg", "-wseed", "-5", "stray", "-n", "10", "-n", "20", "-edge"] "5" = none := by
  refine ⟨?_, ?_, ?_, ?_⟩ <;> simp [parseArgs, parseFrom, assign, optionName]

/-! ### C55 -/

/-- C55.  For a number between real bounds: the check fails exactly if the value is outside the interval with the given end points, where an exclusive flag
removes the end point. -/
theorem C55_real (v a b : ℝ) (lex hex : Bool) :
    rangeFails (fin v) (fin a) (fin b) lex hex = false ↔
      v ∈ (match lex, hex with
        | false, false => Set.Icc a b
        | true, false => Set.Ioc a b
        | false, true => Set.Ico a b
        | true, true => Set.Ioo a b) := by
  unfold rangeFails
  simp only [XR.lt_fin, XR.eq_fin]
  cases lex <;> cases hex <;>
    simp only [Bool.and_true, Bool.and_false, Bool.or_false, Bool.or_eq_false_iff, decide_eq_false_iff_not, not_lt, Set.mem_Icc, Set.mem_Ioc, Set.mem_Ico,
      Set.mem_Ioo]
  · constructor
    · rintro ⟨⟨h1, h2⟩, h3⟩; exact ⟨h1, lt_of_le_of_ne h2 h3⟩
    · rintro ⟨h1, h2⟩; exact ⟨⟨h1, h2.le⟩, h2.ne⟩
  · constructor
    · rintro ⟨⟨h1, h2⟩, h3⟩; exact ⟨lt_of_le_of_ne h1 (Ne.symm h3), h2⟩
    · rintro ⟨h1, h2⟩; exact ⟨⟨h1.le, h2⟩, h1.ne'⟩
  · constructor
    · rintro ⟨⟨⟨h1, h2⟩, h3⟩, h4⟩; exact ⟨lt_of_le_of_ne h1 (Ne.symm h3), lt_of_le_of_ne h2 h4⟩
    · rintro ⟨h1, h2⟩; exact ⟨⟨⟨h1.le, h2.le⟩, h1.ne'⟩, h2.ne⟩

/-- C55.  The check of `gengirg` for `alpha` (above 1, infinity allowed). -/
theorem C55_alpha (v : XR) : rangeFails v (fin 1) .pinf true false = false ↔ v = .nan ∨ v = .pinf ∨ ∃ x : ℝ, v = fin x ∧ 1 < x := by
  unfold rangeFails
  cases v with
  | nan => simp [CFloat.lt, XR.lt, CFloat.eq, XR.eq]
  | pinf => simp [CFloat.lt, XR.lt, CFloat.eq, XR.eq]
  | ninf => simp [CFloat.lt, XR.lt]
  | fin x =>
    simp only [CFloat.lt, XR.lt, CFloat.eq, XR.eq]
    simp
    constructor
    · rintro ⟨h1, h2⟩; exact lt_of_le_of_ne h1 (Ne.symm h2)
    · intro h; exact ⟨h.le, h.ne'⟩

/-- C55, special values: infinities are rejected by finite bounds, NaN is always accepted. -/
theorem C55_special (a b : ℝ) (lex hex : Bool) :
    rangeFails .pinf (fin a) (fin b) lex hex = true ∧ rangeFails .ninf (fin a) (fin b) lex hex = true ∧
    ∀ min max : XR, rangeFails .nan min max lex hex = false := by
  refine ⟨?_, ?_, fun min max => ?_⟩
  · simp [rangeFails, CFloat.lt, XR.lt]
  · simp [rangeFails, CFloat.lt, XR.lt]
  · cases min <;> cases max <;> simp [rangeFails, CFloat.lt, XR.lt, CFloat.eq, XR.eq]

/-- C55.  The integer version. -/
theorem C55_int (v a b : ℤ) (lex hex : Bool) :
    rangeFailsInt v a b lex hex = false ↔ (if lex then a < v else a ≤ v) ∧ (if hex then v < b else v ≤ b) := by
  unfold rangeFailsInt
  cases lex <;> cases hex <;> simp <;> omega

end Girgs.Props
