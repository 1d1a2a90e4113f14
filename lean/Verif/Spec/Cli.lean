import Mathlib.Logic.Basic
/-
How a command line is meant to be read.
-/
namespace Girgs.Spec

/-- the argument starts with a minus sign -/
def IsOption (a : String) : Prop := ∃ k : String, a = "-" ++ k

/-- The positions at which an option is expected, when reading starts at position `s`: the first one, the one after an argument that is not an option, and
the one after the value of an option. -/
inductive OptionPos (argv : List String) (s : Nat) : Nat → Prop
  | first : OptionPos argv s s
  | skip {i : Nat} {a : String} : OptionPos argv s i → argv[i]? = some a → ¬ IsOption a → OptionPos argv s (i + 1)
  | value {i : Nat} {a : String} : OptionPos argv s i → argv[i]? = some a → IsOption a → OptionPos argv s (i + 2)

/-- option `-k` stands at position `i` of the command line (position 0 is the program name) -/
def OptionAt (argv : List String) (k : String) (i : Nat) : Prop := OptionPos argv 1 i ∧ argv[i]? = some ("-" ++ k)

/-- the value of option `-k`: the argument after its last occurrence, empty if nothing follows -/
def Given (argv : List String) (k v : String) : Prop :=
  ∃ i, OptionAt argv k i ∧ (∀ j, i < j → ¬ OptionAt argv k j) ∧ v = (argv[i + 1]?).getD ""

/-- the setting of a parameter: the converted value of its option, or the default if the option is missing or its value is empty -/
def Setting {α : Type} (argv : List String) (k : String) (convert : String → Option α) (default x : α) : Prop :=
  (∃ v, v ≠ "" ∧ Given argv k v ∧ convert v = some x) ∨ (x = default ∧ ∀ v, Given argv k v → v = "")

end Girgs.Spec
