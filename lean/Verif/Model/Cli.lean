import Verif.Base.CFloat
import Verif.Base.Machine
/-
Model of the command line handling shared by the tools: source/cli/gengirg/main.cpp:21-33,42-49, source/cli/genhrg/main.cpp:20-32,41-48 and the copies in
source/examples.
-/
namespace Girgs
namespace Cli

/-- a `std::map<string,string>` -/
abbrev Params := String → Option String

/-- `params[key] = value` -/
def assign (m : Params) (key value : String) : Params := fun k => if k = key then some value else m k

/-- the test `argv[i][0] != '-'` and `argv[i] + 1`, gengirg main.cpp:25-27: the name of an option; `none` for an argument that is no option.
`argv[i][0]` of an empty argument is the terminating 0. -/
def optionName (a : String) : Option String :=
  match a.toList with
  | '-' :: key => some (String.ofList key)
  | _ => none

/-- the loop of `parseArgs` from index `i` on, gengirg main.cpp:23-31 -/
def parseFrom (argv : List String) (i : Nat) (m : Params) : Params :=
  if h : i < argv.length then
    match optionName argv[i] with
    | some key =>
      if i + 1 < argv.length then parseFrom argv (i + 2) (assign m key (argv.getD (i + 1) "")) else parseFrom argv (i + 1) (assign m key "")
    | none => parseFrom argv (i + 1) m
  else m
termination_by argv.length - i

/-- `parseArgs(argc, argv)`, gengirg main.cpp:21-33 -/
def parseArgs (argv : List String) : Params := parseFrom argv 1 fun _ => none

/-- `!params[key].empty() ? convert(params[key]) : default`, gengirg main.cpp:85-94; `none`: the conversion throws -/
def getOr {α : Type} (convert : String → Option α) (m : Params) (key : String) (default : α) : Option α :=
  match m key with
  | none => some default
  | some v => if v = "" then some default else convert v

/-- `params[key] == "1"`, gengirg main.cpp:96-97 -/
def flag (m : Params) (key : String) : Bool := m key = some "1"

variable {F : Type} [CFloat F]

/-- the condition under which `rangeCheck<double>` ends the program, gengirg main.cpp:43 -/
def rangeFails (value min max : F) (lex hex : Bool) : Bool :=
  (value <. min) || (max <. value) || (CFloat.eq value min && lex) || (CFloat.eq value max && hex)

/-- the same for `rangeCheck<int>` -/
def rangeFailsInt (value min max : Int) (lex hex : Bool) : Bool :=
  decide (value < min) || decide (max < value) || (decide (value = min) && lex) || (decide (value = max) && hex)

end Cli
end Girgs
