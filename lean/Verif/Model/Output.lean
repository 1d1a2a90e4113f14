import Verif.Base.CFloat
import Verif.Base.Machine
/-
Model of the files written by the library and the command line tools:
source/girgs/source/Generator.cpp:121-141 (saveDot), source/cli/gengirg/main.cpp:151-161 and source/cli/genhrg/main.cpp:137-147 (edge lists),
source/cli/genhrg/main.cpp:149-159 (coordinates).
A text is a list of characters.  Not modelled: write errors after the file has been opened, locales other than "C".
-/
namespace Girgs
namespace Output

abbrev Text := List Char

/-- `os << x` for an unsigned integer: its decimal digits -/
def showNat (x : Nat) : Text := Nat.toDigits 10 x

/-- `os << x` for a signed integer -/
def showInt (x : Int) : Text := if x < 0 then '-' :: showNat x.natAbs else showNat x.natAbs

/-- `os << std::fixed << std::setprecision(p) << x` for a `double`: the standard library's formatting, of which the model only fixes that the text is not
empty and consists of digits, letters (for `inf`, `nan`), `-` and `.` -/
structure Printer (F : Type) where
  fixed : Nat → F → Text
  nonempty : ∀ p x, fixed p x ≠ []
  clean : ∀ p x, ∀ c ∈ fixed p x, c.isDigit = true ∨ c.isAlpha = true ∨ c = '-' ∨ c = '.'

/-- what happens to an output file -/
inductive FileResult where
  | written (content : Text)
  /-- the exception thrown if the file cannot be opened -/
  | openFailed
deriving DecidableEq

/-! ### edge lists -/

/-- one line of an edge list: gengirg main.cpp:158, genhrg main.cpp:144 -/
def edgeLine (e : Int × Int) : Text := showInt e.1 ++ [' '] ++ showInt e.2 ++ ['\n']

/-- the content of an edge list file: gengirg main.cpp:156-158, genhrg main.cpp:142-144 -/
def edgeListText (n : Int) (edges : List (Int × Int)) : Text :=
  showInt n ++ [' '] ++ showNat edges.length ++ ['\n', '\n'] ++ edges.flatMap edgeLine

/-- writing the edge list, with the test whether the file could be opened: gengirg main.cpp:154-158, genhrg main.cpp:140-144 -/
def writeEdgeList (canOpen : Bool) (n : Int) (edges : List (Int × Int)) : FileResult :=
  if canOpen then .written (edgeListText n edges) else .openFailed

/-! ### coordinates -/

variable {F : Type} [CFloat F]

/-- one line of a coordinate file: genhrg main.cpp:156 -/
def coordLine (pr : Printer F) (radius angle : F) : Text := pr.fixed 17 radius ++ [' '] ++ pr.fixed 17 angle ++ ['\n']

/-- the loop over `i < n` of genhrg main.cpp:155-156; `none`: an access out of bounds -/
def coordLines (pr : Printer F) (radii angles : List F) : List Nat → Option Text
  | [] => some []
  | i :: is => do
    let r ← rd radii i
    let a ← rd angles i
    let rest ← coordLines pr radii angles is
    some (coordLine pr r a ++ rest)

/-- genhrg main.cpp:152-156 -/
def writeCoords (pr : Printer F) (canOpen : Bool) (n : Nat) (radii angles : List F) : Option FileResult :=
  if canOpen then (coordLines pr radii angles (List.range n)).map .written else some .openFailed

/-! ### saveDot -/

/-- the coordinates of a node, separated by commas: Generator.cpp:133-134 -/
def dotCoords (pr : Printer F) : Bool → List F → Text
  | _, [] => []
  | first, x :: xs => (if first then [] else [',']) ++ pr.fixed 6 x ++ dotCoords pr false xs

/-- the statement for node `i`: Generator.cpp:130-135 -/
def dotNode (pr : Printer F) (i : Nat) (w : F) (x : List F) : Text :=
  ['\t'] ++ showNat i ++ " [label=\"".toList ++ pr.fixed 2 w ++ "\", pos=\"".toList ++ dotCoords pr true x ++ "\"];\n".toList

/-- the loop over the nodes, Generator.cpp:129-136; `none`: `positions[i]` out of bounds -/
def dotNodes (pr : Printer F) (weights : List F) (positions : List (List F)) : List Nat → Option Text
  | [] => some []
  | i :: is => do
    let w ← rd weights i
    let x ← rd positions i
    let rest ← dotNodes pr weights positions is
    some (dotNode pr i w x ++ rest)

/-- the statement for an edge: Generator.cpp:139 -/
def dotEdge (e : Int × Int) : Text := ['\t'] ++ showInt e.1 ++ "\t-- ".toList ++ showInt e.2 ++ ";\n".toList

/-- `saveDot(weights, positions, graph, file)`, Generator.cpp:121-141.  The loop variable is an `int`: with more than `2^31-1` weights its increment
overflows. -/
def saveDot (pr : Printer F) (canOpen : Bool) (weights : List F) (positions : List (List F)) (graph : List (Int × Int)) : Option FileResult :=
  if canOpen then
    if weights.length < 2147483648 then do
      let nodes ← dotNodes pr weights positions (List.range weights.length)
      some (.written ("graph girg {\n\toverlap=scale;\n\n".toList ++ nodes ++ ['\n'] ++ graph.flatMap dotEdge ++ "}\n".toList))
    else none
  else some .openFailed

end Output
end Girgs
