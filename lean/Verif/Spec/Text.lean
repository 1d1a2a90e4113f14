import Mathlib.Data.Real.Basic
/-
Readers for the text formats, written independently of the code that writes them.
-/
namespace Girgs.Spec

/-- value of a non-empty sequence of decimal digits -/
def readNat (t : List Char) : Option ℕ :=
  if t ≠ [] ∧ t.all Char.isDigit then some (Nat.ofDigitChars 10 t 0) else none

/-- value of decimal digits with an optional minus sign -/
def readInt : List Char → Option ℤ
  | '-' :: t => (readNat t).map fun x : ℕ => -(x : ℤ)
  | t => (readNat t).map fun x : ℕ => (x : ℤ)

/-- the maximal runs of characters other than blanks, tabs and newlines -/
def words (t : List Char) : List (List Char) := (t.splitOnP fun c => c = ' ' || c = '\t' || c = '\n').filter (· ≠ [])

/-- the lines of a text -/
def linesOf (t : List Char) : List (List Char) := t.splitOn '\n'

/-- consecutive pairs -/
def pairs {α : Type} : List α → Option (List (α × α))
  | [] => some []
  | [_] => none
  | a :: b :: l => (pairs l).map ((a, b) :: ·)

/-- A reader of edge list files: white space separated integers, the number of nodes, the number `m` of edges and `m` pairs.
Returns the number of nodes and the edges in the order of the file. -/
def readEdgeList (t : List Char) : Option (ℤ × List (ℤ × ℤ)) := do
  let xs ← (words t).mapM readInt
  match xs with
  | n :: m :: rest => do
    let es ← pairs rest
    if (es.length : ℤ) = m then some (n, es) else none
  | _ => none

/-- removes a prefix -/
def expect (s t : List Char) : Option (List Char) := if s <+: t then some (t.drop s.length) else none

/-- splits at the first occurrence of a character, which stays in the rest -/
def upto (c : Char) (t : List Char) : List Char × List Char := (t.takeWhile (· ≠ c), t.dropWhile (· ≠ c))

/-- a graph in a dot file: nodes with number, label and coordinates (as texts), and edges -/
structure DotGraph where
  nodes : List (ℤ × List Char × List (List Char))
  edges : List (ℤ × ℤ)
deriving DecidableEq

/-- reads a node statement `<tab>i [label="w", pos="x,y,..."];` -/
def readNode (t : List Char) : Option (ℤ × List Char × List (List Char)) := do
  let t ← expect ['\t'] t
  let (i, t) := upto ' ' t
  let i ← readInt i
  let t ← expect " [label=\"".toList t
  let (w, t) := upto '"' t
  let t ← expect "\", pos=\"".toList t
  let (x, t) := upto '"' t
  let t ← expect "\"];".toList t
  if t = [] then some (i, w, if x = [] then [] else x.splitOn ',') else none

/-- reads an edge statement `<tab>u<tab>-- v;` -/
def readDotEdge (t : List Char) : Option (ℤ × ℤ) := do
  let t ← expect ['\t'] t
  let (u, t) := upto '\t' t
  let u ← readInt u
  let t ← expect "\t-- ".toList t
  let (v, t) := upto ';' t
  let v ← readInt v
  if t = [';'] then some (u, v) else none

/-- A reader of dot files: the header, an empty line, the node statements, an empty line, the edge statements, the closing brace and the end of the file. -/
def readDot (t : List Char) : Option DotGraph := do
  match linesOf t with
  | l0 :: l1 :: l2 :: rest =>
    if l0 = "graph girg {".toList ∧ l1 = "\toverlap=scale;".toList ∧ l2 = [] then do
      let nodes ← (rest.takeWhile (· ≠ [])).mapM readNode
      match rest.dropWhile (· ≠ []) with
      | [] => none
      | _ :: rest =>
        if rest.drop (rest.length - 2) = ["}".toList, []] then do
          let edges ← (rest.take (rest.length - 2)).mapM readDotEdge
          some ⟨nodes, edges⟩
        else none
    else none
  | _ => none

/-- an optional minus sign -/
def sign : List Char → Bool × List Char
  | '-' :: t => (true, t)
  | t => (false, t)

/-- value of a decimal fraction: optional sign, digits, a point and digits after the point -/
noncomputable def readDecimal (t : List Char) : Option ℝ :=
  let (neg, t) := sign t
  let (a, b) := upto '.' t
  match readNat a, readNat (b.drop 1) with
  | some x, some y => some ((if neg then -1 else 1) * ((x : ℝ) + y / 10 ^ (b.drop 1).length))
  | _, _ => none

/-- reads a coordinate file: one line per node with two decimal fractions -/
noncomputable def readCoords (t : List Char) : Option (List (ℝ × ℝ)) := do
  let ls := linesOf t
  if ls.getLast? = some [] then
    (ls.dropLast).mapM fun l => match (words l).mapM readDecimal with
      | some [r, a] => some (r, a)
      | _ => none
  else none

end Girgs.Spec
