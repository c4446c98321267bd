/-
Specification for C130: a reader of the Graphviz text, independent of the writer. It knows the fixed words of the format, reads
numbers, and reads quoted strings up to the closing quotation mark, where a backslash before a quotation mark protects it.
-/
import Verif.Model.Text

set_option autoImplicit false

namespace Kiter.GraphDraw

open Kiter.Text

/-- What a reader gets for a task: the number of the node and its label. -/
structure Node where
  id : Int
  label : Str
deriving DecidableEq, Repr

/-- What a reader gets for a channel: the numbers of the two nodes, the tokens, and the initial and periodic rates written at
the tail (production) and at the head (consumption). -/
structure Arrow where
  source : Int
  target : Int
  tokens : Int
  initProd : List Int
  prod : List Int
  initCons : List Int
  cons : List Int
deriving DecidableEq, Repr

/-- Expect a fixed word. -/
def eat (w s : Str) : Option Str := if w.isPrefixOf s then some (s.drop w.length) else none

/-- Characters of a number. -/
def numChar (c : Char) : Bool := isDigit c || c = '-'

/-- A number and the text after it. -/
def num (s : Str) : Int × Str := (readSigned (s.takeWhile numChar), s.dropWhile numChar)

/-- The content of a quoted string, once the opening quotation mark is passed, and the text after it. -/
def quoted : Str → Option (Str × Str)
  | [] => none
  | c :: s =>
    if c = '"' then some ([], s)
    else if c = '\\' then
      match s with
      | [] => none
      | d :: r => (quoted r).map fun p => (if d = '"' then d :: p.1 else c :: d :: p.1, p.2)
    else (quoted s).map fun p => (c :: p.1, p.2)

/-- A list of numbers in braces. -/
def readVec (s : Str) : List Int := (split (s.drop 1).dropLast ',').map readSigned

/-- The rates of one end: initial rates in parentheses and a semicolon may come first. -/
def readRates (s : Str) : List Int × List Int :=
  match s with
  | '(' :: r => (readVec (r.takeWhile fun c => c ≠ ')'), readVec ((r.dropWhile fun c => c ≠ ')').drop 2))
  | _ => ([], readVec s)

/-- A node or an arrow, and the text after it. -/
def readItem (s : Str) : Option ((Node ⊕ Arrow) × Str) := do
  let s ← eat "  t_".toList s
  let a := num s
  match eat " -> t_".toList a.2 with
  | none =>
    let s ← eat " [shape=circle,  fixedsize=\"shape\", fontsize=\"7\",label = \"".toList a.2
    let q ← quoted s
    let s ← eat " ];\n".toList q.2
    some (Sum.inl ⟨a.1, q.1⟩, s)
  | some s =>
    let b := num s
    let s ← eat " [ label=\"".toList b.2
    let l ← quoted s
    let s ← eat ", headlabel=\"".toList l.2
    let h ← quoted s
    let s ← eat ", taillabel=\"".toList h.2
    let t ← quoted s
    let s ← eat ", ] ;\n".toList t.2
    some (Sum.inr ⟨a.1, b.1, readSigned l.1, (readRates t.1).1, (readRates t.1).2, (readRates h.1).1, (readRates h.1).2⟩, s)

/-- The items up to the end of the graph; the first argument bounds their number. -/
def readItems : Nat → Str → Option (List (Node ⊕ Arrow))
  | 0, _ => none
  | n + 1, s =>
    if s = "\n}\n".toList then some []
    else do
      let i ← readItem s
      let l ← readItems n i.2
      some (i.1 :: l)

/-- Comment, opening and attributes. -/
def opening : Str :=
  "// Auto-generate by Kiter\n//   use this dot file with circo for an optimal visu\n\ndigraph G {\n\n    rankdir=\"LR\";\n  graph [label=\"\",splines=false]\n  edge [len=1.5,fontsize=8,labelsize=4,color=grey]\n\n".toList

/-- The items of a drawing. -/
def readDrawing (s : Str) : Option (List (Node ⊕ Arrow)) := do
  let r ← eat opening s
  readItems (s.length + 1) r

end Kiter.GraphDraw
