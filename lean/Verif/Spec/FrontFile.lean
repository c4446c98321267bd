/-
Specification for the file of Pareto points: what a spreadsheet makes of it. Lines end with a newline, the first one has the
headers, fields are separated by semicolons, and the last field is in quotation marks and holds numbers separated by commas.
-/
import Verif.Model.Text
import Mathlib.Data.Rat.Defs

set_option autoImplicit false

namespace Kiter
namespace FrontFile

open Text

/-- A row of the file. -/
structure Row where
  size : Int
  throughput : Str
  quantities : List Int
deriving DecidableEq

/-- Cut at the first occurrence of a character, which must be there. -/
def cut (c : Char) (s : Str) : Option (Str × Str) :=
  match s.dropWhile (fun x => x ≠ c) with
  | [] => none
  | _ :: r => some (s.takeWhile (fun x => x ≠ c), r)

/-- Read one line (without its end). -/
def readLine (s : Str) : Option Row := do
  let (a, s) ← cut ';' s
  let (b, s) ← cut ';' s
  let (e, s) ← cut '"' s
  let (q, s) ← cut '"' s
  if e = [] ∧ s = [] then some ⟨readSigned a, b, (split q ',').map readSigned⟩ else none

/-- The lines of a text, each ended by a newline. -/
def linesOf : ℕ → Str → Option (List Str)
  | 0, _ => none
  | k + 1, s => if s = [] then some [] else do
    let (a, r) ← cut '\n' s
    let l ← linesOf k r
    some (a :: l)

/-- Read the file. -/
def read (s : Str) : Option (List Row) := do
  match ← linesOf (s.length + 1) s with
  | h :: l => if h = "storage distribution size;throughput;channel quantities".toList then l.mapM readLine else none
  | [] => none

/-- A formatting of throughputs that does not use the separators of the file. -/
def PlainFormat (fmt : ℚ → Str) : Prop := ∀ x, ∀ c ∈ fmt x, c ≠ ';' ∧ c ≠ '\n'

end FrontFile
end Kiter
