/-
What the macros of tools/latex_sample/scheduling.sty draw.

`\begin{scheduling}{count}{range}{scale}{tick}` draws a grid of width `range` and height `count` (lines 66-111).
A block of row `r` is drawn at height `count - r + 1/2` (line 44), the middle of a row of the grid when
`1 ≤ r ≤ count`.  `\addexecution` draws one block (lines 146-161), `\addperiodictask` draws one block for every value
of `\foreach \x in {0,...,last}`, shifted by `\x` times the period (lines 186-209).
-/
import Verif.Model.PrintSchedule

set_option autoImplicit false

namespace Kiter.Tikz

/-- A drawn block: row, left side and width. -/
structure Block where
  row : ℕ
  start : ℚ
  width : ℚ
deriving DecidableEq, Repr

/-- The values of `\foreach \x in {0,...,n}`; TikZ counts down when `n` is negative. -/
def foreachValues (n : Int) : List Int :=
  if 0 ≤ n then (List.range (n.toNat + 1)).map Int.ofNat
  else (List.range ((-n).toNat + 1)).map fun i => -(i : Int)

/-- The blocks drawn by a macro call. -/
def Cmd.blocks : Cmd → List Block
  | .exec row d s => [⟨row, s, d⟩]
  | .periodic row d s p last => (foreachValues last).map fun (x : Int) => ⟨row, s + p * (x : ℚ), d⟩

/-- All the blocks of a drawing. -/
def Drawing.blocks (d : Drawing) : List Block := d.cmds.flatMap Cmd.blocks

/-- The height at which the middle of a row is drawn. -/
def Drawing.height (d : Drawing) (row : ℕ) : ℚ := d.count - row + 1 / 2

/-- A row lies inside the grid. -/
def Drawing.RowInGrid (d : Drawing) (row : ℕ) : Prop := 0 ≤ d.height row - 1 / 2 ∧ d.height row + 1 / 2 ≤ d.count

/-- Time between two starts of the same phase of the same iteration of the pattern of a task: `K` iterations of all
its phases, when a graph iteration (`ni` executions) takes `Ω`. -/
def pattern (Ω : ℚ) (t : KTask) (K : ℕ) : ℚ := Ω * (t.durations.length * K) / t.ni

end Kiter.Tikz
