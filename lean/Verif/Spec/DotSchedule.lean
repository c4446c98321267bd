/-
What a drawing for Graphviz shows, and what a schedule says.

With `-Knop` Graphviz places the centre of a node at its position, in points; its width and height are in inches, 72 points
each.  Two nodes of the same name are one node.
-/
import Verif.Model.DotSchedule

set_option autoImplicit false

namespace Kiter.DotSched
open Kiter.Text

/-- Left and right sides of a node, in points. -/
def Node.left (b : Node) : ℚ := b.x - 72 * b.width / 2
def Node.right (b : Node) : ℚ := b.x + 72 * b.width / 2

/-- Lower and upper sides of a node, in points. -/
def Node.bottom (b : Node) : ℚ := b.y - 72 * b.height / 2
def Node.top (b : Node) : ℚ := b.y + 72 * b.height / 2

/-- Start of the execution of rank `m` (from 0) of a task without initial phases: the list of starts, again and again,
shifted by the period. -/
def startOf (t : Task) (m : ℕ) : ℚ := t.starts.getD (m % t.starts.length) 0 + t.period * ((m / t.starts.length : ℕ) : ℚ)

/-- Duration of the execution of rank `m`: the phases in turn. -/
def durationOf (t : Task) (m : ℕ) : ℚ := t.durations.getD (m % t.durations.length) 0

/-- The schedule of the task is drawable: no initial phases, a positive period, and a list of starts that covers whole
cycles of its phases. -/
structure Drawable (t : Task) : Prop where
  init : t.initDurations = []
  phases : t.durations ≠ []
  starts : t.starts ≠ []
  cycles : t.durations.length ∣ t.starts.length
  period : 0 < t.period

/-- The node names of a drawing: labels and blocks. -/
def names (rows : List Row) : List Str := rows.flatMap fun r => r.label :: r.blocks.map Node.name

end Kiter.DotSched
