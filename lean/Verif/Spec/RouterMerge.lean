/-
Specification for the merging of router tasks (C136).
-/
import Verif.Model.RouterMerge
import Mathlib.Order.Monotone.Basic

set_option autoImplicit false

namespace Kiter.Router

/-- `f k` is the start of execution `k` of a node: the starts of the schedule, repeated with its period. -/
def IsStart (n : Node) (f : ℕ → ℚ) : Prop :=
  ∀ q r, (h : r < n.starts.length) → f (q * n.starts.length + r) = n.starts[r] + q * n.period

/-- A node with a schedule: it is executed, repeats its starts after a positive period, and does not start an execution
before the one before. -/
structure Scheduled (n : Node) (f : ℕ → ℚ) : Prop where
  ni : 0 < n.ni
  starts : 0 < n.starts.length
  period : 0 < n.period
  times : IsStart n f
  mono : Monotone f

/-- The dates of the executions of the list that belong to a node, in order. -/
def datesOf (l : List Run) (vid : Int) : List ℚ := (l.filter fun x => decide (x.2 = vid)).map fun x => x.1

end Kiter.Router
