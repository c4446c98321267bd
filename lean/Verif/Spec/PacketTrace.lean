/-
What a trace of packets should be, for C95.
-/
import Verif.Model.Untimed
import Verif.Spec.Untimed
import Mathlib.Logic.Relation

set_option autoImplicit false

namespace Kiter

open Untimed

/-- What an execution of the task `i` prints, leaving numbers and dependencies out: a line from the task to itself with its duration,
then for each output channel as many lines of duration 0 to the consumer as there are packets of `size` tokens. -/
def linesOf (B : BaseGraph) (size : Int) (i : Int) : List (Int × Int × ℚ) :=
  (B.tasks.find? fun t => t.id = i).elim [] fun t => (i, i, t.durations.sum) ::
    (B.channels.filter fun c => decide (c.2.1.id = i)).flatMap fun c =>
      List.replicate (c.1.inPhases.sum / size).toNat (i, c.2.2.id, 0)

/-- The number of lines before the `j`-th execution (from 0): the number of the line of its computation. -/
def lineOf (B : BaseGraph) (size : Int) (seq : List Int) (j : ℕ) : ℕ := ((seq.take j).flatMap (linesOf B size)).length

/-- The line `b` waits for the line `a`. -/
def Waits (lines : List Packet) (a b : ℕ) : Prop := ∃ l ∈ lines, l.pid = b ∧ a ∈ l.deps

/-- The line `b` waits for the line `a`, possibly through others. -/
def WaitsFor (lines : List Packet) : ℕ → ℕ → Prop := Relation.TransGen (Waits lines)

end Kiter
