/-
Sequential executions of a graph: what C94 and C95 are about.
-/
import Verif.Model.KIter

set_option autoImplicit false

namespace Kiter

/-- The tasks can be executed one after the other in the order of `seq` (a list of task identifiers), from the initial tokens: an
execution takes its tokens from channels that hold them, put there by executions that come before. Rates are per execution: the
sums of the rates of the phases. -/
def Admissible (B : BaseGraph) (seq : List Int) : Prop :=
  ∀ p i, p ++ [i] <+: seq → ∀ c ∈ B.channels, c.2.2.id = i →
    c.1.outPhases.sum * (p.count i + 1) ≤ c.1.preload + c.1.inPhases.sum * p.count c.2.1.id

/-- `seq` is a number of complete iterations of the graph: every task executes `ni` times in each. -/
structure Iterates (B : BaseGraph) (iterations : Int) (seq : List Int) : Prop where
  admissible : Admissible B seq
  tasks : ∀ i ∈ seq, ∃ t ∈ B.tasks, t.id = i
  counts : ∀ t ∈ B.tasks, (seq.count t.id : Int) = t.ni * iterations

end Kiter
