/-
Specification for the report of K-Iter (C135): the executions of one K-periodic pattern.
-/
import Verif.Model.KIter

set_option autoImplicit false

namespace Kiter.KRep

/-- `e` is an execution of the pattern of the vector `K`: a phase of a task of the graph, in one of its `K` periods. -/
def InPattern (B : BaseGraph) (K : Int → ℕ) (e : Event) : Prop :=
  ∃ t ∈ B.tasks, e.task = t.id ∧ (1 ≤ e.phase ∧ e.phase ≤ t.durations.length) ∧ 1 ≤ e.iter ∧ e.iter ≤ K t.id

/-- The number of executions of the pattern: for each task, `K` periods of all its phases. -/
def patternSize (B : BaseGraph) (K : Int → ℕ) : ℕ := (B.tasks.map fun t => K t.id * t.durations.length).sum

end Kiter.KRep
