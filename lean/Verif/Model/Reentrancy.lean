/-
Model of the pass that makes tasks reentrant (src/libkiter/algorithms/transformation/remove_reentrancy.cpp).
The tasks named by the parameters are given by their ids; a channel carries copies of its two tasks.
-/
import Verif.Model.KIter

set_option autoImplicit false

namespace Kiter

/-- `setReentrancyFactor(t, 0)` for the task with a given id (models/Dataflow.h:650-652). `getVertexById` throws when
there is none (Dataflow.h:449-453). -/
def makeReentrant (B : BaseGraph) (i : Int) : Option BaseGraph :=
  if B.tasks.any fun t => t.id = i then
    let f := fun t : KTask => if t.id = i then { t with reentrancy := 0 } else t
    some ⟨B.tasks.map f, B.channels.map fun c => (c.1, f c.2.1, f c.2.2)⟩
  else none

/-- `remove_reentrancy` (remove_reentrancy.cpp:12-36): the listed tasks in order (`taskname` or `taskid`), or all the
tasks of the graph when no list is given. -/
def removeReentrancy (sel : Option (List Int)) (B : BaseGraph) : Option BaseGraph :=
  (sel.getD (B.tasks.map fun t => t.id)).foldlM makeReentrant B

end Kiter
