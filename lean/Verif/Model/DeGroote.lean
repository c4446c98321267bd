/-
Model of the linear constraint graph of de Groote's throughput method
(src/libkiter/algorithms/throughput/degroote.cpp, `generate_LCG`, lines 18-142).

`long double` rounding is exact rational arithmetic; `long int` is `Int`; `TIME_UNIT` is `ℚ`. Failed assertions and
divisions by zero are `none`. The repetition vector is the one already stored in the tasks (`getNi`), its computation
(line 20) is modelled elsewhere (C12).
-/
import Verif.Model.KIter

set_option autoImplicit false

namespace Kiter

/-- `pi_c_j` (degroote.cpp:65 and 119): index, from 1, of a producer execution. -/
def lcgIndex (mc nc dc j : Int) : Option Int :=
  if mc = 0 then none else some ⌈((j * nc - dc : Int) : ℚ) / (mc : ℚ)⌉

/-- One turn of the loop over the executions `j` of the target (degroote.cpp:63-83 and 117-138). The code calls
`addEventConstraint(source, target, d, w, id)` whose parameters are `(source, target, w, d, id)`
(models/EventGraph.h:335): the *weight* is the duration of the target and the *duration* is `-delta`. -/
def lcgStep (src dst : KTask) (edge mc nc dc : Int) (tj : ℚ) (j : Int) : Option EvConstraint := do
  let pi ← lcgIndex mc nc dc j
  let tilde ← cModulo (pi - 1) src.ni
  let delta : Int := ⌊((pi - 1 : Int) : ℚ) / (src.ni : ℚ)⌋
  pure { src := ⟨src.id, 1, tilde + 1⟩, dst := ⟨dst.id, 1, j⟩, w := tj, d := -(delta : ℚ), channel := edge }

/-- The constraints of one channel (degroote.cpp:92-140), or of the reentrancy loop of a task (lines 36-84).
`getVertexDuration(target)` asserts a single duration (models/Dataflow.h:875-880). -/
def lcgChannel (src dst : KTask) (edge mc nc dc : Int) : Option (List EvConstraint) :=
  match dst.durations with
  | [tj] => (List.range dst.ni.toNat).mapM fun (j : ℕ) => lcgStep src dst edge mc nc dc tj ((j : Int) + 1)
  | _ => none

/-- The reentrancy loop of a task (degroote.cpp:36-86). -/
def lcgSelf (t : KTask) : Option (List EvConstraint) :=
  if t.reentrancy > 1 then none
  else if t.reentrancy = 1 then lcgChannel t t 0 1 1 1
  else some []

/-- `generate_LCG` (degroote.cpp:18-142): the constraints of the graph. `getEdgeIn` and `getEdgeOut` are the sums of the
rates (C10). -/
def generateLCG (B : BaseGraph) : Option (List EvConstraint) := do
  if B.tasks.any fun t : KTask => t.durations.length != 1 then none
  else
    let a ← collect lcgSelf B.tasks
    let b ← collect (fun c : BChannel => lcgChannel c.2.1 c.2.2 c.1.id c.1.inPhases.sum c.1.outPhases.sum c.1.preload) B.channels
    pure (a ++ b)

/-- The events of the graph (degroote.cpp:29-31, `addEventGroup(id, 1, Ni)`, models/EventGraph.h:308-325). -/
def lcgEvents (B : BaseGraph) : List Event :=
  B.tasks.flatMap fun t : KTask => (List.range t.ni.toNat).map fun (k : ℕ) => (⟨t.id, 1, (k : Int) + 1⟩ : Event)

/-- `removeConnectedEdges` (models/EventGraph.h:236-238): all the constraints from or to an event go. -/
def dropEvent (e : Event) (cs : List EvConstraint) : List EvConstraint :=
  cs.filter fun c => c.src ≠ e ∧ c.dst ≠ e

/-- The body of the loop over the events in `FullConnectionned` (models/EventGraph.h:209-224): an event with entering
constraints only, or with leaving constraints only, loses them; the counter is increased. -/
def cleanEvent (s : List EvConstraint × ℕ) (e : Event) : List EvConstraint × ℕ :=
  let sumout := s.1.countP fun c => c.src = e
  let sumin := s.1.countP fun c => c.dst = e
  let s := if sumout = 0 ∧ sumin ≠ 0 then (dropEvent e s.1, s.2 + 1) else s
  if sumin = 0 ∧ sumout ≠ 0 then (dropEvent e s.1, s.2 + 1) else s

/-- `FullConnectionned` (models/EventGraph.h:203-235), `while (deleted)`: passes over the events until one changes
nothing. `none` when the number of passes is not enough. -/
def fullConnected (events : List Event) : ℕ → List EvConstraint → Option (List EvConstraint)
  | 0, _ => none
  | fuel + 1, cs =>
    let s := events.foldl cleanEvent (cs, 0)
    if s.2 = 0 then some s.1 else fullConnected events fuel s.1

/-- The constraints analysed by `compute_deGrooteClean_throughput` (degroote.cpp:149-160). -/
def cleanLCG (B : BaseGraph) (fuel : ℕ) : Option (List EvConstraint) :=
  (generateLCG B).bind (fullConnected (lcgEvents B) fuel)

end Kiter
