/-
Model of the strictly periodic scheduling (src/libkiter/algorithms/scheduling/CSDF_SPeriodicScheduling.cpp,
`CSDF_SPeriodicScheduling`, lines 19-62).

The cycle ratio solver `EventGraph::MinCycleRatio` is a parameter, as in the model of K-Iter. A ratio 0 makes the period
infinite and is `none`; a negative ratio is not special in the code, and not here either.
-/
import Verif.Model.StrictlyPeriodic
import Verif.Model.StartTimes

set_option autoImplicit false

namespace Kiter

/-- `models::Scheduling` as built by its four argument constructor (models/Scheduling.h:64-70): graph period, task
schedules, critical edges. The initial starts are empty for every strictly periodic schedule
(CSDF_SPeriodicScheduling.cpp:48). -/
structure SPResult where
  omega : ℚ
  tasks : List TaskSchedule
  critical : List BChannel

/-- The events of the graph, one per task, in the order they are added (csdf_strictly_periodic.cpp:22-25). -/
def spEvents (B : BaseGraph) : List Event := B.tasks.map fun t : KTask => (⟨t.id, 1, 1⟩ : Event)

/-- `CSDF_SPeriodicScheduling` (CSDF_SPeriodicScheduling.cpp:19-62): the exact event graph (the default of
`use_max_duration`, algorithms/throughput/csdf_strictly_periodic.h), its minimum cycle ratio, the channels of the
critical circuit (lines 32-42: looked up by id, ids that are no channel are skipped), `omega = 1 / ratio`, the starting
times for it, and for every task the period `omega / Ni` with the single start of its event. The map from task ids is
listed in graph order. -/
def spSchedule (solve : List EvConstraint → Option (ℚ × List EvConstraint)) (B : BaseGraph) : Option SPResult := do
  let cs ← generateSP B false
  let r ← solve cs
  if r.1 = 0 then none
  else
    let ω := 1 / r.1
    let S := (computeStartingTime (spEvents B) cs (some ω)).2
    let tasks ← B.tasks.mapM fun t =>
      if t.ni = 0 then none
      else do
        let s ← eventStart (spEvents B) S ⟨t.id, 1, 1⟩
        pure (⟨t.id, ω / t.ni, [s]⟩ : TaskSchedule)
    pure ⟨ω, tasks, criticalEdges B r.2⟩

end Kiter
