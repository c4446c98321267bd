/-
Model of the command BufferlessKPeriodicScheduling
(src/libkiter/algorithms/scheduling/bufferLessAwareScheduling.cpp:34-142) without its parameters `do_linear` (returns at
once) and `do_old` (K-Iter, C52). `KScheduleBufferLess` (throughput/kperiodic.cpp:294-341) regenerates the event graph and
solves it; it does not look at the types of the channels. The cycle ratio solver is a parameter.
-/
import Verif.Model.KSchedule

set_option autoImplicit false

namespace Kiter

/-- The `while (true)` loop (bufferLessAwareScheduling.cpp:73-93). `stop` and `prev` are the parameters `stop_at_first` and
`get_previous`. The result is the vector used for the schedule and the throughput printed. Failed assertions are `none`,
running out of fuel is `some none`. -/
def blLoop (solve : List EvConstraint → Option (ℚ × List EvConstraint)) (B : BaseGraph) (stop prev : Bool) :
    ℕ → (Int → ℕ) → List BChannel → ℚ → Option (Option ((Int → ℕ) × ℚ))
  | 0, _, _, _ => some none
  | fuel + 1, K, cc, th =>
    (updateVectorWithLocalNi K cc).bind fun u =>                                            -- line 76
      (eventGraph (B.withK u.1)).bind fun cs =>
        (solve cs).bind fun r =>                                                            -- line 77
          if sameset (criticalEdges B r.2) cc || (stop && decide (0 < th)) then             -- line 78
            if decide (th < r.1) && !prev then some (some (u.1, r.1))                       -- lines 80-81
            else if prev then some (some (K, th))                                           -- lines 82-84
            else some (some (u.1, th))
          else blLoop solve B stop prev fuel u.1 (criticalEdges B r.2) r.1                  -- line 87

/-- The vector and the throughput (bufferLessAwareScheduling.cpp:54-118). The loop is entered when the critical circuit has
a channel and, with `stop_at_first`, the throughput is positive. -/
def blThroughput (solve : List EvConstraint → Option (ℚ × List EvConstraint)) (B : BaseGraph) (stop prev : Bool) (fuel : ℕ) :
    Option (Option ((Int → ℕ) × ℚ)) :=
  (eventGraph (B.withK fun _ => 1)).bind fun cs =>
    (solve cs).bind fun r =>
      if !(criticalEdges B r.2).isEmpty && (!stop || decide (0 < r.1)) then
        blLoop solve B stop prev fuel (fun _ => 1) (criticalEdges B r.2) r.1
      else some (some (fun _ => 1, r.1))

/-- The schedule (bufferLessAwareScheduling.cpp:120-140): starting times for the period `1 / th`, in the order of the events,
put in the entry of their task. The map from task ids is listed in graph order. A throughput 0 makes the period infinite
and is `none`. -/
def blSchedule (B : BaseGraph) (K : Int → ℕ) (th : ℚ) : Option (List TaskSchedule) :=
  if th = 0 then none
  else
    (eventGraph (B.withK K)).bind fun cs =>
      B.tasks.mapM fun t =>
        if t.ni = 0 then none
        else some (⟨t.id, ((K t.id : ℚ) * t.durations.length * (1 / th)) / t.ni,
          ((graphEvents (B.withK K)).filter fun e => decide (e.task = t.id)).map
            (computeStartingTime (graphEvents (B.withK K)) cs (some (1 / th))).2⟩ : TaskSchedule)

/-- `bufferless_kperiodic_scheduling` (bufferLessAwareScheduling.cpp:52-142): throughput printed, vector, schedule. -/
def blScheduling (solve : List EvConstraint → Option (ℚ × List EvConstraint)) (B : BaseGraph) (stop prev : Bool) (fuel : ℕ) :
    Option (Option (ℚ × (Int → ℕ) × List TaskSchedule)) :=
  (blThroughput solve B stop prev fuel).bind fun o =>
    match o with
    | none => some none
    | some (K, th) => (blSchedule B K th).map fun l => some (th, K, l)

end Kiter
