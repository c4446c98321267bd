/-
Model of the periodic scheduling commands (src/libkiter/algorithms/scheduling/CSDF_KPeriodicScheduling.cpp):
`CSDF_1PeriodicScheduling` (lines 41-98) and `CSDF_KPeriodicScheduling` (lines 101-267).

The cycle ratio solver is a parameter. A ratio 0 makes the period infinite and is `none`; a negative ratio is not special in
`CSDF_1PeriodicScheduling`, and gives an empty schedule in `period2scheduling`.
-/
import Verif.Model.KIter
import Verif.Model.SPSchedule

set_option autoImplicit false

namespace Kiter

/-- `CSDF_1PeriodicScheduling` (CSDF_KPeriodicScheduling.cpp:41-98): event graph for the vector of ones, minimum cycle ratio,
channels of the circuit by id, and the starting times of all events, in the order of the events, put in the entry of
their task. The map from task ids is listed in graph order. -/
def oneScheduling (solve : List EvConstraint → Option (ℚ × List EvConstraint)) (B : BaseGraph) : Option SPResult := do
  let g := B.withK fun _ => 1
  let cs ← eventGraph g
  let r ← solve cs
  if r.1 = 0 then none
  else
    let ω := 1 / r.1
    let S := (computeStartingTime (graphEvents g) cs (some ω)).2
    let tasks ← B.tasks.mapM fun t =>
      if t.ni = 0 then none
      else some (⟨t.id, (((1 : ℕ) : ℚ) * t.durations.length * ω) / t.ni,
        ((graphEvents g).filter fun e => decide (e.task = t.id)).map S⟩ : TaskSchedule)
    pure ⟨ω, tasks, criticalEdges B r.2⟩

/-- The `while (true)` loop (CSDF_KPeriodicScheduling.cpp:177-240): as in the throughput computation, but the critical channels
are kept with the result. Running out of fuel is `some none`. -/
def kschedLoop (solve : List EvConstraint → Option (ℚ × List EvConstraint)) (B : BaseGraph) :
    ℕ → ℕ → (Int → ℕ) → List EvConstraint → List BChannel → ℚ → Option (Option (KIterResult × List BChannel))
  | 0, _, _, _, _, _ => some none
  | fuel + 1, it, K, cs, cc, th =>
    (updateEventGraph B K cc cs).bind fun u =>
      match u with
      | none => some (some (⟨K, th, it + 1⟩, cc))                                      -- line 189
      | some (K', cs') =>
        (solve cs').bind fun r =>
          if sameset (criticalEdges B r.2) cc then some (some (⟨K', r.1, it + 1⟩, criticalEdges B r.2))   -- lines 222-227
          else kschedLoop solve B fuel (it + 1) K' cs' (criticalEdges B r.2) r.1

/-- The vector, the throughput and the critical channels that the scheduling uses (CSDF_KPeriodicScheduling.cpp:119-242). -/
def ksched (solve : List EvConstraint → Option (ℚ × List EvConstraint)) (B : BaseGraph) (fuel : ℕ) :
    Option (Option (KIterResult × List BChannel)) :=
  (eventGraph (B.withK fun _ => 1)).bind fun cs =>
    (solve cs).bind fun r =>
      if (criticalEdges B r.2).isEmpty then some (some (⟨fun _ => 1, r.1, 0⟩, criticalEdges B r.2))
      else kschedLoop solve B fuel 0 (fun _ => 1) cs (criticalEdges B r.2) r.1

/-- `CSDF_KPeriodicScheduling` (CSDF_KPeriodicScheduling.cpp:101-267), with `period2Scheduling` (kperiodic.cpp:163-169). -/
def kpScheduling (solve : List EvConstraint → Option (ℚ × List EvConstraint)) (B : BaseGraph) (fuel : ℕ) :
    Option (Option (SPResult × (Int → ℕ))) :=
  (ksched solve B fuel).bind fun o =>
    match o with
    | none => some none
    | some (k, cc) => (period2scheduling (B.withK k.K) k.throughput).map fun tasks => some (⟨1 / k.throughput, tasks, cc⟩, k.K)

end Kiter
