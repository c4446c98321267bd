/-
Model of the throughput commands with a fixed periodicity vector: 1Periodic, 2Periodic, NPeriodic (`KSchedule`), EG1, EGN,
and the kperiodic printing command.
-/
import Verif.Model.KIter

set_option autoImplicit false

namespace Kiter

/-- `generateKPeriodicVector(dataflow,k)` (scheduling/CSDF_KPeriodicScheduling.cpp:31-38), `generate1PeriodicVector`
(26-28), the loop of `compute_2Kperiodic_throughput` (throughput/kperiodic.cpp:753-756). -/
def constVector (k : ℕ) : Int → ℕ := fun _ => k

/-- `generateNPeriodicVector` (scheduling/CSDF_KPeriodicScheduling.cpp:15-23) and the loop of `compute_NKperiodic_throughput`
(throughput/kperiodic.cpp:728-741): the whole repetition count `Ni`, which counts phases. Ids without task do not occur. -/
def nVector (B : BaseGraph) : Int → ℕ := fun i =>
  match B.tasks.find? fun t => t.id == i with
  | some t => t.ni.toNat
  | none => 1

/-- `print_kperiodic_scheduling` (throughput/kperiodic.cpp:226-232): 1 unless the parameter list gives a value for the task. -/
def paramVector (params : List (Int × ℕ)) : Int → ℕ := fun i =>
  match params.find? fun p => p.1 == i with
  | some p => p.2
  | none => 1

/-- `KSchedule(dataflow,kvector)` (throughput/kperiodic.cpp:243-290), also `CSDF_1PeriodicThroughput` and
`CSDF_NPeriodicThroughput` (scheduling/CSDF_KPeriodicScheduling.cpp:267-283, 305-321): event graph, cycle ratio, channels of
the critical circuit. The bound on the ratio is not used by these commands. -/
def kSchedule (solve : List EvConstraint → Option (ℚ × List EvConstraint)) (B : BaseGraph) (K : Int → ℕ) :
    Option (ℚ × List BChannel) := do
  let cs ← eventGraph (B.withK K)
  let r ← solve cs
  pure (r.1, criticalEdges B r.2)

end Kiter
