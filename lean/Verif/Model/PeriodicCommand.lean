/-
Model of the commands `PeriodicSizing` (`compute_csdf_1periodic_memory`, algorithms/buffersizing/periodic.cpp:21-56) and
`SPeriodicSizing` (`compute_strictly_periodic_memory`, buffersizing/periodic_fixed.cpp:72-111): how the period is chosen and what
is printed.

Simplifications: `TIME_UNIT` is `ℚ`, so that the quotient `1 / result.throughput` is infinite only for the throughput 0, and never
zero; the branch `else` of lines 43-45 (a period that is zero) is therefore not reached, as in the code it needs an infinite
throughput. The two solvers (cycle ratio and linear program) are parameters.
-/
import Verif.Model.FixedK
import Verif.Model.FixedOffsets
import Verif.Model.PeriodicSizing

set_option autoImplicit false

namespace Kiter.PSize

/-- The choice of the period (periodic.cpp:24, 34-42, periodic_fixed.cpp:78, 87-94): `given` is the parameter `PERIOD`, 0 when
there is none. The assertion `MIN_PERIOD <= period` comes before the test `period == 0`. `none` is a failed assertion; an infinite
`MIN_PERIOD` fails it for every period. -/
def choosePeriod (given : Option ℚ) (throughput : ℚ) : Option ℚ :=
  let period := given.getD 0
  if throughput = 0 then none
  else
    let minPeriod := 1 / throughput
    if minPeriod ≤ period then
      if period = 0 then some minPeriod else some period
    else none

/-- What is printed (periodic.cpp:48-55): the size, also in the sum with twice the number of tasks, or `No solution`. -/
inductive Report where
  | size (total withTasks : Int)
  | noSolution
deriving DecidableEq, Repr

/-- `PeriodicSizing` (periodic.cpp:21-56). `none`: an assertion fails. -/
def periodicCommand (mcr : List EvConstraint → Option (ℚ × List EvConstraint)) (lp : List LPRow → Option (LPVar → ℚ))
    (B : BaseGraph) (tokenSizes : List Int) (given : Option ℚ) (ilp genOnly : Bool) : Option Report := do
  let r ← kSchedule mcr B (constVector 1)
  let period ← choosePeriod given r.1
  let rows ← periodicRows B period
  let res ← periodicResult B tokenSizes ilp genOnly (lp rows)
  if res.valid then pure (.size res.total (res.total + 2 * B.tasks.length)) else pure .noSolution

/-- `SPeriodicSizing` (periodic_fixed.cpp:72-111): the answer of the generator of offsets is ignored, and the size is printed whether
the result is valid or not. -/
def strictCommand (mcr : List EvConstraint → Option (ℚ × List EvConstraint)) (lp : List LPRow → Option (LPVar → ℚ))
    (B : BaseGraph) (tokenSizes : List Int) (given : Option ℚ) (ilp genOnly : Bool) : Option Report := do
  let r ← kSchedule mcr B (constVector 1)
  let period ← choosePeriod given r.1
  if period ≤ 0 then none
  else
    let o ← strictlyPeriodicOffsets B period
    checkOffsets period o.2 B.tasks
    let rows ← fixedRows B (Offsets.get o.2) period
    let res ← fixedResult B tokenSizes ilp genOnly (lp rows)
    pure (.size res.total (res.total + 2 * B.tasks.length))

end Kiter.PSize
