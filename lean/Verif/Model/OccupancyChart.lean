import Mathlib.Data.Rat.Floor

/-!
# The occupancy chart printed by SoftwareControlledNoCBufferless

Models the last loop of `software_noc_bufferless` (src/libkiter/algorithms/software_noc.cpp:2372-2395): for each task of the
schedule a line of fifty characters, `#` where the task is said to execute.
Simplifications: `TIME_UNIT` is ℚ; the number of the task and the padding in front of the line are left out. `none` is a
failed assertion or an undefined remainder by zero.
-/

set_option autoImplicit false

namespace Kiter.OccChart

/-- What the loop reads of a task: its entry of the schedule and the durations of its phases
(software_noc.cpp:2377-2379, 2385). -/
structure Entry where
  initialStarts : List ℚ
  period : ℚ
  starts : List ℚ
  durations : List ℚ

/-- `execute_here` (software_noc.cpp:2386-2387).  With a period of zero the quotient is infinite, as `time > s`, and
`normalize` is minus infinity, so that the comparison with zero fails. -/
def executeHere (period s duration time : ℚ) : Bool :=
  if time > s then
    if period = 0 then false
    else
      let normalize := (time - s) - ((time - s) / period)
      decide (0 ≤ normalize) && decide (normalize < duration)
  else
    let normalize := time - s
    decide (0 ≤ normalize) && decide (normalize < duration)

/-- The loop over the starts, from index `sidx` on (software_noc.cpp:2383-2389): the duration is the one of phase
`1 + sidx % phases`, the remainder is undefined without phases. -/
def executeFrom (period : ℚ) (durations : List ℚ) (time : ℚ) : ℕ → List ℚ → Bool → Option Bool
  | _, [], execute => some execute
  | sidx, s :: rest, execute =>
    if durations.length = 0 then none
    else do
      let duration ← durations[sidx % durations.length]?
      executeFrom period durations time (sidx + 1) rest (execute || executeHere period s duration time)

/-- One character of the line (software_noc.cpp:2381-2390). -/
def cell (e : Entry) (time : ℕ) : Option Char := do
  let execute ← executeFrom e.period e.durations (time : ℚ) 0 e.starts false
  pure (if execute then '#' else ' ')

/-- The loop over the times from `time` on, `n` turns left (software_noc.cpp:2381-2391). -/
def lineFrom (e : Entry) : ℕ → ℕ → Option (List Char)
  | _, 0 => some []
  | time, n + 1 => do
    let c ← cell e time
    let rest ← lineFrom e (time + 1) n
    pure (c :: rest)

/-- The line of a task (software_noc.cpp:2373-2392). -/
def line (e : Entry) : Option (List Char) :=
  if e.initialStarts.length = 0 then lineFrom e 0 50 else none

end Kiter.OccChart
