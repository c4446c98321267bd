/-
Model of the merging of tasks along a schedule,
/repo/src/libkiter/algorithms/transformation/merging.cpp 171-693.

Simplifications.
* `TIME_UNIT` (`long double`) is `ℚ`; counts and indices, which are never negative here, are `Nat`.
* `original_tasks`, a `std::map` from task id to the stored data, is the list of the stored data in
  the order of the ids.
* A failed assertion, an index out of bounds and a division by zero are `none`.
* Editing the graph (removal of the old tasks, creation of the merged one) is that of the graph
  interface modelled in Model/Dataflow.lean; here only the vectors that are given to the new task
  and to its channels are computed.
-/
import Mathlib.Data.List.Basic
import Mathlib.Data.Rat.Defs
import Mathlib.Algebra.Order.Ring.Rat
import Mathlib.Logic.Function.Basic

set_option autoImplicit false

namespace Kiter.Merging

/-- merging.cpp 171-190, `vertex_infos`: `init` and `per` are the numbers of initial and periodic
phases, `durations` the durations of both, one after the other. -/
structure Task where
  id : Nat
  init : Nat
  per : Nat
  durations : List ℚ
  period : ℚ
  starts : List ℚ
  ni : Nat

/-- merging.cpp 245-247: the loop over the periodic part; `todo` values remain. -/
def cycleFrom (periodic : List Int) : Nat → Nat → Option (List Int)
  | 0, _ => some []
  | todo + 1, i =>
    if periodic.length = 0 then none
    else
      match periodic[i % periodic.length]? with
      | none => none
      | some v => (cycleFrom periodic todo (i + 1)).map fun l => v :: l

/-- merging.cpp 234-251, `produce_sequence`. -/
def produceSequence (init periodic : List Int) (n : Nat) : Option (List Int) :=
  if init.length + periodic.length ≤ n then
    match cycleFrom periodic (n - init.length) 0 with
    | none => none
    | some l => if (init ++ l).length = n then some (init ++ l) else none
  else none

/-- merging.cpp 253-272, `get_next_execution_time`. -/
def nextTime (t : Task) (index : Nat) : Option ℚ :=
  if index < t.starts.length then t.starts[index]?
  else
    let periodicIndex := index - t.init
    let m := t.starts.length - t.init
    if m = 0 then none
    else
      match t.starts[t.init + periodicIndex % m]? with
      | none => none
      | some s => some (s + (periodicIndex / m : Nat) * t.period)

/-- merging.cpp 274-281, `task_execution_t`. -/
structure Exec where
  task : Nat
  iter : Nat
  time : ℚ
  deriving DecidableEq

/-- merging.cpp 372-386: the candidate with the smallest time, the last one of equals; `none` inside
stands for the initial infinite time. -/
def pick (count : Nat → Nat) : List Task → Option (ℚ × Nat) → Option (Option (ℚ × Nat))
  | [], best => some best
  | t :: l, best =>
    match nextTime t (count t.id) with
    | none => none
    | some time =>
      pick count l (match best with
        | none => some (time, t.id)
        | some (b, i) => if time ≤ b then some (time, t.id) else some (b, i))

/-- merging.cpp 396-405: some task has not been executed often enough. -/
def dontStop (tasks : List Task) (count : Nat → Nat) : Bool :=
  tasks.any fun t => decide (count t.id < t.init + t.per * t.ni)

/-- merging.cpp 368-406: the loop that lists the executions in the order of their start times; the
first argument bounds the number of rounds, `none` when it is reached.  An execution of no task
(`next_id` still -1) is `none`. -/
def schedule (tasks : List Task) : Nat → (Nat → Nat) → List Exec → Option (List Exec)
  | 0, _, _ => none
  | fuel + 1, count, seq =>
    match pick count tasks none with
    | some (some (time, id)) =>
      let seq := seq ++ [⟨id, count id, time⟩]
      let count := Function.update count id (count id + 1)
      if dontStop tasks count then schedule tasks fuel count seq else some seq
    | _ => none

/-- merging.cpp 360-406: from the start. -/
def executionSequence (tasks : List Task) (fuel : Nat) : Option (List Exec) :=
  schedule tasks fuel (fun _ => 0) []

/-- merging.cpp 311, 321: greatest common divisor of the repetition factors. -/
def gcdNi (tasks : List Task) : Nat := tasks.foldl (fun g t => Nat.gcd g t.ni) 0

/-- How often a task occurs. -/
def countIn (l : List Exec) (id : Nat) : Nat := l.countP fun e => decide (e.task = id)

/-- merging.cpp 447-472: the tests on the number of executions of each task; the second argument is
`factor`.  `true` is `not need_to_continue`. -/
def okCounts (g : Nat) (l : List Exec) : Nat → List Task → Option Bool
  | _, [] => some true
  | factor, t :: ts =>
    if g = 0 then none
    else
      let ratio := t.ni / g
      let c := countIn l t.id
      if ratio = 0 then none
      else
        let factor' := if factor = 0 then c / ratio else factor
        let good := decide (c ≠ 0) && decide (c % ratio = 0) && decide (c = ratio * factor')
        match okCounts g l factor' ts with
        | none => none
        | some r => some (good && r)

/-- merging.cpp 427-478: from the end, the shortest suffix that passes; the argument is
`init_phase_count + 1`, and `none` at 0 is the failed assertion of line 478. -/
def findInit (tasks : List Task) (seq : List Exec) : Nat → Option Nat
  | 0 => none
  | c + 1 =>
    match okCounts (gcdNi tasks) (seq.drop c) 0 tasks with
    | none => none
    | some true => some c
    | some false => findInit tasks seq c

/-- merging.cpp 486-502: the pattern is searched at all earlier places at a distance that is a
multiple of its length; the earliest one counts.  `operator==` of line 284 compares task ids only. -/
def reduceInit (seq : List Exec) (pattern : List Nat) : Nat → Nat → Nat → Nat
  | 0, _, new => new
  | fuel + 1, e, new =>
    let new := if ((seq.drop e).take pattern.length).map Exec.task = pattern then e else new
    if e < pattern.length then new else reduceInit seq pattern fuel (e - pattern.length) new

/-- merging.cpp 425-507: the number of initial phases and the sequence of the merged task. -/
def choosePattern (tasks : List Task) (seq : List Exec) : Option (Nat × List Exec) :=
  if seq.length = 0 then none
  else
    match findInit tasks seq seq.length with
    | none => none
    | some c =>
      let pattern := (seq.drop c).map Exec.task
      let e := reduceInit seq pattern (c + 1) c c
      some (e, seq.take (e + pattern.length))

/-- merging.cpp 527-543 and 552-568: the rates of a channel of task `id`, one for each execution of
the merged task. -/
def mergedRates (seq : List Exec) (id : Nat) (init periodic : List Int) : Option (List Int) :=
  match produceSequence init periodic seq.length with
  | none => none
  | some prev => seq.mapM fun e => if e.task = id then prev[e.iter]? else some 0

/-- merging.cpp 585: the duration of one execution. -/
def durationOf (t : Task) (phase : Nat) : Option ℚ :=
  if phase < t.durations.length then t.durations[phase]?
  else if t.per = 0 then none
  else t.durations[t.init + (phase - t.init) % t.per]?

/-- merging.cpp 573-596: the durations of the merged task, initial and periodic. -/
def mergedDurations (tasks : List Task) (e : Nat) (seq : List Exec) : Option (List ℚ × List ℚ) :=
  (seq.mapM fun (x : Exec) =>
    (tasks.find? fun (t : Task) => decide (t.id = x.task)).bind fun t => durationOf t x.iter).map
    fun l => (l.take e, l.drop e)

/-- merging.cpp 634-636 and 678-680: the rates are cut at the number of initial phases. -/
def cutRates (e : Nat) (rates : List Int) : List Int × List Int := (rates.take e, rates.drop e)

/-- merging.cpp 289-507: the assertion that no merged task has initial phases, the sequence of
executions and the choice of the pattern: the number of initial phases of the merged task and its
executions. -/
def mergeSequence (tasks : List Task) (fuel : Nat) : Option (Nat × List Exec) :=
  if tasks.all fun t => decide (t.init = 0) then
    match executionSequence tasks fuel with
    | none => none
    | some seq => choosePattern tasks seq
  else none

end Kiter.Merging
