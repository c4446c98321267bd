/-
Model of the drawing of a K-periodic schedule: `algorithms::print_schedule`
(src/libkiter/algorithms/throughput/kperiodic.cpp:57-147), the text printed by the periodic throughput commands when
they are asked to print (kperiodic.cpp:152-160, 242, 780).

The text is a sequence of macro calls of tools/latex_sample/scheduling.sty.  The model keeps the arguments of the calls
and drops colours, comments and the spelling of numbers and names; a task is named by its id.  `TIME_UNIT` is `ℚ`.
-/
import Verif.Model.StartTimes
import Mathlib.Data.List.Sort
import Mathlib.Data.Rat.Floor

set_option autoImplicit false

namespace Kiter.Tikz

/-- The two macro calls that draw executions (kperiodic.cpp:126-139): `\addexecution{row}{}{duration}{start}` and
`\addperiodictask{row}{}{duration}{start}{period}{last}`. -/
inductive Cmd where
  | exec (row : ℕ) (duration start : ℚ)
  | periodic (row : ℕ) (duration start period : ℚ) (last : Int)
deriving DecidableEq, Repr

/-- The whole text (kperiodic.cpp:95-146): the four arguments of `\begin{scheduling}` in the order they are written,
the arguments of the `\taskname` calls, and the calls that draw executions. -/
structure Drawing where
  count : ℕ
  range : ℚ
  scale : ℚ
  tick : ℚ
  names : List (ℕ × Int)
  cmds : List Cmd
deriving DecidableEq, Repr

/-- What the two loops over the events read for an event (kperiodic.cpp:70-78 and 117-123): task id, start, duration
of the phase, period of the task and repetition count of the task. -/
structure Rec where
  id : Int
  start : ℚ
  duration : ℚ
  period : ℚ
  ni : Int
deriving DecidableEq, Repr

/-- Reads of one event (kperiodic.cpp:70-78).  The task is looked up by its id; a repetition count of zero or a period
of zero makes a later division by zero and is `none`. -/
def record (g : KGraph) (ω : ℚ) (S : Event → ℚ) (e : Event) : Option Rec := do
  let tk ← g.tasks.find? fun tk => tk.1.id = e.task
  let d ← phaseDuration tk.1 e.phase
  let period := (tk.2 : ℚ) * tk.1.durations.length * ω / tk.1.ni
  if tk.1.ni = 0 ∨ period = 0 then none
  else some ⟨e.task, S e, d, period, tk.1.ni⟩

/-- `start + period * repeat` with `repeat = Ni * 2` (kperiodic.cpp:63, 79-80). -/
def Rec.last (r : Rec) : ℚ := r.start + r.period * ((r.ni * 2 : Int) : ℚ)

/-- `maxtime` (kperiodic.cpp:65, 80): the largest of these dates, at least 0. -/
def maxTime (recs : List Rec) : ℚ := recs.foldl (fun m r => max m r.last) 0

/-- The comparison of the sort (kperiodic.cpp:84-87), made reflexive: by start, then by task id. -/
def le (a b : Int × ℚ) : Prop := a.2 < b.2 ∨ (¬ b.2 < a.2 ∧ a.1 ≤ b.1)

instance : DecidableRel le := fun _ _ => inferInstanceAs (Decidable (_ ∨ _))

/-- `ordered_edges` after the sort (kperiodic.cpp:67, 81-87).  Elements the sort cannot tell apart are equal, so the
order chosen by `std::sort` is this one. -/
def ordered (recs : List Rec) : List (Int × ℚ) := (recs.map fun r => (r.id, r.start)).insertionSort le

/-- `if not found, new_task_ids[ti] = new_task_ids.size()` (kperiodic.cpp:90-95): since C++17 the right side is
evaluated before the element is created, so the first task gets row 0. -/
def addRow (rows : List (Int × ℕ)) (p : Int × ℚ) : List (Int × ℕ) :=
  if p.1 ∈ rows.map Prod.fst then rows else rows ++ [(p.1, rows.length)]

/-- `new_task_ids` (kperiodic.cpp:89-95). -/
def rowsOf (recs : List Rec) : List (Int × ℕ) := (ordered recs).foldl addRow []

/-- The `\taskname` calls (kperiodic.cpp:106-114). -/
def nameCalls (g : KGraph) (rows : List (Int × ℕ)) : List (ℕ × Int) :=
  g.tasks.filterMap fun tk => (rows.lookup tk.1.id).map fun r => (r, tk.1.id)

/-- `repeat` (kperiodic.cpp:124). -/
def repeats (maxtime : ℚ) (r : Rec) : Int := ⌊(maxtime - r.start - r.period) / r.period⌋

/-- The calls written for an event (kperiodic.cpp:126-143). -/
def eventCalls (rows : List (Int × ℕ)) (maxtime : ℚ) (r : Rec) : List Cmd :=
  match rows.lookup r.id with
  | none => []
  | some row =>
    [.exec row r.duration r.start,
     .periodic row r.duration (r.start + r.period) r.period (repeats maxtime r - 1)]

/-- `print_schedule` (kperiodic.cpp:57-147) on the event graph of `g` (kperiodic.cpp:154).  `res = 0` makes the period
infinite and is `none`. -/
def printSchedule (g : KGraph) (res : ℚ) : Option Drawing :=
  if res = 0 then none
  else do
    let cs ← eventGraph g
    let ω := 1 / res
    let S := (computeStartingTime (graphEvents g) cs (some ω)).2
    let recs ← (graphEvents g).mapM (record g ω S)
    let maxtime := maxTime recs
    let rows := rowsOf recs
    some ⟨g.tasks.length, 0, maxtime / 7, maxtime, nameCalls g rows, recs.flatMap (eventCalls rows maxtime)⟩

end Kiter.Tikz
