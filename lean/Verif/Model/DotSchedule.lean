/-
Model of the drawing of a schedule as a graph for Graphviz: `printers::PeriodicScheduling2DOT` and `add_block`
(src/libkiter/printers/stdout.cpp:13-111).

The text is a sequence of nodes with their attributes.  The model keeps the names, sizes, positions and the filling, and
drops comments, fonts and the spelling of numbers.  `TIME_UNIT` and `double` are `ℚ`.
-/
import Verif.Model.Text
import Mathlib.Data.Rat.Floor
import Mathlib.Algebra.Order.Ring.Rat

set_option autoImplicit false

namespace Kiter.DotSched
open Kiter.Text

/-- What the function reads of a task: name, repetition count, durations of its initial and periodic phases
(stdout.cpp:46-51, 80, 94-95) and its entry in the schedule, period and starts (stdout.cpp:49-51, 66-67). -/
structure Task where
  name : Str
  ni : ℕ
  initDurations : List ℚ
  durations : List ℚ
  period : ℚ
  starts : List ℚ

/-- A node of the drawing (stdout.cpp:15-18, 71): name, sizes in inches, position of its centre in points. -/
structure Node where
  name : Str
  width : ℚ
  height : ℚ
  x : ℚ
  y : ℚ
  fill : Bool
deriving DecidableEq

/-- `add_block` (stdout.cpp:13-20). -/
def block (name : Str) (start duration height y : ℚ) (fill : Bool) : Node :=
  ⟨name ++ ['0'], duration / 72, height, start + duration / 2, y, fill⟩

/-- Conversion of a `TIME_UNIT` to an `int` (no overflow). -/
def trunc (x : ℚ) : Int := if 0 ≤ x then ⌊x⌋ else ⌈x⌉

/-- `getVertexTotalDuration` (models/Dataflow.h:868-872): `std::accumulate` from the `int` 0. -/
def totalDuration (l : List ℚ) : Int := l.foldl (fun (s : Int) (d : ℚ) => trunc ((s : ℚ) + d)) 0

/-- The dates compared for a task when no bound is given (stdout.cpp:53-57). -/
def ends (t : Task) : List ℚ :=
  (List.range (t.ni / t.starts.length)).flatMap fun (iter : ℕ) =>
    t.starts.map fun (s : ℚ) => (totalDuration t.durations : ℚ) + (s + t.period * (iter : ℚ))

/-- `last_execution_end_at` when it is given as 0 (stdout.cpp:43-59).  A task without starts divides by zero, one without
durations fails an assertion: `none`. -/
def bound (tasks : List Task) : Option ℚ :=
  if ∃ t ∈ tasks, t.starts.length = 0 ∨ t.durations.length = 0 then none
  else some ((tasks.flatMap ends).foldl max 0)

/-- The date up to which executions are drawn (stdout.cpp:43-59). -/
def dateFor (tasks : List Task) (last : ℚ) : Option ℚ := if last = 0 then bound tasks else some last

/-- The blocks of the initial phases (stdout.cpp:78-85). -/
def initBlocks (xscale height y : ℚ) (t : Task) : Option (List Node) :=
  (List.range t.initDurations.length).mapM fun (i : ℕ) => do
    let start ← t.starts[i]?
    let d ← t.initDurations[i]?
    some (block (t.name ++ dec i) (xscale * start) (xscale * d) height y true)

/-- One block of the inner loop (stdout.cpp:93-102); `idx` is `execution_index` at the beginning of the pattern. -/
def patternBlock (xscale height y : ℚ) (t : Task) (iter idx i : ℕ) : Option Node := do
  let sidx := t.initDurations.length + i
  let d ← t.durations[sidx % t.durations.length]?
  let start ← t.starts[sidx]?
  some (block (t.name ++ dec (idx + i)) (xscale * (start + t.period * (iter : ℚ))) (xscale * d) height y (iter == 0))

/-- The inner loop (stdout.cpp:92-103). -/
def patternBlocks (xscale height y : ℚ) (t : Task) (iter idx : ℕ) : Option (List Node) :=
  (List.range (t.starts.length - t.initDurations.length)).mapM (patternBlock xscale height y t iter idx)

/-- The outer loop (stdout.cpp:91-104); `n` bounds its turns, `none` beyond.  Reading `starts` out of its range is `none`. -/
def loop (xscale height y last : ℚ) (t : Task) : ℕ → ℕ → ℕ → Option (List Node)
  | 0, _, _ => none
  | n + 1, iter, idx => do
    let first ← t.starts[t.initDurations.length]?
    if first + t.period * (iter : ℚ) < last then
      let b ← patternBlocks xscale height y t iter idx
      let r ← loop xscale height y last t n (iter + 1) (idx + b.length)
      some (b ++ r)
    else some []

/-- What is drawn for a task (stdout.cpp:62-107): a label and blocks. -/
structure Row where
  label : Str
  y : ℚ
  blocks : List Node
deriving DecidableEq

/-- The body of the loop over the tasks (stdout.cpp:62-107); `idx` is the rank of the task, `fontsize` is 4. -/
def row (xscale yscale height last : ℚ) (n : ℕ) (t : Task) (idx : ℕ) : Option Row := do
  let y : ℚ := yscale * -(4 + 1) * (idx : ℚ)
  let a ← initBlocks xscale height y t
  let b ← loop xscale height y last t n 0 a.length
  some ⟨t.name, y, a ++ b⟩

/-- `PeriodicScheduling2DOT` (stdout.cpp:22-111).  `static` is the value kept by the variable `static double node_height`
(stdout.cpp:29), which is initialised by the first call only; the result has its value after the call. -/
def render (static : Option ℚ) (tasks : List Task) (last xscale yscale : ℚ) (n : ℕ) : Option (List Row × Option ℚ) := do
  let height := static.getD (yscale * (1 / 20))
  let last ← dateFor tasks last
  let rows ← (tasks.zipIdx).mapM fun (p : Task × ℕ) => row xscale yscale height last n p.1 p.2
  some (rows, some height)

end Kiter.DotSched
