/-
Model of the chart of a schedule (src/libkiter/models/Scheduling.cpp: `asASCIINewNew`, lines 54-152, which `asASCII`,
line 215, returns).

A line is the text after `"<task id> |"`. `TIME_UNIT` is `ℚ`. The number of columns (`line_size`, an `int`) is a `ℕ`:
negative line sizes are not modelled.
-/
import Verif.Model.StartTimes

set_option autoImplicit false

namespace Kiter
namespace Chart

/-- Entry of the schedule for a task (models/Scheduling.h:17-22, `task_schedule_t`). -/
structure Entry where
  init : List ℚ
  period : ℚ
  starts : List ℚ
deriving Repr, DecidableEq

/-- `std::string(x, c)` with a `TIME_UNIT` count: the conversion to `size_t` truncates, and is undefined when the
truncated value is negative (Scheduling.cpp:76, 78, 84, 98, 100, 107, 114, 118, 121). -/
def fill (x : ℚ) (c : Char) : Option (List Char) :=
  if x ≤ -1 then none else some (List.replicate x.floor.toNat c)

/-- State of the drawing loops: text so far, `prev` and `exec_idx`. -/
structure Pen where
  text : List Char
  prev : ℚ
  idx : ℕ

/-- `'@'` followed by `phases[exec_idx % phase_count] - 1` times `'#'` (Scheduling.cpp:78-80, 100-102, 114-116). A task
without phases divides by zero. -/
def exec (phases : List ℚ) (idx : ℕ) : Option (List Char) := do
  let d ← phases[idx % phases.length]?
  let e ← fill (d - 1) '#'
  pure ('@' :: e)

/-- The two loops over starts (Scheduling.cpp:75-83 and 97-105): spaces up to the start, then the execution.
`prev = i + exec.size()`, where `exec` is the part after the `'@'`. -/
def drawStarts (phases : List ℚ) : List ℚ → Pen → Option Pen
  | [], s => some s
  | i :: l, s => do
    let sp ← fill (i - s.prev - 1) ' '
    let e ← exec phases s.idx
    drawStarts phases l ⟨s.text ++ sp ++ e, i + ((e.length : ℚ) - 1), s.idx + 1⟩

/-- The `while (exec_idx % phase_count != 0)` loop (Scheduling.cpp:112-131): text, `phase_idx` and `exec_idx`. The
bound is the number of phases, which the loop cannot exceed; running out of it is `none`. -/
def lookAhead (phases : List ℚ) (period : ℚ) (starts : List ℚ) : ℕ → List Char → ℕ → ℕ → Option (List Char)
  | 0, text, _, idx => if idx % phases.length = 0 then some text else none
  | fuel + 1, text, ph, idx =>
    if idx % phases.length = 0 then some text
    else do
      let i ← starts[ph % starts.length]?
      let first ← starts.head?
      let last ← starts.getLast?
      let e ← exec phases idx
      let gap ← if i = last then fill (period + first - (i + ((e.length : ℚ) - 1)) - 1) ' ' else fill (i - i) ' '
      lookAhead phases period starts fuel (text ++ e ++ gap) (ph + 1) (idx + 1)

/-- `while (linesize > 0)`: the text of a period is repeated, cut at the end of the line (Scheduling.cpp:134-142). With
an empty text the loop would not end: `none`. -/
def repeatText (p : List Char) : ℕ → ℕ → Option (List Char)
  | _, 0 => some []
  | 0, _ + 1 => none
  | fuel + 1, n + 1 =>
    if p.length ≤ n + 1 then (repeatText p fuel (n + 1 - p.length)).map (p ++ ·) else some (p.take (n + 1))

/-- The text of a period, completed by looking ahead when there are more phases than starts (Scheduling.cpp:109-132). -/
def complete (phases : List ℚ) (s : Entry) (text : List Char) (idx : ℕ) : Option (List Char) :=
  if s.starts.length < phases.length then lookAhead phases s.period s.starts phases.length text 0 idx else some text

/-- The line of a task (Scheduling.cpp:61-148): initial starts and the spaces up to the first periodic start, cut to
the line; then the text of a period, completed for all phases, repeated. `pedstarts[0]` of a task without periodic
starts is undefined (line 84). -/
def drawLine (phases : List ℚ) (s : Entry) (lineSize : ℕ) : Option (List Char) := do
  let a ← drawStarts phases s.init ⟨[], -1, 0⟩
  let first ← s.starts.head?
  let lead ← fill (first - a.prev - 1) ' '
  let startText := a.text ++ lead
  let rest := lineSize - startText.length
  let b ← drawStarts phases s.starts ⟨[], first - 1, a.idx⟩
  let trail ← fill (s.period + first - b.prev - 1) ' '
  let p ← complete phases s (b.text ++ trail) b.idx
  let body ← repeatText p rest rest
  pure (startText.take lineSize ++ body)

end Chart
end Kiter
