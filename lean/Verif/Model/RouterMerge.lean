/-
Model of the merging of the router tasks of a network
(src/libkiter/algorithms/software_noc.cpp: mergeConfigNodesInit 1432-1611), command SoftwareControlledNoCBufferless.

The K-periodic schedule (lines 1441-1447) is an input: a node comes with the period and the starts the schedule gives it.
`TIME_UNIT` is `ℚ`. The new task and the rates of its channels are the result; the removal and the addition of the
channels themselves (1548-1608) are not modelled.
-/
import Mathlib.Data.List.Sort
import Mathlib.Data.Rat.Defs
import Mathlib.Algebra.Order.Ring.Rat
import Mathlib.Data.Prod.Lex

set_option autoImplicit false

namespace Kiter.Router

/-- A task to merge: identifier, `getNi`, duration, `periodic_starts` of its schedule. -/
structure Node where
  id : Int
  ni : ℕ
  duration : ℚ
  period : ℚ
  starts : List ℚ

/-- An execution: `std::pair<TIME_UNIT, ARRAY_INDEX>`. -/
abbrev Run := ℚ × Int

/-- `operator<` of pairs, as `≤` (used by `std::sort`, software_noc.cpp:1499-1500). -/
def le (a b : Run) : Prop := a.1 < b.1 ∨ (a.1 = b.1 ∧ a.2 ≤ b.2)

instance : DecidableRel le := fun _ _ => inferInstanceAs (Decidable (_ ∨ _))

/-- `starts[k % size] + (k / size) * period` (software_noc.cpp:1481, 1486, 1492); no start: the assertion fails. -/
def startAt (n : Node) (k : ℕ) : Option ℚ :=
  (n.starts[k % n.starts.length]?).map fun s => s + (k / n.starts.length : ℕ) * n.period

/-- `max_start` (software_noc.cpp:1452-1455); a task without start is read out of bounds. -/
def maxStart : List Node → ℚ → Option ℚ
  | [], m => some m
  | n :: l, m => do
    let s ← n.starts[0]?
    maxStart l (max m s)

/-- `gcd_value` (software_noc.cpp:1458-1465). -/
def gcdValue (nodes : List Node) : ℕ := nodes.foldl (fun g n => Nat.gcd g n.ni) 0

/-- `mergeVtxDuration` (software_noc.cpp:1449, 1462). -/
def duration (nodes : List Node) : ℚ := nodes.foldl (fun d n => max d n.duration) 0

/-- The `while` loop (software_noc.cpp:1483-1487): executions before `max_start` and the index of the next one. -/
def initRuns (m : ℚ) (n : Node) : ℕ → ℕ → Option (List Run × ℕ)
  | 0, _ => none
  | fuel + 1, k => do
    let s ← startAt n k
    if s < m then do
      let r ← initRuns m n fuel (k + 1)
      pure ((s, n.id) :: r.1, r.2)
    else pure ([], k)

/-- The `for` loop (software_noc.cpp:1489-1493). -/
def perRuns (n : Node) : ℕ → ℕ → Option (List Run)
  | 0, _ => some []
  | c + 1, k => do
    let s ← startAt n k
    let r ← perRuns n c (k + 1)
    pure ((s, n.id) :: r)

/-- The loop over the nodes (software_noc.cpp:1473-1495): `init_start_times` and `periodic_start_times`. -/
def collectRuns (m : ℚ) (g : ℕ) (fuel : ℕ) : List Node → Option (List Run × List Run)
  | [] => some ([], [])
  | n :: l => do
    let a ← initRuns m n fuel 0
    let b ← perRuns n (n.ni / g) a.2
    let r ← collectRuns m g fuel l
    pure (a.1 ++ r.1, b ++ r.2)

/-- The new task: the executions that are its initial and its periodic phases, and the duration of all of them
(software_noc.cpp:1503-1521). -/
structure Merged where
  init : List Run
  per : List Run
  duration : ℚ
deriving DecidableEq

/-- `periodic_token_vec[vid]`, `init_token_vec[vid]` (software_noc.cpp:1524-1538). -/
def rates (l : List Run) (vid : Int) : List ℕ := l.map fun x => if x.2 = vid then 1 else 0

/-- `mergeConfigNodesInit` (software_noc.cpp:1432-1538). `some none` is the answer `false`. -/
def mergeNodes (fuel : ℕ) (nodes : List Node) : Option (Option Merged) :=
  if nodes.length ≤ 1 then some none
  else do
    let m ← maxStart nodes 0
    let g := gcdValue nodes
    if g = 0 then none
    else do
      let r ← collectRuns m g fuel nodes
      pure (some ⟨r.1.insertionSort le, r.2.insertionSort le, duration nodes⟩)

end Kiter.Router
