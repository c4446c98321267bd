/-
Model of the whole command BufferlessNoCMapAndRoute (src/libkiter/algorithms/mapping/BufferlessNoCMapAndRoute.cpp): the order of
the tasks by an untimed execution (`generate_task_order`), the graph without circuits (CircuitCut.lean), the placement
(Placement.lean).

Simplifications: those of these files and of Untimed.lean; identifiers are not negative. The check that the graph has a
K-periodic schedule of finite period (lines 313-320), which stops the command before, is left out.
-/
import Verif.Model.Untimed
import Verif.Model.CircuitCut

set_option autoImplicit false

namespace Kiter.Cut

open Untimed BMap

/-- A task in the loop of `generate_task_order` (BufferlessNoCMapAndRoute.cpp:73-101): the same test and effects as in
`symbolic_execution`, and the task is appended to `prog_order` the first time. -/
def visitO (B : BaseGraph) (s : Exec × List Int) (t : KTask) : Exec × List Int :=
  if canExecute B s.1 t then (execute B s.1 t, if t.id ∈ s.2 then s.2 else s.2 ++ [t.id]) else s

/-- `n` turns of `while (total > 0)` (lines 71-103), or less. -/
def passesO (B : BaseGraph) (s : Exec × List Int) : ℕ → Exec × List Int
  | 0 => s
  | n + 1 => if 0 < (passesO B s n).1.total then B.tasks.foldl (visitO B) (passesO B s n) else passesO B s n

/-- `generate_task_order` (lines 48-106), if the loop ends within `n` turns. -/
def taskOrder (B : BaseGraph) (n : ℕ) : Option (List Int) :=
  let s := passesO B (Untimed.start B 1, []) n
  if 0 < s.1.total then none else some s.2

/-- The ids of the tasks. -/
def taskIds (B : BaseGraph) : List ℕ := B.tasks.map fun t => t.id.toNat

/-- The channels. -/
def chans (B : BaseGraph) : List Chan := B.channels.map fun c => ⟨c.1.id.toNat, c.2.1.id.toNat, c.2.2.id.toNat⟩

/-- `addVertex` (models/Dataflow.h:363-367): the id of `start` is one more than those of the tasks (it may be larger if vertices
were removed before). -/
def startId (B : BaseGraph) : ℕ := (taskIds B).foldl max 0 + 1

/-- `BufferlessNoCMapAndRoute` (BufferlessNoCMapAndRoute.cpp:195-267, 299-413) for `n` turns of `generate_task_order`, with
the number of entries of `visited` in `removeCycleEdges` and the table of the utilisation of the links. -/
def commandWith (size : ℕ) (table : ℕ → List Int) (B : BaseGraph) (n : ℕ) (pick : ℕ → List ℕ → ℕ) (meshsize : Int)
    (before : ℕ → Int) : Option ((ℕ → Int) × (ℕ → Option (List Int))) :=
  (taskOrder B n).bind fun prog =>
    (orderGraphWith size (taskIds B) (chans B) (prog.map Int.toNat) (startId B)).bind fun dag =>
      mapAndRouteWith table (taskIds B) (chans B) dag (startId B) pick meshsize before

/-- The same with the sizes of the code. -/
def command (B : BaseGraph) (n : ℕ) (pick : ℕ → List ℕ → ℕ) (meshsize : Int) (before : ℕ → Int) :
    Option ((ℕ → Int) × (ℕ → Option (List Int))) :=
  commandWith B.tasks.length cleared B n pick meshsize before

end Kiter.Cut
