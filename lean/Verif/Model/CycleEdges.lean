/-
Model of `DFSUtil_PgmOrder` (src/libkiter/algorithms/software_noc.cpp:233-249) and of `removeCycleEdges` up to the removal of the channels
(1135-1157), used by `SoftwareControlledNoCBufferless` before it maps the tasks.

Simplifications: the channels are a list, the outputs of a task are in the order of the list; `cyclen_per_vtxid[v].size() > 0` is a
function of the task; the removal one by one of the listed channels is a filter (each is listed once if the identifiers
differ); the start task added afterwards is left out. `none` is an access to `visited` out of bounds, or a lack of fuel.
-/
import Mathlib.Data.List.Basic

set_option autoImplicit false

namespace Kiter.CycleEdges

/-- A channel: identifier, source and target. -/
structure Chan where
  id : ℕ
  src : ℕ
  dst : ℕ

/-- `visited`, as the list of the marked tasks in the order in which they were marked, and `removeEdgeId`. -/
structure St where
  visited : List ℕ
  removed : List ℕ

/-- The output channels of a task. -/
def outs (chans : List Chan) (v : ℕ) : List Chan := chans.filter fun c => decide (c.src = v)

/-- The loop over the outputs of a task with the recursive call (software_noc.cpp:239-248); `n` is the size of `visited`. -/
def visit (chans : List Chan) (cyc : ℕ → Bool) (n : ℕ) : ℕ → List Chan → St → Option St
  | 0, _, _ => none
  | _ + 1, [], st => some st
  | f + 1, e :: es, st =>
    if n ≤ e.dst then none
    else if e.dst ∈ st.visited then
      visit chans cyc n f es (if cyc e.dst then ⟨st.visited, st.removed ++ [e.id]⟩ else st)
    else
      match visit chans cyc n f (outs chans e.dst) ⟨st.visited ++ [e.dst], st.removed⟩ with
      | none => none
      | some st' => visit chans cyc n f es st'

/-- The loop over the program order (software_noc.cpp:1142-1148). -/
def visitAll (chans : List Chan) (cyc : ℕ → Bool) (n f : ℕ) : List ℕ → St → Option St
  | [], st => some st
  | v :: rest, st =>
    if n ≤ v then none
    else if v ∈ st.visited then visitAll chans cyc n f rest st
    else
      match visit chans cyc n f (outs chans v) ⟨st.visited ++ [v], st.removed⟩ with
      | none => none
      | some st' => visitAll chans cyc n f rest st'

/-- The channels that are left (software_noc.cpp:1136-1157); `visited` has one place for each task. -/
def removeCycleEdges (tasks : List ℕ) (chans : List Chan) (cyc : ℕ → Bool) (order : List ℕ) (f : ℕ) : Option (List Chan) :=
  (visitAll chans cyc tasks.length f order ⟨[], []⟩).map fun st => chans.filter fun c => decide (c.id ∉ st.removed)

end Kiter.CycleEdges
