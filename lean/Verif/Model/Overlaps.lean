/-
Model of the first step of the bufferless scheduling: which tasks of a router must be put in one sequence
(`build_router_xbar_usage` and `get_overlaps`, src/libkiter/algorithms/scheduling/BufferlessNoCScheduling.cpp:109-182, and
the same functions in algorithms/mapping/modelCommunications.cpp:168-238).

A task is given with its id, the place of the network it is mapped to, and the positions of the tasks at the other end of its
input and output channels. The ids of nodes and links share one numbering (`NoC.h`).
-/
import Verif.Model.GroupList
import Verif.Model.NoC
import Mathlib.Data.List.Dedup
import Mathlib.Data.List.Sort

set_option autoImplicit false

namespace Kiter.Overlap

/-- What the two functions read of a task: its id, `getMapping`, the sources of its input channels, the targets of its output
channels (as positions in the list of tasks). -/
structure Task where
  id : Nat
  mapping : Int
  ins : List Nat
  outs : List Nat
deriving DecidableEq, Repr

/-- `hasEdge(id)` (models/NoC.h:84). -/
def hasLink (n : NoC.Net) (id : Int) : Bool := n.links.any fun l => l.id == id

/-- `hasNode(id)` (models/NoC.h:83). -/
def hasNode (n : NoC.Net) (id : Int) : Bool := n.nodes.any fun v => v.id == id

/-- `getEdge(id)` (models/NoC.h:90-91). -/
def linkById (n : NoC.Net) (id : Int) : Option NoC.Link := n.links.find? fun l => l.id == id

/-- The lines for a task on a router (BufferlessNoCScheduling.cpp:127-141): exactly one input and one output channel, whose
other ends are mapped to links; the result is `(router, (input link, output link, task))`. -/
def routerUse (n : NoC.Net) (tasks : List Task) (t : Task) : Option (Int × Int × Int × Nat) :=
  match t.ins, t.outs with
  | [a], [b] =>
    match tasks[a]?, tasks[b]? with
    | some ta, some tb =>
      if hasLink n ta.mapping && hasLink n tb.mapping then some (t.mapping, ta.mapping, tb.mapping, t.id) else none
    | _, _ => none
  | _, _ => none

/-- One turn of the loop of `build_router_xbar_usage` (BufferlessNoCScheduling.cpp:113-148); the list is what it adds. -/
def useOf (n : NoC.Net) (tasks : List Task) (t : Task) : Option (List (Int × Int × Int × Nat)) :=
  if t.mapping < 0 then none
  else if !(xor (hasLink n t.mapping) (hasNode n t.mapping)) then none
  else if hasLink n t.mapping then some []
  else
    match NoC.getNode n t.mapping with
    | none => none
    | some v => if v.router then (routerUse n tasks t).map fun u => [u] else some []

/-- `build_router_xbar_usage` (BufferlessNoCScheduling.cpp:109-150): all entries in order; the map from routers to vectors is
the entries of each router. -/
def usage (n : NoC.Net) (tasks : List Task) : Option (List (Int × Int × Int × Nat)) :=
  (tasks.mapM fun t => useOf n tasks t).map List.flatten

/-- The two assertions on an entry (BufferlessNoCScheduling.cpp:168-169). -/
def entryOk (n : NoC.Net) (r : Int) (c : Int × Int × Nat) : Bool :=
  match linkById n c.1, linkById n c.2.1 with
  | some a, some b => a.dst == r && b.src == r
  | _, _ => false

/-- The entries of one router, `item.second` (BufferlessNoCScheduling.cpp:159-163). -/
def entriesOf (u : List (Int × Int × Int × Nat)) (r : Int) : List (Int × Int × Nat) :=
  (u.filter fun e => e.1 == r).map fun e => e.2

/-- The body of the loop of `get_overlaps` (BufferlessNoCScheduling.cpp:159-178). -/
def routerBags (n : NoC.Net) (u : List (Int × Int × Int × Nat)) (r : Int) : Option (List (List Nat)) :=
  let es := entriesOf u r
  if es.all fun c => entryOk n r c then (GroupList.run es).bind GroupList.getall else none

/-- The routers in use, in the order of a `std::map`. -/
def routers (u : List (Int × Int × Int × Nat)) : List Int := ((u.map fun e => e.1).dedup).insertionSort (· ≤ ·)

/-- `get_overlaps` (BufferlessNoCScheduling.cpp:153-182). -/
def overlaps (n : NoC.Net) (tasks : List Task) : Option (List (List Nat)) :=
  (usage n tasks).bind fun u => ((routers u).mapM fun r => routerBags n u r).map List.flatten

end Kiter.Overlap
