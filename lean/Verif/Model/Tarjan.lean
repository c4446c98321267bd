/-
Model of `StrongConnect` and `StrongConnection` (src/libkiter/models/EventGraph.cpp:14-82): the strongly connected components
of an event graph by Tarjan's algorithm.

Vertices of an event graph are positions (`boost::vecS`, models/EventGraph.h:115-121). A `std::map` is a function to `Option`;
`at` on a key that is not there throws (`none`). The recursion of the code has no bound; here it carries a counter that stops
it with `none`, and `C117_components` shows that this does not happen. The stack has its top first.
-/
import Verif.Model.KPeriodic

set_option autoImplicit false

namespace Kiter.Tarjan

/-- An edge of an event graph: end points, weight, duration and channel id (models/EventGraph.h:335-342). -/
structure Edge where
  src : Nat
  dst : Nat
  w : ℚ
  d : ℚ
  channel : Int
deriving DecidableEq, Repr

/-- An event graph: the event of every vertex, and the edges in order (models/EventGraph.h:100-123). -/
structure Graph where
  events : List Event
  edges : List Edge
deriving DecidableEq, Repr

/-- `ForEachOutputs(g,v,c)` with `getTarget(c)` (EventGraph.cpp:23-24). -/
def Graph.succ (g : Graph) (v : Nat) : List Nat := (g.edges.filter fun e => e.src == v).map fun e => e.dst

/-- The variables shared by the calls: `index`, `vindex`, `lowlink`, `S` and the property `SCC` of the vertices
(EventGraph.cpp:14 and 51-54). -/
structure St where
  index : Nat
  num : Nat → Option Nat
  low : Nat → Option Nat
  stack : List Nat
  scc : Nat → Nat

/-- `std::map::insert`: an existing entry stays. -/
def insertMap (m : Nat → Option Nat) (k v : Nat) : Nat → Option Nat :=
  match m k with
  | some _ => m
  | none => Function.update m k (some v)

/-- The first lines of `StrongConnect` (EventGraph.cpp:16-20). -/
def enter (s : St) (v : Nat) : St :=
  ⟨s.index + 1, insertMap s.num v s.index, insertMap s.low v s.index, v :: s.stack, s.scc⟩

/-- `lowlink->at(v) = std::min(lowlink->at(v), x)` (EventGraph.cpp:27 and 29). -/
def lower (s : St) (v : Nat) (x : Option Nat) : Option St :=
  match s.low v, x with
  | some a, some b => some { s with low := Function.update s.low v (some (min a b)) }
  | _, _ => none

/-- The loop that pops a component (EventGraph.cpp:36-39); popping an empty vector is undefined. -/
def popTo (v : Nat) : List Nat → (Nat → Nat) → Option (List Nat × (Nat → Nat))
  | [], _ => none
  | w :: l, c => if w = v then some (l, Function.update c w v) else popTo v l (Function.update c w v)

/-- The end of `StrongConnect` (EventGraph.cpp:34-40). -/
def leave (s : St) (v : Nat) : Option St :=
  match s.low v, s.num v with
  | some a, some b =>
    if a = b then (popTo v s.stack s.scc).map fun r => { s with stack := r.1, scc := r.2 } else some s
  | _, _ => none

/-- `StrongConnect` (EventGraph.cpp:14-42). -/
def strongConnect (g : Graph) : Nat → Nat → St → Option St
  | 0, _, _ => none
  | f + 1, v, s =>
    ((g.succ v).foldlM (fun (s : St) w =>
      match s.num w with
      | none => (strongConnect g f w s).bind fun s' => lower s' v (s'.low w)
      | some i => if w ∈ s.stack then lower s v (some i) else some s) (enter s v)).bind fun s => leave s v

/-- The loop over the events and the check of the stack (EventGraph.cpp:51-61); the result is the property `SCC`. -/
def components (g : Graph) : Option (Nat → Nat) :=
  ((List.range g.events.length).foldlM (fun (s : St) v =>
    match s.num v with
    | none => strongConnect g (g.events.length + 1) v s
    | some _ => some s) ⟨0, fun _ => none, fun _ => none, [], fun _ => 0⟩).bind fun s =>
      if s.stack.length = 0 then some s.scc else none

/-- `addEvent` (models/EventGraph.h:299-306). -/
def addEvent (g : Graph) (e : Event) : Graph := { g with events := g.events ++ [e] }

/-- `getVertexByEvent` (models/EventGraph.h:185-196, 294-297): the last vertex added for the event, 0 if there is none
(`operator[]` of the map inserts 0). -/
def vertexOf (g : Graph) (e : Event) : Nat := g.events.length - 1 - g.events.reverse.idxOf e

/-- `addEventConstraint(SchedulingEventConstraint)` (models/EventGraph.h:329-333). -/
def addConstraint (g : Graph) (c : EvConstraint) : Graph :=
  { g with edges := g.edges ++ [⟨vertexOf g c.src, vertexOf g c.dst, c.w, c.d, c.channel⟩] }

/-- `getConstraint` (models/EventGraph.h:343-352). -/
def constraintOf (g : Graph) (e : Edge) : Option EvConstraint := do
  let a ← g.events[e.src]?
  let b ← g.events[e.dst]?
  some ⟨a, b, e.w, e.d, e.channel⟩

/-- The loop that creates the graphs and assigns the events (EventGraph.cpp:67-70); the argument lists the vertices with
their events. -/
def assignEvents (scc : Nat → Nat) (l : List (Event × Nat)) (m : Nat → Option Graph) : Nat → Option Graph :=
  l.foldl (fun m e => Function.update m (scc e.2) (some (addEvent ((m (scc e.2)).getD ⟨[], []⟩) e.1))) m

/-- The body of the loop that assigns the constraints (EventGraph.cpp:73-80). -/
def assignOne (g : Graph) (scc : Nat → Nat) (m : Nat → Option Graph) (e : Edge) : Option (Nat → Option Graph) :=
  if scc e.src = scc e.dst then do
    let sub ← m (scc e.src)
    let c ← constraintOf g e
    some (Function.update m (scc e.src) (some (addConstraint sub c)))
  else some m

/-- `StrongConnection` (EventGraph.cpp:49-85). -/
def strongConnection (g : Graph) : Option (Nat → Option Graph) := do
  let scc ← components g
  g.edges.foldlM (assignOne g scc) (assignEvents scc g.events.zipIdx fun _ => none)

end Kiter.Tarjan
