import Verif.Model.KPeriodic
import Mathlib.Data.Rat.Defs

set_option autoImplicit false

/-! # The three texts of an event graph (models/EventGraph.cpp:88-228)

`printXML` is what `PeriodicThroughput -p XML=1`, `SPeriodicThroughput -p PRINTEG=1` print, `printTikz` is what
`PeriodicThroughput -p DEP=1` prints, `printDOT` is what the expansion and the de Groote commands print. The texts are
modelled as lists of statements, with the values that are written; fixed text, spaces and colours are left out. -/

namespace Kiter.EGDraw

/-- A constraint in the graph: the numbers of its ends, the weight, the duration, the strictness and the id of the
channel (models/EventGraph.h:108-112). -/
structure Arc where
  src : ℕ
  dst : ℕ
  w : ℚ
  d : ℚ
  strict : Bool
  channel : Int
deriving DecidableEq, Repr

/-- An event graph (models/EventGraph.h:172-177): the events by vertex number and the constraints in insertion order
(both are what boost enumerates). The root and the `previous` of the vertices are never set by the program, so they keep
their initial values, no vertex and vertex 0. The component numbers are set by `StrongConnection` only, which no
command calls, so they keep their initial value 0. -/
structure Graph where
  events : List Event
  arcs : List Arc
deriving DecidableEq, Repr

/-- An `Arc` element of the XML text with its comment (models/EventGraph.cpp:95-111). -/
structure XArc where
  name : ℕ
  node1 : ℕ
  node2 : ℕ
  weight : ℚ
  strict : Bool
  time : ℚ
  loop : Bool
  channel : Int
  source : Event
  target : Event
deriving DecidableEq, Repr

/-- One turn of the loop over the constraints (models/EventGraph.cpp:94-117). -/
def xmlArc (g : Graph) (count : ℕ) (a : Arc) : Option XArc := do
  let s ← g.events[a.src]?
  let t ← g.events[a.dst]?
  pure ⟨count, a.src, a.dst, a.w, a.strict, a.d, decide (s.task = t.task), a.channel, s, t⟩

/-- The loop over the constraints, with the counter (models/EventGraph.cpp:93-117). -/
def xmlArcs (g : Graph) : ℕ → List Arc → Option (List XArc)
  | _, [] => some []
  | count, a :: l => do
    let x ← xmlArc g count a
    let r ← xmlArcs g (count + 1) l
    pure (x :: r)

/-- `EventGraph::printXML` (models/EventGraph.cpp:88-122). -/
def printXML (g : Graph) : Option (List XArc) := xmlArcs g 0 g.arcs

/-- A node of the Tikz text: its name, its place and its label `$letter_phase,execution$`
(models/EventGraph.cpp:139-141). The letter is a byte. -/
structure TNode where
  name : ℕ
  x : Int
  y : Int
  letter : ℕ
  phase : Int
  exec : Int
deriving DecidableEq, Repr

/-- The letter of a task (models/EventGraph.cpp:133-134): the low byte of the id plus 64, as a byte. -/
def letter (task : Int) : ℕ := ((task % 256).toNat % 256 + 64) % 256

/-- One turn of the loop over the events (models/EventGraph.cpp:130-143). -/
def tikzNode (p : Event × ℕ) : TNode := ⟨p.2, p.1.task, 0, letter p.1.task, p.1.phase, p.1.iter⟩

/-- The nodes of `EventGraph::printTikz` (models/EventGraph.cpp:124-143). -/
def tikzNodes (g : Graph) : List TNode := g.events.zipIdx.map tikzNode

/-- The edges of `EventGraph::printTikz` (models/EventGraph.cpp:147-156): both ends and the label. -/
def tikzEdges (g : Graph) : List (ℕ × ℕ × ℚ × ℚ) := g.arcs.map fun a => (a.src, a.dst, a.w, a.d)

/-- A statement of the Graphviz text. -/
inductive Line where
  /-- `digraph G {` -/
  | graph
  /-- `subgraph cluster_id { … label = "task id"` -/
  | cluster (task : Int)
  /-- `}` -/
  | close
  /-- `vertex [shape=circle,label="task,phase,execution\n(component)",pos="x,y"]` -/
  | node (vertex : ℕ) (label : Event) (component : Char) (x y : Int)
  /-- `source -> target [label="w=… d=…"]`, thick or not -/
  | edge (src dst : ℕ) (w d : ℚ) (thick : Bool)
deriving DecidableEq, Repr

/-- One turn of the loop over the events (models/EventGraph.cpp:176-212): the state is `lastid`. -/
def dotEvent (last : Int) (p : Event × ℕ) : Int × List Line :=
  let a := if last ≠ p.1.task then (if last ≠ 0 then [Line.close] else []) else []
  let b := if last ≠ p.1.task then [Line.cluster p.1.task] else []
  let now := if last ≠ p.1.task then p.1.task else last
  (now, a ++ b ++ [Line.node p.2 p.1 'A' (now * 100) (p.1.iter * 20)])

/-- The loop over the events and the brace after it (models/EventGraph.cpp:175-213). -/
def dotEvents : Int → List (Event × ℕ) → List Line
  | last, [] => if last ≠ 0 then [Line.close] else []
  | last, p :: l => (dotEvent last p).2 ++ dotEvents (dotEvent last p).1 l

/-- One turn of the loop over the constraints (models/EventGraph.cpp:215-223): thick when the `previous` of the target,
which is 0, is the source. -/
def dotEdge (a : Arc) : Line := .edge a.src a.dst a.w a.d (decide (0 = a.src))

/-- `EventGraph::printDOT` (models/EventGraph.cpp:162-228). -/
def printDOT (g : Graph) : List Line :=
  [.graph] ++ dotEvents 0 g.events.zipIdx ++ g.arcs.map dotEdge ++ [.close]

end Kiter.EGDraw
