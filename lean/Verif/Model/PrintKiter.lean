/-
Model of `printers::generate_kiter` (src/libkiter/printers/stdout.cpp:123-250), the command `PrintKiter`: it prints the
C++ code of a function that builds the graph anew by calls of `models::Dataflow`.

The text is modelled as the list of its statements, and running the printed function as running these statements on a new
graph. Simplifications: numbers and names are printed exactly (`commons::toString` writes a duration with six significant
digits, and a quote in a name is not escaped), the reentrancy factor is not part of the modelled tasks, and the messages of
the option `verbose` are left out.
-/
import Verif.Model.Dataflow

set_option autoImplicit false

namespace Kiter.PK

open DF

/-- The statements that occur in the printed function. `new_vertex` and `new_edge` are the vertex and the edge created
last. `ret` is `return new_graph;`. -/
inductive Stmt where
  | addVertex (id : Int)
  | setVertexName (n : String)
  | setInitPhasesQuantity (n : Int)
  | setPhasesQuantity (n : Int)
  | setVertexInitDuration (l : List ℚ)
  | setVertexDuration (l : List ℚ)
  | addEdge (src tgt : Int)
  | setEdgeInInitPhases (l : List Int)
  | setEdgeOutInitPhases (l : List Int)
  | setEdgeInPhases (l : List Int)
  | setEdgeOutPhases (l : List Int)
  | setPreload (p : Int)
  | setEdgeName (n : String)
  | ret
deriving DecidableEq

/-- The loops `for (phase = 1; phase <= count; phase++)` that list the values of the phases (stdout.cpp:152-155, 160-163,
188-191, 197-200, 210-213, 222-225). -/
def listed {α : Type} (count : Int) (get : Int → Option α) : Option (List α) :=
  (List.range count.toNat).mapM fun (k : Nat) => get ((k : Int) + 1)

/-- `getVertexInitDuration(t, k)`, `getEdgeInInitPhase(c, k)`, `getEdgeOutInitPhase(c, k)` (Dataflow.h:890-892, 805-811,
752-758) for `k ≥ 1`: the element `k - 1`; `none` is the exception. -/
def initAt {α : Type} (l : List α) (k : Int) : Option α := l[(k - 1).toNat]?

/-- `if (count) { … }`: the values of the initial phases, printed when there are any (stdout.cpp:150-158, 207-217,
220-230). -/
def printed {α : Type} (count : Int) (l : List α) (mk : List α → Stmt) : Option (List Stmt) :=
  if count ≠ 0 then (listed count (initAt l)).map fun l => [mk l] else some []

/-- The body of the loop over the tasks (stdout.cpp:139-169). -/
def vertexStmts (x : Vtx) : Option (List Stmt) := do
  let init ← printed x.iphases x.idurs .setVertexInitDuration
  let durs ← listed x.phases (durAt x)
  some ([.addVertex x.id, .setVertexName x.name, .setInitPhasesQuantity x.iphases, .setPhasesQuantity x.phases]
    ++ init ++ [.setVertexDuration durs])

/-- The body of the loop over the channels (stdout.cpp:173-243). -/
def edgeStmts (s : State) (e : Edg) : Option (List Stmt) := do
  let v ← s.verts[e.src]?
  let w ← s.verts[e.tgt]?
  let ins ← listed v.phases (phaseAt e.iins e.ins)
  let outs ← listed w.phases (phaseAt e.iouts e.outs)
  let iins ← printed v.iphases e.iins .setEdgeInInitPhases
  let iouts ← printed w.iphases e.iouts .setEdgeOutInitPhases
  some ([.addEdge v.id w.id] ++ iins ++ iouts ++
    [.setEdgeInPhases ins, .setEdgeOutPhases outs, .setPreload e.preload, .setEdgeName e.name])

/-- `generate_kiter` (stdout.cpp:123-250). Nothing follows the channels: lines 245-247 print an empty line and the closing
brace. -/
def generate (s : State) : Option (List Stmt) := do
  let vs ← s.verts.mapM vertexStmts
  let es ← s.edges.mapM (edgeStmts s)
  some (vs.flatten ++ es.flatten)

/-- One statement of the printed function, on the graph `new_graph`. -/
def exec (s : State) : Stmt → Option State
  | .addVertex id => DF.addVertexId s id
  | .setVertexName n => DF.setVertexName s (s.verts.length - 1) n
  | .setInitPhasesQuantity n => DF.setIPhases s (s.verts.length - 1) n
  | .setPhasesQuantity n => DF.setPhases s (s.verts.length - 1) n
  | .setVertexInitDuration l => DF.setIDurs s (s.verts.length - 1) l
  | .setVertexDuration l => DF.setDurs s (s.verts.length - 1) l
  | .addEdge a b => do DF.addEdge s (← vertexById s a) (← vertexById s b)
  | .setEdgeInInitPhases l => DF.setEdgeIIn s (s.nextKey - 1) l
  | .setEdgeOutInitPhases l => DF.setEdgeIOut s (s.nextKey - 1) l
  | .setEdgeInPhases l => DF.setEdgeIn s (s.nextKey - 1) l
  | .setEdgeOutPhases l => DF.setEdgeOut s (s.nextKey - 1) l
  | .setPreload p => DF.setPreload s (s.nextKey - 1) p
  | .setEdgeName n => DF.setEdgeName s (s.nextKey - 1) n
  | .ret => some s

/-- The statements one after the other. -/
def execs (s : State) : List Stmt → Option State
  | [] => some s
  | x :: xs => (exec s x).bind fun s => execs s xs

end Kiter.PK
