/-
Model of `GenerateGraphDOT` (printers/stdout.cpp:534-601), the Graphviz text of `PrintGraph`, with `simple` at its default
value (stdout.h:26), which is the only one used. The text is modelled character by character.
-/
import Verif.Model.Infos
import Verif.Model.Text

set_option autoImplicit false

namespace Kiter.GraphDraw

open Kiter.DF Kiter.Text

/-- The lines before the first task (stdout.cpp:543-551). -/
def header : Str :=
  "// Auto-generate by Kiter\n//   use this dot file with circo for an optimal visu\n\ndigraph G {\n\n    rankdir=\"LR\";\n  graph [label=\"\",splines=false]\n  edge [len=1.5,fontsize=8,labelsize=4,color=grey]\n\n".toList

/-- `toString` of a vector (commons/commons.h:359-373): braces around the items, a comma before each but the first. -/
def vecText (l : List Int) : Str := '{' :: (vectorAsStr l ++ ['}'])

/-- What is written for one task, for a label that is the name (stdout.cpp:558 and 566). -/
def nodeText (id : Int) (name : Str) : Str :=
  "  t_".toList ++ (showInt id ++ (" [shape=circle,  fixedsize=\"shape\", fontsize=\"7\",label = \"".toList ++
    (name ++ "\" ];\n".toList)))

/-- One end of a channel (stdout.cpp:589-590 and 592-593): the initial rates only when the task has initial phases. -/
def rateText (iphases : Int) (init per : List Int) : Str :=
  if iphases > 0 then '(' :: (vecText init ++ (");".toList ++ vecText per)) else vecText per

/-- What is written for one channel (stdout.cpp:576-594). -/
def edgeText (a b : Int) (preload : Int) (head tail : Str) : Str :=
  "  t_".toList ++ (showInt a ++ (" -> t_".toList ++ (showInt b ++ (" [ label=\"".toList ++ (showInt preload ++
    ("\", headlabel=\"".toList ++ (head ++ ("\", taillabel=\"".toList ++ (tail ++ "\", ] ;\n".toList)))))))))

/-- The text of a task. -/
def taskText (x : Vtx) : Str := nodeText x.id x.name.toList

/-- The text of a channel; the head is the consuming end. -/
def channelText (s : State) (e : Edg) : Option Str := do
  let a ← s.verts[e.src]?
  let b ← s.verts[e.tgt]?
  some (edgeText a.id b.id e.preload (rateText b.iphases e.iouts e.outs) (rateText a.iphases e.iins e.ins))

/-- `GenerateGraphDOT` (stdout.cpp:534-601): the text and the graph after it. `is_consistent` (line 536) may compute the
repetition vector, and nothing resets the graph afterwards. -/
def graphDOT (s : State) : Option (Str × State) := do
  let c ← Infos.isConsistent s
  let t := c.2
  let es ← t.edges.mapM (channelText t)
  some (header ++ ((t.verts.map taskText).flatten ++ (es.flatten ++ "\n}\n".toList)), t)

end Kiter.GraphDraw
