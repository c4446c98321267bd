/-
Model of src/libkiter/printers/SDF3Wrapper.cpp: `generateSDF3XML` (the writer) and `wrapSDF3Dataflow` (the reader) with
the functions they call, on top of the text layer of Model/Text.lean.

The XML library is not modelled: a document is a tree of elements, the writer makes it and the reader gets the same tree
(`xmlReadMemory` of a text that `xmlTextWriter` produced). Nodes that are not elements are skipped by every loop of the
reader and are left out. `Lib.empty` is what dereferencing `cur_attr->children->content` gives for an attribute whose
value is empty: this depends on the library, and `none` stands for a null pointer.

A fresh `Dataflow` is never read only, so the tests of `ASSERT_WRITABLE` are left out; Model/Dataflow.lean has them.
Simplifications: durations are integers (Model/Text.lean), the sums of the rates are left out, and the identifiers of
the tasks, which the file does not contain, too.
-/
import Verif.Model.Text

set_option autoImplicit false

namespace Kiter.SDF3
open Kiter.Text

/-- An element of a document: its name, its attributes and the elements inside it. -/
inductive Node where
  | mk (name : String) (attrs : List (String × Str)) (children : List Node)

def Node.name : Node → String
  | .mk n _ _ => n
def Node.attrs : Node → List (String × Str)
  | .mk _ a _ => a
def Node.children : Node → List Node
  | .mk _ _ c => c

/-- A task (models/Dataflow.h:91-102), the properties that a file contains. -/
structure Actor where
  name : Str
  typ : Str
  phases : Nat
  iphases : Nat
  durs : List Int
  idurs : List Int
  reent : Int
deriving DecidableEq, Repr

/-- A channel (models/Dataflow.h:104-119): identifier, name, ends, production and consumption per phase and per initial
phase, initial tokens, token size and the names of its ports. -/
structure Chan where
  id : Int
  name : Str
  src : Nat
  tgt : Nat
  ins : List Int
  iins : List Int
  outs : List Int
  iouts : List Int
  preload : Int
  size : Int
  inPort : Str
  outPort : Str
deriving DecidableEq, Repr

/-- A graph (models/Dataflow.h:270-277): its names, its tasks and its channels in the order in which boost lists them. -/
structure Graph where
  app : Str
  gname : Str
  gtype : Str
  actors : List Actor
  chans : List Chan
deriving DecidableEq, Repr

/-- What the XML library gives for an empty attribute. -/
structure Lib where
  empty : Option Str

/-! ### The writer -/

/-- `"out_" + toString(id)` (SDF3Wrapper.cpp:708, 776). -/
def outName (id : Int) : Str := "out_".toList ++ showInt id
/-- `"in_" + toString(id)` (SDF3Wrapper.cpp:706, 792). -/
def inName (id : Int) : Str := "in_".toList ++ showInt id

/-- One `port` of an actor (SDF3Wrapper.cpp:688-692, 779-787, 795-803). -/
def portNode (name typ : Str) (init per : List Int) : Node :=
  .mk "port" [("name", name), ("type", typ), ("rate", writeRates init per)] []

/-- The ports of the actor at position `i` (SDF3Wrapper.cpp:774-807, 680-700). -/
def portNodes (g : Graph) (i : Nat) (a : Actor) : List Node :=
  ((g.chans.filter fun e => e.tgt = i).map fun e => portNode (outName e.id) "in".toList e.iouts e.outs) ++
  ((g.chans.filter fun e => e.src = i).map fun e => portNode (inName e.id) "out".toList e.iins e.ins) ++
  (if a.reent ≠ 0 then
    [portNode ("in_R".toList ++ a.name) "out".toList (List.replicate a.iphases 1) (List.replicate a.phases 1),
     portNode ("out_R".toList ++ a.name) "in".toList (List.replicate a.iphases 1) (List.replicate a.phases 1)]
  else [])

/-- An `actor` (SDF3Wrapper.cpp:765-810). -/
def actorNode (g : Graph) (i : Nat) (a : Actor) : Node :=
  .mk "actor" [("name", a.name), ("type", a.typ)] (portNodes g i a)

/-- `writeChannel` (SDF3Wrapper.cpp:702-723). -/
def chanNode (g : Graph) (e : Chan) : Option Node :=
  match g.actors[e.src]?, g.actors[e.tgt]? with
  | some s, some t => some (.mk "channel"
      ([("name", e.name), ("srcActor", s.name), ("srcPort", inName e.id), ("dstActor", t.name),
        ("dstPort", outName e.id), ("size", showInt e.size)] ++
        (if e.preload ≠ 0 then [("initialTokens", showInt e.preload)] else [])) [])
  | _, _ => none

/-- `writeLoopbackChannel` (SDF3Wrapper.cpp:655-677). -/
def loopNode (a : Actor) : Node :=
  .mk "channel" [("name", 'R' :: a.name), ("srcActor", a.name), ("srcPort", "in_R".toList ++ a.name),
    ("dstActor", a.name), ("dstPort", "out_R".toList ++ a.name), ("size", showInt 1), ("initialTokens", showInt 1)] []

/-- An `actorProperties` (SDF3Wrapper.cpp:827-851). `none`: `getVertexPhaseDuration` fails on a task without duration
(models/Dataflow.h:858-862), and converting a negative number to `unsigned long` (line 51) is undefined. -/
def propNode (a : Actor) : Option Node :=
  if a.durs = [] ∨ (∃ d ∈ a.durs, d < 0) ∨ ∃ d ∈ a.idurs, d < 0 then none
  else some (.mk "actorProperties" [("actor", a.name)]
    [.mk "processor" [("type", "cluster_0".toList), ("default", "true".toList)]
      [.mk "executionTime" [("time", writeRates a.idurs a.durs)] []]])

/-- A `channelProperties` (SDF3Wrapper.cpp:852-858). -/
def chanPropNode (e : Chan) : Node := .mk "channelProperties" [("channel", e.name)] []

/-- `generateSDF3XML` (SDF3Wrapper.cpp:726-871). -/
def write (g : Graph) : Option Node := do
  let chans ← g.chans.mapM (chanNode g)
  let props ← g.actors.mapM propNode
  some (.mk "sdf3" [("xmlns:xsi", "http://www.w3.org/2001/XMLSchema-instance".toList), ("version", "1.0".toList),
      ("type", "csdf".toList)]
    [.mk "applicationGraph" [("name", g.app)]
      [.mk "csdf" [("name", g.gname), ("type", g.gtype)]
        (g.actors.mapIdx (actorNode g) ++ chans ++ (g.actors.filter fun a => a.reent ≠ 0).map loopNode),
       .mk "csdfProperties" [] (props ++ g.chans.map chanPropNode)]])

/-! ### The reader -/

/-- `cur_attr->children->content`. -/
def content (lib : Lib) (v : Str) : Option Str := if v = [] then lib.empty else some v

/-- A loop over the attributes that stores the value of those called `k`; the variable holds `d` before. -/
def attr (lib : Lib) (n : Node) (k : String) (d : Str) : Option Str :=
  n.attrs.foldlM (fun acc a => if a.1 = k then content lib a.2 else some acc) d

/-- The same with `break` (SDF3Wrapper.cpp:203-208, 236-241). -/
def attrFirst (lib : Lib) (n : Node) (k : String) (d : Str) : Option Str :=
  match n.attrs.find? fun a => a.1 = k with
  | none => some d
  | some a => content lib a.2

/-- `getVertexByName` (models/Dataflow.h:549-552). -/
def byName (g : Graph) (n : Str) : Option Nat := g.actors.findIdx? fun a => a.name = n

/-- `boost::put` of a property of a task or of a channel. -/
def modA (g : Graph) (v : Nat) (f : Actor → Actor) : Graph := { g with actors := g.actors.modify v f }
def modC (g : Graph) (k : Nat) (f : Chan → Chan) : Graph := { g with chans := g.chans.modify k f }

/-- `setVertexName` (models/Dataflow.h:523-535). -/
def setName (g : Graph) (v : Nat) (n : Str) : Option Graph :=
  if n = [] then none
  else match byName g n with
    | some o => if o = v then some (modA g v fun a => { a with name := n }) else none
    | none => some (modA g v fun a => { a with name := n })

/-- The loop over the attributes of an `actor` (SDF3Wrapper.cpp:503-512) for the task `v`. -/
def actorAttrs (lib : Lib) (v : Nat) : List (String × Str) → Graph → Option Graph
  | [], g => some g
  | (k, x) :: l, g => do
    let c ← if k = "name" ∨ k = "type" then content lib x else some []
    let g ← if k = "name" then setName g v c else some g
    actorAttrs lib v l (if k = "type" then modA g v fun a => { a with typ := c } else g)

/-- Lines 500-512 of SDF3Wrapper.cpp: a new task, with reentrancy 0. -/
def readActor (lib : Lib) (g : Graph) (n : Node) : Option Graph :=
  actorAttrs lib g.actors.length n.attrs { g with actors := g.actors ++ [⟨[], [], 0, 0, [], [], 0⟩] }

/-- `onlyOneRate` (SDF3Wrapper.cpp:273-286). -/
def onlyOne (rates : Str) : Option Bool :=
  (stringRate2Vectors rates).map fun r => r.1.all (· = 1) && r.2.all (· = 1)

/-- The state of `checkReentrancy` (`foundIn` and `foundOut`), or the value it returned. -/
inductive Scan where
  | ret (b : Bool)
  | go (fi fo : Bool)
deriving DecidableEq, Repr

/-- The two loops over the ports of an actor (SDF3Wrapper.cpp:339-361 with `typ` "out", 366-387 with "in"). -/
def scanPorts (lib : Lib) (typ name : Str) (isOut : Bool) : List Node → Scan → Option Scan
  | [], s => some s
  | _, .ret b => some (.ret b)
  | p :: l, .go fi fo =>
    if p.name = "port" then do
      let t ← attr lib p "type" []
      let m ← attr lib p "name" []
      let r ← attr lib p "rate" []
      if t = typ ∧ m = name then do
        let ok ← onlyOne r
        if ok = false then some (.ret false)
        else if (if isOut then fo else fi) then some (.ret true)
        else scanPorts lib typ name isOut l (if isOut then .go true fo else .go fi true)
      else scanPorts lib typ name isOut l (.go fi fo)
    else scanPorts lib typ name isOut l (.go fi fo)

/-- The body of the loop over the attributes of an actor called `srcName` (SDF3Wrapper.cpp:335-395). Since `sourceName`
and `targetName` are equal here, both tests on the name agree. -/
def scanActor (lib : Lib) (srcName inPort outPort : Str) (ports : List Node) :
    List (String × Str) → Scan → Option Scan
  | [], s => some s
  | _, .ret b => some (.ret b)
  | (k, x) :: l, .go fi fo =>
    if k = "name" then do
      let c ← content lib x
      if c = srcName then do
        let s ← scanPorts lib "out".toList inPort true ports (.go fi fo)
        let s ← scanPorts lib "in".toList outPort false ports s
        scanActor lib srcName inPort outPort ports l s
      else scanActor lib srcName inPort outPort ports l (.go fi fo)
    else scanActor lib srcName inPort outPort ports l (.go fi fo)

/-- The loop over the elements of the graph (SDF3Wrapper.cpp:332-398). -/
def scanActors (lib : Lib) (srcName inPort outPort : Str) : List Node → Scan → Option Scan
  | [], s => some s
  | _, .ret b => some (.ret b)
  | n :: l, .go fi fo =>
    if n.name = "actor" then do
      let s ← scanActor lib srcName inPort outPort n.children n.attrs (.go fi fo)
      scanActors lib srcName inPort outPort l s
    else scanActors lib srcName inPort outPort l (.go fi fo)

/-- `checkReentrancy` (SDF3Wrapper.cpp:287-409). -/
def checkReentrancy (lib : Lib) (elems : List Node) (n : Node) : Option Bool := do
  let s ← attr lib n "srcActor" []
  let t ← attr lib n "dstActor" []
  let i ← attr lib n "srcPort" []
  let o ← attr lib n "dstPort" []
  let p ← attr lib n "initialTokens" "0".toList
  if s ≠ t then some false
  else if p ≠ "1".toList then some false
  else
    match scanActors lib s i o elems (.go false false) with
    | none => none
    | some (.ret b) => some b
    | some (.go fi fo) => some (fi && fo)

/-- `setEdgeName` (models/Dataflow.h:567-583) for the last channel, which has no name yet: it fails on an empty name
and on the name of another channel. -/
def freshChanName (g : Graph) (n : Str) : Bool := !decide (n = []) && !(g.chans.any fun e => e.name = n)

/-- `addEdge` (models/Dataflow.h:328-332): the identifier of a new channel in a graph read from a file, `auto_edge_num`. -/
def nextId (g : Graph) : Int := g.chans.foldl (fun m e => if e.id ≥ m then e.id + 1 else m) 1

/-- Lines 528-576 of SDF3Wrapper.cpp: a `channel`. -/
def readChan (lib : Lib) (elems : List Node) (g : Graph) (n : Node) : Option Graph := do
  let name ← attr lib n "name" []
  let s ← attr lib n "srcActor" []
  let t ← attr lib n "dstActor" []
  let i ← attr lib n "srcPort" []
  let o ← attr lib n "dstPort" []
  let p ← attr lib n "initialTokens" "0".toList
  let z ← attr lib n "size" []
  let r ← checkReentrancy lib elems n
  if r then do
    let v ← byName g s
    some (modA g v fun a => { a with reent := 1 })
  else do
    let v ← byName g s
    let w ← byName g t
    if freshChanName g name then
      some { g with chans := g.chans ++ [⟨nextId g, name, v, w, [], [], [], [],
        if p ≠ [] then readLong p else 0, if z ≠ [] then readLong z else 1, i, o⟩] }
    else none

/-- The loops over `processor` and `executionTime` (SDF3Wrapper.cpp:217-247). -/
def findTime (lib : Lib) (n : Node) : Option Str :=
  n.children.foldlM (fun acc p =>
    if p.name = "processor" then
      p.children.foldlM (fun acc q => if q.name = "executionTime" then attrFirst lib q "time" acc else some acc) acc
    else some acc) []

/-- `readSDF3VertexTimings` (SDF3Wrapper.cpp:197-270). The two setters at 267-268 test lengths that were set to the same
values at 258-259. -/
def readTimings (lib : Lib) (g : Graph) (n : Node) : Option Graph := do
  let name ← attrFirst lib n "actor" []
  if name = [] then none
  else do
    let v ← byName g name
    let time ← findTime lib n
    let d ← readTimes time
    some (modA g v fun a => { a with iphases := d.1.length, phases := d.2.length, durs := d.2, idurs := d.1 })

/-- The length tests of `setEdgeOutPhases`, `setEdgeInPhases` (models/Dataflow.h:737-750, 790-803) and of the setters
for the initial phases (760-771, 812-828). -/
def sizesOK (a : Actor) (r : List Int × List Int) : Bool :=
  !(decide (a.iphases > 0) && decide (a.iphases ≠ r.1.length)) && !(decide (a.phases > 0) && decide (a.phases ≠ r.2.length))

/-- `readSDF3OutputSpec` and `readSDF3InputSpec` (SDF3Wrapper.cpp:122-134): `v` is the task whose number of phases is
set, `put` stores the vectors in the channel `k`. -/
def readSpec (g : Graph) (v k : Nat) (rate : Str) (put : Chan → List Int × List Int → Chan) : Option Graph := do
  let r ← stringRate2Vectors rate
  let a ← g.actors[v]?
  if r.2 = [] then none
  else if sizesOK a r then
    some (modA (modC g k fun e => put e r) v fun a => { a with iphases := r.1.length, phases := r.2.length })
  else none

/-- Lines 158-184 of SDF3Wrapper.cpp, with `getInputEdgeByPortName` and `getOutputEdgeByPortName`
(models/Dataflow.h:842-856): a `port` of the task `v`. -/
def readPort (lib : Lib) (v : Nat) (g : Graph) (p : Node) : Option Graph := do
  let t ← attr lib p "type" []
  let m ← attr lib p "name" []
  let r ← attr lib p "rate" []
  if t = "in".toList then
    match g.chans.findIdx? fun e => decide (e.tgt = v) && decide (e.outPort = m) with
    | none => some g
    | some k => readSpec g v k r fun e r => { e with iouts := r.1, outs := r.2 }
  else if t = "out".toList then
    match g.chans.findIdx? fun e => decide (e.src = v) && decide (e.inPort = m) with
    | none => some g
    | some k => readSpec g v k r fun e r => { e with iins := r.1, ins := r.2 }
  else none

/-- `readSDF3VertexPorts` (SDF3Wrapper.cpp:136-192). -/
def readPorts (lib : Lib) (g : Graph) (n : Node) : Option Graph := do
  let name ← attr lib n "name" []
  if name = [] then none
  else do
    let v ← byName g name
    n.children.foldlM (fun g p => if p.name = "port" then readPort lib v g p else some g) g

/-- A loop over elements that handles those called `k`. -/
def each (k : String) (f : Graph → Node → Option Graph) (l : List Node) (g : Graph) : Option Graph :=
  l.foldlM (fun g n => if n.name = k then f g n else some g) g

/-- `wrapSDF3Dataflow` (SDF3Wrapper.cpp:411-615). -/
def read (lib : Lib) (root : Node) : Option Graph :=
  if root.name ≠ "sdf3" then none
  else do
    let ag ← (root.children.filter fun n => n.name = "applicationGraph").getLast?
    let app ← attr lib ag "name" []
    let csdf ← (ag.children.filter fun n => n.name = "csdf" ∨ n.name = "sdf").getLast?
    let props ← (ag.children.filter fun n => n.name = "csdfProperties" ∨ n.name = "sdfProperties").getLast?
    let gname ← attr lib csdf "name" []
    let gtype ← attr lib csdf "type" []
    let g ← each "actor" (readActor lib) csdf.children ⟨app, gname, gtype, [], []⟩
    let g ← each "channel" (readChan lib csdf.children) csdf.children g
    let g ← each "actorProperties" (readTimings lib) props.children g
    each "actor" (readPorts lib) csdf.children g

end Kiter.SDF3
