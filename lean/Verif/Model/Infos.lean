/-
Model of `PrintInfos` (printers/stdout.cpp:662-838). Text is modelled as the values that are written; widths, headers, the
names of the application and of the graph, and the columns Mapping and Route are left out.
-/
import Verif.Model.Dataflow

set_option autoImplicit false

namespace Kiter.Infos

open Kiter.DF

/-- A line of the table of tasks (stdout.cpp:779-793); `none` in `repetition` is the text N/A. -/
structure TaskRow where
  name : String
  id : Int
  inEdges : Nat
  outEdges : Nat
  duration : Int
  repetition : Option Int
  phases : Int
deriving DecidableEq, Repr

/-- A line of the table of channels (stdout.cpp:817-829). -/
structure ChannelRow where
  name : String
  id : Int
  source : Int
  target : Int
  totalIn : Int
  totalOut : Int
  marking : Int
deriving DecidableEq, Repr

/-- What the command prints: the counts (stdout.cpp:742-743), the three sums `Sum(qt)`, `Sum(phit)` and `Sum(Nt)`, or the
message that the graph is not consistent (745-751), and the tables, empty for NO TASKS and NO CHANNELS. -/
structure Report where
  taskCount : Nat
  channelCount : Nat
  sums : Option (Int × Int × Int)
  tasks : List TaskRow
  channels : List ChannelRow
deriving DecidableEq, Repr

/-- `is_consistent` (models/Dataflow.h:321-324). -/
def isConsistent (s : State) : Option (Bool × State) :=
  if s.repDone then some (true, s)
  else do
    let r ← computeRV s
    some (r.2.repDone, r.2)

/-- The loop that `sum_nt`, `sum_phit` and `sum_qt` share (stdout.cpp:668-671, 679-682, 690-693). -/
def addUp (f : Nat → Option Int) (n : Nat) : Option Int :=
  (List.range n).foldlM (fun total v => do
    let x ← f v
    some (total + x)) 0

/-- `sum_nt` (stdout.cpp:663-674), `sum_phit` (675-685) and `sum_qt` (686-696): 0 when the graph is not consistent. -/
def sumOver (f : State → Nat → Option Int) (s : State) : Option Int := do
  let c ← isConsistent s
  if c.1 then addUp (f c.2) c.2.verts.length else some 0

/-- `getNi(t)`. -/
def nt (s : State) (v : Nat) : Option Int := getNi s v

/-- `getPhasesQuantity(t)` (models/Dataflow.h:640). -/
def phit (s : State) (v : Nat) : Option Int := (s.verts[v]?).map fun x => x.phases

/-- `getNi(t) / getPhasesQuantity(t)`. -/
def qt (s : State) (v : Nat) : Option Int := do
  let n ← getNi s v
  let p ← phit s v
  if p = 0 then none else some (n.tdiv p)

/-- The column RepetitionFactor (stdout.cpp:788): N/A when the graph is not consistent. -/
def repetition (s : State) (consistent : Bool) (v : Nat) : Option (Option Int) :=
  if consistent then (getNi s v).map some else some none

/-- A line of the table of tasks (stdout.cpp:779-793). -/
def taskRow (s : State) (consistent : Bool) (v : Nat) : Option TaskRow := do
  let x ← s.verts[v]?
  let d ← totalDur x
  let rep ← repetition s consistent v
  some ⟨x.name, x.id, s.edges.countP fun e => e.tgt = v, s.edges.countP fun e => e.src = v, d, rep, x.phases⟩

/-- A line of the table of channels (stdout.cpp:817-829). -/
def channelRow (s : State) (e : Edg) : Option ChannelRow := do
  let a ← s.verts[e.src]?
  let b ← s.verts[e.tgt]?
  some ⟨e.name, e.id, a.id, b.id, e.totIn, e.totOut, e.preload⟩

/-- The three sums, in the order printed (stdout.cpp:745-748). -/
def sums (s : State) : Option (Int × Int × Int) := do
  let a ← sumOver qt s
  let b ← sumOver phit s
  let c ← sumOver nt s
  some (a, b, c)

/-- The sums or the message (stdout.cpp:745-751). -/
def summary (s : State) (consistent : Bool) : Option (Option (Int × Int × Int)) :=
  if consistent then (sums s).map some else some none

/-- `printInfos` (stdout.cpp:733-838): what is printed and the graph after it. -/
def printInfos (s : State) : Option (Report × State) := do
  let c ← isConsistent s
  let t := c.2
  let sm ← summary t c.1
  let rows ← (List.range t.verts.length).mapM (taskRow t c.1)
  let chans ← t.edges.mapM (channelRow t)
  some (⟨t.verts.length, t.edges.length, sm, rows, chans⟩, reset t)

end Kiter.Infos
